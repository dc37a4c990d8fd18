import Verif.Props.Clear

/-!
# C96: separate parts of the graph are predicted separately
-/

namespace Verif.Props.Apart

open Verif Verif.SB Verif.UG Verif.Obj Verif.Dbl Verif.ObjD Verif.Session Verif.Sim Verif.World
open Verif.Props.Session Verif.Props.Simulate Verif.Props.World Verif.Props.Laws Verif.Props.Sum Verif.Props.Below Verif.Props.Clear
open Verif.Props.Edges (Completes)
open Verif.Sch (Res)

/-! ## Specification -/

/-- No link connects a node in `P` with a node outside; boundary nodes do not count. -/
def Apart (N : Net) (P : Nat → Prop) : Prop := ∀ l ∈ N.links, ∀ v, l.b = some v → l.a ∉ N.boundary → v ∉ N.boundary → (P l.a ↔ P v)

/-- The prediction for all events is the sum mod 2 of the predictions for the events in `P` and for the others, if both are unambiguous.  `s` as in C88: 0 if all weights are integers. -/
def Separate {R : Source} (scenes : List (Room R × Command)) (rs : List Result) : Prop :=
  ∀ (N : Net) (P F F₁ F₂ : Nat → Prop) (packed packed₁ packed₂ : Bool) (out out₁ out₂ : List (BitVec 8)) (s : ℚ), Apart N P → (∀ l ∈ N.links, 0 ≤ l.weight) → Off N s →
    (∀ x, x ∉ N.boundary → (F₁ x ↔ F x ∧ P x)) → (∀ x, x ∉ N.boundary → (F₂ x ↔ F x ∧ ¬ P x)) → Unambiguous N s F₁ → Unambiguous N s F₂ →
    Foreseen scenes rs N F packed out → Foreseen scenes rs N F₁ packed₁ out₁ → Foreseen scenes rs N F₂ packed₂ out₂ →
    ∀ k, k < N.ids → (Bit packed out k ↔ Xor (Bit packed₁ out₁ k) (Bit packed₂ out₂ k))

/-! ## Lemmas -/

section
variable {N : Net}

/-- The links marked by `I` are those that touch `P`. -/
def Marks (N : Net) (P : Nat → Prop) (I : Fin N.links.length → Prop) : Prop := ∀ i x, x ∉ N.boundary → Link.Touches N.links[i] x → (I i ↔ P x)

theorem marks_not {P : Nat → Prop} {I : Fin N.links.length → Prop} (h : Marks N P I) : Marks N (fun x => ¬ P x) (fun i => ¬ I i) := fun i x hx ht => not_congr (h i x hx ht)

theorem marks_of {P : Nat → Prop} (h : Apart N P) : Marks N P fun i => ∃ x, x ∉ N.boundary ∧ Link.Touches N.links[i] x ∧ P x := by
  intro i x hx ht
  refine ⟨?_, fun hp => ⟨x, hx, ht, hp⟩⟩
  rintro ⟨y, hy, ht', hp⟩
  have hl := h N.links[i] (List.getElem_mem _)
  unfold Link.Touches at ht ht'
  rcases ht with ht | ht <;> rcases ht' with ht' | ht'
  · rw [← ht, ht']; exact hp
  · have := hl y ht' (by rw [ht]; exact hx) hy
    rw [ht] at this
    exact this.2 hp
  · have := hl x ht (by rw [ht']; exact hy) hx
    rw [ht'] at this
    exact this.1 hp
  · rw [ht] at ht'
    cases ht'
    exact hp

theorem degree_part {P : Nat → Prop} {I : Fin N.links.length → Prop} [DecidablePred P] [DecidablePred I] (h : Marks N P I) (C : N.Links) {x : Nat} (hx : x ∉ N.boundary) :
    degreeAt (C.filter I) x = if P x then degreeAt C x else 0 := by
  rw [degreeAt_eq, degreeAt_eq, Finset.sum_filter]
  split_ifs with hp
  · refine Finset.sum_congr rfl fun i _ => ?_
    split_ifs with hi
    · rfl
    · exact (ends_zero fun ht => hi ((h i x hx ht).2 hp)).symm
  · refine Finset.sum_eq_zero fun i _ => ?_
    split_ifs with hi
    · exact ends_zero fun ht => hp ((h i x hx ht).1 hi)
    · rfl

/-- The marked links of a best explanation are a best explanation of the events in `P`. -/
theorem near_part {P F F₁ : Nat → Prop} {I : Fin N.links.length → Prop} [DecidablePred I] {s : ℚ} (h : Marks N P I) (hw : ∀ l ∈ N.links, 0 ≤ l.weight) (hF : ∀ x, x ∉ N.boundary → (F₁ x ↔ F x ∧ P x)) {C : N.Links}
    (hC : Near s F C) : Near s F₁ (C.filter I) := by
  classical
  refine ⟨fun x hx => ?_, fun E hE => ?_⟩
  · rw [hF x hx, degree_part h C hx, hC.1 x hx]
    split_ifs with hp <;> simp [hp]
  · have hdis : Disjoint (E.filter I) (C.filter fun i => ¬ I i) := Finset.disjoint_left.2 fun i h1 h2 => (Finset.mem_filter.1 h2).2 (Finset.mem_filter.1 h1).2
    have h1 : Explained (E.filter I ∪ C.filter fun i => ¬ I i) F := by
      intro x hx
      have e : degreeAt (E.filter I ∪ C.filter fun i => ¬ I i) x = degreeAt (E.filter I) x + degreeAt (C.filter fun i => ¬ I i) x := by
        simp only [degreeAt_eq]
        exact Finset.sum_union hdis
      rw [e, degree_part h E hx, degree_part (marks_not h) C hx]
      have e1 := hE x hx
      have e2 := hC.1 x hx
      have e3 := hF x hx
      by_cases hp : P x
      · simp only [hp, if_true, not_true, if_false, Nat.add_zero]
        rw [← e1, e3]
        simp [hp]
      · simp only [hp, if_false, not_false_iff, if_true, Nat.zero_add]
        exact e2
    have h2 := hC.2 _ h1
    have e1 : cost C = cost (C.filter I) + cost (C.filter fun i => ¬ I i) := (Finset.sum_filter_add_sum_filter_not C I _).symm
    have e2 : cost (E.filter I ∪ C.filter fun i => ¬ I i) = cost (E.filter I) + cost (C.filter fun i => ¬ I i) := Finset.sum_union hdis
    have e3 : cost (E.filter I) ≤ cost E := Finset.sum_le_sum_of_subset_of_nonneg (Finset.filter_subset _ _) fun i _ _ => hw _ (List.getElem_mem _)
    linarith

theorem count_part (I : Fin N.links.length → Prop) [DecidablePred I] (C : N.Links) (k : Nat) : count C k = count (C.filter I) k + count (C.filter fun i => ¬ I i) k := by
  unfold count
  rw [Finset.filter_comm I, Finset.filter_comm (fun i => ¬ I i)]
  exact (Finset.card_filter_add_card_filter_not _).symm

end

section
variable {R : Source}

theorem separate_of {A : Arithmetic} {scenes : List (Room R × Command)} {rs : List Result} (hr : List.Forall₂ (fun (m : Room R × Command) r => RightCommand A m.1 m.2 r) scenes rs) :
    Separate scenes rs := by
  classical
  intro N P F F₁ F₂ packed packed₁ packed₂ out out₁ out₂ s hP hw hs hF₁ hF₂ hu₁ hu₂ h h₁ h₂ k hk
  obtain ⟨u, hu, C, hC, ht⟩ := foreseen_cheap hr h
  obtain ⟨v₁, hv₁, C₁, hC₁, ht₁⟩ := foreseen_cheap hr h₁
  obtain ⟨v₂, hv₂, C₂, hC₂, ht₂⟩ := foreseen_cheap hr h₂
  have hn := near_of hu hs le_rfl hC
  have hm := marks_of hP
  have e₁ := hu₁ _ _ (near_part hm hw hF₁ hn) (near_of hv₁ hs le_rfl hC₁) k
  have e₂ := hu₂ _ _ (near_part (marks_not hm) hw hF₂ hn) (near_of hv₂ hs le_rfl hC₂) k
  rw [bit_iff ht hk, bit_iff ht₁ hk, bit_iff ht₂ hk, ← odd_add, count_part (fun i => ∃ x, x ∉ N.boundary ∧ Link.Touches N.links[i] x ∧ P x) C k, Nat.add_mod, e₁, e₂, ← Nat.add_mod]

/-! ## C96 -/

/-- C96: in every proper program with any number of objects, separate parts of the graph are predicted separately. -/
theorem C96_program (A : Arithmetic) (st : R.State) (prog : List Command) (scenes : List (Room R × Command)) (hs : Story A (Room.empty st) prog scenes) :
    ∃ rs w, Completes (fun f => World.run A f (World.empty st) prog) (.ok (rs, w)) ∧ Separate scenes rs := by
  obtain ⟨rs, w, h1, h2⟩ := C87_program A st prog scenes hs
  exact ⟨rs, w, h1, separate_of h2⟩

/-- C96 for the library as compiled, with its 32-bit wrapped radius. -/
theorem C96_program_int32 (A : Arithmetic) (st : R.State) (prog : List Command) (scenes : List (Room R × Command)) (hs : Story A (Room.empty st) prog scenes)
    (hn : ∀ m ∈ scenes, ∀ x a t, m.2 = .act x a → m.1.things x = some t → AsksLine t.known (m.1.line t a) → t.net.Small) :
    ∃ rs w, Completes (fun f => World.run (W := int32) A f (World.empty st) prog) (.ok (rs, w)) ∧ Separate scenes rs := by
  obtain ⟨rs, w, h1, h2⟩ := C87_program_int32 A st prog scenes hs hn
  exact ⟨rs, w, h1, separate_of h2⟩

end

/-! ## Example -/

/-- Two codes in one object: nodes 0 and 1, nodes 2 and 3. -/
def twoNet : Net := ⟨4, [⟨0, none, {0}, 1, 1 / 10, ∅⟩, ⟨0, some 1, {1}, 1, 1 / 10, ∅⟩, ⟨2, some 3, {2}, 1, 1 / 10, ∅⟩, ⟨3, none, {3}, 1, 1 / 10, ∅⟩], ∅, 4⟩

/-- Build it; decode events in both parts, then in each part. -/
def twoProg : List Command := [
  .make 0 (.matrix {}),
  .act 0 (.stmt (.addBoundaryEdge 0 { faultIds := .int 0, prob := some (1 / 10) })),
  .act 0 (.stmt (.addEdge 0 1 { faultIds := .int 1, prob := some (1 / 10) })),
  .act 0 (.stmt (.addEdge 2 3 { faultIds := .int 2, prob := some (1 / 10) })),
  .act 0 (.stmt (.addBoundaryEdge 3 { faultIds := .int 3, prob := some (1 / 10) })),
  .act 0 (.stmt (.decode (.d1 [1, 1, 0, 1]) false false)),
  .act 0 (.stmt (.decode (.d1 [1, 1, 0, 0]) false false)),
  .act 0 (.stmt (.decode (.d1 [0, 0, 0, 1]) true false))]

/-- What they give. -/
def told {R : Source} : Option (Res (List Result × World.World R)) → List (List (BitVec 8))
  | some (.ok (rs, _)) => rs.filterMap fun
    | .out (.reply (.array row)) => some row
    | .out (.reply (.pair row _)) => some row
    | _ => none
  | _ => []

example : told (World.run plain 30 (World.empty (R := ⟨Unit, fun _ => (), fun s a _ => (a, s)⟩) ()) twoProg) = [[0, 1, 0, 1], [0, 1, 0, 0], [0, 0, 0, 1]] := by decide +kernel

/-- The first `k` links. -/
def part (n k : Nat) : Net := ⟨n, twoNet.links.take k, ∅, k⟩

theorem two_fine : (part 4 4).Fine := fine_of (by decide +kernel) (by decide +kernel) (by decide +kernel) (by decide +kernel) (by decide +kernel) (by decide +kernel) (by decide +kernel)

theorem two_steps :
    afterLine plain.mergeW Net.empty (.stmt (.addBoundaryEdge 0 { faultIds := .int 0, prob := some (1 / 10) })) = part 1 1 ∧
    afterLine plain.mergeW (part 1 1) (.stmt (.addEdge 0 1 { faultIds := .int 1, prob := some (1 / 10) })) = part 2 2 ∧
    afterLine plain.mergeW (part 2 2) (.stmt (.addEdge 2 3 { faultIds := .int 2, prob := some (1 / 10) })) = part 4 3 ∧
    afterLine plain.mergeW (part 4 3) (.stmt (.addBoundaryEdge 3 { faultIds := .int 3, prob := some (1 / 10) })) = part 4 4 := by decide +kernel

theorem two_good {R : Source} (st : R.State) : Good plain (Room.empty st) twoProg := by
  refine good_make (t := ⟨Net.empty, false, True, False⟩) (.inl ⟨rfl, rfl, rfl⟩) (by decide) ?_
  refine good_act (N' := part 1 1) (t := ⟨Net.empty, false, True, False⟩) (by simp) trivial (by intro h; cases h) two_steps.1 (by decide +kernel) (by decide) fun q _ => ?_
  refine good_act (N' := part 2 2) (t := ⟨part 1 1, false, True, q⟩) (by simp) trivial (by intro h; cases h) two_steps.2.1 (by decide +kernel) (by decide) fun q _ => ?_
  refine good_act (N' := part 4 3) (t := ⟨part 2 2, false, True, q⟩) (by simp) trivial (by intro h; cases h) two_steps.2.2.1 (by decide +kernel) (by decide) fun q _ => ?_
  refine good_act (N' := part 4 4) (t := ⟨part 4 3, false, True, q⟩) (by simp) trivial (by intro h; cases h) two_steps.2.2.2 (by decide +kernel) (by decide) fun q _ => ?_
  refine good_act (N' := part 4 4) (t := ⟨part 4 4, false, True, q⟩) (by simp) trivial (ready_plain two_fine) rfl (by decide +kernel) (by decide) fun q _ => ?_
  refine good_act (N' := part 4 4) (t := ⟨part 4 4, false, True, q⟩) (by simp) trivial (ready_plain two_fine) rfl (by decide +kernel) (by decide) fun q _ => ?_
  exact good_act (N' := part 4 4) (t := ⟨part 4 4, false, True, q⟩) (by simp) trivial (ready_plain two_fine) rfl (by decide +kernel) (by decide) fun _ _ _ => ⟨[], rfl, fun m hm => by cases hm⟩

example {R : Source} (st : R.State) : ∃ scenes, Story plain (Room.empty st) twoProg scenes ∧ (∃ rs w, Completes (fun f => World.run plain f (World.empty st) twoProg) (.ok (rs, w)) ∧ Separate scenes rs) ∧
    ∃ rs w, Completes (fun f => World.run (W := int32) plain f (World.empty st) twoProg) (.ok (rs, w)) ∧ Separate scenes rs := by
  obtain ⟨scenes, h1, h2⟩ := two_good st fun x t h => by cases h
  exact ⟨scenes, h1, C96_program plain st twoProg scenes h1, C96_program_int32 plain st twoProg scenes h1 fun m hm x a t _ ht _ => .inl (h2 m hm x t ht)⟩

example : Apart (part 4 4) (fun x => x < 2) ∧ (∀ l ∈ (part 4 4).links, 0 ≤ l.weight) ∧ Off (part 4 4) 0 := by
  refine ⟨fun l hl v hv _ _ => ?_, by decide +kernel, ?_⟩
  · have : ∀ l ∈ (part 4 4).links, ∀ v ∈ l.b, (l.a < 2 ↔ v < 2) := by decide +kernel
    exact this l hl v hv
  · have : ∀ w ∈ (part 4 4).numbers, ((w.num : ℤ) : ℚ) = w := by decide +kernel
    exact .inl ⟨fun w hw => ⟨w.num, this w hw⟩, rfl⟩

/-- Events at 0 and 1 have one explanation, and an event at 3 has one: no two sets of links flip the same detectors. -/
example (F : Nat → Prop) : Unambiguous (part 4 4) 0 F := by
  have key : ∀ C D : (part 4 4).Links, (∀ x : Fin 4, degreeAt C x % 2 = degreeAt D x % 2) → C = D := by decide +kernel
  intro C D hC hD k
  have := key C D fun x => by
    have h1 := (hC.1 x (by simp [part])).symm.trans (hD.1 x (by simp [part]))
    omega
  rw [this]

end Verif.Props.Apart
