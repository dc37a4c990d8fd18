import Verif.Props.Clear

/-!
# C98: edges that are heavier than some explanation do not matter
-/

namespace Verif.Props.Heavy

open Verif Verif.SB Verif.UG Verif.Obj Verif.Dbl Verif.ObjD Verif.Session Verif.Sim Verif.World
open Verif.Props.Session Verif.Props.Simulate Verif.Props.World Verif.Props.Laws Verif.Props.Sum Verif.Props.Below Verif.Props.Clear
open Verif.Props.Edges (Completes)
open Verif.Sch (Res)

/-! ## Specification -/

/-- All links of `N` are in `N'`; the other links of `N'` weigh more than `w`. -/
def Extends (w : ℚ) (N N' : Net) : Prop :=
  ∃ φ : Fin N.links.length ↪ Fin N'.links.length, (∀ i, tips N'.links[φ i] = tips N.links[i]) ∧ (∀ i, N'.links[φ i].weight = N.links[i].weight) ∧
    (∀ i, N'.links[φ i].faults = N.links[i].faults) ∧ N'.boundary = N.boundary ∧ ∀ j, (∀ i, φ i ≠ j) → w < N'.links[j].weight

/-- If the links `E` of `N` explain the events, and `N'` only has more links that are heavier than all of `E` together, replies about `N` and `N'` agree: predictions for unambiguous events, and weights.
`s` and `s'` as in C88: 0 if all weights are integers. -/
def Needless {R : Source} (scenes : List (Room R × Command)) (rs : List Result) : Prop :=
  ∀ (N N' : Net) (F F' : Nat → Prop) (s s' w : ℚ) (E : N.Links), (∀ l ∈ N'.links, 0 ≤ l.weight) → Off N s → Off N' s' → Explained E F → cost E + s' ≤ w → Extends w N N' → (∀ x, x ∉ N.boundary → (F x ↔ F' x)) →
    (∀ packed out packed' out' e, s ≤ e → s' ≤ e → Unambiguous N e F → Foreseen scenes rs N F packed out → Foreseen scenes rs N' F' packed' out' →
      ∀ k, k < N.ids → k < N'.ids → (Bit packed out k ↔ Bit packed' out' k)) ∧
    ∀ q q', Seen scenes rs N F q s → Seen scenes rs N' F' q' s' → |q' - q| ≤ s + s'

/-! ## Lemmas -/

/-- An explanation in `N'` of cost at most `w` is one in `N`. -/
theorem inside {N N' : Net} {F F' : Nat → Prop} {w : ℚ} (hw : ∀ l ∈ N'.links, 0 ≤ l.weight) (h : Extends w N N') (hF : ∀ x, x ∉ N.boundary → (F x ↔ F' x)) {D : N'.Links} (hD : Explained D F')
    (hc : cost D ≤ w) : ∃ C : N.Links, Explained C F ∧ cost C = cost D ∧ ∀ k, count C k = count D k := by
  obtain ⟨φ, ht, hwt, hf, hb, hh⟩ := h
  have hin : ∀ j ∈ D, ∃ i, φ i = j := by
    intro j hj
    by_contra hno
    push Not at hno
    have h1 := hh j hno
    have h2 : N'.links[j].weight ≤ cost D := Finset.single_le_sum (f := fun i : Fin N'.links.length => N'.links[i].weight) (fun i _ => hw _ (List.getElem_mem _)) hj
    linarith
  obtain ⟨C, rfl⟩ : ∃ C : N.Links, D = C.map φ := by
    refine ⟨Finset.univ.filter fun i => φ i ∈ D, ?_⟩
    ext j
    simp only [Finset.mem_map, Finset.mem_filter, Finset.mem_univ, true_and]
    constructor
    · intro hj
      obtain ⟨i, rfl⟩ := hin j hj
      exact ⟨i, hj, rfl⟩
    · rintro ⟨i, hi, rfl⟩
      exact hi
  refine ⟨C, fun x hx => ?_, ?_, fun k => ?_⟩
  · have e : degreeAt (N := N') (C.map φ) x = degreeAt C x := by
      rw [degreeAt_eq, degreeAt_eq, Finset.sum_map]
      exact Finset.sum_congr rfl fun i _ => ends_same (ht i) x
    rw [hF x hx, ← e]
    exact hD x (by rw [hb]; exact hx)
  · unfold cost
    rw [Finset.sum_map]
    exact (Finset.sum_congr rfl fun i _ => hwt i).symm
  · unfold count
    rw [Finset.filter_map, Finset.card_map]
    congr 1
    refine Finset.filter_congr fun i _ => ?_
    show _ ↔ k ∈ N'.links[φ i].faults
    rw [hf]

/-- Explanations in `N` are explanations in `N'`. -/
theorem outside {N N' : Net} {F F' : Nat → Prop} {w : ℚ} (h : Extends w N N') (hF : ∀ x, x ∉ N.boundary → (F x ↔ F' x)) {C : N.Links} (hC : Explained C F) :
    ∃ D : N'.Links, Explained D F' ∧ cost D = cost C := by
  obtain ⟨φ, ht, hwt, hf, hb, hh⟩ := h
  refine ⟨C.map φ, carry (σ := 1) (fun i => (ht i).trans (by simp [Equiv.Perm.coe_one])) (fun x hx => by rw [hb]; exact hx) (fun x hx => hF x (by rw [hb] at hx; exact hx)) hC, ?_⟩
  unfold cost
  rw [Finset.sum_map]
  exact Finset.sum_congr rfl fun i _ => hwt i

theorem off_pos {N : Net} {s : ℚ} (hs : Off N s) : 0 ≤ s := by
  rcases hs with ⟨-, rfl⟩ | ⟨-, m, -, -, rfl⟩
  · exact le_refl _
  · positivity

section
variable {R : Source}

theorem needless {A : Arithmetic} {scenes : List (Room R × Command)} {rs : List Result} (hr : List.Forall₂ (fun (m : Room R × Command) r => RightCommand A m.1 m.2 r) scenes rs) :
    Needless scenes rs := by
  intro N N' F F' s s' w E hpos hs hs' hE hcost hex hF
  refine ⟨fun packed out packed' out' e he he' hun h h' k hk hk' => ?_, fun q q' h h' => ?_⟩
  · obtain ⟨u, hu, C, hC, ht⟩ := foreseen_cheap hr h
    obtain ⟨u', hu', D, hD, ht'⟩ := foreseen_cheap hr h'
    have hn := Clear.near_of hu' hs' le_rfl hD
    have hle : ∀ G : N.Links, Explained G F → cost D ≤ cost G + s' := fun G hG => by
      obtain ⟨G', h1, h2⟩ := outside hex hF hG
      rw [← h2]
      exact hn.2 G' h1
    obtain ⟨D', h1, h2, h3⟩ := inside hpos hex hF hD.1 ((hle E hE).trans hcost)
    have hD' : Near e F D' := ⟨h1, fun G hG => by rw [h2]; exact (hle G hG).trans (by linarith)⟩
    rw [bit_iff ht hk, bit_iff ht' hk', hun C D' (Clear.near_of hu hs he hC) hD' k, h3]
  · obtain ⟨⟨C, h1, h2⟩, h3⟩ := seen_least hr h
    obtain ⟨⟨D, h4, h5⟩, h6⟩ := seen_least hr h'
    obtain ⟨C', a1, a2⟩ := outside hex hF h1
    have b1 := h6 C' a1
    have hs0 := off_pos hs
    have hs0' := off_pos hs'
    by_cases hc : cost D ≤ w
    · obtain ⟨D', c1, c2, -⟩ := inside hpos hex hF h4 hc
      have b2 := h3 D' c1
      exact abs_le.2 ⟨by linarith, by linarith⟩
    · have b2 := h3 E hE
      exact abs_le.2 ⟨by linarith, by linarith⟩

/-! ## C98 -/

/-- C98: in every proper program with any number of objects, edges that are heavier than some explanation do not matter. -/
theorem C98_program (A : Arithmetic) (st : R.State) (prog : List Command) (scenes : List (Room R × Command)) (hs : Story A (Room.empty st) prog scenes) :
    ∃ rs w, Completes (fun f => World.run A f (World.empty st) prog) (.ok (rs, w)) ∧ Needless scenes rs := by
  obtain ⟨rs, w, h1, h2⟩ := C87_program A st prog scenes hs
  exact ⟨rs, w, h1, needless h2⟩

/-- C98 for the library as compiled, with its 32-bit wrapped radius. -/
theorem C98_program_int32 (A : Arithmetic) (st : R.State) (prog : List Command) (scenes : List (Room R × Command)) (hs : Story A (Room.empty st) prog scenes)
    (hn : ∀ m ∈ scenes, ∀ x a t, m.2 = .act x a → m.1.things x = some t → AsksLine t.known (m.1.line t a) → t.net.Small) :
    ∃ rs w, Completes (fun f => World.run (W := int32) A f (World.empty st) prog) (.ok (rs, w)) ∧ Needless scenes rs := by
  obtain ⟨rs, w, h1, h2⟩ := C87_program_int32 A st prog scenes hs hn
  exact ⟨rs, w, h1, needless h2⟩

end

/-! ## Example -/

/-- Two detectors; the last link is heavy. -/
def lateNet : Net := ⟨2, [⟨0, none, {0}, 1, 1 / 10, ∅⟩, ⟨0, some 1, {1}, 1, 1 / 10, ∅⟩, ⟨1, none, {2}, 9, 1 / 10, ∅⟩], ∅, 3⟩

/-- The same syndrome is decoded before and after the heavy edge is added. -/
def lateProg : List Command := [
  .make 0 (.matrix {}),
  .act 0 (.stmt (.addBoundaryEdge 0 { faultIds := .int 0, prob := some (1 / 10) })),
  .act 0 (.stmt (.addEdge 0 1 { faultIds := .int 1, prob := some (1 / 10) })),
  .act 0 (.stmt (.decode (.d1 [0, 1]) true false)),
  .act 0 (.stmt (.addBoundaryEdge 1 { faultIds := .int 2, prob := some (1 / 10), weight := .fin 9 })),
  .act 0 (.stmt (.decode (.d1 [0, 1]) true false))]

/-- What they give. -/
def told {R : Source} : Option (Res (List Result × World.World R)) → List (List (BitVec 8) × ℚ)
  | some (.ok (rs, _)) => rs.filterMap fun
    | .out (.reply (.pair row (.num q))) => some (row, q)
    | _ => none
  | _ => []

example : told (World.run plain 30 (World.empty (R := ⟨Unit, fun _ => (), fun s a _ => (a, s)⟩) ()) lateProg) = [([1, 1], 2), ([1, 1, 0], 2)] := by decide +kernel

/-- The first `k` links. -/
def part (n k : Nat) : Net := ⟨n, lateNet.links.take k, ∅, k⟩

theorem late_fine : (part 2 2).Fine ∧ (part 2 3).Fine :=
  ⟨fine_of (by decide +kernel) (by decide +kernel) (by decide +kernel) (by decide +kernel) (by decide +kernel) (by decide +kernel) (by decide +kernel),
   fine_of (by decide +kernel) (by decide +kernel) (by decide +kernel) (by decide +kernel) (by decide +kernel) (by decide +kernel) (by decide +kernel)⟩

theorem late_steps :
    afterLine plain.mergeW Net.empty (.stmt (.addBoundaryEdge 0 { faultIds := .int 0, prob := some (1 / 10) })) = part 1 1 ∧
    afterLine plain.mergeW (part 1 1) (.stmt (.addEdge 0 1 { faultIds := .int 1, prob := some (1 / 10) })) = part 2 2 ∧
    afterLine plain.mergeW (part 2 2) (.stmt (.addBoundaryEdge 1 { faultIds := .int 2, prob := some (1 / 10), weight := .fin 9 })) = part 2 3 := by decide +kernel

theorem late_good {R : Source} (st : R.State) : Good plain (Room.empty st) lateProg := by
  refine good_make (t := ⟨Net.empty, false, True, False⟩) (.inl ⟨rfl, rfl, rfl⟩) (by decide) ?_
  refine good_act (N' := part 1 1) (t := ⟨Net.empty, false, True, False⟩) (by simp) trivial (by intro h; cases h) late_steps.1 (by decide +kernel) (by decide) fun q _ => ?_
  refine good_act (N' := part 2 2) (t := ⟨part 1 1, false, True, q⟩) (by simp) trivial (by intro h; cases h) late_steps.2.1 (by decide +kernel) (by decide) fun q _ => ?_
  refine good_act (N' := part 2 2) (t := ⟨part 2 2, false, True, q⟩) (by simp) trivial (ready_plain late_fine.1) rfl (by decide +kernel) (by decide) fun q _ => ?_
  refine good_act (N' := part 2 3) (t := ⟨part 2 2, false, True, q⟩) (by simp) trivial (by intro h; cases h) late_steps.2.2 (by decide +kernel) (by decide) fun q _ => ?_
  exact good_act (N' := part 2 3) (t := ⟨part 2 3, false, True, q⟩) (by simp) trivial (ready_plain late_fine.2) rfl (by decide +kernel) (by decide) fun _ _ _ => ⟨[], rfl, fun m hm => by cases hm⟩

example {R : Source} (st : R.State) : ∃ scenes, Story plain (Room.empty st) lateProg scenes ∧ (∃ rs w, Completes (fun f => World.run plain f (World.empty st) lateProg) (.ok (rs, w)) ∧ Needless scenes rs) ∧
    ∃ rs w, Completes (fun f => World.run (W := int32) plain f (World.empty st) lateProg) (.ok (rs, w)) ∧ Needless scenes rs := by
  obtain ⟨scenes, h1, h2⟩ := late_good st fun x t h => by cases h
  exact ⟨scenes, h1, C98_program plain st lateProg scenes h1, C98_program_int32 plain st lateProg scenes h1 fun m hm x a t _ ht _ => .inl (h2 m hm x t ht)⟩

/-- The first two links together cost 2 and explain the event at 1; the last one weighs 9; no two sets of the first two links flip the same detectors. -/
example : Extends 8 (part 2 2) (part 2 3) ∧ (∃ E : (part 2 2).Links, Explained E (Fires (.d1 [0, 1])) ∧ cost E + 0 ≤ 8) ∧ Off (part 2 2) 0 ∧ Off (part 2 3) 0 ∧
    (∀ l ∈ (part 2 3).links, 0 ≤ l.weight) ∧ ∀ F, Unambiguous (part 2 2) 0 F := by
  have whole : ∀ k : Fin 4, ∀ w ∈ (part 2 k).numbers, ((w.num : ℤ) : ℚ) = w := by decide +kernel
  refine ⟨⟨Fin.castLEEmb (by decide), by decide, by decide +kernel, by decide +kernel, rfl, by decide +kernel⟩, ⟨Finset.univ, fun x _ => ?_, by decide +kernel⟩,
    .inl ⟨fun w hw => ⟨w.num, whole 2 w hw⟩, rfl⟩, .inl ⟨fun w hw => ⟨w.num, whole 3 w hw⟩, rfl⟩, by decide +kernel, fun F C D hC hD k => ?_⟩
  · rcases x with _ | _ | x
    · simp only [Fires]; decide +kernel
    · simp only [Fires]; decide +kernel
    · have : degreeAt (N := part 2 2) Finset.univ (x + 2) = 0 := by
        refine Finset.sum_eq_zero fun i _ => ?_
        have : ∀ i : Fin 2, ((part 2 2).links[i]'i.2).a < 2 ∧ ∀ v ∈ ((part 2 2).links[i]'i.2).b, v < 2 := by decide
        obtain ⟨h1, h2⟩ := this i
        rw [if_neg (by omega), if_neg fun h => by have := h2 _ h; omega, Nat.add_zero]
      rw [this]
      simp [Fires]
  · have key : ∀ C D : (part 2 2).Links, (∀ x : Fin 2, degreeAt C x % 2 = degreeAt D x % 2) → C = D := by decide +kernel
    have := key C D fun x => by
      have h1 := (hC.1 x (by simp [part])).symm.trans (hD.1 x (by simp [part]))
      omega
    rw [this]

end Verif.Props.Heavy
