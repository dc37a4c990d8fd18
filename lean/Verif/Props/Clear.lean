import Verif.Props.Below

/-!
# C95: an unambiguous syndrome has one prediction
-/

namespace Verif.Props.Clear

open Verif Verif.SB Verif.UG Verif.Obj Verif.Dbl Verif.ObjD Verif.Session Verif.Sim Verif.World
open Verif.Props.Session Verif.Props.Simulate Verif.Props.World Verif.Props.Laws Verif.Props.Sum Verif.Props.Below
open Verif.Props.Edges (Completes)
open Verif.Sch (Res)

/-! ## Specification -/

/-- The links explain the events, and no explanation is cheaper by more than `e`. -/
def Near {N : Net} (e : ℚ) (F : Nat → Prop) (C : N.Links) : Prop := Explained C F ∧ ∀ E : N.Links, Explained E F → cost C ≤ cost E + e

/-- All best explanations flip the same fault ids. -/
def Unambiguous (N : Net) (e : ℚ) (F : Nat → Prop) : Prop := ∀ C D : N.Links, Near e F C → Near e F D → ∀ k, count C k % 2 = count D k % 2

/-- The same problem with other names (`σ`) of the nodes, links in another order or direction, and weights multiplied by `c`.  Fault ids are the same. -/
def Renamed (c : ℚ) (N : Net) (F : Nat → Prop) (N' : Net) (F' : Nat → Prop) : Prop :=
  ∃ (φ : Fin N.links.length ≃ Fin N'.links.length) (σ : Equiv.Perm ℕ), (∀ i, tips N'.links[φ i] = (tips N.links[i]).map (Option.map σ)) ∧ (∀ i, N'.links[φ i].weight = c * N.links[i].weight) ∧
    (∀ i, N'.links[φ i].faults = N.links[i].faults) ∧ (∀ x, x ∈ N.boundary ↔ σ x ∈ N'.boundary) ∧ ∀ x, x ∉ N.boundary → (F x ↔ F' (σ x))

/-- The row says that fault id `k` is flipped. -/
def Bit (packed : Bool) (out : List (BitVec 8)) (k : Nat) : Prop :=
  if packed then ∃ b, out[k / 8]? = some b ∧ b.getLsbD (k % 8) = true else out[k]? = some 1#8

/-- One of the predictions in a run. -/
def Foreseen {R : Source} (scenes : List (Room R × Command)) (rs : List Result) (N : Net) (F : Nat → Prop) (packed : Bool) (out : List (BitVec 8)) : Prop :=
  ∃ (k : Nat) (m : Room R × Command) (r : Result), scenes[k]? = some m ∧ rs[k]? = some r ∧ Predicts m.1 m.2 r N F packed out

/-- Predictions for the same unambiguous problem agree.  `s` and `s'` as in C88: 0 if all weights are integers. -/
def Agree {R : Source} (scenes : List (Room R × Command)) (rs : List Result) : Prop :=
  ∀ (N : Net) (F : Nat → Prop) (packed : Bool) (out : List (BitVec 8)) (N' : Net) (F' : Nat → Prop) (packed' : Bool) (out' : List (BitVec 8)) (s s' c e : ℚ),
    Foreseen scenes rs N F packed out → Foreseen scenes rs N' F' packed' out' → Off N s → Off N' s' → 0 < c → Renamed c N F N' F' → s ≤ e → s' ≤ c * e → Unambiguous N e F →
    ∀ k, k < N.ids → k < N'.ids → (Bit packed out k ↔ Bit packed' out' k)

/-! ## Lemmas -/

theorem bit_iff {N : Net} {packed : Bool} {C : N.Links} {out : List (BitVec 8)} (h : TellsIn packed C out) {k : Nat} (hk : k < N.ids) : Bit packed out k ↔ count C k % 2 = 1 := by
  unfold TellsIn Tells at h
  unfold Bit
  cases packed with
  | false =>
    simp only [Bool.false_eq_true, if_false] at h ⊢
    rw [h.2 k hk]
    split_ifs with h1 <;> simp [h1]
  | true =>
    simp only [if_true] at h ⊢
    obtain ⟨b, h1, h2⟩ := h.2 k (by omega)
    rw [h1]
    constructor
    · rintro ⟨b', e, hb⟩
      cases e
      exact (h2.1 hb).2
    · exact fun hc => ⟨b, rfl, h2.2 ⟨hk, hc⟩⟩

theorem near_of {N : Net} {F : Nat → Prop} {u s e : ℚ} {C : N.Links} (hu : StepOf N u) (hs : Off N s) (he : s ≤ e) (hC : Cheap u F C) : Near e F C :=
  ⟨hC.1, fun E hE => (cheap_off hu hC hs E hE).trans (by linarith)⟩

/-- A best explanation, under the old names. -/
theorem carry_back {c e s' : ℚ} {N N' : Net} {F F' : Nat → Prop} (hc : 0 < c) (h : Renamed c N F N' F') (he : s' ≤ c * e) {D : N'.Links} (hD : Near s' F' D) :
    ∃ C : N.Links, Near e F C ∧ ∀ k, count C k = count D k := by
  obtain ⟨φ, σ, ht, hw, hf, hb, hF⟩ := h
  have key : ∀ C : N.Links, cost (N := N') (C.map φ.toEmbedding) = c * cost C := fun C => by
    unfold cost
    rw [Finset.sum_map, Finset.mul_sum]
    exact Finset.sum_congr rfl fun i _ => hw i
  have ex : ∀ C : N.Links, Explained C F → Explained (N := N') (C.map φ.toEmbedding) F' := fun C hC =>
    carry (σ := σ) (φ := φ.toEmbedding) ht (fun x hx => (hb x).1 hx) (fun x hx => hF x fun h => hx ((hb x).1 h)) hC
  have e1 : (D.map φ.symm.toEmbedding).map φ.toEmbedding = D := by
    rw [Finset.map_map]
    ext x
    simp
  have hx : Explained (N := N) (D.map φ.symm.toEmbedding) F := by
    refine carry (σ := σ.symm) (φ := φ.symm.toEmbedding) (fun i => ?_) (fun x hx => ?_) (fun x hx => ?_) hD.1
    · obtain ⟨j, rfl⟩ := φ.surjective i
      show tips N.links[φ.symm (φ j)] = _
      rw [back φ, ht, Sym2.map_map]
      have : (Option.map σ.symm ∘ Option.map σ : Option ℕ → Option ℕ) = id := by
        funext x
        cases x <;> simp
      rw [this, Sym2.map_id]
      rfl
    · rw [hb, σ.apply_symm_apply]
      exact hx
    · rw [hF _ hx, σ.apply_symm_apply]
  refine ⟨D.map φ.symm.toEmbedding, ⟨hx, fun E hE => ?_⟩, fun k => ?_⟩
  · have h1 := hD.2 _ (ex E hE)
    have h2 := key (D.map φ.symm.toEmbedding)
    rw [e1] at h2
    rw [key, h2] at h1
    refine le_of_mul_le_mul_left (h1.trans ?_) hc
    rw [mul_add]
    linarith
  · have h3 : ∀ C : N.Links, count (N := N') (C.map φ.toEmbedding) k = count C k := fun C => by
      unfold count
      rw [Finset.filter_map, Finset.card_map]
      congr 1
      refine Finset.filter_congr fun i _ => ?_
      show k ∈ N'.links[φ i].faults ↔ _
      rw [hf]
    have h4 := h3 (D.map φ.symm.toEmbedding)
    rw [e1] at h4
    exact h4.symm

section
variable {R : Source}

theorem foreseen_cheap {A : Arithmetic} {scenes : List (Room R × Command)} {rs : List Result} (hr : List.Forall₂ (fun (m : Room R × Command) r => RightCommand A m.1 m.2 r) scenes rs)
    {N : Net} {F : Nat → Prop} {packed : Bool} {out : List (BitVec 8)} (h : Foreseen scenes rs N F packed out) : ∃ u, StepOf N u ∧ ∃ C : N.Links, Cheap u F C ∧ TellsIn packed C out := by
  obtain ⟨k, m, r, h1, h2, h3⟩ := h
  refine predicts_cheap (A := A) ?_ h3
  have h6 := List.forall₂_iff_get.1 hr
  obtain ⟨i1, e1⟩ := List.getElem?_eq_some_iff.1 h1
  obtain ⟨i2, e2⟩ := List.getElem?_eq_some_iff.1 h2
  have := h6.2 k i1 i2
  rw [List.get_eq_getElem, List.get_eq_getElem, e1, e2] at this
  exact this

theorem agree_of {A : Arithmetic} {scenes : List (Room R × Command)} {rs : List Result} (hr : List.Forall₂ (fun (m : Room R × Command) r => RightCommand A m.1 m.2 r) scenes rs) : Agree scenes rs := by
  intro N F packed out N' F' packed' out' s s' c e h h' hs hs' hc hren he he' hun k hk hk'
  obtain ⟨u, hu, C, hC, ht⟩ := foreseen_cheap hr h
  obtain ⟨u', hu', D, hD, ht'⟩ := foreseen_cheap hr h'
  obtain ⟨D', h1, h2⟩ := carry_back hc hren he' (near_of hu' hs' le_rfl hD)
  rw [bit_iff ht hk, bit_iff ht' hk', hun C D' (near_of hu hs he hC) h1 k, h2]

/-! ## C95 -/

/-- C95: in every proper program with any number of objects, predictions for the same unambiguous problem agree. -/
theorem C95_program (A : Arithmetic) (st : R.State) (prog : List Command) (scenes : List (Room R × Command)) (hs : Story A (Room.empty st) prog scenes) :
    ∃ rs w, Completes (fun f => World.run A f (World.empty st) prog) (.ok (rs, w)) ∧ Agree scenes rs := by
  obtain ⟨rs, w, h1, h2⟩ := C87_program A st prog scenes hs
  exact ⟨rs, w, h1, agree_of h2⟩

/-- C95 for the library as compiled, with its 32-bit wrapped radius. -/
theorem C95_program_int32 (A : Arithmetic) (st : R.State) (prog : List Command) (scenes : List (Room R × Command)) (hs : Story A (Room.empty st) prog scenes)
    (hn : ∀ m ∈ scenes, ∀ x a t, m.2 = .act x a → m.1.things x = some t → AsksLine t.known (m.1.line t a) → t.net.Small) :
    ∃ rs w, Completes (fun f => World.run (W := int32) A f (World.empty st) prog) (.ok (rs, w)) ∧ Agree scenes rs := by
  obtain ⟨rs, w, h1, h2⟩ := C87_program_int32 A st prog scenes hs hn
  exact ⟨rs, w, h1, agree_of h2⟩

end

/-! ## Example -/

example {R : Source} (st : R.State) : ∃ scenes, Story plain (Room.empty st) pairProg scenes ∧ (∃ rs w, Completes (fun f => World.run plain f (World.empty st) pairProg) (.ok (rs, w)) ∧ Agree scenes rs) ∧
    ∃ rs w, Completes (fun f => World.run (W := int32) plain f (World.empty st) pairProg) (.ok (rs, w)) ∧ Agree scenes rs := by
  obtain ⟨scenes, h1, h2⟩ := pair_good st fun x t h => by cases h
  exact ⟨scenes, h1, C95_program plain st pairProg scenes h1, C95_program_int32 plain st pairProg scenes h1 fun m hm x a t _ ht _ => .inl (h2 m hm x t ht)⟩

/-- The link between the two detectors. -/
def middle : repNet.Links := {⟨1, by decide⟩}

theorem middle_explains : Explained middle (Fires (.d1 [1, 1])) := by
  intro x _
  rcases x with _ | _ | x
  · simp only [Fires]; decide +kernel
  · simp only [Fires]; decide +kernel
  · have h1 : degreeAt middle (x + 2) = 0 := by
      refine Finset.sum_eq_zero fun i _ => ?_
      have : ∀ i : Fin 3, (repNet.links[i]'i.2).a < 2 ∧ ∀ v, (repNet.links[i]'i.2).b = some v → v < 2 := by decide
      obtain ⟨h1, h2⟩ := this i
      rw [if_neg (by omega), if_neg fun h => by have := h2 _ h; omega, Nat.add_zero]
    rw [h1]
    simp [Fires]

/-- With events at both detectors, this program's repetition code is unambiguous: the link between them is the only best explanation. -/
theorem rep_unambiguous : Unambiguous repNet 0 (Fires (.d1 [1, 1])) := by
  have key : ∀ C : repNet.Links, degreeAt C 0 % 2 = 1 → degreeAt C 1 % 2 = 1 → cost C ≤ cost middle → C = middle := by decide +kernel
  have only : ∀ C : repNet.Links, Near 0 (Fires (.d1 [1, 1])) C → C = middle := fun C hC =>
    key C ((hC.1 0 (by simp [repNet])).1 (by simp [Fires])) ((hC.1 1 (by simp [repNet])).1 (by simp [Fires])) (by have := hC.2 _ middle_explains; rwa [add_zero] at this)
  intro C D hC hD k
  rw [only C hC, only D hD]

/-- The same code with the detectors exchanged and all weights doubled. -/
def repNet' : Net := ⟨2, [⟨0, none, {2}, 2, 1 / 10, ∅⟩, ⟨1, some 0, {1}, 2, 1 / 10, ∅⟩, ⟨1, none, {0}, 2, 1 / 10, ∅⟩], ∅, 3⟩

example : Renamed 2 repNet (Fires (.d1 [1, 1])) repNet' (Fires (.d1 [1, 1])) := by
  refine ⟨(Fin.revPerm : Equiv.Perm (Fin 3)), Equiv.swap 0 1, ?_, ?_, ?_, fun x => by simp [repNet, repNet'], fun x _ => ?_⟩
  · show ∀ i : Fin 3, tips (repNet'.links[Fin.rev i]'(by have := (Fin.rev i).2; exact this)) = (tips (repNet.links[i]'(by have := i.2; exact this))).map (Option.map (Equiv.swap 0 1))
    decide
  · show ∀ i : Fin 3, (repNet'.links[Fin.rev i]'(by have := (Fin.rev i).2; exact this)).weight = 2 * (repNet.links[i]'(by have := i.2; exact this)).weight
    decide +kernel
  · show ∀ i : Fin 3, (repNet'.links[Fin.rev i]'(by have := (Fin.rev i).2; exact this)).faults = (repNet.links[i]'(by have := i.2; exact this)).faults
    decide +kernel
  · rcases x with _ | _ | x
    · simp [Fires]
    · simp [Fires]
    · rw [Equiv.swap_apply_of_ne_of_ne (by omega) (by omega)]

end Verif.Props.Clear
