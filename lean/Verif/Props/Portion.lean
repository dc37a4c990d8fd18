import Verif.Props.Only
import Verif.Props.PairSum

/-!
# C100: parts of a correctable error are correctable
-/

namespace Verif.Props.Portion

open Verif Verif.SB Verif.UG Verif.Obj Verif.Dbl Verif.ObjD Verif.Session Verif.Sim Verif.World
open Verif.Props.Session Verif.Props.Simulate Verif.Props.World Verif.Props.Laws Verif.Props.Sum Verif.Props.Below Verif.Props.Clear Verif.Props.Only
open Verif.Props.Edges (Completes)
open Verif.Sch (Res)

/-! ## Specification -/

/-- If `E` is the only best explanation of its events, all replies about the events of a part `E'` of it are about `E'`.  `s` as in C88: 0 if all weights are integers. -/
def PartsToo {R : Source} (scenes : List (Room R × Command)) (rs : List Result) : Prop :=
  ∀ (N : Net) (F F' : Nat → Prop) (s : ℚ) (E E' : N.Links), (∀ l ∈ N.links, 0 ≤ l.weight) → Off N s → Only s F E → E' ⊆ E → Explained E' F' →
    (∀ packed out, Foreseen scenes rs N F' packed out → TellsIn packed E' out) ∧ (∀ es, Listed scenes rs N F' es → Session.Lists es E') ∧ ∀ q, Seen scenes rs N F' q s → |q - cost E'| ≤ s

/-! ## Lemmas -/

theorem only_part {N : Net} {F F' : Nat → Prop} {s : ℚ} {E E' : N.Links} (hw : ∀ l ∈ N.links, 0 ≤ l.weight) (hE : Only s F E) (hsub : E' ⊆ E) (hE' : Explained E' F') : Only s F' E' := by
  refine ⟨hE', fun D hD hne => ?_⟩
  have hdiff : symmDiff E' (E \ E') = E := by
    ext i
    simp only [Finset.mem_symmDiff, Finset.mem_sdiff]
    have := @hsub i
    tauto
  have h1 : Explained (symmDiff D (E \ E')) F := by
    intro x hx
    have e1 := hE.1 x hx
    have e2 := hE' x hx
    have e3 := hD x hx
    have e4 := degree_symmDiff E' (E \ E') x
    rw [hdiff] at e4
    have e5 := degree_symmDiff D (E \ E') x
    have e6 : degreeAt D x % 2 = 1 ↔ degreeAt E' x % 2 = 1 := e3.symm.trans e2
    rw [e1]
    omega
  have h2 : symmDiff D (E \ E') ≠ E := by
    intro h
    apply hne
    exact symmDiff_left_injective (E \ E') (h.trans hdiff.symm)
  have h3 := hE.2 _ h1 h2
  have hsum := RoundTrip.sum_symmDiff (fun i : Fin N.links.length => N.links[i].weight) D (E \ E')
  have hin : 0 ≤ ∑ i ∈ D ∩ (E \ E'), N.links[i].weight := Finset.sum_nonneg fun i _ => hw _ (List.getElem_mem _)
  have hE0 := Finset.sum_sdiff (f := fun i : Fin N.links.length => N.links[i].weight) hsub
  unfold cost at h3 ⊢
  linarith

section
variable {R : Source}

theorem parts_too {A : Arithmetic} {scenes : List (Room R × Command)} {rs : List Result} (hr : List.Forall₂ (fun (m : Room R × Command) r => RightCommand A m.1 m.2 r) scenes rs) : PartsToo scenes rs :=
  fun N _ F' s _ E' hw hs hE hsub hE' => about_it hr N F' s E' hs (only_part hw hE hsub hE')

/-! ## C100 -/

/-- C100: in every proper program with any number of objects, parts of a correctable error are correctable. -/
theorem C100_program (A : Arithmetic) (st : R.State) (prog : List Command) (scenes : List (Room R × Command)) (hs : Story A (Room.empty st) prog scenes) :
    ∃ rs w, Completes (fun f => World.run A f (World.empty st) prog) (.ok (rs, w)) ∧ PartsToo scenes rs := by
  obtain ⟨rs, w, h1, h2⟩ := C87_program A st prog scenes hs
  exact ⟨rs, w, h1, parts_too h2⟩

/-- C100 for the library as compiled, with its 32-bit wrapped radius. -/
theorem C100_program_int32 (A : Arithmetic) (st : R.State) (prog : List Command) (scenes : List (Room R × Command)) (hs : Story A (Room.empty st) prog scenes)
    (hn : ∀ m ∈ scenes, ∀ x a t, m.2 = .act x a → m.1.things x = some t → AsksLine t.known (m.1.line t a) → t.net.Small) :
    ∃ rs w, Completes (fun f => World.run (W := int32) A f (World.empty st) prog) (.ok (rs, w)) ∧ PartsToo scenes rs := by
  obtain ⟨rs, w, h1, h2⟩ := C87_program_int32 A st prog scenes hs hn
  exact ⟨rs, w, h1, parts_too h2⟩

end

/-! ## Example -/

/-- The program of C93 on a repetition code decodes all events at once, then those of each of three links. -/
example {R : Source} (st : R.State) : ∃ scenes, Story plain (Room.empty st) PairSum.chainProg scenes ∧
    (∃ rs w, Completes (fun f => World.run plain f (World.empty st) PairSum.chainProg) (.ok (rs, w)) ∧ PartsToo scenes rs) ∧
    ∃ rs w, Completes (fun f => World.run (W := int32) plain f (World.empty st) PairSum.chainProg) (.ok (rs, w)) ∧ PartsToo scenes rs := by
  obtain ⟨scenes, h1, h2⟩ := PairSum.chain_good st fun x t h => by cases h
  exact ⟨scenes, h1, C100_program plain st _ scenes h1, C100_program_int32 plain st _ scenes h1 fun m hm x a t _ ht _ => .inl (h2 m hm x t ht)⟩

/-- The links at both ends and in the middle. -/
def three : (PairSum.part 4 5).Links := {⟨0, by decide⟩, ⟨2, by decide⟩, ⟨4, by decide⟩}

theorem small {C : (PairSum.part 4 5).Links} {F : Nat → Prop} (h : ∀ x, x < 4 → (F x ↔ degreeAt C x % 2 = 1)) (h4 : ∀ x, 4 ≤ x → ¬ F x) : Explained C F := by
  intro x _
  by_cases hx : x < 4
  · exact h x hx
  · have h1 : degreeAt C x = 0 := by
      refine Finset.sum_eq_zero fun i _ => ?_
      have : ∀ i : Fin 5, ((PairSum.part 4 5).links[i]'i.2).a < 4 ∧ ∀ v ∈ ((PairSum.part 4 5).links[i]'i.2).b, v < 4 := by decide
      obtain ⟨h1, h2⟩ := this i
      rw [if_neg (by omega), if_neg fun h => by have := h2 _ h; omega, Nat.add_zero]
    rw [h1]
    exact ⟨fun h => absurd h (h4 x (by omega)), fun h => by omega⟩

/-- The middle link. -/
def one : (PairSum.part 4 5).Links := {⟨2, by decide⟩}

/-- They are the only best explanation of all four events (the other two links cost 6), and the middle one is the part that explains events 1 and 2. -/
example : Only 0 (fun x => x < 4) three ∧ ∃ E' : (PairSum.part 4 5).Links, E' ⊆ three ∧ Explained E' (fun x => x = 1 ∨ x = 2) ∧ E' ≠ three := by
  refine ⟨⟨small (by decide +kernel) (by omega), fun D hD h => ?_⟩, one, by decide, small (by decide +kernel) (by omega), by decide⟩
  have key : ∀ C : (PairSum.part 4 5).Links, (∀ x : Fin 4, degreeAt C x % 2 = 1) → C ≠ three → cost three + 0 < cost C := by decide +kernel
  exact key D (fun x => (hD x (by simp [PairSum.part])).1 x.2) h

end Verif.Props.Portion
