import Verif.Props.Clear

/-!
# C97: a unique best explanation is what every method returns
-/

namespace Verif.Props.Only

open Verif Verif.SB Verif.UG Verif.Obj Verif.Dbl Verif.ObjD Verif.Session Verif.Sim Verif.World
open Verif.Props.Session Verif.Props.Simulate Verif.Props.World Verif.Props.Laws Verif.Props.Sum Verif.Props.Below Verif.Props.Clear
open Verif.Props.Edges (Completes)
open Verif.Sch (Res)

/-! ## Specification -/

/-- `E` explains the events, and every other explanation costs more than `s` more. -/
def Only {N : Net} (s : ℚ) (F : Nat → Prop) (E : N.Links) : Prop := Explained E F ∧ ∀ D : N.Links, Explained D F → D ≠ E → cost E + s < cost D

/-- Where there is only one best explanation, all replies are about it: predictions, lists of edges and weights.  `s` as in C88: 0 if all weights are integers. -/
def AboutIt {R : Source} (scenes : List (Room R × Command)) (rs : List Result) : Prop :=
  ∀ (N : Net) (F : Nat → Prop) (s : ℚ) (E : N.Links), Off N s → Only s F E →
    (∀ packed out, Foreseen scenes rs N F packed out → TellsIn packed E out) ∧ (∀ es, Listed scenes rs N F es → Session.Lists es E) ∧ ∀ q, Seen scenes rs N F q s → |q - cost E| ≤ s

/-! ## Lemmas -/

theorem only_it {N : Net} {F : Nat → Prop} {u s : ℚ} {C E : N.Links} (hu : StepOf N u) (hs : Off N s) (hE : Only s F E) (hC : Cheap u F C) : C = E := by
  by_contra h
  exact absurd (cheap_off hu hC hs E hE.1) (not_le.2 (hE.2 C hC.1 h))

section
variable {R : Source}

theorem about_it {A : Arithmetic} {scenes : List (Room R × Command)} {rs : List Result} (hr : List.Forall₂ (fun (m : Room R × Command) r => RightCommand A m.1 m.2 r) scenes rs) :
    AboutIt scenes rs := by
  intro N F s E hs hE
  refine ⟨fun packed out h => ?_, fun es h => ?_, fun q h => ?_⟩
  · obtain ⟨u, hu, C, hC, ht⟩ := foreseen_cheap hr h
    rw [← only_it hu hs hE hC]
    exact ht
  · obtain ⟨k, room, x, t, z, h1, h2, ht, rfl, rfl⟩ := h
    have h3 : RightCommand A room (.act x (.stmt (.decodeToEdgesArray z false))) (.out (.reply (.edges es))) := by
      have h6 := List.forall₂_iff_get.1 hr
      obtain ⟨i1, e1⟩ := List.getElem?_eq_some_iff.1 h1
      obtain ⟨i2, e2⟩ := List.getElem?_eq_some_iff.1 h2
      have := h6.2 k i1 i2
      rw [List.get_eq_getElem, List.get_eq_getElem, e1, e2] at this
      exact this
    simp only [RightCommand, ht] at h3
    obtain ⟨out, e, h3⟩ := h3
    cases e
    obtain ⟨r, e, h3⟩ := h3
    cases e
    rcases h3 with ⟨-, -, u, hu, ρ, C, es', hρ, hC, hl, e⟩ | ⟨e, -⟩
    · cases e
      have hρ : ρ = fun j => t.net.links[j].weight := funext (by simpa [Weighed] using hρ)
      subst hρ
      rw [← only_it hu hs hE hC]
      exact hl
    · cases e
  · obtain ⟨⟨C, h1, h2⟩, h3⟩ := seen_least hr h
    have h4 := h3 E hE.1
    have hs0 : 0 ≤ s := by
      rcases hs with ⟨-, rfl⟩ | ⟨-, m, -, -, rfl⟩
      · exact le_refl _
      · positivity
    have h5 : cost E ≤ cost C := by
      by_cases h : C = E
      · rw [h]
      · have := hE.2 C h1 h
        linarith
    exact abs_le.2 ⟨by linarith, by linarith⟩

/-! ## C97 -/

/-- C97: in every proper program with any number of objects, a unique best explanation is what every method returns. -/
theorem C97_program (A : Arithmetic) (st : R.State) (prog : List Command) (scenes : List (Room R × Command)) (hs : Story A (Room.empty st) prog scenes) :
    ∃ rs w, Completes (fun f => World.run A f (World.empty st) prog) (.ok (rs, w)) ∧ AboutIt scenes rs := by
  obtain ⟨rs, w, h1, h2⟩ := C87_program A st prog scenes hs
  exact ⟨rs, w, h1, about_it h2⟩

/-- C97 for the library as compiled, with its 32-bit wrapped radius. -/
theorem C97_program_int32 (A : Arithmetic) (st : R.State) (prog : List Command) (scenes : List (Room R × Command)) (hs : Story A (Room.empty st) prog scenes)
    (hn : ∀ m ∈ scenes, ∀ x a t, m.2 = .act x a → m.1.things x = some t → AsksLine t.known (m.1.line t a) → t.net.Small) :
    ∃ rs w, Completes (fun f => World.run (W := int32) A f (World.empty st) prog) (.ok (rs, w)) ∧ AboutIt scenes rs := by
  obtain ⟨rs, w, h1, h2⟩ := C87_program_int32 A st prog scenes hs hn
  exact ⟨rs, w, h1, about_it h2⟩

end

/-! ## Example -/

/-- `pairProg` asks one object for prediction and weight, another for the edges. -/
example {R : Source} (st : R.State) : ∃ scenes, Story plain (Room.empty st) pairProg scenes ∧ (∃ rs w, Completes (fun f => World.run plain f (World.empty st) pairProg) (.ok (rs, w)) ∧ AboutIt scenes rs) ∧
    ∃ rs w, Completes (fun f => World.run (W := int32) plain f (World.empty st) pairProg) (.ok (rs, w)) ∧ AboutIt scenes rs := by
  obtain ⟨scenes, h1, h2⟩ := pair_good st fun x t h => by cases h
  exact ⟨scenes, h1, C97_program plain st pairProg scenes h1, C97_program_int32 plain st pairProg scenes h1 fun m hm x a t _ ht _ => .inl (h2 m hm x t ht)⟩

/-- For its syndrome, the link between the two detectors is the only best explanation. -/
example : Off repNet 0 ∧ Only 0 (Fires (.d1 [1, 1])) middle := by
  have key : ∀ C : repNet.Links, degreeAt C 0 % 2 = 1 → degreeAt C 1 % 2 = 1 → C ≠ middle → cost middle + 0 < cost C := by decide +kernel
  refine ⟨.inl ⟨fun w hw => ?_, rfl⟩, middle_explains, fun D hD h => key D ((hD 0 (by simp [repNet])).1 (by simp [Fires])) ((hD 1 (by simp [repNet])).1 (by simp [Fires])) h⟩
  have : ∀ w ∈ repNet.numbers, ((w.num : ℤ) : ℚ) = w := by decide +kernel
  exact ⟨w.num, this w hw⟩

end Verif.Props.Only
