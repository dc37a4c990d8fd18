import Verif.Props.Sum
import Mathlib.Data.Fintype.Powerset

/-!
# C94: below half the distance, predictions in programs are right
-/

namespace Verif.Props.Below

open Verif Verif.SB Verif.UG Verif.Obj Verif.Dbl Verif.ObjD Verif.Session Verif.Sim Verif.World
open Verif.Props.Session Verif.Props.Simulate Verif.Props.World Verif.Props.Laws Verif.Props.Sum
open Verif.Props.Edges (Completes)
open Verif.Sch (Res)

/-! ## Specification -/

/-- What the command gives contains the row `out` of predictions for network `N` and detection events `F`, without correlations: `decode` or a shot of `decode_batch`, with or without weights, or `decode` of a sample;
`packed`: eight fault ids in a byte. -/
inductive Predicts {R : Source} (room : Room R) : Command → Result → Net → (Nat → Prop) → Bool → List (BitVec 8) → Prop
  | decode {x : Nat} {t : Thing} {z : Syn.Arr} {out : List (BitVec 8)} : room.things x = some t →
      Predicts room (.act x (.stmt (.decode z false false))) (.out (.reply (.array out))) t.net (Fires z) false out
  | weighted {x : Nat} {t : Thing} {z : Syn.Arr} {out : List (BitVec 8)} {w : Double} : room.things x = some t →
      Predicts room (.act x (.stmt (.decode z true false))) (.out (.reply (.pair out w))) t.net (Fires z) false out
  | shot {x : Nat} {t : Thing} {ps pp : Bool} {cols : Nat} {rows outs : List (List (BitVec 8))} {i : Nat} {row out : List (BitVec 8)} : room.things x = some t → rows[i]? = some row → outs[i]? = some out →
      Predicts room (.act x (.stmt (.decodeBatch ps pp false false cols rows))) (.out (.reply (.rows outs))) t.net (ShotFires ps row) pp out
  | weightedShot {x : Nat} {t : Thing} {ps pp : Bool} {cols : Nat} {rows outs : List (List (BitVec 8))} {ws : List Double} {i : Nat} {row out : List (BitVec 8)} : room.things x = some t →
      rows[i]? = some row → outs[i]? = some out →
      Predicts room (.act x (.stmt (.decodeBatch ps pp true false cols rows))) (.out (.reply (.rowsAndWeights outs ws))) t.net (ShotFires ps row) pp out
  | trial {x : Nat} {t : Thing} {s : Sample} {out : List (BitVec 8)} {w : Double} : room.things x = some t →
      Predicts room (.act x (.trial false)) (.out (.trial s (.pair out w))) t.net (Flips t.net (stream R room.state)) false out

/-- Every prediction is right for errors below half the distance: if every set of links that flips no detector but some fault id costs at least `d`, and the links `E` are behind the events and cost
less than half of that, the row tells the fault ids of `E`.  `s` as in C88: 0 if all weights are integers. -/
def RightBelow {R : Source} (scenes : List (Room R × Command)) (rs : List Result) : Prop :=
  ∀ (k : Nat) (m : Room R × Command) (r : Result) (N : Net) (F : Nat → Prop) (packed : Bool) (out : List (BitVec 8)) (s d : ℚ) (E : N.Links), scenes[k]? = some m → rs[k]? = some r →
    Predicts m.1 m.2 r N F packed out → Off N s → (∀ l ∈ N.links, 0 ≤ l.weight) → Distance N d → Explained E F → 2 * cost E + s < d → TellsIn packed E out

/-! ## Lemmas -/

section
variable {N : Net}

/-- Links with the same parity of each fault id are told by the same row. -/
theorem tells_same {C E : N.Links} (h : ∀ k, k < N.ids → count C k % 2 = count E k % 2) {packed : Bool} {out : List (BitVec 8)} (ht : TellsIn packed C out) : TellsIn packed E out := by
  unfold TellsIn Tells at ht ⊢
  cases packed with
  | false =>
    simp only [Bool.false_eq_true, if_false] at ht ⊢
    exact ⟨ht.1, fun k hk => by rw [ht.2 k hk, h k hk]⟩
  | true =>
    simp only [if_true] at ht ⊢
    refine ⟨ht.1, fun k hk => ?_⟩
    obtain ⟨b, h1, h2⟩ := ht.2 k hk
    refine ⟨b, h1, h2.trans (and_congr_right fun hk => by rw [h k hk])⟩

theorem below {F : Nat → Prop} {u s d : ℚ} {C E : N.Links} (hu : StepOf N u) (hs : Off N s) (hw : ∀ l ∈ N.links, 0 ≤ l.weight) (hd : Distance N d) (hC : Cheap u F C) (hE : Explained E F)
    (h : 2 * cost E + s < d) {packed : Bool} {out : List (BitVec 8)} (ht : TellsIn packed C out) : TellsIn packed E out := by
  refine tells_same (fun k hk => ?_) ht
  by_contra hne
  have h1 := cheap_off hu hC hs E hE
  have h2 : Unseen (symmDiff C E) := fun x hx => by
    have e1 := hC.1 x hx
    have e2 := hE x hx
    have e3 : degreeAt C x % 2 = 1 ↔ degreeAt E x % 2 = 1 := e1.symm.trans e2
    rw [degree_apart]
    omega
  have h3 : Harmful (symmDiff C E) := ⟨k, hk, by rw [count_apart]; omega⟩
  have h4 := hd _ h2 h3
  have hsum := RoundTrip.sum_symmDiff (fun i : Fin N.links.length => N.links[i].weight) C E
  have hin : 0 ≤ ∑ i ∈ C ∩ E, N.links[i].weight := Finset.sum_nonneg fun i _ => hw _ (List.getElem_mem _)
  unfold cost at h1 h4 h
  linarith

end

section
variable {R : Source}

/-- Behind each prediction there is a cheap explanation. -/
theorem predicts_cheap {A : Arithmetic} {room : Room R} {c : Command} {r : Result} {N : Net} {F : Nat → Prop} {packed : Bool} {out : List (BitVec 8)} (hr : RightCommand A room c r)
    (h : Predicts room c r N F packed out) : ∃ u, StepOf N u ∧ ∃ C : N.Links, Cheap u F C ∧ TellsIn packed C out := by
  have plainly : ∀ {u : ℚ} {ρ : Fin N.links.length → ℚ} {C : N.Links}, Weighed u F false ρ → CheapFor u ρ F C → Cheap u F C := by
    intro u ρ C hρ hC
    have : ρ = fun j => N.links[j].weight := funext (by simpa [Weighed] using hρ)
    subst this
    exact hC
  cases h with
  | decode ht =>
    simp only [RightCommand, ht] at hr
    obtain ⟨_, e, hr⟩ := hr
    cases e
    obtain ⟨r, e, hr⟩ := hr
    cases e
    rcases hr with ⟨-, -, u, hu, ρ, C, row, x, h1, h2, h3, h4, e⟩ | ⟨e, -⟩
    · cases e
      exact ⟨u, hu, C, plainly h1 h2, h3⟩
    · cases e
  | weighted ht =>
    simp only [RightCommand, ht] at hr
    obtain ⟨_, e, hr⟩ := hr
    cases e
    obtain ⟨r, e, hr⟩ := hr
    cases e
    rcases hr with ⟨-, -, u, hu, ρ, C, row, x, h1, h2, h3, h4, e⟩ | ⟨e, -⟩
    · cases e
      exact ⟨u, hu, C, plainly h1 h2, h3⟩
    · cases e
  | @shot x t ps pp cols rows outs i row out ht hi ho =>
    simp only [RightCommand, ht] at hr
    obtain ⟨_, e, hr⟩ := hr
    cases e
    obtain ⟨r, e, hr⟩ := hr
    cases e
    rcases hr with ⟨-, -, u, hu, outs', ws', l1, l2, h1, e⟩ | ⟨e, -⟩
    · cases e
      obtain ⟨i1, rfl⟩ := List.getElem?_eq_some_iff.1 hi
      obtain ⟨i2, rfl⟩ := List.getElem?_eq_some_iff.1 ho
      have h3 := (List.forall₂_iff_get.1 h1).2 i i1 (by rw [List.length_zip]; omega)
      simp only [List.get_eq_getElem, List.getElem_zip] at h3
      obtain ⟨ρ, C, h3, h4, h5, -⟩ := h3
      exact ⟨u, hu, C, plainly h3 h4, h5⟩
    · cases e
  | @weightedShot x t ps pp cols rows outs ws i row out ht hi ho =>
    simp only [RightCommand, ht] at hr
    obtain ⟨_, e, hr⟩ := hr
    cases e
    obtain ⟨r, e, hr⟩ := hr
    cases e
    rcases hr with ⟨-, -, u, hu, outs', ws', l1, l2, h1, e⟩ | ⟨e, -⟩
    · cases e
      obtain ⟨i1, rfl⟩ := List.getElem?_eq_some_iff.1 hi
      obtain ⟨i2, rfl⟩ := List.getElem?_eq_some_iff.1 ho
      have h3 := (List.forall₂_iff_get.1 h1).2 i i1 (by rw [List.length_zip]; omega)
      simp only [List.get_eq_getElem, List.getElem_zip] at h3
      obtain ⟨ρ, C, h3, h4, h5, -⟩ := h3
      exact ⟨u, hu, C, plainly h3 h4, h5⟩
    · cases e
  | trial ht =>
    simp only [RightCommand, ht] at hr
    obtain ⟨_, e, hr⟩ := hr
    cases e
    rcases hr with ⟨-, s', r, -, e, hr⟩ | ⟨-, e⟩
    · cases e
      rw [if_neg (by simp)] at hr
      obtain ⟨u, hu, ρ, C, row, x, h1, h2, h3, e⟩ := hr
      cases e
      exact ⟨u, hu, C, plainly h1 h2.1, h2.2.1⟩
    · cases e

theorem right_below {A : Arithmetic} {scenes : List (Room R × Command)} {rs : List Result} (hr : List.Forall₂ (fun (m : Room R × Command) r => RightCommand A m.1 m.2 r) scenes rs) :
    RightBelow scenes rs := by
  intro k m r N F packed out s d E h1 h2 h3 hs hw hd hE h
  have h4 : RightCommand A m.1 m.2 r := by
    have h6 := List.forall₂_iff_get.1 hr
    obtain ⟨i1, e1⟩ := List.getElem?_eq_some_iff.1 h1
    obtain ⟨i2, e2⟩ := List.getElem?_eq_some_iff.1 h2
    have := h6.2 k i1 i2
    rw [List.get_eq_getElem, List.get_eq_getElem, e1, e2] at this
    exact this
  obtain ⟨u, hu, C, hC, ht⟩ := predicts_cheap h4 h3
  exact below hu hs hw hd hC hE h ht

/-! ## C94 -/

/-- C94: in every proper program with any number of objects, the predictions for errors below half the distance are right. -/
theorem C94_program (A : Arithmetic) (st : R.State) (prog : List Command) (scenes : List (Room R × Command)) (hs : Story A (Room.empty st) prog scenes) :
    ∃ rs w, Completes (fun f => World.run A f (World.empty st) prog) (.ok (rs, w)) ∧ RightBelow scenes rs := by
  obtain ⟨rs, w, h1, h2⟩ := C87_program A st prog scenes hs
  exact ⟨rs, w, h1, right_below h2⟩

/-- C94 for the library as compiled, with its 32-bit wrapped radius. -/
theorem C94_program_int32 (A : Arithmetic) (st : R.State) (prog : List Command) (scenes : List (Room R × Command)) (hs : Story A (Room.empty st) prog scenes)
    (hn : ∀ m ∈ scenes, ∀ x a t, m.2 = .act x a → m.1.things x = some t → AsksLine t.known (m.1.line t a) → t.net.Small) :
    ∃ rs w, Completes (fun f => World.run (W := int32) A f (World.empty st) prog) (.ok (rs, w)) ∧ RightBelow scenes rs := by
  obtain ⟨rs, w, h1, h2⟩ := C87_program_int32 A st prog scenes hs hn
  exact ⟨rs, w, h1, right_below h2⟩

end

/-! ## Example -/

example {R : Source} (st : R.State) : ∃ scenes, Story plain (Room.empty st) pairProg scenes ∧ (∃ rs w, Completes (fun f => World.run plain f (World.empty st) pairProg) (.ok (rs, w)) ∧ RightBelow scenes rs) ∧
    ∃ rs w, Completes (fun f => World.run (W := int32) plain f (World.empty st) pairProg) (.ok (rs, w)) ∧ RightBelow scenes rs := by
  obtain ⟨scenes, h1, h2⟩ := pair_good st fun x t h => by cases h
  exact ⟨scenes, h1, C94_program plain st pairProg scenes h1, C94_program_int32 plain st pairProg scenes h1 fun m hm x a t _ ht _ => .inl (h2 m hm x t ht)⟩

/-- The repetition code of this program has distance 3, and the link between its two detectors alone is behind their events. -/
example : Distance repNet 3 ∧ ∃ E : repNet.Links, Explained E (Fires (.d1 [1, 1])) ∧ 2 * cost E + 0 < 3 ∧ count E 1 = 1 := by
  have hdeg : ∀ (C : Finset (Fin 3)) (x : Nat), 2 ≤ x → degreeAt (N := repNet) C x = 0 := by
    intro C x hx
    refine Finset.sum_eq_zero fun i _ => ?_
    have : ∀ i : Fin 3, (repNet.links[i]'i.2).a < 2 ∧ ∀ v, (repNet.links[i]'i.2).b = some v → v < 2 := by decide
    obtain ⟨h1, h2⟩ := this i
    rw [if_neg (by omega), if_neg fun h => by have := h2 x h; omega, Nat.add_zero]
  refine ⟨?_, ({1} : Finset (Fin 3)), ?_, by decide +kernel, by decide +kernel⟩
  · have key : ∀ D : repNet.Links, degreeAt D 0 % 2 = 0 → degreeAt D 1 % 2 = 0 → (∃ k, k < 3 ∧ count D k % 2 = 1) → 3 ≤ cost D := by decide +kernel
    exact fun D hD hH => key D (hD 0 (by simp [repNet])) (hD 1 (by simp [repNet])) hH
  · intro x _
    rcases x with _ | _ | x
    · simp only [Fires]; decide +kernel
    · simp only [Fires]; decide +kernel
    · rw [hdeg _ _ (by omega)]
      simp [Fires]

end Verif.Props.Below
