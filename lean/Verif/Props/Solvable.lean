import Verif.Props.World
import Mathlib.Data.ZMod.Basic

/-!
# C90: when decoding raises
-/

namespace Verif.Props.Solvable

open Verif Verif.SB Verif.UG Verif.Obj Verif.Dbl Verif.ObjD Verif.Session Verif.Sim Verif.World
open Verif.Props.Session Verif.Props.Simulate Verif.Props.World
open Verif.Props.Edges (Completes)
open Verif.Sch (Res)

/-! ## Specification -/

/-- No link leaves the group of nodes, to a node outside or to the boundary. -/
def Sealed (N : Net) (S : Finset Nat) : Prop := (∀ x ∈ S, x ∉ N.boundary) ∧ ∀ l ∈ N.links, l.a ∈ S ↔ ∃ v ∈ S, l.b = some v

/-- A group that no link leaves has an odd number of events. -/
def OddGroup (N : Net) (fires : Nat → Prop) : Prop := ∃ S, Sealed N S ∧ {x | x ∈ S ∧ fires x}.ncard % 2 = 1

/-- The question has no answer: the array does not fit, or an odd group is left. -/
def Refuses (N : Net) : Stmt → Prop
  | .decode z _ _ => ¬ Shaped N z ∨ OddGroup N (Fires z)
  | .decodeToEdgesArray z _ => ¬ Shaped N z ∨ OddGroup N (Fires z)
  | .decodeBatch ps _ _ _ cols rows => ¬ ShotsShaped N ps cols ∨ ∃ row ∈ rows, OddGroup N (ShotFires ps row)
  | .matchedArray z => ¬ Shaped N z ∨ OddGroup N (Fires z)
  | .matchedDict z => ¬ Shaped N z ∨ OddGroup N (Fires z)
  | _ => False

/-- The questions for which it is known: those with correlations, if the object can do that; those for matched pairs, if no weight is negative. -/
def Plain (without : Bool) (N : Net) : Stmt → Prop
  | .decode _ _ corr => ¬ (corr = true ∧ without = true)
  | .decodeToEdgesArray _ corr => ¬ (corr = true ∧ without = true)
  | .decodeBatch _ _ _ corr _ _ => ¬ (corr = true ∧ without = true)
  | .matchedArray _ => ∀ l ∈ N.links, 0 ≤ l.weight
  | .matchedDict _ => ∀ l ∈ N.links, 0 ≤ l.weight
  | _ => False

/-- Every question in the run raises an exception exactly if it has no answer. -/
def RaisesRightly {R : Source} (scenes : List (Room R × Command)) (rs : List Result) : Prop :=
  ∀ (k : Nat) (room : Room R) (x : Nat) (t : Thing) (s : Stmt) (r : Result), scenes[k]? = some (room, .act x (.stmt s)) → room.things x = some t → Plain t.without t.net s → rs[k]? = some r →
    (r = .out (.reply .raised) ↔ Refuses t.net s)

/-- From every node one gets to the boundary along links. -/
inductive Reaches (N : Net) : Nat → Prop
  | node {x : Nat} : x ∈ N.boundary → Reaches N x
  | out {x : Nat} {l : Link} : l ∈ N.links → l.a = x → l.b = none → Reaches N x
  | step {x y : Nat} {l : Link} : l ∈ N.links → (l.a = x ∧ l.b = some y) ∨ (l.a = y ∧ l.b = some x) → Reaches N y → Reaches N x

/-! ## Lemmas: a system of equations -/

theorem sum_symmDiff (S T : Finset Nat) (f : Nat → ZMod 2) : ∑ x ∈ symmDiff S T, f x = ∑ x ∈ S, f x + ∑ x ∈ T, f x := by
  classical
  have h : ∀ U : Finset Nat, U ⊆ S ∪ T → ∑ x ∈ U, f x = ∑ x ∈ S ∪ T, if x ∈ U then f x else 0 := by
    intro U hU
    rw [← Finset.sum_filter, Finset.filter_mem_eq_inter, Finset.inter_eq_right.2 hU]
  rw [h S Finset.subset_union_left, h T Finset.subset_union_right, h _ (by
    intro x hx
    rw [Finset.mem_symmDiff] at hx
    rw [Finset.mem_union]
    tauto), ← Finset.sum_add_distrib]
  refine Finset.sum_congr rfl fun x _ => ?_
  have h2 : f x + f x = 0 := CharTwo.add_self_eq_zero _
  by_cases h1 : x ∈ S <;> by_cases h2' : x ∈ T <;> simp [Finset.mem_symmDiff, h1, h2', h2]

/-- A vector that is even on all sets on which the given vectors are even is a sum of some of them. -/
theorem solve {ι : Type} [DecidableEq ι] (t : ι → Nat → ZMod 2) (B : Nat → Prop) (I : Finset ι) : ∀ f : Nat → ZMod 2,
    (∀ S : Finset Nat, (∀ x ∈ S, ¬ B x) → (∀ i ∈ I, ∑ x ∈ S, t i x = 0) → ∑ x ∈ S, f x = 0) → ∃ C ⊆ I, ∀ x, ¬ B x → f x = ∑ i ∈ C, t i x := by
  induction I using Finset.induction_on with
  | empty =>
    intro f h
    refine ⟨∅, Finset.Subset.refl _, fun x hx => ?_⟩
    have := h {x} (by simpa using hx) (by simp)
    simpa using this
  | insert l I hl ih =>
    intro f h
    by_cases hf : ∀ S : Finset Nat, (∀ x ∈ S, ¬ B x) → (∀ i ∈ I, ∑ x ∈ S, t i x = 0) → ∑ x ∈ S, f x = 0
    · obtain ⟨C, h1, h2⟩ := ih f hf
      exact ⟨C, h1.trans (Finset.subset_insert _ _), h2⟩
    · push Not at hf
      obtain ⟨S0, b0, e0, o0⟩ := hf
      have two : ∀ z : ZMod 2, z ≠ 0 → z = 1 := by decide
      have ho := two _ o0
      have hl0 : ∑ x ∈ S0, t l x = 1 := two _ fun e => o0 (h S0 b0 (by
        intro i hi
        rcases Finset.mem_insert.1 hi with rfl | hi
        · exact e
        · exact e0 i hi))
      obtain ⟨C, h1, h2⟩ := ih (fun x => f x + t l x) (by
        intro S hb he
        rw [Finset.sum_add_distrib]
        by_cases hs : ∑ x ∈ S, t l x = 0
        · rw [hs, add_zero]
          refine h S hb fun i hi => ?_
          rcases Finset.mem_insert.1 hi with rfl | hi
          · exact hs
          · exact he i hi
        · have hs := two _ hs
          have := h (symmDiff S S0) (by
            intro x hx
            rcases Finset.mem_symmDiff.1 hx with ⟨hx, -⟩ | ⟨hx, -⟩
            · exact hb x hx
            · exact b0 x hx) (by
            intro i hi
            rw [sum_symmDiff]
            rcases Finset.mem_insert.1 hi with rfl | hi
            · rw [hs, hl0]; decide
            · rw [he i hi, e0 i hi, add_zero])
          rw [sum_symmDiff, ho] at this
          rw [hs, this])
      refine ⟨insert l C, Finset.insert_subset_insert _ h1, fun x hx => ?_⟩
      rw [Finset.sum_insert fun hm => hl (h1 hm), ← h2 x hx]
      have : t l x + t l x = 0 := CharTwo.add_self_eq_zero _
      rw [add_comm (f x), ← add_assoc, this, zero_add]

/-! ## Lemmas: networks -/

variable {N : Net} {F : Nat → Prop}

/-- How often link `i` ends at `x`. -/
def toggles (N : Net) (i : Fin N.links.length) (x : Nat) : ZMod 2 := (if N.links[i].a = x then 1 else 0) + (if N.links[i].b = some x then 1 else 0)

open Classical in
/-- The events. -/
noncomputable def eventsOf (F : Nat → Prop) (x : Nat) : ZMod 2 := if F x then 1 else 0

theorem degree_cast (C : N.Links) (x : Nat) : ((degreeAt C x : Nat) : ZMod 2) = ∑ i ∈ C, toggles N i x := by
  unfold degreeAt toggles
  push_cast
  rfl

theorem odd_cast (n : Nat) : ((n : Nat) : ZMod 2) = if n % 2 = 1 then 1 else 0 := by
  by_cases h : n % 2 = 1
  · rw [if_pos h, ← ZMod.natCast_mod n 2, h]; rfl
  · rw [if_neg h, ← ZMod.natCast_mod n 2, show n % 2 = 0 by omega]; rfl

theorem explained_iff (C : N.Links) : Explained C F ↔ ∀ x, ¬ x ∈ N.boundary → eventsOf F x = ∑ i ∈ C, toggles N i x := by
  refine forall_congr' fun x => imp_congr_right fun _ => ?_
  rw [← degree_cast, odd_cast, eventsOf]
  by_cases h1 : F x <;> by_cases h2 : degreeAt C x % 2 = 1 <;> simp [h1, h2]

theorem toggles_sum (i : Fin N.links.length) (S : Finset Nat) :
    ∑ x ∈ S, toggles N i x = (if N.links[i].a ∈ S then 1 else 0) + (if ∃ v ∈ S, N.links[i].b = some v then 1 else 0) := by
  unfold toggles
  rw [Finset.sum_add_distrib, Finset.sum_ite_eq]
  congr 1
  cases h : N.links[i].b with
  | none => simp
  | some v => simp

theorem sealed_iff (S : Finset Nat) : Sealed N S ↔ (∀ x ∈ S, ¬ x ∈ N.boundary) ∧ ∀ i ∈ (Finset.univ : N.Links), ∑ x ∈ S, toggles N i x = 0 := by
  refine and_congr_right fun _ => ?_
  constructor
  · intro h i _
    rw [toggles_sum]
    have := h N.links[i] (List.getElem_mem _)
    by_cases h1 : N.links[i].a ∈ S
    · rw [if_pos h1, if_pos (this.1 h1)]; rfl
    · rw [if_neg h1, if_neg fun h2 => h1 (this.2 h2), add_zero]
  · intro h l hl
    obtain ⟨i, hi, rfl⟩ := List.getElem_of_mem hl
    have := h ⟨i, hi⟩ (Finset.mem_univ _)
    rw [toggles_sum] at this
    by_cases h1 : N.links[i].a ∈ S <;> by_cases h2 : ∃ v ∈ S, N.links[i].b = some v <;> simp_all

theorem count_cast (S : Finset Nat) : (({x | x ∈ S ∧ F x}.ncard : Nat) : ZMod 2) = ∑ x ∈ S, eventsOf F x := by
  classical
  have : {x | x ∈ S ∧ F x} = ((S.filter F : Finset Nat) : Set Nat) := by ext x; simp
  rw [this, Set.ncard_coe_finset, Finset.card_filter]
  push_cast
  exact Finset.sum_congr rfl fun x _ => by unfold eventsOf; congr

/-! ## C90 -/

/-- Events have an explanation iff no group that no link leaves has an odd number of them. -/
theorem C90_solvable (N : Net) (F : Nat → Prop) : (∃ C : N.Links, Explained C F) ↔ ¬ OddGroup N F := by
  have odd : ∀ S, {x | x ∈ S ∧ F x}.ncard % 2 = 1 ↔ ¬ ∑ x ∈ S, eventsOf F x = 0 := by
    intro S
    rw [← count_cast, odd_cast]
    split <;> simp_all
  constructor
  · rintro ⟨C, hC⟩ ⟨S, hS, ho⟩
    rw [odd] at ho
    rw [sealed_iff] at hS
    rw [explained_iff] at hC
    apply ho
    rw [Finset.sum_congr rfl fun x hx => hC x (hS.1 x hx), Finset.sum_comm]
    exact Finset.sum_eq_zero fun i _ => hS.2 i (Finset.mem_univ _)
  · intro h
    obtain ⟨C, -, hC⟩ := solve (toggles N) (· ∈ N.boundary) Finset.univ (eventsOf F) (by
      intro S h1 h2
      by_contra h3
      exact h ⟨S, (sealed_iff S).2 ⟨h1, h2⟩, (odd S).2 h3⟩)
    exact ⟨C, (explained_iff C).2 hC⟩

theorem unsolvable (h : ∀ C : N.Links, ¬ Explained C F) : OddGroup N F := by
  by_contra h'
  obtain ⟨C, hC⟩ := (C90_solvable N F).2 h'
  exact h C hC

theorem solvable {C : N.Links} (h : Explained C F) : ¬ OddGroup N F := (C90_solvable N F).1 ⟨C, h⟩

theorem right_refuses {mergeW : ℚ → ℚ → ℚ} {without : Bool} {s : Stmt} {r : Reply} (hp : Plain without N s) (h : Right mergeW without N s r) : r = .raised ↔ Refuses N s := by
  cases s with
  | decode z rw corr =>
    rcases h with ⟨h1, -, u, hu, ρ, C, row, x, h2, h3, -, -, rfl⟩ | ⟨rfl, h⟩
    · refine ⟨fun e => (by split at e <;> cases e), ?_⟩
      rintro (h | h)
      · exact absurd h1 h
      · exact absurd h (solvable h3.1)
    · refine ⟨fun _ => ?_, fun _ => rfl⟩
      by_cases hs : Shaped N z
      · rcases h hs with h | h
        · exact absurd h hp
        · exact .inr (unsolvable h)
      · exact .inl hs
  | decodeToEdgesArray z corr =>
    rcases h with ⟨h1, -, u, hu, ρ, C, es, h2, h3, -, rfl⟩ | ⟨rfl, h⟩
    · refine ⟨fun e => (by cases e), ?_⟩
      rintro (h | h)
      · exact absurd h1 h
      · exact absurd h (solvable h3.1)
    · refine ⟨fun _ => ?_, fun _ => rfl⟩
      by_cases hs : Shaped N z
      · rcases h hs with h | h
        · exact absurd h hp
        · exact .inr (unsolvable h)
      · exact .inl hs
  | decodeBatch ps pp rw corr cols rows =>
    rcases h with ⟨h1, -, u, hu, outs, ws, l1, l2, h2, rfl⟩ | ⟨rfl, h⟩
    · refine ⟨fun e => (by split at e <;> cases e), ?_⟩
      rintro (h | ⟨row, hrow, h⟩)
      · exact absurd h1 h
      · obtain ⟨i, hi, rfl⟩ := List.getElem_of_mem hrow
        have := List.forall₂_iff_get.1 h2
        obtain ⟨ρ, C, -, h3, -⟩ := this.2 i hi (by rw [← this.1]; exact hi)
        exact absurd h (solvable h3.1)
    · refine ⟨fun _ => ?_, fun _ => rfl⟩
      by_cases hs : ShotsShaped N ps cols
      · rcases h hs with h | ⟨row, hrow, h⟩
        · exact absurd h hp
        · exact .inr ⟨row, hrow, unsolvable h⟩
      · exact .inl hs
  | matchedArray z =>
    rcases h with ⟨h1, u, hu, rows, h2, rfl⟩ | ⟨rfl, h⟩
    · refine ⟨fun e => (by cases e), ?_⟩
      rintro (h | h)
      · exact absurd h1 h
      · obtain ⟨D, -, C, hC, -⟩ := h2.each
        exact absurd h (solvable hC.1)
    · refine ⟨fun _ => ?_, fun _ => rfl⟩
      by_cases hs : Shaped N z
      · rcases h hs with ⟨l, hl, hw⟩ | h
        · exact absurd (hp l hl) (not_le.2 hw)
        · exact .inr (unsolvable h)
      · exact .inl hs
  | matchedDict z =>
    rcases h with ⟨h1, u, hu, rows, d, h2, -, rfl⟩ | ⟨rfl, h⟩
    · refine ⟨fun e => (by cases e), ?_⟩
      rintro (h | h)
      · exact absurd h1 h
      · obtain ⟨D, -, C, hC, -⟩ := h2.each
        exact absurd h (solvable hC.1)
    · refine ⟨fun _ => ?_, fun _ => rfl⟩
      by_cases hs : Shaped N z
      · rcases h hs with ⟨l, hl, hw⟩ | h
        · exact absurd (hp l hl) (not_le.2 hw)
        · exact .inr (unsolvable h)
      · exact .inl hs
  | _ => exact hp.elim

theorem raisesRightly_of {R : Source} {A : Arithmetic} {scenes : List (Room R × Command)} {rs : List Result}
    (hr : List.Forall₂ (fun (m : Room R × Command) r => RightCommand A m.1 m.2 r) scenes rs) : RaisesRightly scenes rs := by
  intro k room x t s r h1 ht hp h2
  have h6 := List.forall₂_iff_get.1 hr
  obtain ⟨i1, e1⟩ := List.getElem?_eq_some_iff.1 h1
  obtain ⟨i2, e2⟩ := List.getElem?_eq_some_iff.1 h2
  have := h6.2 k i1 i2
  rw [List.get_eq_getElem, List.get_eq_getElem, e1, e2] at this
  simp only [RightCommand, ht] at this
  obtain ⟨out, rfl, reply, rfl, h⟩ := this
  rw [← right_refuses hp h]
  constructor
  · intro e; cases e; rfl
  · rintro rfl; rfl

/-- C90: in every proper program with any number of objects, a question raises an exception exactly if the array does not fit or a group of detectors that no link leaves has an odd number of events. -/
theorem C90_program {R : Source} (A : Arithmetic) (st : R.State) (prog : List Command) (scenes : List (Room R × Command)) (hs : Story A (Room.empty st) prog scenes) :
    ∃ rs w, Completes (fun f => World.run A f (World.empty st) prog) (.ok (rs, w)) ∧ RaisesRightly scenes rs := by
  obtain ⟨rs, w, h1, h2⟩ := C87_program A st prog scenes hs
  exact ⟨rs, w, h1, raisesRightly_of h2⟩

/-- C90 for the library as compiled, with its 32-bit wrapped radius. -/
theorem C90_program_int32 {R : Source} (A : Arithmetic) (st : R.State) (prog : List Command) (scenes : List (Room R × Command)) (hs : Story A (Room.empty st) prog scenes)
    (hn : ∀ m ∈ scenes, ∀ x a t, m.2 = .act x a → m.1.things x = some t → AsksLine t.known (m.1.line t a) → t.net.Small) :
    ∃ rs w, Completes (fun f => World.run (W := int32) A f (World.empty st) prog) (.ok (rs, w)) ∧ RaisesRightly scenes rs := by
  obtain ⟨rs, w, h1, h2⟩ := C87_program_int32 A st prog scenes hs hn
  exact ⟨rs, w, h1, raisesRightly_of h2⟩

/-- C90: if the boundary can be reached from every event, there is no odd group. -/
theorem C90_reach (N : Net) (F : Nat → Prop) (h : ∀ x, F x → Reaches N x) : ¬ OddGroup N F := by
  rintro ⟨S, ⟨hb, hl⟩, ho⟩
  have key : ∀ x, Reaches N x → x ∉ S := by
    intro x hx
    induction hx with
    | node h => exact fun hs => hb _ hs h
    | out h1 h2 h3 =>
      intro hs
      obtain ⟨v, -, hv⟩ := (hl _ h1).1 (h2 ▸ hs)
      rw [h3] at hv
      cases hv
    | step h1 h2 _ ih =>
      intro hs
      rcases h2 with ⟨h2, h3⟩ | ⟨h2, h3⟩
      · obtain ⟨v, hv, e⟩ := (hl _ h1).1 (h2 ▸ hs)
        rw [h3] at e
        cases e
        exact ih hv
      · exact ih (h2 ▸ (hl _ h1).2 ⟨_, hs, h3⟩)
  have : {x | x ∈ S ∧ F x} = ∅ := by
    ext x
    simp only [Set.mem_ofPred_eq, Set.mem_empty_iff_false, iff_false]
    rintro ⟨h1, h2⟩
    exact key x (h x h2) h1
  rw [this, Set.ncard_empty] at ho
  cases ho

/-- C90: whether there is an odd group does not depend on weights, fault ids, probabilities and rules, or on the order and direction of the links. -/
theorem C90_weights (N N' : Net) (F : Nat → Prop) (hb : N'.boundary = N.boundary) (hl : ∀ e : Sym2 (Option Nat), e ∈ N.links.map (fun l => s(some l.a, l.b)) ↔ e ∈ N'.links.map (fun l => s(some l.a, l.b))) :
    OddGroup N F ↔ OddGroup N' F := by
  have one : ∀ (S : Finset Nat) (l l' : Link), s(some l.a, l.b) = s(some l'.a, l'.b) → ((l.a ∈ S ↔ ∃ v ∈ S, l.b = some v) ↔ (l'.a ∈ S ↔ ∃ v ∈ S, l'.b = some v)) := by
    intro S l l' h
    rcases Sym2.eq_iff.1 h with ⟨h1, h2⟩ | ⟨h1, h2⟩
    · rw [Option.some.injEq] at h1
      rw [h1, h2]
    · rw [← h1, h2]
      simp only [Option.some.injEq, exists_eq_right']
      tauto
  have all : ∀ (N N' : Net), N'.boundary = N.boundary → (∀ e : Sym2 (Option Nat), e ∈ N'.links.map (fun l => s(some l.a, l.b)) → e ∈ N.links.map (fun l => s(some l.a, l.b))) → OddGroup N F → OddGroup N' F := by
    rintro N N' hb hl ⟨S, ⟨h1, h2⟩, ho⟩
    refine ⟨S, ⟨fun x hx => hb ▸ h1 x hx, fun l hm => ?_⟩, ho⟩
    obtain ⟨l', hl', e⟩ := List.mem_map.1 (hl _ (List.mem_map_of_mem hm))
    exact (one S l' l e).1 (h2 l' hl')
  exact ⟨all N N' hb fun e => (hl e).2, all N' N hb.symm fun e => (hl e).1⟩

/-! ## Examples -/

/-- Two detectors with a link between them, and two with a way to the boundary. -/
def islands : Net := ⟨4, [⟨0, some 1, {0}, 3, -1, ∅⟩, ⟨2, some 3, ∅, 7, -1, ∅⟩, ⟨3, none, {1}, -4, -1, ∅⟩], ∅, 2⟩

/-- The first two are a sealed group; one event there has no explanation, two events have; events at the others always have one. -/
example : Sealed islands {0, 1} ∧ OddGroup islands (fun x => x = 0 ∨ x = 2) ∧ ¬ OddGroup islands (fun x => x = 0 ∨ x = 1 ∨ x = 2) ∧ ¬ OddGroup islands (fun x => x = 2) := by
  have hs : Sealed islands {0, 1} := ⟨by simp [islands], by simp [islands]⟩
  refine ⟨hs, ⟨_, hs, ?_⟩, ?_, ?_⟩
  · have : {x | x ∈ ({0, 1} : Finset Nat) ∧ (x = 0 ∨ x = 2)} = {0} := by
      ext x
      simp
      omega
    rw [this, Set.ncard_singleton]
  · rw [← C90_solvable]
    refine ⟨(Finset.univ : islands.Links), fun x _ => ?_⟩
    have : degreeAt (Finset.univ : islands.Links) x =
        ((if 0 = x then 1 else 0) + (if some 1 = some x then 1 else 0)) + ((if 2 = x then 1 else 0) + (if some 3 = some x then 1 else 0)) + ((if 3 = x then 1 else 0) + 0) :=
      (Fin.sum_univ_three (M := Nat) _).trans rfl
    rw [this]
    rcases x with _ | _ | _ | _ | x <;> simp
  · refine C90_reach _ _ fun x hx => ?_
    subst hx
    exact .step (y := 3) (l := ⟨2, some 3, ∅, 7, -1, ∅⟩) (by simp [islands]) (.inl ⟨rfl, rfl⟩) (.out (l := ⟨3, none, {1}, -4, -1, ∅⟩) (by simp [islands]) rfl rfl)

/-- The same links with other weights and in another order. -/
example : OddGroup islands (fun x => x = 0) ↔ OddGroup ⟨4, [⟨3, some 2, ∅, 1, -1, ∅⟩, ⟨3, none, {7}, 2, -1, ∅⟩, ⟨1, some 0, ∅, 0, -1, ∅⟩], ∅, 8⟩ (fun x => x = 0) :=
  C90_weights _ _ _ rfl fun e => by
    simp only [islands, List.map_cons, List.map_nil, List.mem_cons, List.not_mem_nil, or_false, Sym2.eq_swap (a := some 3) (b := some 2), Sym2.eq_swap (a := some 1) (b := some 0)]
    tauto

/-- An edge between two detectors, and questions about one event and about two. -/
def asking : List Command := [
  .make 0 (.matrix {}),
  .act 0 (.stmt (.addEdge 0 1 { prob := some (1 / 8) })),
  .act 0 (.stmt (.decode (.d1 [1, 0]) true false)),
  .act 0 (.stmt (.decode (.d1 [1, 1]) true false))]

def edgeNet : Net := ⟨2, [⟨0, some 1, ∅, 1, 1 / 8, ∅⟩], ∅, 0⟩

theorem edge_fine : edgeNet.Fine := fine_of (by decide +kernel) (by decide +kernel) (by decide +kernel) (by decide +kernel) (by decide +kernel) (by decide +kernel) (by decide +kernel)

theorem asking_good {R : Source} (st : R.State) : Good plain (Room.empty st) asking := by
  refine good_make (.inl ⟨rfl, rfl, rfl⟩) (by decide) ?_
  refine good_act (t := ⟨Net.empty, false, True, False⟩) (N' := edgeNet) (by simp) trivial (fun h => by cases h) (show (Net.empty.after plain.mergeW (.addEdge 0 1 { prob := some (1 / 8) })).1 = edgeNet by decide +kernel) (by decide +kernel) (by decide) fun _ _ => ?_
  refine good_act (N' := edgeNet) (by simp; rfl) trivial (ready_plain edge_fine) rfl (by decide +kernel) (by decide) fun _ _ => ?_
  exact good_act (N' := edgeNet) (by simp; rfl) trivial (ready_plain edge_fine) rfl (by decide +kernel) (by decide) fun _ _ _ => ⟨[], rfl, fun m hm => by cases hm⟩

/-- Its story exists, and its questions raise rightly: the first raises, the second does not. -/
example {R : Source} (st : R.State) : (∃ scenes, Story plain (Room.empty st) asking scenes ∧ (∃ rs w, Completes (fun f => World.run plain f (World.empty st) asking) (.ok (rs, w)) ∧ RaisesRightly scenes rs) ∧
      ∃ rs w, Completes (fun f => World.run (W := int32) plain f (World.empty st) asking) (.ok (rs, w)) ∧ RaisesRightly scenes rs) ∧
    Refuses edgeNet (.decode (.d1 [1, 0]) true false) ∧ ¬ Refuses edgeNet (.decode (.d1 [1, 1]) true false) := by
  obtain ⟨scenes, h1, h2⟩ := asking_good st fun x t h => by cases h
  refine ⟨⟨scenes, h1, C90_program plain st asking scenes h1, C90_program_int32 plain st asking scenes h1 fun m hm x a t _ ht _ => .inl (h2 m hm x t ht)⟩, ?_, ?_⟩
  · refine .inr ⟨{0, 1}, ⟨by simp [edgeNet], by simp [edgeNet]⟩, ?_⟩
    have : {x | x ∈ ({0, 1} : Finset Nat) ∧ Fires (.d1 [1, 0]) x} = {0} := by
      ext x
      rcases x with _ | _ | x <;> simp [Fires]
    rw [this, Set.ncard_singleton]
  · rintro (h | h)
    · exact h ⟨by decide, by decide⟩
    · refine (C90_solvable _ _).1 ⟨(Finset.univ : edgeNet.Links), fun x _ => ?_⟩ h
      have : degreeAt (Finset.univ : edgeNet.Links) x = (if 0 = x then 1 else 0) + (if some 1 = some x then 1 else 0) := (Fin.sum_univ_one (M := Nat) _).trans rfl
      rw [this]
      rcases x with _ | _ | x <;> simp [Fires]

end Verif.Props.Solvable
