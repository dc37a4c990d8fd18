import Verif.Props.Session
import Mathlib.Data.Fintype.Powerset

/-!
# C89: `decode` and `decode_to_edges_array` for the same syndrome

The two calls need not describe the same correction: where several corrections are cheapest, one call may take one of them and the other call another.
-/

namespace Verif.Props.Agree

open Verif Verif.SB Verif.Props.Session
open Verif.Props.Edges (Completes)
open Verif.Session (Stmt Reply run)
open Verif.Sch (Res)

/-! ## Specification -/

/-- One set of links is listed by `es` and has the fault ids that `row` tells. -/
def Agree (N : Net) (row : List (BitVec 8)) (es : List (Nat × Option Nat)) : Prop := ∃ C : N.Links, Lists es C ∧ Tells C row

/-- `decode(z)` and `decode_to_edges_array(z)`, asked anywhere in the program while the network is the same, agree if both give an answer. -/
def Agreeing (moments : List (Net × Stmt)) (replies : List Reply) (when : Net → (Nat → Prop) → Prop) : Prop :=
  ∀ (i j : Nat) (N : Net) (z : Syn.Arr) (row : List (BitVec 8)) (es : List (Nat × Option Nat)), moments[i]? = some (N, .decode z false false) → moments[j]? = some (N, .decodeToEdgesArray z false) →
    replies[i]? = some (.array row) → replies[j]? = some (.edges es) → when N (Fires z) → Agree N row es

/-- What one would expect of every program. -/
def C89_statement : Prop :=
  ∀ (mergeW : ℚ → ℚ → ℚ) (prog : List Stmt), ProperProgram mergeW Net.empty False prog →
    ∀ f replies o, run mergeW f Session.new prog = some (.ok (replies, o)) → Agreeing (moments mergeW Net.empty prog) replies fun _ _ => True

/-- All cheap explanations of the events have the same fault ids. -/
def Decided (N : Net) (fires : Nat → Prop) : Prop :=
  ∀ u, StepOf N u → ∀ C C' : N.Links, Cheap u fires C → Cheap u fires C' → ∀ k, k < N.ids → count C k % 2 = count C' k % 2

/-! ## A square -/

/-- Four edges of weight 1 in a circle, the first with fault id 0; events at two opposite corners. -/
def squareProg : List Stmt := [
  .addEdge 0 1 { faultIds := .int 0 }, .addEdge 1 2 { }, .addEdge 2 3 { }, .addEdge 3 0 { },
  .decode (.d1 [1, 0, 1, 0]) false false, .decodeToEdgesArray (.d1 [1, 0, 1, 0]) false]

def square : Net := ⟨4, [⟨0, some 1, {0}, 1, -1, ∅⟩, ⟨1, some 2, ∅, 1, -1, ∅⟩, ⟨2, some 3, ∅, 1, -1, ∅⟩, ⟨3, some 0, ∅, 1, -1, ∅⟩], ∅, 1⟩

theorem square_fine : square.Fine := fine_of (by decide +kernel) (by decide +kernel) (by decide +kernel) (by decide +kernel) (by decide +kernel) (by decide +kernel) (by decide +kernel)

theorem square_proper : ProperProgram (fun a _ => a) Net.empty False squareProg := by
  refine proper_step (N' := ⟨2, square.links.take 1, ∅, 1⟩) (by decide +kernel) (fun h => by cases h) fun _ => ?_
  refine proper_step (N' := ⟨3, square.links.take 2, ∅, 1⟩) (by decide +kernel) (fun h => by cases h) fun _ => ?_
  refine proper_step (N' := ⟨4, square.links.take 3, ∅, 1⟩) (by decide +kernel) (fun h => by cases h) fun _ => ?_
  refine proper_step (N' := square) (by decide +kernel) (fun h => by cases h) fun _ => ?_
  refine proper_step (N' := square) rfl (ready_plain square_fine) fun _ => ?_
  exact proper_step (N' := square) rfl (ready_plain square_fine) fun _ => trivial

/-- The two answers at the end of the program. -/
def answers : Option (Res (List Reply × ObjD.ObjectD)) → Option (List (BitVec 8) × List (Nat × Option Nat))
  | some (.ok ([_, _, _, _, .array row, .edges es], _)) => some (row, es)
  | _ => none

theorem square_answers : answers (run (fun a _ => a) 12 Session.new squareProg) = some ([1#8], [(3, some 0), (3, some 2)]) := by decide +kernel

theorem square_disagree : ¬ Agree square [1#8] [(3, some 0), (3, some 2)] := by
  rintro ⟨C, h1, -, h2⟩
  have h0 : (0 : Fin 4) ∉ C := by
    intro h
    have := (h1.2 (shown square square.links[(0 : Fin 4)])).2 ⟨(0 : Fin 4), h, by decide +kernel, rfl⟩
    revert this
    decide +kernel
  have hc : count C 0 = 0 := by
    unfold count
    rw [Finset.card_eq_zero, Finset.filter_eq_empty_iff]
    intro (i : Fin 4) hi
    have : ∀ i : Fin 4, i ≠ 0 → 0 ∉ square.links[i].faults := by decide +kernel
    exact this i fun e => h0 (e ▸ hi)
  have := h2 0 (by decide)
  rw [hc] at this
  simp at this

/-! ## C89 -/

/-- The two calls need not describe the same correction. -/
theorem C89_statement_false : ¬ C89_statement := by
  intro h
  have ha := square_answers
  unfold answers at ha
  split at ha
  · rename_i r0 r1 r2 r3 row es o e
    simp only [Option.some.injEq, Prod.mk.injEq] at ha
    obtain ⟨rfl, rfl⟩ := ha
    have hm : ((moments (fun a _ => a) Net.empty squareProg).map Prod.fst)[4]? = some square ∧ ((moments (fun a _ => a) Net.empty squareProg).map Prod.fst)[5]? = some square := by
      decide +kernel
    refine square_disagree (h _ _ square_proper 12 _ _ e 4 5 square (.d1 [1, 0, 1, 0]) _ _ ?_ ?_ rfl rfl trivial)
    · have := hm.1
      simp only [squareProg, moments, List.map_cons, List.getElem?_cons_succ, List.getElem?_cons_zero, Option.some.injEq] at this ⊢
      rw [this]
    · have := hm.2
      simp only [squareProg, moments, List.map_cons, List.getElem?_cons_succ, List.getElem?_cons_zero, Option.some.injEq] at this ⊢
      rw [this]
  · cases ha

theorem stepOf_unique {N : Net} {u u' : ℚ} (h : StepOf N u) (h' : StepOf N u') : u = u' := by
  rcases h with ⟨w, rfl⟩ | ⟨w, m, hm, h1, rfl⟩ <;> rcases h' with ⟨w', rfl⟩ | ⟨w', m', hm', h2, rfl⟩
  · rfl
  · exact absurd w w'
  · exact absurd w' w
  · rw [le_antisymm (h2 m hm) (h1 m' hm')]

theorem right_agree {mergeW : ℚ → ℚ → ℚ} {N : Net} {z : Syn.Arr} {row : List (BitVec 8)} {es : List (Nat × Option Nat)}
    (h1 : Right mergeW false N (.decode z false false) (.array row)) (h2 : Right mergeW false N (.decodeToEdgesArray z false) (.edges es)) (hd : Decided N (Fires z)) : Agree N row es := by
  rcases h1 with ⟨-, -, u, hu, ρ, C, row', x, hw, hc, ht, -, e⟩ | ⟨e, -⟩
  · rcases h2 with ⟨-, -, u', hu', ρ', C', es', hw', hc', hl, e'⟩ | ⟨e', -⟩
    · cases e
      cases e'
      have e1 : ρ = fun i => N.links[i].weight := funext (by simpa [Weighed] using hw)
      have e2 : ρ' = fun i => N.links[i].weight := funext (by simpa [Weighed] using hw')
      subst e1 e2
      have huu : u = u' := stepOf_unique hu hu'
      subst huu
      refine ⟨C', hl, ht.1, fun k hk => ?_⟩
      rw [ht.2 k hk, hd u hu C C' hc hc' k hk]
    · cases e'
  · cases e

theorem forall₂_agreeing {mergeW : ℚ → ℚ → ℚ} {ms : List (Net × Stmt)} {rs : List Reply} (h : List.Forall₂ (fun (m : Net × Stmt) r => Right mergeW false m.1 m.2 r) ms rs) :
    Agreeing ms rs Decided := by
  intro i j N z row es hi hj ri rj hd
  have key : ∀ (n : Nat) (m : Net × Stmt) (r : Reply), ms[n]? = some m → rs[n]? = some r → Right mergeW false m.1 m.2 r := by
    intro n m r hm hr
    obtain ⟨n1, rfl⟩ := List.getElem?_eq_some_iff.1 hm
    obtain ⟨n2, rfl⟩ := List.getElem?_eq_some_iff.1 hr
    exact h.get n1 n2
  exact right_agree (key i _ _ hi ri) (key j _ _ hj rj) hd

/-- C89, for syndromes whose cheap explanations all have the same fault ids.  Missing: other syndromes, for which it is false (`C89_statement_false`). -/
theorem C89_agree_partial (mergeW : ℚ → ℚ → ℚ) (prog : List Stmt) (hp : ProperProgram mergeW Net.empty False prog) :
    ∃ replies o, Completes (fun f => run mergeW f Session.new prog) (.ok (replies, o)) ∧ Agreeing (moments mergeW Net.empty prog) replies Decided := by
  obtain ⟨rs, o, h1, h2⟩ := C69_program mergeW prog hp
  exact ⟨rs, o, h1, forall₂_agreeing h2⟩

/-- The same for the library as compiled, with its 32-bit wrapped radius: if the networks asked about are small enough. -/
theorem C89_agree_int32_partial (mergeW : ℚ → ℚ → ℚ) (prog : List Stmt) (hp : ProperProgram mergeW Net.empty False prog)
    (hn : ∀ m ∈ moments mergeW Net.empty prog, Asks m.2 → m.1.Small) :
    ∃ replies o, Completes (fun f => run (W := int32) mergeW f Session.new prog) (.ok (replies, o)) ∧ Agreeing (moments mergeW Net.empty prog) replies Decided := by
  obtain ⟨rs, o, h1, h2⟩ := C69_program_int32 mergeW prog hp hn
  exact ⟨rs, o, h1, forall₂_agreeing h2⟩

/-! ## Examples -/

theorem square_whole : Session.Whole square := by
  intro w hw
  have : ∀ w ∈ square.numbers, ((w.num : ℤ) : ℚ) = w := by decide +kernel
  exact ⟨w.num, this w hw⟩

theorem square_ends : ∀ i : Fin square.links.length, square.links[i].a < 4 ∧ ∀ v ∈ square.links[i].b, v < 4 := by decide +kernel

/-- Which sets of links explain the events. -/
theorem square_explained (z : List Nat) (hz : z.length = 4) (C : square.Links) :
    Explained C (Fires (.d1 z)) ↔ ∀ x : Fin 4, z[x] ≠ 0 ↔ degreeAt C x % 2 = 1 := by
  have hf : ∀ x : Fin 4, Fires (.d1 z) x ↔ z[x] ≠ 0 := by
    intro x
    simp [Fires, List.getElem?_eq_getElem (show (x : Nat) < z.length by omega)]
  constructor
  · intro h x
    rw [← hf x]
    exact h x (by simp [square])
  · intro h x _
    by_cases hx : x < 4
    · have := h ⟨x, hx⟩
      rw [← hf ⟨x, hx⟩] at this
      exact this
    · have h1 : ¬ Fires (.d1 z) x := by
        rintro ⟨v, hv, -⟩
        rw [List.getElem?_eq_none (by omega)] at hv
        cases hv
      have h2 : degreeAt C x = 0 := by
        refine Finset.sum_eq_zero fun i _ => ?_
        have e1 : ¬ square.links[i].a = x := fun e => by have := (square_ends i).1; omega
        have e2 : ¬ square.links[i].b = some x := fun e => by have := (square_ends i).2 _ e; omega
        simp only [if_neg e1, if_neg e2, add_zero]
      simp [h1, h2]

def side : square.Links := ({0} : Finset (Fin 4))
def way1 : square.Links := ({0, 1} : Finset (Fin 4))
def way2 : square.Links := ({2, 3} : Finset (Fin 4))

/-- Events at neighbouring corners of the square are decided, by the edge between them; the other way round costs three times as much.  Events at opposite corners are not. -/
example : Decided square (Fires (.d1 [1, 1, 0, 0])) ∧ ¬ Decided square (Fires (.d1 [1, 0, 1, 0])) := by
  constructor
  · have key : ∀ C : square.Links, (∀ x : Fin 4, [1, 1, 0, 0][x] ≠ 0 ↔ degreeAt C x % 2 = 1) → cost C ≤ 1 → C = side := by decide +kernel
    have h0 : Explained side (Fires (.d1 [1, 1, 0, 0])) := (square_explained _ rfl _).2 (by decide +kernel)
    have e : ∀ u (C : square.Links), Cheap u (Fires (.d1 [1, 1, 0, 0])) C → C = side := fun u C h =>
      key C ((square_explained _ rfl _).1 h.1) (le_trans ((h.2 _ h0).2 square_whole) (by decide +kernel))
    intro u _ C C' h h' k _
    rw [e u C h, e u C' h']
  · have key : ∀ C : square.Links, (∀ x : Fin 4, [1, 0, 1, 0][x] ≠ 0 ↔ degreeAt C x % 2 = 1) → 2 ≤ cost C := by decide +kernel
    have cheap : ∀ C : square.Links, (∀ x : Fin 4, [1, 0, 1, 0][x] ≠ 0 ↔ degreeAt C x % 2 = 1) → cost C = 2 →
        Cheap 1 (Fires (.d1 [1, 0, 1, 0])) C := by
      intro C h1 h2
      refine ⟨(square_explained _ rfl _).2 h1, fun C' h => ?_⟩
      have h3 : cost C ≤ cost C' := h2.le.trans (key C' ((square_explained _ rfl _).1 h))
      exact ⟨le_add_of_le_of_nonneg h3 (by positivity), fun _ => h3⟩
    intro h
    have := h 1 (.inl ⟨square_whole, rfl⟩) way1 way2 (cheap _ (by decide +kernel) (by decide +kernel)) (cheap _ (by decide +kernel) (by decide +kernel)) 0
      (by decide)
    revert this
    decide +kernel

end Verif.Props.Agree
