import Mathlib.Data.List.Basic
import Mathlib.Order.Basic
import Mathlib.Data.Nat.Basic
import Mathlib.Logic.Function.Basic

/-!
# Temporary reweighting for correlated decoding

Models `apply_reweights`, `reweight`, `reweight_for_edges` and `undo_reweights`
(`/repo/src/pymatching/sparse_blossom/flooder/graph.h:95-114`, `flooder/graph.cc:199-231`,
identically `search/search_graph.cc:102-125`).

`weight_int*` pointers are addresses `(node, slot)`: slot `k` of node `u` is `nodes[u].neighbor_weights[k]`.
All weight cells form a memory `Addr → Nat`.
-/

namespace Verif.RW

/-- Address of a weight cell: node index and position in its neighbour list. -/
abbrev Addr := Nat × Nat

/-- All weight cells. -/
abbrev Mem := Addr → Nat

/-- `struct ImpliedWeight` (implied_weights.h:33-37); `edge1 = none` is `nullptr` (boundary edge). -/
structure ImpliedWeight where
  edge0 : Addr
  edge1 : Option Addr
  weight : Nat
deriving Repr, DecidableEq

/-- The weights of a graph and its undo log `previous_weights` (graph.h:59; back of the vector = head of the list). -/
structure State where
  mem : Mem
  prev : List (Addr × Nat)

/-- `previous_weights.emplace_back(p, *p); *p = w` (graph.h:100-101). -/
def State.save (s : State) (p : Addr) (w : Nat) : State :=
  ⟨Function.update s.mem p w, (p, s.mem p) :: s.prev⟩

/-- One iteration of `apply_reweights` (graph.h:97-109). -/
def State.applyOne (s : State) (r : ImpliedWeight) : State :=
  if r.weight < s.mem r.edge0 then
    let s := s.save r.edge0 r.weight
    match r.edge1 with
    | none => s
    | some p => s.save p r.weight
  else s

/-- `apply_reweights` (graph.h:95-110). -/
def State.apply (s : State) (rs : List ImpliedWeight) : State := rs.foldl State.applyOne s

/-- `reweight_for_edges` (graph.cc:199-219; search_graph.cc:104-115): for each edge of the first-pass solution
the rules attached to it are applied.  `rulesOf e` are the rules of edge `e`.  `none`: the exception thrown for
graphs loaded without correlations, before anything is changed. -/
def State.reweightForEdges {E : Type} (s : State) (withoutCorrelations : Bool) (rulesOf : E → List ImpliedWeight)
    (edges : List E) : Option State :=
  if withoutCorrelations then none else some (edges.foldl (fun s e => s.apply (rulesOf e)) s)

/-- The loop of `undo_reweights`, from the most recent entry to the oldest (graph.cc:226-229). -/
def undoLoop (m : Mem) : List (Addr × Nat) → Mem
  | [] => m
  | (p, v) :: rest => undoLoop (Function.update m p v) rest

/-- `undo_reweights` (graph.cc:221-231). -/
def State.undo (s : State) : State := ⟨undoLoop s.mem s.prev, []⟩

/-! ## Lemmas -/

theorem undo_save (s : State) (p : Addr) (w : Nat) : (s.save p w).undo = s.undo := by
  simp [State.save, State.undo, undoLoop]

theorem undo_applyOne (s : State) (r : ImpliedWeight) : (s.applyOne r).undo = s.undo := by
  unfold State.applyOne
  split
  · cases r.edge1 with
    | none => exact undo_save _ _ _
    | some p => exact (undo_save _ _ _).trans (undo_save _ _ _)
  · rfl

theorem undo_apply (rs : List ImpliedWeight) (s : State) : (s.apply rs).undo = s.undo := by
  induction rs generalizing s with
  | nil => rfl
  | cons r rs ih => exact (ih _).trans (undo_applyOne s r)

theorem apply_append (s : State) (a b : List ImpliedWeight) : s.apply (a ++ b) = (s.apply a).apply b := by
  simp [State.apply]

theorem foldl_apply {E : Type} (rulesOf : E → List ImpliedWeight) (edges : List E) (s : State) :
    edges.foldl (fun s e => s.apply (rulesOf e)) s = s.apply (edges.flatMap rulesOf) := by
  induction edges generalizing s with
  | nil => rfl
  | cons e es ih => rw [List.foldl_cons, ih, List.flatMap_cons, apply_append]

/-- The two cells of an edge: a pairing of the cells (`twin p = none`: boundary edge, or a cell that is not
paired). -/
structure Pairing where
  twin : Addr → Option Addr
  symm : ∀ p q, twin p = some q → twin q = some p
  ne : ∀ p, twin p ≠ some p

/-- Both cells of every edge hold the same weight. -/
def Symmetric (P : Pairing) (m : Mem) : Prop := ∀ p q, P.twin p = some q → m p = m q

/-- A rule refers to the two cells of one edge. -/
def RuleOk (P : Pairing) (r : ImpliedWeight) : Prop := P.twin r.edge0 = r.edge1

/-- Effect of one rule on one cell under the symmetry invariant. -/
theorem applyOne_mem (P : Pairing) (s : State) (r : ImpliedWeight) (hs : Symmetric P s.mem) (hr : RuleOk P r) :
    Symmetric P (s.applyOne r).mem ∧
    ∀ a, (s.applyOne r).mem a =
      if a = r.edge0 ∨ some a = r.edge1 then min (s.mem a) r.weight else s.mem a := by
  have key : ∀ a, (s.applyOne r).mem a =
      if a = r.edge0 ∨ some a = r.edge1 then min (s.mem a) r.weight else s.mem a := by
    intro a
    have htw : ∀ q, r.edge1 = some q → s.mem q = s.mem r.edge0 := by
      intro q hq
      exact (hs r.edge0 q (hr.trans hq)).symm
    unfold State.applyOne
    by_cases hlt : r.weight < s.mem r.edge0
    · rw [if_pos hlt]
      cases he : r.edge1 with
      | none =>
        simp only [State.save]
        by_cases ha : a = r.edge0
        · subst ha; simp; omega
        · simp [ha]
      | some q =>
        have hq := htw q he
        simp only [State.save]
        by_cases ha : a = q
        · subst ha; simp; omega
        · rw [Function.update_of_ne ha]
          by_cases ha' : a = r.edge0
          · subst ha'; simp; omega
          · simp [ha, ha']
    · rw [if_neg hlt]
      split
      · rename_i h
        have : s.mem a = s.mem r.edge0 := by
          rcases h with h | h
          · rw [h]
          · exact htw a h.symm
        omega
      · rfl
  refine ⟨fun p q hpq => ?_, key⟩
  rw [key p, key q, hs p q hpq]
  have hqp := P.symm p q hpq
  have : (p = r.edge0 ∨ some p = r.edge1) ↔ (q = r.edge0 ∨ some q = r.edge1) := by
    unfold RuleOk at hr
    constructor
    · rintro (h | h)
      · subst h; right; rw [← hpq, hr]
      · left
        have := P.symm r.edge0 p (hr.trans h.symm)
        rw [hpq] at this
        exact Option.some.inj this
    · rintro (h | h)
      · subst h; right; rw [← hqp, hr]
      · left
        have := P.symm r.edge0 q (hr.trans h.symm)
        rw [hqp] at this
        exact Option.some.inj this
  simp only [this]

/-- The implied weights that target cell `a`. -/
def targeting (a : Addr) (rs : List ImpliedWeight) : List Nat :=
  (rs.filter fun r => a = r.edge0 ∨ some a = r.edge1).map (·.weight)

theorem apply_mem (P : Pairing) (rs : List ImpliedWeight) (s : State) (hs : Symmetric P s.mem)
    (hr : ∀ r ∈ rs, RuleOk P r) :
    Symmetric P (s.apply rs).mem ∧ ∀ a, (s.apply rs).mem a = (targeting a rs).foldl min (s.mem a) := by
  induction rs generalizing s with
  | nil => exact ⟨hs, fun a => rfl⟩
  | cons r rs ih =>
    obtain ⟨h1, h2⟩ := applyOne_mem P s r hs (hr r (by simp))
    obtain ⟨h3, h4⟩ := ih (s.applyOne r) h1 (fun x hx => hr x (by simp [hx]))
    refine ⟨h3, fun a => ?_⟩
    show ((s.applyOne r).apply rs).mem a = _
    rw [h4 a, h2 a]
    unfold targeting
    rw [List.filter_cons]
    by_cases h : a = r.edge0 ∨ some a = r.edge1
    · simp [h]
    · simp [h]

end Verif.RW
