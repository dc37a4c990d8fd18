import Verif.Blossom.Model

/-!
# Specification: a blossom inside of an alternating tree is opened again (C30)
-/

namespace Verif.SB

open Verif Verif.CE Verif.Mem

/-- The objects of an arena that are in use. -/
def live (a : Arena) : Finset Nat := a.allocated.toFinset \ a.available.toFinset

/-- Neighbours on a cycle, with the edge between them, in both directions. -/
def Adjacent (cyc : List (Nat × CompressedEdge)) (e : CompressedEdge) (r r' : Nat) : Prop :=
  ∃ i q q' e', cyc[i]? = some (q, e') ∧ (cyc[(i + 1) % cyc.length]?).map (·.1) = some q' ∧
    ((r = q ∧ r' = q' ∧ e = e') ∨ (r = q' ∧ r' = q ∧ e = e'.reversed))

/-- A path of regions, in pairs: the region that will shrink, the one that will grow, the edge between them, and the edge to the next pair. -/
abbrev Path := List (Nat × Nat × CompressedEdge × CompressedEdge)

/-- The path leads from `r` around a cycle to `last`, an even number of steps. -/
def Along (cyc : List (Nat × CompressedEdge)) : Nat → Path → Nat → Prop
  | r, [], last => r = last
  | r, (r1, r2, i2o, nx) :: l, last => r = r1 ∧ Adjacent cyc i2o r1 r2 ∧ ∃ r3, Adjacent cyc nx r2 r3 ∧ Along cyc r3 l last

/-- From node `cur` on, new nodes were inserted, one per pair of the path, each the child of the one before; the last one is `cur'`, and
`ce'` leads on.  `A` are the nodes before, `A'` after. -/
def Thread (alt : Nat → ANode) (A' : Finset Nat) : Finset Nat → Nat → CompressedEdge → Path → Nat → CompressedEdge → Prop
  | _, cur, ce, [], cur', ce' => cur = cur' ∧ ce = ce'
  | A, cur, ce, (r1, r2, i2o, nx) :: l, cur', ce' => ∃ x, x ∈ A' ∧ x ∉ A ∧ (alt x).inner = some r1 ∧ (alt x).outer = r2 ∧ (alt x).i2o = i2o ∧
      (alt x).parent = some (cur, ce.reversed) ∧ Thread alt A' (insert x A) x nx l cur' ce'

/-- The regions are matched in pairs. -/
def Paired (mate : Nat → Mate) (prs : List (Nat × Nat × CompressedEdge)) : Prop :=
  ∀ r1 r2 e, (r1, r2, e) ∈ prs → mate r1 = ⟨some r2, e⟩ ∧ mate r2 = ⟨some r1, e.reversed⟩

/-- The blossom with cycle `cyc`, the inner region of node `ba` whose parent `p` leads to it by the edge `e`, was opened: the path leads
from the child region `r1` around the cycle to `r2`, and was threaded into the tree between `p` and `ba`, of which `r2` is now the inner
region; the other regions were matched in pairs of neighbours; every child region was used once.  `A` are the nodes before, `A'` after. -/
structure Rethreaded (A A' : Finset Nat) (s s' : MS) (cyc : List (Nat × CompressedEdge)) (ba p : Nat) (e : CompressedEdge) (r1 r2 : Nat)
    (pth : Path) (prs : List (Nat × Nat × CompressedEdge)) : Prop where
  once : (cyc.map (·.1)).Perm ((pth.flatMap fun x => [x.1, x.2.1]) ++ ((prs.flatMap fun x => [x.1, x.2.1]) ++ [r2]))
  along : Along cyc r1 pth r2
  adj : ∀ r r' e, (r, r', e) ∈ prs → Adjacent cyc e r r'
  paired : Paired s'.mate prs
  thread : ∃ cur ce, Thread s'.alt A' A p e pth cur ce ∧ (s'.alt ba).parent = some (cur, ce.reversed) ∧ (s'.alt ba).inner = some r2 ∧
    (s'.alt ba).outer = (s.alt ba).outer ∧ (s'.alt ba).i2o = (s.alt ba).i2o
  rest : ∀ x ∈ A, x ≠ ba → (s'.alt x).inner = (s.alt x).inner ∧ (s'.alt x).outer = (s.alt x).outer ∧ (s'.alt x).i2o = (s.alt x).i2o ∧
    (s'.alt x).parent = (s.alt x).parent

end Verif.SB
