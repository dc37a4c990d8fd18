import Verif.Graph
import Mathlib.Algebra.Order.BigOperators.Group.List
import Mathlib.Algebra.Group.Nat.Even
import Mathlib.Algebra.Group.Int.Even
import Mathlib.Data.Finset.Basic

/-!
# Corrections in a matching graph

The specification of minimum-weight decoding: edges, which nodes a list of edges touches an odd number of times, its weight and
its observables.  Nothing here mentions regions, trees or blossoms.
-/

namespace Verif.Spec

open Verif.Graph Verif.CE

/-- An edge as seen from one of its ends: the node, and the index in the node's list of neighbours. -/
abbrev Slot := Nat × Nat

/-- The neighbour entry of a slot (`none`: there is no such edge). -/
def entry (g : MGraph) (e : Slot) : Option Nbr :=
  match g.nodes[e.1]? with
  | some l => l[e.2]?
  | none => none

/-- The weight of an edge. -/
def slotWeight (g : MGraph) (e : Slot) : Int :=
  match entry g e with
  | some n => n.weight
  | none => 0

/-- The observables of an edge. -/
def slotObs (g : MGraph) (e : Slot) : ObsInt :=
  match entry g e with
  | some n => n.obs
  | none => 0

/-- The number of ends an edge has at node `x` (the boundary is no node). -/
def slotEnds (g : MGraph) (x : Nat) (e : Slot) : Nat :=
  match entry g e with
  | some n => (if e.1 = x then 1 else 0) + (if n.target = some x then 1 else 0)
  | none => 0

/-- Total weight of a list of edges. -/
def totalWeight (g : MGraph) (es : List Slot) : Int := (es.map (slotWeight g)).sum

/-- The observables that a list of edges crosses an odd number of times. -/
def totalObs (g : MGraph) : List Slot → ObsInt
  | [] => 0
  | e :: es => slotObs g e ^^^ totalObs g es

/-- The number of edge ends at `x`. -/
def totalEnds (g : MGraph) (x : Nat) (es : List Slot) : Nat := (es.map (slotEnds g x)).sum

/-- The edges `es` explain the detection events `T`: exactly the nodes in `T` are touched an odd number of times. -/
def Corrects (g : MGraph) (T : Finset Nat) (es : List Slot) : Prop :=
  (∀ e ∈ es, (entry g e).isSome) ∧ ∀ x, x ∈ T ↔ totalEnds g x es % 2 = 1

/-- `Walk g u t es`: the edges `es`, in order, lead from node `u` to `t` (`none`: the boundary). -/
inductive Walk (g : MGraph) : Nat → Option Nat → List Slot → Prop where
  | here (u : Nat) : Walk g u (some u) []
  | step {u i v : Nat} {n : Nbr} {t : Option Nat} {es : List Slot} (h : entry g (u, i) = some n) (hv : n.target = some v)
      (w : Walk g v t es) : Walk g u t ((u, i) :: es)
  | exit {u i : Nat} {n : Nbr} (h : entry g (u, i) = some n) (hv : n.target = none) : Walk g u none [(u, i)]

/-- A graph as built by the library from user edges: the boundary comes first, no parallel edges and no loops, every edge is
listed at both ends, weights are even (they are doubled on insertion) and fit the time window of the event queue. -/
structure Proper (g : MGraph) : Prop where
  nodup : ∀ (u : Nat) (l : List Nbr), g.nodes[u]? = some l → (l.map (·.target)).Nodup
  bfirst : ∀ u i n, entry g (u, i) = some n → n.target = none → i = 0
  sym : ∀ u i n v, entry g (u, i) = some n → n.target = some v →
    v ≠ u ∧ ∃ j n', entry g (v, j) = some n' ∧ n'.target = some u ∧ n'.weight = n.weight ∧ n'.obs = n.obs
  even : ∀ u i n, entry g (u, i) = some n → n.weight % 2 = 0
  small : ∀ u i n, entry g (u, i) = some n → n.weight < 2 ^ 31

end Verif.Spec
