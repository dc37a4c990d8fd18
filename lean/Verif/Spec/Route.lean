import Verif.Search

/-!
# Routes in a search graph

The specification of shortest paths: what a route is, its weight, and when it is shortest.
-/

namespace Verif.Spec

open Verif.Graph Verif.Sch

/-- `Route g u t es W`: the edges `es` (node, neighbour index), in order, lead from node `u` to the target `t` (`none`: the
boundary) and have total weight `W`. -/
inductive Route (g : SGraph) : Nat → Option Nat → List (Nat × Nat) → Nat → Prop where
  | here (u : Nat) (h : u < g.nodes.length) : Route g u (some u) [] 0
  | step {u i v W : Nat} {n : SNbr} {t : Option Nat} {es : List (Nat × Nat)} (h : nbr g u i = some n) (hv : n.target = some v)
      (r : Route g v t es W) : Route g u t ((u, i) :: es) (n.weight + W)
  | exit {u i : Nat} {n : SNbr} (h : nbr g u i = some n) (hv : n.target = none) : Route g u none [(u, i)] n.weight

/-- `W` is the least weight of a route from `u` to `t`. -/
def IsDistance (g : SGraph) (u : Nat) (t : Option Nat) (W : Nat) : Prop :=
  (∃ es, Route g u t es W) ∧ ∀ es W', Route g u t es W' → W ≤ W'

end Verif.Spec
