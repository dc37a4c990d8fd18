import Verif.UserGraph
import Mathlib.Algebra.Order.Floor.Ring
import Mathlib.Data.Rat.Floor
import Mathlib.Tactic.Linarith
import Mathlib.Tactic.Ring
import Mathlib.Tactic.FieldSimp
import Mathlib.Tactic.Positivity
import Mathlib.Tactic.NormNum

/-!
# From the user graph to the decoding graph

Models the discretisation of weights and the conversion of edges
(`/repo/src/pymatching/sparse_blossom/driver/user_graph.h:137-201`, `user_graph.cc:422-467`).
Weights live in an ordered field with a floor function (the code uses `double`).
-/

namespace Verif.Conv

open Verif.UG

/-- `NUM_DISTINCT_WEIGHTS = 1 << (sizeof(weight_int) * 8 - 8)` with 32-bit `weight_int` (user_graph.h:33). -/
def numDistinctWeights : Nat := 2 ^ 24

/-- `MAX_USER_EDGE_WEIGHT` (user_graph.h:57). -/
def maxUserEdgeWeight : Nat := numDistinctWeights - 1

variable {K : Type} [Field K] [LinearOrder K] [IsStrictOrderedRing K] [FloorRing K]

/-- `round` of `<cmath>`: to the nearest integer, halves away from zero. -/
def cround (x : K) : Int := if 0 ≤ x then ⌊x + 1 / 2⌋ else ⌈x - 1 / 2⌉

/-- `if (std::abs(w) > max_abs_weight) max_abs_weight = std::abs(w); if (round(w) != w) all_integral_weight = false;`
(user_graph.cc:426-431, 434-440). -/
def see (acc : K × Bool) (w : K) : K × Bool :=
  (if |w| > acc.1 then |w| else acc.1, if ((cround w : Int) : K) ≠ w then false else acc.2)

/-- The inner loop over the implied weights of one edge (user_graph.cc:433-455); `none` is an exception. -/
def seeImplied (g : UGraph K) (acc : K × Bool) (i : Implied K) : Option (K × Bool) :=
  let acc := see acc i.weight
  match g.getEdge i.node1 i.node2 with
  | none => none
  | some e => if e.weight * i.weight ≥ 0 then some acc else none

/-- The loop over the edges (user_graph.cc:425-456). -/
def seeEdge (g : UGraph K) (acc : K × Bool) (e : UEdge K) : Option (K × Bool) :=
  e.implied.foldlM (seeImplied g) (see acc e.weight)

/-- `get_edge_weight_normalising_constant` (user_graph.cc:422-467); `none` is an exception. -/
def normConst (g : UGraph K) (numDistinct : Nat) : Option K :=
  match g.edges.foldlM (seeEdge g) (0, true) with
  | none => none
  | some (maxAbs, allIntegral) =>
    if maxAbs > (maxUserEdgeWeight : K) then none
    else if allIntegral then some 1
    else some (((numDistinct - 1 : Nat) : K) / maxAbs)

/-- The discretised weight `2 * round(w * c)` (user_graph.h:146-149; graph.cc:177-181 for implied weights). -/
def disc (c w : K) : Int := cround (w * c) * 2

/-- A call of `edge_func` or `boundary_edge_func` (user_graph.h:137-201). -/
inductive Ins (K : Type) where
  | edge (u v : Nat) (w : Int) (obs : List Nat) (implied : List (Implied K))
  | bdry (u : Nat) (w : Int) (obs : List Nat) (implied : List (Implied K))
deriving DecidableEq

/-- What happens with one edge in `iter_discretized_edges` (user_graph.h:150-158); `none`: nothing is called.
`isB` is `is_boundary_node` on the node's index. -/
def route (isB : Nat → Bool) (c : K) (e : UEdge K) : Option (Ins K) :=
  let w := disc c e.weight
  let b1 := isB e.node1
  match e.node2 with
  | none => if b1 then none else some (.bdry e.node1 w e.obs e.implied)
  | some v =>
    if isB v && !b1 then some (.bdry e.node1 w e.obs e.implied)
    else if b1 && !isB v then some (.bdry v w e.obs e.implied)
    else if !b1 then some (.edge e.node1 v w e.obs e.implied)
    else none

/-- The stored candidate for a boundary edge: weight, observables, implied weights
(the four vectors in user_graph.h:170-173). -/
abbrev Cand (K : Type) := Int × List Nat × List (Implied K)

/-- State of `to_matching_or_search_graph_helper`: calls of `edge_func` so far, boundary candidates per node. -/
structure HState (K : Type) where
  calls : List (Ins K)
  cand : List (Option (Cand K))

/-- One edge in the helper (user_graph.h:175-189). -/
def helperStep (h : HState K) : Ins K → HState K
  | .edge u v w o im => { h with calls := h.calls ++ [.edge u v w o im] }
  | .bdry u w o im =>
    { h with cand := h.cand.modify u fun c =>
        match c with
        | none => some (w, o, im)
        | some (w', o', im') => if w' > w then some (w, o, im) else some (w', o', im') }

/-- The final loop over the nodes `i, i+1, ..` with a boundary edge (user_graph.h:191-199). -/
def emit (i : Nat) : List (Option (Cand K)) → List (Ins K)
  | [] => []
  | none :: cs => emit (i + 1) cs
  | some (w, o, im) :: cs => .bdry i w o im :: emit (i + 1) cs

/-- Is the node a boundary node?  Edges of the graph always refer to nodes of the graph, so the index is in range
(user_graph.cc:213-215; the case out of range is excluded by `WF`). -/
def isB (g : UGraph K) (n : Nat) : Bool := (g.nodes[n]?).any (·.isBoundary)

/-- `to_matching_or_search_graph_helper` (user_graph.h:163-201): the sequence of insertion calls, and the constant that is
returned (`normalising_constant * 2`, user_graph.h:160); `none` is an exception. -/
def convert (g : UGraph K) : Option (List (Ins K) × K) :=
  match normConst g numDistinctWeights with
  | none => none
  | some c =>
    let h := (g.edges.filterMap (route (isB g) c)).foldl helperStep ⟨[], List.replicate g.nodes.length none⟩
    some (h.calls ++ emit 0 h.cand, c * 2)

end Verif.Conv
