import Verif.Api
import Mathlib.Data.Finset.Sort

/-!
# Export to and import from networkx and rustworkx graphs

Models `to_networkx`, `to_rustworkx`, `load_from_networkx` and `load_from_rustworkx`
(`/repo/src/pymatching/matching.py:1535-1570, 1618-1734`) on top of `get_edges` and `add_edge`
(`/repo/src/pymatching/sparse_blossom/driver/user_graph.pybind.cc:91-121, 364-384`).

An external graph is a number of nodes, the set of nodes with `is_boundary`, and a list of edges with attributes.  The order
in which the libraries list the edges, and which end they put first, is left open (`Reordered`).  Both libraries keep at
most one edge per pair of nodes here; `Verif.Props.Networkx` proves that the export never produces two.
-/

namespace Verif.Nx

open Verif.UG

variable {K : Type}

/-- An edge with its attributes `fault_ids`, `weight` and `error_probability`. -/
structure XEdge (K : Type) where
  u : Nat
  v : Nat
  obs : List Nat
  weight : K
  prob : K
deriving DecidableEq

/-- An external graph. -/
structure XGraph (K : Type) where
  numNodes : Nat
  boundary : Finset Nat
  edges : List (XEdge K)

/-- The same edge named from its other end. -/
def XEdge.flip (e : XEdge K) : XEdge K := { e with u := e.v, v := e.u }

/-- The same edges in any order and orientation. -/
def Reordered (l l' : List (XEdge K)) : Prop :=
  ∃ m, l.Perm m ∧ List.Forall₂ (fun e e' => e' = e ∨ e' = e.flip) m l'

section exporting
variable [Field K] [LinearOrder K]

/-- One entry of `get_edges` (user_graph.pybind.cc:364-384): the vector of observables becomes a set, invalid probabilities
become -1; and the virtual boundary is replaced by node `num_nodes` (matching.py:1673-1678, 1716-1721). -/
def exportEdge (numNodes : Nat) (e : UEdge K) : XEdge K where
  u := e.node1
  v := match e.node2 with
    | none => numNodes
    | some v => v
  obs := e.obs.toFinset.sort (· ≤ ·)
  weight := e.weight
  prob := if e.prob < 0 ∨ e.prob > 1 then -1 else e.prob

/-- All exported edges. -/
def exportEdges (g : UGraph K) : List (XEdge K) := g.edges.map (exportEdge g.nodes.length)

/-- `has_virtual_boundary`. -/
def hasVirtual (g : UGraph K) : Bool := g.edges.any (fun e => e.node2.isNone)

/-- `to_rustworkx` (matching.py:1710-1734). -/
def toRustworkx (g : UGraph K) : XGraph K where
  numNodes := g.nodes.length + (if hasVirtual g then 1 else 0)
  boundary := (Finset.range (g.nodes.length + (if hasVirtual g then 1 else 0))).filter
    (fun i => i ∈ g.boundary ∨ (hasVirtual g = true ∧ i = g.nodes.length))
  edges := exportEdges g

/-- The nodes a networkx graph gets by adding edges. -/
def touched (l : List (XEdge K)) : Finset Nat := (l.flatMap fun e => [e.u, e.v]).toFinset

/-- `to_networkx` (matching.py:1667-1688): nodes exist only as end points of edges. -/
def toNetworkx (g : UGraph K) : XGraph K where
  numNodes := (touched (exportEdges g)).card
  boundary := (touched (exportEdges g)).filter
    (fun i => i ∈ g.boundary ∨ (hasVirtual g = true ∧ i = g.nodes.length))
  edges := exportEdges g

/-- `load_from_networkx` and `load_from_rustworkx` (matching.py:1535-1570, 1627-1659) with `min_num_fault_ids` not given. -/
def load (mergeW : K → K → K) (x : XGraph K) : UGraph K :=
  x.edges.foldl (fun g e =>
    match Api.addEdge mergeW g e.u e.v e.obs (.fin e.weight) e.prob "smallest-weight" with
    | .graph g' _ => g'
    | .nanStored => g) ((UGraph.new x.numNodes 0).setBoundary (x.boundary.sort (· ≤ ·)))

end exporting

end Verif.Nx
