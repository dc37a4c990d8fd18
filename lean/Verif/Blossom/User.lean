import Verif.Blossom.Decode
import Verif.Convert
import Verif.Props.Convert

/-!
# From the user's graph to the decoder

Models `UserGraph::to_matching_graph` and `to_mwpm` (`/repo/src/pymatching/sparse_blossom/driver/user_graph.cc:266-337`),
the part that fills the matching graph and the data derived from it.
-/

namespace Verif.SB

open Verif.UG Verif.Conv

variable {K : Type} [Field K] [LinearOrder K] [FloorRing K]

/-- `is_user_graph_boundary_node` (user_graph.cc:288-293): empty without boundary nodes, else one flag per node. -/
def boundaryFlags (g : UGraph K) : List Bool :=
  if g.boundary = ∅ then [] else (List.range g.nodes.length).map fun x => decide (x ∈ g.boundary)

/-- The decoder that `to_mwpm` builds: graph, boundary flags, mask of the observables of the negative edges, and the constant by which
the user's weights are scaled. -/
structure Prepared (K : Type) where
  mg : Graph.MGraph
  bnd : List Bool
  mask : CE.ObsInt
  scale : K

/-- `to_matching_graph` and `sync_negative_weight_observables_and_detection_events` (user_graph.cc:266-297, 322-337; graph_flooder.cc);
`none` if an exception is raised or the behaviour is undefined.  Implied weights are left out: they are only used by correlated decoding. -/
def prepare (g : UGraph K) : Option (Prepared K) :=
  match convert g with
  | none => none
  | some (ins, k) =>
    match Props.Graph.run (Graph.MGraph.empty g.nodes.length g.numObs) (ins.map Props.Convert.toGraphIns) with
    | none => none
    | some mg =>
      match negMaskOf mg with
      | none => none
      | some m => some ⟨mg, boundaryFlags g, m, k⟩

end Verif.SB
