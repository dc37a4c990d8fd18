import Verif.Blossom.User
import Verif.Blossom.Wide

/-!
# From the user's graph to a decoder with search graph

Models `UserGraph::to_mwpm` with a search graph (`/repo/src/pymatching/sparse_blossom/driver/user_graph.cc:299-330`).
-/

namespace Verif.SB

open Verif.UG Verif.Conv

variable {K : Type} [Field K] [LinearOrder K] [FloorRing K]

/-- `to_mwpm` with `ensure_search_graph_included` or more than 64 observables (user_graph.cc:323-330): the search graph is filled by the same
conversion (user_graph.cc:299-321).  Implied weights are left out, as in `prepare`. -/
def prepareFull (g : UGraph K) : Option (Prepared K × Graph.SGraph) :=
  match prepare g with
  | none => none
  | some P =>
    match convert g with
    | none => none
    | some (ins, _) =>
      match runS (Graph.SGraph.empty g.nodes.length) (ins.map Props.Convert.toGraphIns) with
      | none => none
      | some sg => some (P, sg)

end Verif.SB
