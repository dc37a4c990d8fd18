import Verif.Session
import Verif.Dem

/-!
# Programs that load graphs

Models `load_from_networkx` and `load_from_rustworkx` (`/repo/src/pymatching/matching.py:1535-1570, 1627-1659`) with their arguments, and programs in Python that load graphs
from any source between other statements: `m.load_from_networkx(...)`, `m.load_from_check_matrix(...)`, or `m = Matching(...)`.

Simplifications: node labels are integers, weights and probabilities are numbers; a graph is given by what the loaders read of it.  See `Verif.Session` for the other statements.
-/

namespace Verif.Prog

open Verif Verif.SB Verif.UG Verif.Obj Verif.Dbl Verif.ObjD Verif.Session
open Verif.Sch (Res)

/-- The value of an attribute `fault_ids` or `qubit_id`: an integer, a set of integers (or something that can be converted to one), or anything else. -/
inductive Ids where
  | int (n : Int)
  | set (s : Finset Int)
  | other

/-- The attributes of an edge; `none`: it does not have the attribute. -/
structure Attrs where
  faultIds : Option Ids := none
  qubitId : Option Ids := none
  weight : Option (Api.Dbl ℚ) := none
  prob : Option ℚ := none

/-- A networkx or rustworkx graph: number of nodes, nodes with `is_boundary`, and edges in the order of `graph.edges(data=True)` or `graph.weighted_edge_list()`. -/
structure Graph where
  numNodes : Nat
  boundary : Finset Int
  edges : List (Int × Int × Attrs)

/-- A value of `fault_ids` as a set (matching.py:1554-1564, 1644-1654).  `none`: `TypeError`. -/
def Ids.toSet : Ids → Option (Finset Int)
  | .int n => some (if n ≠ -1 then {n} else ∅)
  | .set s => some s
  | .other => none

/-- The fault ids of an edge (matching.py:1546-1564, 1636-1654).  `none`: an exception. -/
def Attrs.ids (a : Attrs) : Option (Finset Int) :=
  match a.faultIds, a.qubitId with
  | some _, some _ => none
  | none, some q => q.toSet
  | some f, none => f.toSet
  | none, none => some ∅

/-- What loading gives: a graph, with or without a warning, and whether it was loaded from a detector error model without correlations; an exception; undefined behaviour; or a NaN
was stored (C42). -/
inductive Loaded where
  | graph (g : UGraph ℚ) (warned without : Bool)
  | raised
  | ub
  | nan

/-- The loop over the edges (matching.py:1544-1569, 1634-1658). -/
def loadEdges (mergeW : ℚ → ℚ → ℚ) : UGraph ℚ → Bool → List (Int × Int × Attrs) → Loaded
  | g, warned, [] => .graph g warned false
  | g, warned, (u, v, a) :: es =>
    match a.ids with
    | none => .raised
    | some ids =>
      match toSizes ids with
      | none => .raised
      | some obs =>
        match Api.addEdge mergeW g u v obs (a.weight.getD (.fin 1)) (a.prob.getD (-1)) "smallest-weight" with
        | .graph g' .returned => loadEdges mergeW g' warned es
        | .graph g' .warned => loadEdges mergeW g' true es
        | .graph _ .raised => .raised
        | .nanStored => .nan

/-- `load_from_networkx` (matching.py:1535-1570) and `load_from_rustworkx` (matching.py:1627-1659). -/
def loadGraph (mergeW : ℚ → ℚ → ℚ) (x : Graph) (minIds : Option Int) : Loaded :=
  if minIds.getD 0 < 0 then .raised
  else
    match toSizes x.boundary with
    | none => .raised
    | some b => loadEdges mergeW ((UGraph.new x.numNodes (minIds.getD 0).toNat).setBoundary b) false x.edges

/-- Where a graph comes from. -/
inductive Source where
  | graph (x : Graph) (minIds : Option Int)
  | matrix (c : Py.Call ℚ)
  | dem (m : Dem.Model ℚ) (corr : Bool)

/-- Loading it.  `toW`: the weight of an error with the given probability, `A`: the arithmetic for probabilities.  A model loaded without correlations gives an object that refuses questions with them (matching.py:1420-1433,
user_graph.cc:493-517). -/
def Source.fetch (mergeW : ℚ → ℚ → ℚ) (toW : ℚ → ℚ) (A : Dem.Arith ℚ) : Source → Loaded
  | .graph x minIds => loadGraph mergeW x minIds
  | .matrix c =>
    match Py.load mergeW c with
    | .ok g => .graph g false false
    | .raise => .raised
    | .ub => .ub
  | .dem m corr =>
    if corr then
      match Dem.loadCorr mergeW toW m A with
      | none => .raised
      | some g => .graph g false false
    else .graph (Dem.load mergeW toW m) false true

/-- A line of a program. -/
inductive Line where
  | stmt (s : Stmt)
  | load (src : Source)

/-- One line.  All loaders build the new graph first, and then put it in the place of the old one (matching.py:1232, 1379, 1431, 1570, 1659); an exception leaves the object as it is. -/
def exec [W : Width] (mergeW : ℚ → ℚ → ℚ) (toW : ℚ → ℚ) (A : Dem.Arith ℚ) (f : Nat) (o : ObjectD) : Line → Option (Res (Reply × ObjectD))
  | .stmt s => Session.exec mergeW f o s
  | .load src =>
    match src.fetch mergeW toW A with
    | .graph g warned without => some (.ok (if warned then .warned else .nothing, ObjectD.of g without))
    | .raised => some (.ok (.raised, o))
    | .ub => some .ub
    | .nan => none

/-- A program: the replies, and the object afterwards. -/
def run [W : Width] (mergeW : ℚ → ℚ → ℚ) (toW : ℚ → ℚ) (A : Dem.Arith ℚ) (f : Nat) : ObjectD → List Line → Option (Res (List Reply × ObjectD))
  | o, [] => some (.ok ([], o))
  | o, l :: prog =>
    match exec mergeW toW A f o l with
    | none => none
    | some .ub => some .ub
    | some .throws => some .throws
    | some (.ok (r, o')) =>
      match run mergeW toW A f o' prog with
      | none => none
      | some x => some (x.bind fun (rs, o'') => .ok (r :: rs, o''))

end Verif.Prog
