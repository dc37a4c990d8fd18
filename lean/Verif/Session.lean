import Verif.ObjectD
import Verif.Python
import Mathlib.Data.Finset.Sort

/-!
# Programs in Python that use one object

Models the methods `add_edge`, `add_boundary_edge`, `set_boundary_nodes`, `ensure_num_fault_ids`, `decode`, `decode_batch`, `decode_to_edges_array`,
`decode_to_matched_dets_array` and `decode_to_matched_dets_dict` of the class `Matching`
(`/repo/src/pymatching/matching.py:339-346, 451-460, 521-524, 574-575, 620-621, 745-756, 830-835, 1758, 1774`), and those that look at the object
(`/repo/src/pymatching/matching.py:658-666, 853, 873, 892, 909, 926, 1786-1839`), as statements of a program that is executed on one object.

Simplifications: every exception is the reply `raised`, whatever its type; the caller catches it and carries on.  Node numbers and fault ids are integers without bounds
(the code converts them to `int64_t` and `size_t`, and pybind11 raises a `TypeError` for a negative number where a `size_t` is needed; the number `2^64 - 1`, which the code
uses for the boundary, is not in the model).  Merged probabilities are exact.  A program that stores a NaN weight (C42)
leaves the model.
-/

namespace Verif.Session

open Verif Verif.SB Verif.UG Verif.Obj Verif.Dbl Verif.ConvD Verif.ObjD
open Verif.Sch (Res)

/-- The argument `fault_ids`: absent (`None`), an integer, or a set of integers. -/
inductive FaultIds where
  | absent
  | int (n : Int)
  | set (s : Finset Int)

/-- The arguments of `add_edge` and `add_boundary_edge` after the nodes, with their defaults (matching.py:668-677, 758-766).  `qubitId`: the keyword argument `qubit_id`, if
there is one. -/
structure EdgeArgs where
  faultIds : FaultIds := .absent
  qubitId : Option FaultIds := none
  weight : Api.Dbl ℚ := .fin 1
  prob : Option ℚ := none
  strategy : String := "disallow"

/-- The statements that look at the object. -/
inductive Look where
  | hasEdge (u v : Int)
  | hasBoundaryEdge (u : Int)
  | getEdgeData (u v : Int)
  | getBoundaryEdgeData (u : Int)
  | edges
  | boundary
  | numFaultIds
  | numNodes
  | numEdges
  | numDetectors
  | repr

/-- The statements. -/
inductive Stmt where
  | addEdge (u v : Int) (a : EdgeArgs)
  | addBoundaryEdge (u : Int) (a : EdgeArgs)
  | setBoundaryNodes (s : Finset Int)
  | ensureNumFaultIds (n : Int)
  /-- `corr`: the argument `enable_correlations`, also below -/
  | decode (z : Syn.Arr) (returnWeight corr : Bool)
  /-- `shots` has `cols` columns and the given rows -/
  | decodeBatch (packedShots packedPredictions returnWeights corr : Bool) (cols : Nat) (rows : List (List (BitVec 8)))
  | decodeToEdgesArray (z : Syn.Arr) (corr : Bool)
  | matchedArray (z : Syn.Arr)
  | matchedDict (z : Syn.Arr)
  | look (l : Look)

/-- What a statement gives. -/
inductive Reply where
  | nothing
  | warned
  | raised
  | array (row : List (BitVec 8))
  | pair (row : List (BitVec 8)) (w : Double)
  | rows (rows : List (List (BitVec 8)))
  | rowsAndWeights (rows : List (List (BitVec 8))) (ws : List Double)
  | edges (es : List (Nat × Option Nat))
  | pairs (rows : List (Int × Int))
  | mates (d : Nat → Option (Option Nat))
  | bool (b : Bool)
  /-- a dictionary with `fault_ids`, `weight` and `error_probability` -/
  | data (faults : Finset Nat) (weight prob : ℚ)
  /-- the same for each edge, with its two ends -/
  | edgeList (l : List (Nat × Option Nat × Finset Nat × ℚ × ℚ))
  | nodes (s : Finset Nat)
  | number (n : Nat)
  | text (s : String)

/-- The conversion of a set to `std::set<size_t>` and on to a vector (user_graph.pybind.cc:95, 113, 126, 145): the elements in increasing order.  `none`: `TypeError`. -/
def toSizes (s : Finset Int) : Option (List Nat) := if ∀ x ∈ s, 0 ≤ x then some ((s.image Int.toNat).sort (· ≤ ·)) else none

/-- The set made of `fault_ids` (matching.py:751-753, 830-832). -/
def faultSet : FaultIds → Finset Int
  | .absent => ∅
  | .int n => if n = -1 then ∅ else {n}
  | .set s => s

/-- `fault_ids` or `qubit_id` in `add_edge` (matching.py:745-750).  `none`: both are given. -/
def oneOf : FaultIds → Option FaultIds → Option FaultIds
  | f, none => some f
  | .absent, some q => some q
  | _, some _ => none

/-- The state after a call of the C++ part, and what Python sees.  `none`: a NaN was stored. -/
def answerOf (o : ObjectD) : Api.After ℚ → Option (Reply × ObjectD)
  | .graph g .returned => some (.nothing, { o with graph := g })
  | .graph g .warned => some (.warned, { o with graph := g })
  | .graph g .raised => some (.raised, { o with graph := g })
  | .nanStored => none

/-- `add_edge` (matching.py:745-756; user_graph.pybind.cc:90-121). -/
def addEdge (mergeW : ℚ → ℚ → ℚ) (o : ObjectD) (u v : Int) (a : EdgeArgs) : Option (Reply × ObjectD) :=
  match oneOf a.faultIds a.qubitId with
  | none => some (.raised, o)
  | some ids =>
    match toSizes (faultSet ids) with
    | none => some (.raised, o)
    | some obs => answerOf o (Api.addEdge mergeW o.graph u v obs a.weight (a.prob.getD (-1)) a.strategy)

/-- `add_boundary_edge` (matching.py:830-835; user_graph.pybind.cc:122-152).  Other keyword arguments are accepted and ignored (matching.py:766), also `qubit_id`. -/
def addBoundaryEdge (mergeW : ℚ → ℚ → ℚ) (o : ObjectD) (u : Int) (a : EdgeArgs) : Option (Reply × ObjectD) :=
  match toSizes (faultSet a.faultIds) with
  | none => some (.raised, o)
  | some obs => answerOf o (Api.addBoundaryEdge mergeW o.graph u obs a.weight (a.prob.getD (-1)) a.strategy)

/-- `set_boundary_nodes` (matching.py:1758; user_graph.pybind.cc:153). -/
def setBoundaryNodes (o : ObjectD) (s : Finset Int) : Reply × ObjectD :=
  match toSizes s with
  | none => (.raised, o)
  | some b => (.nothing, { o with graph := o.graph.setBoundary b })

/-- `ensure_num_fault_ids` (matching.py:1774; user_graph.pybind.cc:156). -/
def ensureNumFaultIds (o : ObjectD) (n : Int) : Reply × ObjectD :=
  if n < 0 then (.raised, o) else (.nothing, { o with graph := o.graph.setMinNumObs n.toNat })

/-- What Python returns for an answer (matching.py:343-346, 457-460, 521-524). -/
def valueOf (weights : Bool) : Answer Double → Reply
  | .predictions row w => if weights then .pair row w else .array row
  | .batch rows ws => if weights then .rowsAndWeights rows ws else .rows rows
  | .edges es => .edges es
  | _ => .raised

/-- What Python returns for matched pairs: an array or a dictionary (matching.py:575, 621; user_graph.pybind.cc:233-244, 349-362).  `none`: `loc_from` is null. -/
def pairsOf (dict : Bool) : Answer Double → Option Reply
  | .pairs ps => if dict then (SB.matchedDict (fun _ => none) ps).map .mates else (SB.matchedArray ps).map .pairs
  | _ => some .raised

/-- A dictionary of `get_edge_data` (user_graph.pybind.cc:396-403, 415-422). -/
def dataOf : Option (UEdge ℚ) → Reply
  | none => .raised
  | some e => .data e.obs.toFinset e.weight e.prob

/-- `'s' if n != 1 else ''` (matching.py:665-666). -/
def plural (n : Nat) : String := if n ≠ 1 then "s" else ""

/-- Looking at the object (matching.py:658-666, 853, 873, 892, 909, 926, 1786-1839; user_graph.pybind.cc:154-159, 364-424). -/
def look (g : UGraph ℚ) : Look → Reply
  | .hasEdge u v => if u < 0 ∨ v < 0 then .raised else .bool (g.hasEdge u.toNat (some v.toNat))
  | .hasBoundaryEdge u => if u < 0 then .raised else .bool (g.hasEdge u.toNat none)
  | .getEdgeData u v => if u < 0 ∨ v < 0 then .raised else dataOf (g.getEdge u.toNat (some v.toNat))
  | .getBoundaryEdgeData u => if u < 0 then .raised else dataOf (g.getEdge u.toNat none)
  | .edges => .edgeList (g.edges.map fun e => (e.node1, e.node2, e.obs.toFinset, e.weight, if e.prob < 0 ∨ e.prob > 1 then -1 else e.prob))
  | .boundary => .nodes g.boundary
  | .numFaultIds => .number g.numObs
  | .numNodes => .number g.nodes.length
  | .numEdges => .number g.edges.length
  | .numDetectors => .number g.numDetectors
  | .repr => .text ("<pymatching.Matching object with " ++ toString g.numDetectors ++ " detector" ++ plural g.numDetectors ++ ", " ++ toString g.boundary.card ++ " boundary node" ++
      plural g.boundary.card ++ ", and " ++ toString g.edges.length ++ " edge" ++ plural g.edges.length ++ ">")

/-- Asking the object; an exception is passed on. -/
def ask [W : Width] (o : ObjectD) (f : Nat) (q : Query) (weights : Bool) : Option (Res (Reply × ObjectD)) :=
  match o.ask f q with
  | none => none
  | some .ub => some .ub
  | some .throws => some (.ok (.raised, o))
  | some (.ok (a, o')) => some (.ok (valueOf weights a, o'))

/-- Asking for matched pairs. -/
def askPairs [W : Width] (o : ObjectD) (f : Nat) (events : List Nat) (dict : Bool) : Option (Res (Reply × ObjectD)) :=
  match o.ask f (.pairs events) with
  | none => none
  | some .ub => some .ub
  | some .throws => some (.ok (.raised, o))
  | some (.ok (a, o')) =>
    match pairsOf dict a with
    | none => some .ub
    | some r => some (.ok (r, o'))

/-- One statement. -/
def exec [W : Width] (mergeW : ℚ → ℚ → ℚ) (f : Nat) (o : ObjectD) : Stmt → Option (Res (Reply × ObjectD))
  | .addEdge u v a => (addEdge mergeW o u v a).map .ok
  | .addBoundaryEdge u a => (addBoundaryEdge mergeW o u a).map .ok
  | .setBoundaryNodes s => some (.ok (setBoundaryNodes o s))
  | .ensureNumFaultIds n => some (.ok (ensureNumFaultIds o n))
  | .decode z rw corr =>
    match Syn.toEvents o.graph.numDetectors o.graph.boundary.card z with
    | none => some (.ok (.raised, o))
    | some events => ask o f (.decode corr events) rw
  | .decodeBatch ps pp rw corr cols rows => ask o f (.batch ps pp corr cols rows) rw
  | .decodeToEdgesArray z corr =>
    match Syn.toEvents o.graph.numDetectors o.graph.boundary.card z with
    | none => some (.ok (.raised, o))
    | some events => ask o f (.edges corr events) false
  | .matchedArray z =>
    match Syn.toEvents o.graph.numDetectors o.graph.boundary.card z with
    | none => some (.ok (.raised, o))
    | some events => askPairs o f events false
  | .matchedDict z =>
    match Syn.toEvents o.graph.numDetectors o.graph.boundary.card z with
    | none => some (.ok (.raised, o))
    | some events => askPairs o f events true
  | .look l => some (.ok (look o.graph l, o))

/-- A program: the replies, and the object afterwards. -/
def run [W : Width] (mergeW : ℚ → ℚ → ℚ) (f : Nat) : ObjectD → List Stmt → Option (Res (List Reply × ObjectD))
  | o, [] => some (.ok ([], o))
  | o, s :: prog =>
    match exec mergeW f o s with
    | none => none
    | some .ub => some .ub
    | some .throws => some .throws
    | some (.ok (r, o')) =>
      match run mergeW f o' prog with
      | none => none
      | some x => some (x.bind fun (rs, o'') => .ok (r :: rs, o''))

/-- `Matching()` (matching.py:141-144). -/
def new : ObjectD := ObjectD.of (UGraph.new 0 0) false

end Verif.Session
