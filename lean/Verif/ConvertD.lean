import Verif.Double
import Verif.Object

/-!
# The conversion of the user graph in double precision

The same code as in `Verif.Convert`, `Verif.Blossom.Correlated` (`convertTable`) and `Verif.Object` (`toMwpm`), with the arithmetic of `Verif.Double` instead of
exact arithmetic: `/repo/src/pymatching/sparse_blossom/driver/user_graph.h:137-201`, `user_graph.cc:422-467`, `flooder/graph.cc:166-197`,
`search/search_graph.cc:129-161`, `driver/user_graph.pybind.cc:188, 331`.

Weights are rational numbers (doubles that are not NaN or infinite).  Exact in doubles, and hence left as they are: `std::abs`, comparisons, `round` (its result
has no more significant bits than its argument), the conversion of `2^24-1` to `double`.
-/

namespace Verif.ConvD

open Verif Verif.Graph Verif.CE Verif.SB Verif.UG Verif.Conv Verif.Obj Verif.Dbl
open Verif.Sch (Res)

/-- The inner loop over the implied weights of one edge (user_graph.cc:433-455); `none` is an exception.  The product may round to zero. -/
def seeImpliedD (g : UGraph ℚ) (acc : ℚ × Bool) (i : Implied ℚ) : Option (ℚ × Bool) :=
  let acc := see acc i.weight
  match g.getEdge i.node1 i.node2 with
  | none => none
  | some e => if ((Double.num e.weight).mul (.num i.weight)).nonneg then some acc else none

/-- The loop over the edges (user_graph.cc:425-456). -/
def seeEdgeD (g : UGraph ℚ) (acc : ℚ × Bool) (e : UEdge ℚ) : Option (ℚ × Bool) :=
  e.implied.foldlM (seeImpliedD g) (see acc e.weight)

/-- `get_edge_weight_normalising_constant` (user_graph.cc:422-467); `none` is an exception. -/
def normConstD (g : UGraph ℚ) : Option Double :=
  match g.edges.foldlM (seeEdgeD g) (0, true) with
  | none => none
  | some (maxAbs, allIntegral) =>
    if maxAbs > (maxUserEdgeWeight : ℚ) then none
    else if allIntegral then some (.num 1)
    else some ((Double.num ((numDistinctWeights - 1 : Nat) : ℚ)).div (.num maxAbs))

/-- `(pm::signed_weight_int)round(x)`: undefined if the result is not a number of type `int32_t` (user_graph.h:146, graph.cc:176, search_graph.cc:141). -/
def roundCast : Double → Res Int
  | .num q => if -2 ^ 31 ≤ cround q ∧ cround q < 2 ^ 31 then .ok (cround q) else .ub
  | _ => .ub

/-- `w *= 2` in `int32_t`; undefined on overflow (user_graph.h:149, graph.cc:179, search_graph.cc:144). -/
def twice (w : Int) : Res Int := if -2 ^ 31 ≤ w * 2 ∧ w * 2 < 2 ^ 31 then .ok (w * 2) else .ub

/-- The discretised weight (user_graph.h:146-149; graph.cc:176-179). -/
def discD (c : Double) (w : ℚ) : Res Int := (roundCast ((Double.num w).mul c)).bind twice

/-- What happens with one edge of discretised weight `w` in `iter_discretized_edges` (user_graph.h:150-158); `none`: nothing is called. -/
def routeW (isB : Nat → Bool) (e : UEdge ℚ) (w : Int) : Option (Conv.Ins ℚ) :=
  let b1 := isB e.node1
  match e.node2 with
  | none => if b1 then none else some (.bdry e.node1 w e.obs e.implied)
  | some v =>
    if isB v && !b1 then some (.bdry e.node1 w e.obs e.implied)
    else if b1 && !isB v then some (.bdry v w e.obs e.implied)
    else if !b1 then some (.edge e.node1 v w e.obs e.implied)
    else none

/-- `to_matching_or_search_graph_helper` (user_graph.h:163-201): the sequence of insertion calls, and the constant `normalising_constant * 2`. -/
def convertD (g : UGraph ℚ) : Res (List (Conv.Ins ℚ) × Double) :=
  match normConstD g with
  | none => .throws
  | some c =>
    (mapRes (fun e => discD c e.weight) g.edges).bind fun ws =>
      let h := ((g.edges.zip ws).filterMap fun p => routeW (isB g) p.1 p.2).foldl helperStep ⟨[], List.replicate g.nodes.length none⟩
      .ok (h.calls ++ emit 0 h.cand, c.mul (.num 2))

/-- `convert_rule` (graph.cc:166-182; search_graph.cc:129-146).  `k` is the normalising constant passed in. -/
def convertRuleD (A : Adj) (k : Double) (r : Implied ℚ) : Res RW.ImpliedWeight :=
  (slotOf A r.node1 r.node2).bind fun i =>
    match r.node2 with
    | none => (discD (k.div (.num 2)) r.weight).bind fun w => .ok ⟨(r.node1, i), none, w.natAbs⟩
    | some v => (slotOf A v (some r.node1)).bind fun j => (discD (k.div (.num 2)) r.weight).bind fun w => .ok ⟨(r.node1, i), some (v, j), w.natAbs⟩

/-- `convert_implied_weights` (graph.cc:186-197; search_graph.cc:150-161). -/
def convertTableD (A : Adj) (k : Double) (t : Table ℚ) : Res Rules := mapRes (mapRes (mapRes (convertRuleD A k))) t

/-- `to_mwpm` (user_graph.cc:268-337): the decoder, and its `normalising_constant`.  The field `scale` of the decoder, which belongs to exact arithmetic, is
not used and set to 1. -/
def toMwpmD (g : UGraph ℚ) (without ensure : Bool) : Res (Decoder ℚ × Double) :=
  (convertD g).bind fun (ins, k) =>
    match Props.Graph.run (MGraph.empty g.nodes.length g.numObs) (ins.map Props.Convert.toGraphIns) with
    | none => .ub
    | some mg =>
      match negMaskOf mg with
      | none => .ub
      | some m =>
        (convertTableD (adjM mg) k (table g.nodes.length ins)).bind fun rg =>
          if g.numObs > 64 || ensure then
            match runS (SGraph.empty g.nodes.length) (ins.map Props.Convert.toGraphIns) with
            | none => .ub
            | some sg =>
              (convertTableD (adjS sg) k (table g.nodes.length ins)).bind fun rs =>
                .ok (⟨⟨mg, boundaryFlags g, m, 1⟩, sg, ⟨rg, rs, without⟩, CState.init mg sg⟩, k)
          else .ok (⟨⟨mg, boundaryFlags g, m, 1⟩, SGraph.empty 0, ⟨rg, [], without⟩, CState.init mg (SGraph.empty 0)⟩, k)

/-- Does the question need the search graph (user_graph.pybind.cc:184, 203, 223, 288; user_graph.cc:369)? -/
def needsSearch : Query → Bool
  | .decode corr _ => corr
  | .batch _ _ corr _ _ => corr
  | .edges _ _ => true
  | .pairs _ => false
  | .path _ _ => true

/-- `decode_batch` refuses the array (user_graph.pybind.cc:255-274). -/
def refuses (g : UGraph ℚ) : Query → Bool
  | .batch ps _ _ cols _ => !Obs.shapeOk ps cols g.numDetectors g.nodes.length
  | _ => false

/-- The answer with all weights changed. -/
def mapWeights {K L : Type} (F : K → L) : Answer K → Answer L
  | .predictions row w => .predictions row (F w)
  | .batch rows ws => .batch rows (ws.map F)
  | .edges es => .edges es
  | .pairs ps => .pairs ps
  | .nodes l => .nodes l
  | .exception => .exception

/-- `(double)weight / normalising_constant` (user_graph.pybind.cc:188, 331), for a total weight that is an integer. -/
def scaleBack (k : Double) (w : ℚ) : Double := (Double.of w).div k

/-- A question to a new object: the decoder is built in double precision, it answers with integer weights, and these are scaled back. -/
def askD [W : Width] (g : UGraph ℚ) (without : Bool) (f : Nat) (q : Query) : Option (Res (Answer Double)) :=
  if refuses g q then some (.ok .exception)
  else
    match toMwpmD g without (needsSearch q) with
    | .ub => some .ub
    | .throws => some .throws
    | .ok (d, k) =>
      match (Object.mk { g with needsUpdating := false } (some d) without).ask f q with
      | none => none
      | some .ub => some .ub
      | some .throws => some .throws
      | some (.ok (a, _)) => some (.ok (mapWeights (scaleBack k) a))

end Verif.ConvD
