import Verif.ConvertD

/-!
# The object a user works with, in double precision

As `Verif.Object`, with decoders built by `Verif.ConvD.toMwpmD`: `/repo/src/pymatching/sparse_blossom/driver/user_graph.cc:217-226, 322-347`,
`user_graph.pybind.cc:179-340`.  What the decoder does with its integers is `Verif.Obj.Object.ask`.
-/

namespace Verif.ObjD

open Verif Verif.SB Verif.UG Verif.Obj Verif.Dbl Verif.ConvD
open Verif.Sch (Res)

/-- `class UserGraph` (user_graph.h:61-134); `cache` is `_mwpm` (`none`: default-constructed) with its `normalising_constant`, `without` is
`loaded_from_dem_without_correlations`. -/
structure ObjectD where
  graph : UGraph ℚ
  cache : Option (Decoder ℚ × Double)
  without : Bool

/-- Building a decoder and storing it (user_graph.cc:217-220, 343-345). -/
def ObjectD.rebuild (o : ObjectD) (ensure : Bool) : Res (ObjectD × Decoder ℚ × Double) :=
  (toMwpmD o.graph o.without ensure).bind fun (d, k) => .ok ({ o with graph := { o.graph with needsUpdating := false }, cache := some (d, k) }, d, k)

/-- `get_mwpm` (user_graph.cc:222-226).  With the flag off and nothing cached it would return the default-constructed decoder; not reachable. -/
def ObjectD.getMwpm (o : ObjectD) : Res (ObjectD × Decoder ℚ × Double) :=
  if o.graph.needsUpdating then o.rebuild false
  else
    match o.cache with
    | none => .ub
    | some (d, k) => .ok (o, d, k)

/-- `get_mwpm_with_search_graph` (user_graph.cc:339-347). -/
def ObjectD.getMwpmWithSearchGraph (o : ObjectD) : Res (ObjectD × Decoder ℚ × Double) :=
  match o.cache with
  | none => o.rebuild true
  | some (d, k) => if !o.graph.needsUpdating && d.P.mg.nodes.length == d.sg.nodes.length then .ok (o, d, k) else o.rebuild true

/-- The decoder for a call (user_graph.pybind.cc:184, 203, 223, 288). -/
def ObjectD.decoderFor (o : ObjectD) (search : Bool) : Res (ObjectD × Decoder ℚ × Double) := if search then o.getMwpmWithSearchGraph else o.getMwpm

/-- A question: the shape of a batch is checked, a decoder is built if necessary, it answers with integer weights, and these are scaled back (`decode`:
user_graph.pybind.cc:179-199; `decode_to_edges_array`: 200-219; `decode_to_matched_detection_events_array`: 220-246; `decode_batch`: 247-340;
`get_nodes_on_shortest_path_from_source`: user_graph.cc:367-391). -/
def ObjectD.ask [W : Width] (o : ObjectD) (f : Nat) (q : Query) : Option (Res (Answer Double × ObjectD)) :=
  if refuses o.graph q then some (.ok (.exception, o))
  else
    match o.decoderFor (needsSearch q) with
    | .ub => some .ub
    | .throws => some .throws
    | .ok (o, d, k) =>
      match (Object.mk o.graph (some d) o.without).ask f q with
      | none => none
      | some .ub => some .ub
      | some .throws => some .throws
      | some (.ok (a, p)) => some (.ok (mapWeights (scaleBack k) a, { o with cache := p.cache.map fun d => (d, k) }))

/-- A modification; an exception leaves the graph as `exec` says. -/
def ObjectD.modify (mergeW : ℚ → ℚ → ℚ) (o : ObjectD) (c : Props.UserGraph.Call ℚ) : ObjectD := { o with graph := (Props.UserGraph.exec mergeW o.graph c).1 }

/-- A history: the answers, and the object afterwards. -/
def ObjectD.history [W : Width] (mergeW : ℚ → ℚ → ℚ) (f : Nat) : ObjectD → List (Op ℚ) → Option (Res (List (Answer Double) × ObjectD))
  | o, [] => some (.ok ([], o))
  | o, .modify c :: ops => (o.modify mergeW c).history mergeW f ops
  | o, .ask q :: ops =>
    match o.ask f q with
    | none => none
    | some .ub => some .ub
    | some .throws => some .throws
    | some (.ok (a, o')) =>
      match o'.history mergeW f ops with
      | none => none
      | some x => some (x.bind fun (as, o'') => .ok (a :: as, o''))

/-- A new object (user_graph.cc:171-183), or one with a graph just loaded. -/
def ObjectD.of (g : UGraph ℚ) (without : Bool) : ObjectD := ⟨{ g with needsUpdating := true }, none, without⟩

end Verif.ObjD
