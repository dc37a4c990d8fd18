import Verif.Props.Shots

/-!
# The object a user works with

A `UserGraph` together with its cached decoder: `/repo/src/pymatching/sparse_blossom/driver/user_graph.cc:217-226, 322-351`, and the methods `decode`,
`decode_batch`, `decode_to_edges_array`, `decode_to_matched_detection_events_array` and `get_nodes_on_shortest_path_from_source` that the Python class calls
(`/repo/src/pymatching/sparse_blossom/driver/user_graph.pybind.cc:179-340`).

Simplifications: floating point numbers are elements of an ordered field; a decoder that cannot be built (exception or undefined behaviour in the
conversion) makes the question end with `.ub`.
-/

namespace Verif.Obj

open Verif Verif.Graph Verif.CE Verif.SB Verif.UG Verif.Conv
open Verif.Sch (Res)
open Verif.Props.Correlated (Call)
open Verif.Props.Shots (Reply respond)

variable {K : Type} [Field K] [LinearOrder K] [FloorRing K]

/-- `struct Mwpm` as cached in `_mwpm`: the fixed part, and the state.  Without search graph `sg` has no nodes. -/
structure Decoder (K : Type) where
  P : Prepared K
  sg : SGraph
  C : Corr
  st : CState

/-- `class UserGraph` (user_graph.h:61-134); `cache` is `_mwpm` (`none`: default-constructed), `without` is `loaded_from_dem_without_correlations`. -/
structure Object (K : Type) where
  graph : UGraph K
  cache : Option (Decoder K)
  without : Bool

/-- `to_mwpm` (user_graph.cc:323-337) with `to_matching_graph` and `to_search_graph` (user_graph.cc:268-321). -/
def toMwpm (g : UGraph K) (without ensure : Bool) : Option (Decoder K) :=
  match prepare g, convert g with
  | some P, some (ins, k) =>
    match convertTable (adjM P.mg) k (table g.nodes.length ins) with
    | .ok rg =>
      if g.numObs > 64 || ensure then
        match runS (SGraph.empty g.nodes.length) (ins.map Props.Convert.toGraphIns) with
        | some sg =>
          match convertTable (adjS sg) k (table g.nodes.length ins) with
          | .ok rs => some ⟨P, sg, ⟨rg, rs, without⟩, CState.init P.mg sg⟩
          | _ => none
        | none => none
      else some ⟨P, SGraph.empty 0, ⟨rg, [], without⟩, CState.init P.mg (SGraph.empty 0)⟩
    | _ => none
  | _, _ => none

/-- Building a decoder and storing it (user_graph.cc:217-220, 343-345). -/
def Object.rebuild (o : Object K) (ensure : Bool) : Option (Object K × Decoder K) :=
  match toMwpm o.graph o.without ensure with
  | none => none
  | some d => some ({ o with graph := { o.graph with needsUpdating := false }, cache := some d }, d)

/-- `get_mwpm` (user_graph.cc:222-226).  With the flag off and nothing cached it would return the default-constructed decoder; not reachable. -/
def Object.getMwpm (o : Object K) : Option (Object K × Decoder K) :=
  if o.graph.needsUpdating then o.rebuild false
  else
    match o.cache with
    | none => none
    | some d => some (o, d)

/-- `get_mwpm_with_search_graph` (user_graph.cc:339-347). -/
def Object.getMwpmWithSearchGraph (o : Object K) : Option (Object K × Decoder K) :=
  match o.cache with
  | none => o.rebuild true
  | some d => if !o.graph.needsUpdating && d.P.mg.nodes.length == d.sg.nodes.length then some (o, d) else o.rebuild true

/-- Questions. -/
inductive Query where
  | decode (corr : Bool) (events : List Nat)
  /-- `rows` is the array `shots`, which has `cols` columns -/
  | batch (packedShots packedPredictions corr : Bool) (cols : Nat) (rows : List (List (BitVec 8)))
  | edges (corr : Bool) (events : List Nat)
  | pairs (events : List Nat)
  | path (src dst : Option Nat)

/-- Answers. -/
inductive Answer (K : Type) where
  | predictions (row : List (BitVec 8)) (weight : K)
  | batch (rows : List (List (BitVec 8))) (weights : List K)
  | edges (es : List (Nat × Option Nat))
  | pairs (ps : List CompressedEdge)
  | nodes (l : List Nat)
  | exception
deriving DecidableEq

/-- A call of the decoder, which stays in the cache with its changed state. -/
def Object.call [W : Width] (o : Object K) (d : Decoder K) (f : Nat) (c : Call) : Option (Res (Reply × Object K × Decoder K)) :=
  match respond d.P.mg d.sg d.P.bnd d.P.mask d.C f d.st c with
  | none => none
  | some .ub => some .ub
  | some .throws => some .throws
  | some (.ok (r, st)) => some (.ok (r, { o with cache := some { d with st := st } }, { d with st := st }))

/-- The detection events of a row of `shots` (user_graph.pybind.cc:299-312). -/
def readRow (packed : Bool) (row : List (BitVec 8)) : List Nat := if packed then Obs.readPackedFrom 0 row else Obs.readUnpackedFrom 0 row

/-- `decode_detection_events` for a row, into a buffer of zeros (user_graph.pybind.cc:276-294, 313-331): the row of the array of predictions, and the
weight divided by the normalising constant.  `none` in the first component: the exception. -/
def Object.decodeRow [W : Width] (o : Object K) (d : Decoder K) (f : Nat) (corr packed : Bool) (events : List Nat) :
    Option (Res (Option (List (BitVec 8) × K) × Object K × Decoder K)) :=
  match o.call d f (.obs corr events (List.replicate o.graph.numObs 0#8) 0) with
  | none => none
  | some .ub => some .ub
  | some .throws => some .throws
  | some (.ok (.predictions buf w, o', d')) =>
    if packed then
      match Obs.packRow buf with
      | none => some .ub
      | some out => some (.ok (some (out, (w : K) / d.P.scale), o', d'))
    else some (.ok (some (buf, (w : K) / d.P.scale), o', d'))
  | some (.ok (_, o', d')) => some (.ok (none, o', d'))

/-- The loop over the rows (user_graph.pybind.cc:296-333); an exception ends the call. -/
def Object.batchLoop [W : Width] (o : Object K) (d : Decoder K) (f : Nat) (ps pp corr : Bool) :
    List (List (BitVec 8)) → Option (Res (Option (List (List (BitVec 8)) × List K) × Object K))
  | [] => some (.ok (some ([], []), o))
  | row :: rows =>
    match o.decodeRow d f corr pp (readRow ps row) with
    | none => none
    | some .ub => some .ub
    | some .throws => some .throws
    | some (.ok (none, o', _)) => some (.ok (none, o'))
    | some (.ok (some (r, w), o', d')) =>
      match o'.batchLoop d' f ps pp corr rows with
      | none => none
      | some .ub => some .ub
      | some .throws => some .throws
      | some (.ok (none, o'')) => some (.ok (none, o''))
      | some (.ok (some (rs, ws), o'')) => some (.ok (some (r :: rs, w :: ws), o''))

/-- The decoder for a call (user_graph.pybind.cc:184, 203, 223, 288). -/
def Object.decoderFor (o : Object K) (search : Bool) : Option (Object K × Decoder K) := if search then o.getMwpmWithSearchGraph else o.getMwpm

/-- A question: the answer, and the object afterwards (`decode`: user_graph.pybind.cc:179-199; `decode_to_edges_array`: 200-219;
`decode_to_matched_detection_events_array`: 220-246; `decode_batch`: 247-340; `get_nodes_on_shortest_path_from_source`: user_graph.cc:367-391). -/
def Object.ask [W : Width] (o : Object K) (f : Nat) : Query → Option (Res (Answer K × Object K))
  | .decode corr events =>
    match o.decoderFor corr with
    | none => some .ub
    | some (o, d) =>
      match o.decodeRow d f corr false events with
      | none => none
      | some .ub => some .ub
      | some .throws => some .throws
      | some (.ok (none, o', _)) => some (.ok (.exception, o'))
      | some (.ok (some (r, w), o', _)) => some (.ok (.predictions r w, o'))
  | .batch ps pp corr cols rows =>
    if Obs.shapeOk ps cols o.graph.numDetectors o.graph.nodes.length then
      match o.decoderFor corr with
      | none => some .ub
      | some (o, d) =>
        match o.batchLoop d f ps pp corr rows with
        | none => none
        | some .ub => some .ub
        | some .throws => some .throws
        | some (.ok (none, o')) => some (.ok (.exception, o'))
        | some (.ok (some (rs, ws), o')) => some (.ok (.batch rs ws, o'))
    else some (.ok (.exception, o))
  | .edges corr events =>
    match o.decoderFor true with
    | none => some .ub
    | some (o, d) =>
      match o.call d f (.edges corr events) with
      | none => none
      | some .ub => some .ub
      | some .throws => some .throws
      | some (.ok (.edges es, o', _)) => some (.ok (.edges es, o'))
      | some (.ok (_, o', _)) => some (.ok (.exception, o'))
  | .pairs events =>
    match o.decoderFor false with
    | none => some .ub
    | some (o, d) =>
      match o.call d f (.pairs events) with
      | none => none
      | some .ub => some .ub
      | some .throws => some .throws
      | some (.ok (.pairs ps, o', _)) => some (.ok (.pairs ps, o'))
      | some (.ok (_, o', _)) => some (.ok (.exception, o'))
  | .path src dst =>
    match o.decoderFor true with
    | none => some .ub
    | some (o, d) =>
      match Sch.nodesOnPath (withS d.sg d.st.ws.mem) f d.st.full.ss (o.graph.nodes.map (·.isBoundary)) src dst with
      | none => none
      | some .ub => some .ub
      | some .throws => some (.ok (.exception, o))
      | some (.ok (l, ss)) => some (.ok (.nodes l, { o with cache := some { d with st := { d.st with full := { d.st.full with ss := ss } } } }))

/-- What can be done with an object. -/
inductive Op (K : Type) where
  | modify (c : Props.UserGraph.Call K)
  | ask (q : Query)

/-- A modification; an exception leaves the graph as `exec` says. -/
def Object.modify (mergeW : K → K → K) (o : Object K) (c : Props.UserGraph.Call K) : Object K :=
  { o with graph := (Props.UserGraph.exec mergeW o.graph c).1 }

/-- A history: the answers, and the object afterwards. -/
def Object.history [W : Width] (mergeW : K → K → K) (f : Nat) : Object K → List (Op K) → Option (Res (List (Answer K) × Object K))
  | o, [] => some (.ok ([], o))
  | o, .modify c :: ops => (o.modify mergeW c).history mergeW f ops
  | o, .ask q :: ops =>
    match o.ask f q with
    | none => none
    | some .ub => some .ub
    | some .throws => some .throws
    | some (.ok (a, o')) =>
      match o'.history mergeW f ops with
      | none => none
      | some x => some (x.bind fun (as, o'') => .ok (a :: as, o''))

/-- A new object (user_graph.cc:171-183), or one with a graph just loaded from a detector error model. -/
def Object.of (g : UGraph K) (without : Bool) : Object K := ⟨{ g with needsUpdating := true }, none, without⟩

end Verif.Obj
