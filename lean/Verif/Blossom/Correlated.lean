import Verif.Blossom.UserWide
import Verif.Reweight

/-!
# Decoding with edge correlations

Models the storing and converting of implied weights (`/repo/src/pymatching/sparse_blossom/flooder/graph.cc:52-75, 105-112, 164-197`, and the same code
in `search/search_graph.cc:50-72, 93-100, 127-161`), `reweight_for_edges` (`flooder/graph.cc:201-219`, `search/search_graph.cc:104-115`) on lists of edges, and the
two-pass decoding of `decode_detection_events_for_up_to_64_observables`, `decode_detection_events` and
`decode_detection_events_to_edges_with_edge_correlations` (`driver/mwpm_decoding.cc:167-248, 328-339, 328-339`) with `edge_correlations` set.

The weights of both graphs are memories of cells `(node, slot)` (`Verif.Reweight`); everything else in the graphs stays fixed.
-/

namespace Verif.SB

open Verif Verif.Graph Verif.UG Verif.Conv Verif.CE
open Verif.Sch (Res)

/-! ## Weights as memory -/

/-- The neighbour lists (`neighbors` of all nodes): what both graph classes have in common. -/
abbrev Adj := List (List (Option Nat))

/-- The neighbour lists of the matching graph. -/
def adjM (g : MGraph) : Adj := g.nodes.map fun l => l.map (·.target)

/-- The neighbour lists of the search graph. -/
def adjS (sg : SGraph) : Adj := sg.nodes.map fun l => l.map (·.target)

/-- The weights `neighbor_weights` of the matching graph; cells that do not exist hold 0 and are never looked at. -/
def memM (g : MGraph) : RW.Mem := fun p => match (g.nodes[p.1]?).bind fun l => l[p.2]? with | some n => n.weight | none => 0

/-- The weights of the search graph. -/
def memS (sg : SGraph) : RW.Mem := fun p => match (sg.nodes[p.1]?).bind fun l => l[p.2]? with | some n => n.weight | none => 0

/-- The matching graph with the given weights in its cells. -/
def withM (g : MGraph) (m : RW.Mem) : MGraph := { g with nodes := g.nodes.mapIdx fun u l => l.mapIdx fun k n => { n with weight := m (u, k) } }

/-- The search graph with the given weights in its cells. -/
def withS (sg : SGraph) (m : RW.Mem) : SGraph := { sg with nodes := sg.nodes.mapIdx fun u l => l.mapIdx fun k n => { n with weight := m (u, k) } }

/-! ## Implied weights -/

section Table

variable {K : Type} [Field K] [LinearOrder K] [FloorRing K]

/-- `edges_to_implied_weights_unconverted`: per node and slot the implied weights of the edge. -/
abbrev Table (K : Type) := List (List (List (Implied K)))

/-- What `add_edge` and `add_boundary_edge` do with the implied weights (graph.cc:52-75, 105-112; search_graph.cc:50-72, 93-100): they are stored at the
same position as the edge; a self-loop is not stored. -/
def note (t : Table K) : Conv.Ins K → Table K
  | .edge u v _ _ im => if u = v then t else (t.modify u (· ++ [im])).modify v (· ++ [im])
  | .bdry u _ _ im => t.modify u (im :: ·)

/-- The table after all insertions. -/
def table (n : Nat) (ins : List (Conv.Ins K)) : Table K := ins.foldl note (List.replicate n [])

/-- `nodes[u].index_of_neighbor(t)` (detector_node.cc:46-53, search_detector_node.cc:17-24). -/
def slotOf (A : Adj) (u : Nat) (t : Option Nat) : Res Nat :=
  match A[u]? with
  | none => .ub
  | some l =>
    match l.findIdx? (· == t) with
    | none => .throws
    | some i => .ok i

/-- `convert_rule` (graph.cc:166-182; search_graph.cc:129-146).  `k` is the normalising constant passed in. -/
def convertRule (A : Adj) (k : K) (r : Implied K) : Res RW.ImpliedWeight :=
  (slotOf A r.node1 r.node2).bind fun i =>
    match r.node2 with
    | none => .ok ⟨(r.node1, i), none, (disc (k / 2) r.weight).natAbs⟩
    | some v => (slotOf A v (some r.node1)).bind fun j => .ok ⟨(r.node1, i), some (v, j), (disc (k / 2) r.weight).natAbs⟩

/-- `mapM` for lists, spelled out. -/
def mapRes {α β : Type} (f : α → Res β) : List α → Res (List β)
  | [] => .ok []
  | a :: l => (f a).bind fun b => (mapRes f l).bind fun bs => .ok (b :: bs)

/-- `neighbor_implied_weights` of all nodes: the rules per node and slot. -/
abbrev Rules := List (List (List RW.ImpliedWeight))

/-- `convert_implied_weights` (graph.cc:186-197; search_graph.cc:150-161).  The code runs over the slots of the nodes; these are as many as the table
has rows. -/
def convertTable (A : Adj) (k : K) (t : Table K) : Res Rules := mapRes (mapRes (mapRes (convertRule A k))) t

end Table

/-! ## Two passes -/

/-- The loop of `reweight_for_edges` (graph.cc:214-218; search_graph.cc:109-115): the state it reaches, and how it ends. -/
def reweightFor (A : Adj) (R : Rules) : RW.State → List (Nat × Option Nat) → RW.State × Res Unit
  | s, [] => (s, .ok ())
  | s, (u, t) :: es =>
    match slotOf A u t with
    | .ub => (s, .ub)
    | .throws => (s, .throws)
    | .ok z =>
      match (R[u]?).bind fun l => l[z]? with
      | none => (s, .ub)
      | some rs => reweightFor A R (s.apply rs) es

/-- The fixed data of a decoder with correlations: the rules of both graphs, and `loaded_from_dem_without_correlations`. -/
structure Corr where
  rg : Rules
  rs : Rules
  without : Bool

/-- The mutable data of a decoder with correlations: the state of both flooders, and the weights with their undo logs of both graphs. -/
structure CState where
  full : Full
  wg : RW.State
  ws : RW.State

/-- A new decoder. -/
def CState.init (g : MGraph) (sg : SGraph) : CState := ⟨Full.init, ⟨memM g, []⟩, ⟨memS sg, []⟩⟩

/-- Outcome of a call; an exception carries the state it leaves behind. -/
inductive EndedC (α : Type) where
  | ok (a : α)
  | throws (st : CState)
  | ub

/-- A call without correlations, on the weights as they are: it does not change them. -/
def plain {α : Type} (g : MGraph) (sg : SGraph) (call : MGraph → SGraph → Full → Option (Ended (Full × α))) (st : CState) :
    Option (EndedC (CState × α)) :=
  match call (withM g st.wg.mem) (withS sg st.ws.mem) st.full with
  | none => none
  | some .ub => some .ub
  | some (.throws F) => some (.throws { st with full := F })
  | some (.ok (F, a)) => some (.ok ({ st with full := F }, a))

/-- The part before the second pass (mwpm_decoding.cc:174-177, 207-210, 330-332): decode to edges, reweight both graphs. -/
def firstPass [W : Width] (g : MGraph) (sg : SGraph) (bnd : List Bool) (C : Corr) (f : Nat) (st : CState) (events : List Nat) : Option (EndedC CState) :=
  match plain g sg (fun g sg F => decodeEdges g sg bnd f F events) st with
  | none => none
  | some .ub => some .ub
  | some (.throws st) => some (.throws st)
  | some (.ok (st, es)) =>
    if C.without then some (.throws st)
    else
      match reweightFor (adjM g) C.rg st.wg es with
      | (_, .ub) => some .ub
      | (wg, .throws) => some (.throws { st with wg := wg })
      | (wg, .ok _) =>
        match reweightFor (adjS sg) C.rs st.ws es with
        | (_, .ub) => some .ub
        | (ws, .throws) => some (.throws { st with wg := wg, ws := ws })
        | (ws, .ok _) => some (.ok { st with wg := wg, ws := ws })

/-- A call with `edge_correlations`: first pass, second pass with the changed weights, and `undo_reweights` on both graphs
(mwpm_decoding.cc:167-194, 196-248, 328-339).  An exception in the second pass skips the undoing. -/
def correlated [W : Width] {α : Type} (g : MGraph) (sg : SGraph) (bnd : List Bool) (C : Corr) (f : Nat)
    (second : MGraph → SGraph → Full → Option (Ended (Full × α))) (st : CState) (events : List Nat) : Option (EndedC (CState × α)) :=
  match firstPass g sg bnd C f st events with
  | none => none
  | some .ub => some .ub
  | some (.throws st) => some (.throws st)
  | some (.ok st) =>
    match plain g sg second st with
    | none => none
    | some .ub => some .ub
    | some (.throws st) => some (.throws st)
    | some (.ok (st, a)) => some (.ok ({ st with wg := st.wg.undo, ws := st.ws.undo }, a))

/-- `decode_detection_events` with `edge_correlations` (mwpm_decoding.cc:196-248). -/
def decodeObsCorr [W : Width] (g : MGraph) (sg : SGraph) (bnd : List Bool) (m : ObsInt) (C : Corr) (f : Nat) (st : CState) (events : List Nat)
    (buf : List (BitVec 8)) (w0 : Int) : Option (EndedC (CState × List (BitVec 8) × Int)) :=
  correlated g sg bnd C f (fun g sg F => decodeObs g sg bnd m f F events buf w0) st events

/-- `decode_detection_events_to_edges_with_edge_correlations` (mwpm_decoding.cc:328-339). -/
def decodeEdgesCorr [W : Width] (g : MGraph) (sg : SGraph) (bnd : List Bool) (C : Corr) (f : Nat) (st : CState) (events : List Nat) :
    Option (EndedC (CState × List (Nat × Option Nat))) :=
  correlated g sg bnd C f (fun g sg F => decodeEdges g sg bnd f F events) st events

/-- `decode_detection_events_for_up_to_64_observables` as a call on the whole decoder. -/
def call64 [W : Width] (bnd : List Bool) (m : ObsInt) (f : Nat) (events : List Nat) (g : MGraph) (_ : SGraph) (F : Full) : Option (Ended (Full × ObsInt × Int)) :=
  match decode64 g bnd (negEvents g) m g.negSum f F.ms events with
  | none => none
  | some .ub => some .ub
  | some (.throws s) => some (.throws { F with ms := s })
  | some (.ok (s, r)) => some (.ok ({ F with ms := s }, r))

/-- `decode_detection_events_to_match_edges` as a call on the whole decoder; it takes no correlations. -/
def callPairs [W : Width] (bnd : List Bool) (f : Nat) (events : List Nat) (g : MGraph) (_ : SGraph) (F : Full) : Option (Ended (Full × List CompressedEdge)) :=
  match decodePairs g bnd (negEvents g) g.negSum f F.ms events with
  | none => none
  | some .ub => some .ub
  | some (.throws s) => some (.throws { F with ms := s })
  | some (.ok (s, r)) => some (.ok ({ F with ms := s }, r))

/-- `decode_detection_events_for_up_to_64_observables` with `edge_correlations` (mwpm_decoding.cc:167-194). -/
def decode64Corr [W : Width] (g : MGraph) (sg : SGraph) (bnd : List Bool) (m : ObsInt) (C : Corr) (f : Nat) (st : CState) (events : List Nat) :
    Option (EndedC (CState × ObsInt × Int)) :=
  correlated g sg bnd C f (call64 bnd m f events) st events

/-! ## From the user's graph -/

section Prepare

variable {K : Type} [Field K] [LinearOrder K] [FloorRing K]

/-- `to_mwpm` with search graph and correlations (user_graph.cc:266-330); `none` if an exception is raised or the behaviour is undefined.  `without` is
`loaded_from_dem_without_correlations`. -/
def prepareCorr (g : UGraph K) (without : Bool) : Option (Prepared K × SGraph × Corr) :=
  match prepareFull g, convert g with
  | some (P, sg), some (ins, k) =>
    match convertTable (adjM P.mg) k (table g.nodes.length ins), convertTable (adjS sg) k (table g.nodes.length ins) with
    | .ok rg, .ok rs => some (P, sg, ⟨rg, rs, without⟩)
    | _, _ => none
  | _, _ => none

end Prepare

end Verif.SB
