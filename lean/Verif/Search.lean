import Verif.Graph
import Verif.Tracker

/-!
# The search flooder

Models `/repo/src/pymatching/sparse_blossom/search/search_flooder.{h,cc}`, `search_detector_node.{h,cc}` and the edge marking of
`decode_detection_events_to_edges` (`driver/mwpm_decoding.cc:259-326`).  Nodes are indices into `graph.nodes`; the event
queue and the per-node trackers are the model of `Verif.Tracker` (with 32-bit times).
-/

namespace Verif.Sch

open Verif Verif.Graph Verif.Track Verif.Spec

/-- Result of a call: a value, an exception, or undefined behaviour (null dereference, out of range access). -/
inductive Res (α : Type) where
  | ok (a : α)
  | throws
  | ub
deriving Repr, DecidableEq

def Res.bind {α β : Type} (r : Res α) (f : α → Res β) : Res β :=
  match r with
  | .ok a => f a
  | .throws => .throws
  | .ub => .ub

/-- `nodes[u].neighbors[i]` with its weight and observables. -/
def nbr (g : SGraph) (u i : Nat) : Option SNbr := (g.nodes[u]?).bind fun l => l[i]?

/-- `index_of_neighbor` (search_detector_node.cc:17-24); `none` as target is the null pointer (boundary). -/
def indexOf (g : SGraph) (u : Nat) (t : Option Nat) : Res Nat :=
  match g.nodes[u]? with
  | none => .ub
  | some l =>
    match l.findIdx? (fun n => n.target == t) with
    | none => .throws
    | some i => .ok i

/-- The mutable state: the search fields of every node (search_detector_node.h:31-42), `reached_nodes`, `target_type`
(search_flooder.h:31-35), and the trackers with the queue. -/
structure SS where
  reached : Nat → Option Nat
  pred : Nat → Option Nat
  dist : Nat → Int
  reachedNodes : List Nat
  toBoundary : Bool
  w : World Nat

/-- A fresh flooder. -/
def SS.init : SS := ⟨fun _ => none, fun _ => none, fun _ => 0, [], false, World.init Nat 0⟩

/-- `if (collision_time < best_time)` (search_flooder.cc:61-64). -/
def better (best : Option (Nat × Int)) (i : Nat) (t : Int) : Option (Nat × Int) :=
  match best with
  | none => some (i, t)
  | some (j, t') => if t < t' then some (i, t) else some (j, t')

/-- The loops of `find_next_event_at_node_returning_neighbor_index_and_time` (search_flooder.cc:25-68) from neighbour
index `i` on.  A null neighbour at an index other than 0 is dereferenced. -/
def scan (s : SS) (u : Nat) : Nat → List SNbr → Option (Nat × Int) → Res (Option (Nat × Int))
  | _, [], best => .ok best
  | i, n :: ns, best =>
    match n.target with
    | none =>
      if i = 0 then
        if s.toBoundary then
          scan s u (i + 1) ns (better best i (s.w.q.cur + n.weight - (s.w.q.cur - s.dist u)))
        else scan s u (i + 1) ns best
      else .ub
    | some v =>
      if s.reached v = s.reached u then scan s u (i + 1) ns best
      else if s.reached v = none then
        scan s u (i + 1) ns (better best i (s.w.q.cur + n.weight - (s.w.q.cur - s.dist u)))
      else
        scan s u (i + 1) ns (better best i
          (s.w.q.cur + Int.tdiv (n.weight - (s.w.q.cur - s.dist u) - (s.w.q.cur - s.dist v)) 2))

/-- `find_next_event_at_node_returning_neighbor_index_and_time` (search_flooder.cc:25-68); `none` for `SIZE_MAX`. -/
def findNext (g : SGraph) (s : SS) (u : Nat) : Res (Option (Nat × Int)) :=
  match g.nodes[u]? with
  | none => .ub
  | some l => scan s u 0 l none

/-- `set_desired_event` on a node's tracker. -/
def wish (w : World Nat) (u : Nat) (t : Int) : World Nat :=
  match w.step (.set u t) with
  | some (_, w') => w'
  | none => w  -- not reachable: `set` always returns

/-- `set_no_desired_event` on a node's tracker. -/
def noWish (w : World Nat) (u : Nat) : World Nat :=
  match w.step (.unset u) with
  | some (_, w') => w'
  | none => w  -- not reachable

/-- `reschedule_events_at_search_detector_node` (search_flooder.cc:70-77). -/
def reschedule (g : SGraph) (s : SS) (u : Nat) : Res SS :=
  (findNext g s u).bind fun
    | none => .ok { s with w := noWish s.w u }
    | some (_, t) => .ok { s with w := wish s.w u t }

/-- `do_search_starting_at_empty_search_detector_node` (search_flooder.cc:79-85). -/
def startAt (g : SGraph) (s : SS) (src : Nat) : Res SS :=
  reschedule g { s with reached := Function.update s.reached src (some src), pred := Function.update s.pred src none,
                        dist := Function.update s.dist src 0, reachedNodes := s.reachedNodes ++ [src] } src

/-- `do_search_exploring_empty_detector_node` (search_flooder.cc:87-96). -/
def explore (g : SGraph) (s : SS) (v i : Nat) : Res SS :=
  match nbr g v i with
  | none => .ub
  | some n =>
    match n.target with
    | none => .ub
    | some u =>
      reschedule g { s with reached := Function.update s.reached v (s.reached u), pred := Function.update s.pred v (some i),
                            dist := Function.update s.dist v (n.weight + s.dist u),
                            reachedNodes := s.reachedNodes ++ [v] } v

/-- `do_look_at_node_event` (search_flooder.cc:98-129): the new state and the collision edge, if any. -/
def look (g : SGraph) (s : SS) (u : Nat) : Res (SS × Option (Nat × Nat)) :=
  (findNext g s u).bind fun
    | none => .ok (s, none)
    | some (i, t) =>
      if t = s.w.q.cur then
        match nbr g u i with
        | none => .ub
        | some n =>
          match n.target with
          | none => .ok (s, some (u, i))
          | some v =>
            if s.reached u ≠ none ∧ s.reached v = none then
              (indexOf g v (some u)).bind fun j => (explore g s v j).bind fun s' =>
                .ok ({ s' with w := wish s'.w u s'.w.q.cur }, none)
            else .ok (s, some (u, i))
      else .ok ({ s with w := wish s.w u t }, none)

/-- The loop of `run_until_collision` (search_flooder.cc:140-149), at most `fuel` iterations; the outer `none` is an
unfinished loop, the inner `none` is the null edge returned for an exhausted queue. -/
def loop (g : SGraph) : Nat → SS → Option (Res (SS × Option (Nat × Nat)))
  | 0, _ => none
  | fuel + 1, s =>
    match s.w.step .deliver with
    | none => some .ub
    | some (.ring u _, w') =>
      match look g { s with w := w' } u with
      | .ok (s', none) => loop g fuel s'
      | r => some r
    | some (.silent, w') => loop g fuel { s with w := w' }
    | some (_, _) => some (.ok (s, none))

/-- `run_until_collision` (search_flooder.cc:131-150); `dst = none` is the boundary. -/
def runUntilCollision (g : SGraph) (fuel : Nat) (s : SS) (src : Nat) (dst : Option Nat) :
    Option (Res (SS × Option (Nat × Nat))) :=
  match dst with
  | none =>
    match startAt g { s with toBoundary := true } src with
    | .ok s => loop g fuel s
    | .throws => some .throws
    | .ub => some .ub
  | some d =>
    match (startAt g { s with toBoundary := false } d).bind fun s => startAt g s src with
    | .ok s => loop g fuel s
    | .throws => some .throws
    | .ub => some .ub

/-- `iter_edges_on_path_traced_back_from_node` (search_flooder.h:63-72): the edges handed to the callback. -/
def traceBack (g : SGraph) (s : SS) : Nat → Nat → Option (Res (List (Nat × Nat)))
  | 0, _ => none
  | fuel + 1, u =>
    match s.pred u with
    | none => some (.ok [])
    | some i =>
      match nbr g u i with
      | some ⟨some v, _, _, _⟩ =>
        match traceBack g s fuel v with
        | none => none
        | some r => some (r.bind fun es => .ok ((u, i) :: es))
      | _ => some .ub

/-- Both traces and the collision edge, as used by the two iteration functions: the path traced from the collision
edge's node, and from its other end if that is a node. -/
def traces (g : SGraph) (fuel : Nat) (s : SS) (c : Nat × Nat) : Option (Res (List (Nat × Nat) × List (Nat × Nat))) :=
  match traceBack g s fuel c.1 with
  | none => none
  | some r1 =>
    match nbr g c.1 c.2 with
    | none => some .ub
    | some n =>
      match n.target with
      | none => some (r1.bind fun p => .ok (p, []))
      | some v =>
        match traceBack g s fuel v with
        | none => none
        | some r2 => some (r1.bind fun p => r2.bind fun q => .ok (p, q))

/-- `reset` (search_flooder.cc:152-161) with `SearchDetectorNode::reset` (search_detector_node.cc:26-30).
`distance_from_source` keeps its value. -/
def resetS (s : SS) : Res SS :=
  match s.w.q.reset with
  | none => .ub
  | some q =>
    .ok { s with reached := fun u => if u ∈ s.reachedNodes then none else s.reached u,
                 pred := fun u => if u ∈ s.reachedNodes then none else s.pred u,
                 reachedNodes := [],
                 w := ⟨fun u => if u ∈ s.reachedNodes then {} else s.w.tr u, q⟩ }

/-- `iter_edges_on_shortest_path_from_middle` (search_flooder.h:84-90) with
`iter_edges_tracing_back_from_collision_edge` (search_flooder.h:74-82): the edges handed to the callback, in order, and the
flooder afterwards.  A null collision edge is dereferenced. -/
def pathFromMiddle (g : SGraph) (fuel : Nat) (s : SS) (src : Nat) (dst : Option Nat) :
    Option (Res (List (Nat × Nat) × SS)) :=
  match runUntilCollision g fuel s src dst with
  | none => none
  | some .throws => some .throws
  | some .ub => some .ub
  | some (.ok (_, none)) => some .ub
  | some (.ok (s', some c)) =>
    match traces g fuel s' c with
    | none => none
    | some r => some (r.bind fun (p, q) => (resetS s').bind fun s'' => .ok (p ++ q ++ [c], s''))

/-- The reversed edge (search_flooder.h:97-99). -/
def revEdge (g : SGraph) (e : Nat × Nat) : Res (Nat × Nat) :=
  match nbr g e.1 e.2 with
  | some ⟨some v, _, _, _⟩ => (indexOf g v (some e.1)).bind fun j => .ok (v, j)
  | _ => .ub

/-- `reverse_path_and_handle_edges` (search_flooder.h:92-101): the edges handed to the callback. -/
def reversePath (g : SGraph) : List (Nat × Nat) → Res (List (Nat × Nat))
  | [] => .ok []
  | e :: es => (reversePath g es).bind fun l => (revEdge g e).bind fun e' => .ok (l ++ [e'])

/-- The node an edge leads to. -/
def endOf (g : SGraph) (e : Nat × Nat) : Res (Option Nat) :=
  match nbr g e.1 e.2 with
  | none => .ub
  | some n => .ok n.target

/-- The choice of the direction (search_flooder.h:113-135): path 1 is traced from the collision edge's node, path 2 is the
collision edge followed by the trace from its other end. -/
def orient (g : SGraph) (src : Nat) (p q : List (Nat × Nat)) (c : Nat × Nat) : Res (List (Nat × Nat)) :=
  (endOf g ((c :: q).getLast (by simp))).bind fun last =>
  if last = some src then (reversePath g (c :: q)).bind fun l => .ok (l ++ p)
  else (reversePath g p).bind fun l => .ok (l ++ c :: q)

/-- `iter_edges_on_shortest_path_from_source` (search_flooder.h:103-138): the edges handed to the callback, in order, and
the flooder afterwards. -/
def pathFromSource (g : SGraph) (fuel : Nat) (s : SS) (src : Nat) (dst : Option Nat) :
    Option (Res (List (Nat × Nat) × SS)) :=
  match runUntilCollision g fuel s src dst with
  | none => none
  | some .throws => some .throws
  | some .ub => some .ub
  | some (.ok (_, none)) => some .ub
  | some (.ok (s', some c)) =>
    match traces g fuel s' c with
    | none => none
    | some r => some (r.bind fun (p, q) => (orient g src p q c).bind fun es => (resetS s').bind fun s'' => .ok (es, s''))

/-- `is_boundary_node` (user_graph.cc:213-215) on the `is_boundary` flags of the nodes; `none` as node is `SIZE_MAX`, and an
index past the end is an out-of-range access. -/
def isBnd (bnd : List Bool) : Option Nat → Res Bool
  | none => .ok true
  | some u =>
    match bnd[u]? with
    | none => .ub
    | some b => .ok b

/-- The call of the search in `get_nodes_on_shortest_path_from_source` for a source that is not a boundary node
(user_graph.cc:375-381): the source of every edge, then the destination if it is a detector. -/
def nodesFrom (g : SGraph) (fuel : Nat) (s : SS) (src : Nat) (dst : Option Nat) : Option (Res (List Nat × SS)) :=
  match pathFromSource g fuel s src dst with
  | none => none
  | some r => some (r.bind fun (es, s') => .ok (es.map (·.1) ++ dst.toList, s'))

/-- `get_nodes_on_shortest_path_from_source` (user_graph.cc:367-391).  The range checks come after the use of the indices. -/
def nodesOnPath (g : SGraph) (fuel : Nat) (s : SS) (bnd : List Bool) (src dst : Option Nat) : Option (Res (List Nat × SS)) :=
  match isBnd bnd src, isBnd bnd dst with
  | .ok false, .ok db =>
    match src with
    | none => some .ub  -- not reachable: `none` is a boundary
    | some u => nodesFrom g fuel s u (if db then none else dst)
  | .ok true, .ok false =>
    match dst with
    | none => some .ub  -- not reachable
    | some v =>
      match nodesFrom g fuel s v none with
      | none => none
      | some r => some (r.bind fun (l, s') => .ok (l.reverse, s'))
  | .ok true, .ok true => some .throws
  | _, _ => some .ub

/-! ## Edge marks -/

/-- The `FLIPPED` bit of `neighbor_markers[i]` of node `u` (search_detector_node.h:23).  The other bits are never
written by the functions below. -/
abbrev Marks := Nat → Nat → Bool

def toggleMark (m : Marks) (u i : Nat) : Marks := fun v j => if v = u ∧ j = i then !m v j else m v j

/-- `flip_edge` (mwpm_decoding.cc:259-266). -/
def flipEdge (g : SGraph) (m : Marks) (u i : Nat) : Res Marks :=
  match nbr g u i with
  | none => .ub
  | some n =>
    match n.target with
    | none => .ok (toggleMark m u i)
    | some v => (indexOf g v (some u)).bind fun j => .ok (toggleMark (toggleMark m u i) v j)

/-- Flipping the negative-weight edges and appending them (mwpm_decoding.cc:281-291).  The second component of an edge is
`none` for -1. -/
def addNegative (g : SGraph) : Marks → List (Nat × Option Nat) → Res (Marks × List (Nat × Option Nat))
  | m, [] => .ok (m, [])
  | m, (u, t) :: es =>
    (indexOf g u t).bind fun i => (flipEdge g m u i).bind fun m' => (addNegative g m' es).bind fun (m'', l) =>
      .ok (m'', (u, t) :: l)

/-- Flipping the edges of the paths and appending them (mwpm_decoding.cc:293-304). -/
def addPath (g : SGraph) : Marks → List (Nat × Nat) → Res (Marks × List (Nat × Option Nat))
  | m, [] => .ok (m, [])
  | m, (u, i) :: es =>
    match nbr g u i with
    | none => .ub
    | some n =>
      (flipEdge g m u i).bind fun m' => (addPath g m' es).bind fun (m'', l) => .ok (m'', (u, n.target) :: l)

/-- Where an edge of the list is stored (mwpm_decoding.cc:310-316): the boundary edge at index 0. -/
def slotOf (g : SGraph) (u : Nat) : Option Nat → Res Nat
  | none => .ok 0
  | some v => indexOf g u (some v)

/-- The final loop (mwpm_decoding.cc:306-325), from position `i` on: an edge that is no longer flipped is overwritten by
the last one, a flipped edge is kept and unflipped. -/
def cleanup (g : SGraph) (m : Marks) (es : List (Nat × Option Nat)) (i : Nat) : Res (Marks × List (Nat × Option Nat)) :=
  if h : i < es.length then
    match es[i] with
    | (u, t) =>
      match slotOf g u t with
      | .throws => .throws
      | .ub => .ub
      | .ok idx =>
        match nbr g u idx with
        | none => .ub
        | some _ =>
          if m u idx then
            match flipEdge g m u idx with
            | .ok m' => cleanup g m' es (i + 1)
            | .throws => .throws
            | .ub => .ub
          else cleanup g m ((es.set i (es.getLast (by intro h'; simp [h'] at h))).dropLast) i
  else .ok (m, es)
termination_by es.length - i
decreasing_by
  · omega
  · simp; omega

/-- The part of `decode_detection_events_to_edges` after the matching (mwpm_decoding.cc:280-325), for the negative-weight
edges and the concatenated paths. -/
def toEdges (g : SGraph) (m : Marks) (neg : List (Nat × Option Nat)) (paths : List (Nat × Nat)) :
    Res (Marks × List (Nat × Option Nat)) :=
  (addNegative g m neg).bind fun (m1, l1) => (addPath g m1 paths).bind fun (m2, l2) => cleanup g m2 (l1 ++ l2) 0

end Verif.Sch
