import Verif.Search
import Verif.Varying
import Verif.Arena
import Verif.CompressedEdge
import Verif.Timeline
import Verif.Blossom.Forest

/-!
# The flooder and the matcher

Models `/repo/src/pymatching/sparse_blossom/flooder/{graph_flooder,graph_fill_region,detector_node}.{h,cc}` and
`/repo/src/pymatching/sparse_blossom/matcher/{alternating_tree,mwpm}.{h,cc}`, and the decoding loop of
`/repo/src/pymatching/sparse_blossom/driver/mwpm_decoding.cc`.

Conventions and simplifications:

* Detector nodes, regions and alternating tree nodes are numbers; `none` is the null pointer.  Objects live in total maps;
  which numbers are live is recorded in the two arenas.  Dereferencing null is `Res.ub`.  Dereferencing a pointer to a deleted
  object is not detected by these definitions; the invariant theorems show that pointers in use are live.
* `malloc` returns the number of earlier `malloc` calls of that arena, so freed objects are reused as in the code.
* Radii and times are unbounded integers instead of 64-bit, except in the event queue and the trackers, where times are 32-bit as in the code
  (`Verif.Tracker`).
* The member `wrapped_radius_cached` is 32-bit in the code.  The definitions that depend on it have an argument `W : Width` that says how it is stored:
  `int32` as in the code, or `unbounded`.  Without an explicit `(W := int32)` it is `unbounded`; `Verif.Blossom.Narrow` shows when both are the same, and
  `Verif.Props.Narrow` what happens otherwise.
* `while` loops and recursions along parent or child pointers carry a bound on their depth, the number of objects
  allocated so far; running out of it is `Res.ub` or ends the visit.  The proofs show that the bound suffices.
-/

namespace Verif.SB

open Verif Verif.Graph Verif.CE Verif.Vary Verif.Track Verif.Spec Verif.Mem
open Verif.Sch (Res better)

instance : Monad Res where
  pure := .ok
  bind := Res.bind

/-- Dereferencing a pointer. -/
def deref {α : Type} (o : Option α) : Res α :=
  match o with
  | some a => .ok a
  | none => .ub

/-- The ephemeral fields of `DetectorNode` (detector_node.h:46-61), without the event tracker. -/
structure DNode where
  /-- `region_that_arrived` -/
  arr : Option Nat
  /-- `region_that_arrived_top` -/
  top : Option Nat
  /-- `wrapped_radius_cached` -/
  wrapped : Int
  /-- `reached_from_source` -/
  src : Option Nat
  /-- `observables_crossed_from_source` -/
  obs : ObsInt
  /-- `radius_of_arrival` -/
  rho : Int
deriving DecidableEq

/-- `DetectorNode()` (detector_node.h:37-44). -/
def DNode.blank : DNode := ⟨none, none, 0, none, 0, 0⟩

/-- `class GraphFillRegion` (graph_fill_region.h:28-57): the fields that the flooder uses.  The event tracker is in the
`World`; the fields `alt_tree_node` and `match` are in separate maps (`MS.ralt`, `MS.mate`), since only the matcher uses them. -/
structure Region where
  /-- `blossom_parent` -/
  parent : Option Nat
  /-- `blossom_parent_top` -/
  top : Nat
  radius : Varying
  /-- `blossom_children` -/
  children : List (Nat × CompressedEdge)
  /-- `shell_area` -/
  shell : List Nat

/-- `GraphFillRegion()` (graph_fill_region.cc:22-28) at address `self`. -/
def Region.fresh (self : Nat) : Region := ⟨none, self, ⟨1⟩, [], []⟩

/-- Owners of event trackers: detector nodes and regions. -/
abbrev Owner := Nat ⊕ Nat

/-- The state of `GraphFlooder` (graph_flooder.h), without the graph. -/
structure FS where
  node : Nat → DNode
  reg : Nat → Region
  /-- `region_arena` -/
  regs : Arena
  /-- all event trackers and the queue -/
  w : World Owner

/-- `struct Match` (match.h). -/
structure Mate where
  region : Option Nat
  edge : CompressedEdge
deriving DecidableEq

/-- `class AltTreeNode` (alternating_tree.h:83-109). -/
structure ANode where
  /-- `inner_region` -/
  inner : Option Nat
  /-- `outer_region` -/
  outer : Nat
  /-- `inner_to_outer_edge` -/
  i2o : CompressedEdge
  parent : Option (Nat × CompressedEdge)
  children : List (Nat × CompressedEdge)
  visited : Bool

/-- The state of `Mwpm` (mwpm.h), without the graph and the search flooder. -/
structure MS where
  fl : FS
  /-- `alt_tree_node` of every region -/
  ralt : Nat → Option Nat
  /-- `match` of every region -/
  mate : Nat → Mate
  alt : Nat → ANode
  /-- `node_arena` -/
  alts : Arena

/-- A fresh `GraphFlooder`. -/
def FS.init : FS := ⟨fun _ => .blank, Region.fresh, .empty, World.init Owner 0⟩

/-- A fresh `Mwpm`. -/
def MS.init : MS :=
  ⟨.init, fun _ => none, fun _ => ⟨none, .cleared⟩, fun _ => ⟨none, 0, .cleared, none, [], false⟩, .empty⟩

/-- `queue.cur_time` -/
def FS.now (s : FS) : Int := s.w.q.cur

def FS.setNode (s : FS) (n : Nat) (f : DNode → DNode) : FS := { s with node := Function.update s.node n (f (s.node n)) }
def FS.setReg (s : FS) (r : Nat) (f : Region → Region) : FS := { s with reg := Function.update s.reg r (f (s.reg r)) }
def MS.setAlt (s : MS) (a : Nat) (f : ANode → ANode) : MS := { s with alt := Function.update s.alt a (f (s.alt a)) }
def MS.setRalt (s : MS) (r : Nat) (a : Option Nat) : MS := { s with ralt := Function.update s.ralt r a }
def MS.setMate (s : MS) (r : Nat) (m : Mate) : MS := { s with mate := Function.update s.mate r m }

/-- A flooder call of the matcher. -/
def MS.onFl (s : MS) (f : FS → Res FS) : Res MS := (f s.fl).bind fun fl => .ok { s with fl := fl }

/-- `set_desired_event` on a tracker. -/
def wishO (w : World Owner) (o : Owner) (t : Int) : World Owner :=
  match w.step (.set o t) with
  | some (_, w') => w'
  | none => w  -- not reachable: `set` always returns

/-- `set_no_desired_event` on a tracker. -/
def noWishO (w : World Owner) (o : Owner) : World Owner :=
  match w.step (.unset o) with
  | some (_, w') => w'
  | none => w  -- not reachable

def FS.wish (s : FS) (o : Owner) (t : Int) : FS := { s with w := wishO s.w o t }
def FS.noWish (s : FS) (o : Owner) : FS := { s with w := noWishO s.w o }

/-- A freshly constructed tracker (part of the constructors; also `QueuedEventTracker::clear`, queued_event_tracker.h:36-41). -/
def FS.clearTracker (s : FS) (o : Owner) : FS := { s with w := { s.w with tr := Function.update s.w.tr o {} } }

/-! ## Detector nodes and regions -/

/-- The neighbour entries of a node.  Node pointers always come from `&graph.nodes[i]` with `i` in range; a number out of
range has no neighbours. -/
def adj (g : MGraph) (u : Nat) : List Nbr :=
  match g.nodes[u]? with
  | some l => l
  | none => []

/-- `local_radius` (detector_node.h:71-76). -/
def localRadius (s : FS) (n : Nat) : Varying :=
  match (s.node n).top with
  | none => ⟨0⟩
  | some r => (s.reg r).radius.addOffset (s.node n).wrapped

/-- Recursion depth that suffices for regions. -/
def FS.depth (s : FS) : Nat := s.regs.allocated.length

/-- The regions below a region. -/
def kidsOf (s : FS) (r : Nat) : List Nat := (s.reg r).children.map (·.1)

/-- The regions visited by `do_op_for_each_descendant_and_self` (graph_fill_region.h:101-107), in order. -/
def regionsIn (s : FS) (r : Nat) : List Nat := desc (kidsOf s) s.depth r

/-- The nodes visited by `do_op_for_each_node_in_total_area` (graph_fill_region.h:91-99), in order. -/
def area (s : FS) (r : Nat) : List Nat := (regionsIn s r).flatMap fun d => (s.reg d).shell.reverse

/-- The loop of `compute_wrapped_radius` (detector_node.cc:27-32) from region `r` on. -/
def sumBelow (s : FS) (top : Option Nat) : Nat → Nat → Res Int
  | 0, _ => .ub
  | f + 1, r =>
    if some r = top then .ok 0
    else (deref (s.reg r).parent).bind fun p => (sumBelow s top f p).bind fun x => .ok ((s.reg r).radius.yIntercept + x)

/-- How the result of `compute_wrapped_radius`, and with it the member `wrapped_radius_cached`, is stored. -/
class Width where
  keep : Int → Int

/-- As in the code: converted to `int32_t` (detector_node.h:54, 98), that is modulo `2^32` with a value from `-2^31` to `2^31 - 1`. -/
@[reducible] def int32 : Width := ⟨fun x => x.bmod (2 ^ 32)⟩

/-- `compute_wrapped_radius` (detector_node.cc:23-34).  The local variable `total` also is an `int32_t`; converting only at the end gives the same
(`int32_total`). -/
def computeWrapped [W : Width] (s : FS) (n : Nat) : Res Int :=
  match (s.node n).src with
  | none => .ok 0
  | some _ => (deref (s.node n).arr).bind fun r =>
      (sumBelow s (s.node n).top (s.depth + 1) r).bind fun x => .ok (W.keep (x - (s.node n).rho))

/-- The loop of `heir_region_on_shatter` (detector_node.cc:57-63). -/
def heirFrom (s : FS) (top : Option Nat) : Nat → Nat → Res Nat
  | 0, _ => .ub
  | f + 1, r =>
    if (s.reg r).parent = top then .ok r
    else (deref (s.reg r).parent).bind fun p => heirFrom s top f p

/-- `heir_region_on_shatter` (detector_node.cc:55-64). -/
def heir (s : FS) (n : Nat) : Res Nat := (deref (s.node n).arr).bind fun r => heirFrom s (s.node n).top (s.depth + 1) r

/-- `DetectorNode::reset` (detector_node.cc:36-44). -/
def resetNode (s : FS) (n : Nat) : FS := (s.setNode n fun _ => .blank).clearTracker (.inl n)

/-- `index_of_neighbor` (detector_node.cc:46-53). -/
def indexOfNbr (g : MGraph) (u t : Nat) : Res Nat :=
  match (adj g u).findIdx? (fun n => n.target == some t) with
  | none => .throws
  | some i => .ok i

/-- `cleanup_shell_area` (graph_fill_region.cc:69-73). -/
def cleanupShell (s : FS) (r : Nat) : FS := (s.reg r).shell.foldl resetNode s

/-- The inner loops of `wrap_into_blossom` and `clear_blossom_parent` (graph_fill_region.cc:80-82, 100-103) for one node. -/
def retopNode [W : Width] (B : Nat) (s : FS) (n : Nat) : Res FS :=
  let s := s.setNode n fun N => { N with top := some B }
  (computeWrapped s n).bind fun x => .ok (s.setNode n fun N => { N with wrapped := x })

/-- The lambda of `wrap_into_blossom` and `clear_blossom_parent` (graph_fill_region.cc:77-83, 98-104). -/
def retopRegion [W : Width] (B : Nat) (s : FS) (d : Nat) : Res FS :=
  let s := s.setReg d fun R => { R with top := B }
  (s.reg d).shell.foldlM (retopNode B) s

/-- `wrap_into_blossom` (graph_fill_region.cc:96-105). -/
def wrapInto [W : Width] (s : FS) (r B : Nat) : Res FS :=
  let s := s.setReg r fun R => { R with parent := some B }
  (regionsIn s r).foldlM (retopRegion B) s

/-- `clear_blossom_parent` (graph_fill_region.cc:75-84). -/
def clearParent [W : Width] (s : FS) (r : Nat) : Res FS :=
  let s := s.setReg r fun R => { R with parent := none }
  (regionsIn s r).foldlM (retopRegion r) s

/-- `clear_blossom_parent_ignoring_wrapped_radius` (graph_fill_region.cc:86-94). -/
def clearParentFast (s : FS) (r : Nat) : FS :=
  let s := s.setReg r fun R => { R with parent := none }
  (regionsIn s r).foldl (fun s d =>
    let s := s.setReg d fun R => { R with top := r }
    (s.reg d).shell.foldl (fun s n => s.setNode n fun N => { N with top := some r }) s) s

/-! ## The flooder -/

/-- `find_next_event_at_node_not_occupied_by_growing_top_region` (graph_flooder.cc:49-75) from neighbour `i` on. -/
def scanIdle (s : FS) (rad1 : Varying) : Nat → List Nbr → Option (Nat × Int) → Res (Option (Nat × Int))
  | _, [], best => .ok best
  | i, n :: ns, best =>
    match n.target with
    | none => if i = 0 then scanIdle s rad1 (i + 1) ns best else .ub
    | some v =>
      let rad2 := localRadius s v
      if rad2.isGrowing then scanIdle s rad1 (i + 1) ns (better best i (n.weight - rad1.yIntercept - rad2.yIntercept))
      else scanIdle s rad1 (i + 1) ns best

/-- `find_next_event_at_node_occupied_by_growing_top_region` (graph_flooder.cc:77-116) from neighbour `i` on.
`collision_time >>= 1` is floor division by 2. -/
def scanGrowing (s : FS) (u : Nat) (rad1 : Varying) : Nat → List Nbr → Option (Nat × Int) → Res (Option (Nat × Int))
  | _, [], best => .ok best
  | i, n :: ns, best =>
    match n.target with
    | none => if i = 0 then scanGrowing s u rad1 (i + 1) ns (better best i (n.weight - rad1.yIntercept)) else .ub
    | some v =>
      if (s.node u).top = (s.node v).top then scanGrowing s u rad1 (i + 1) ns best
      else
        let rad2 := localRadius s v
        if rad2.isShrinking then scanGrowing s u rad1 (i + 1) ns best
        else
          let t := n.weight - rad1.yIntercept - rad2.yIntercept
          let t := if rad2.isGrowing then t / 2 else t
          scanGrowing s u rad1 (i + 1) ns (better best i t)

/-- `find_next_event_at_node_returning_neighbor_index_and_time` (graph_flooder.cc:118-127); `none` for `SIZE_MAX`. -/
def findNext (g : MGraph) (s : FS) (u : Nat) : Res (Option (Nat × Int)) :=
  let rad1 := localRadius s u
  if rad1.isGrowing then scanGrowing s u rad1 0 (adj g u) none else scanIdle s rad1 0 (adj g u) none

/-- `reschedule_events_at_detector_node` (graph_flooder.cc:129-141). -/
def reschedule (g : MGraph) (s : FS) (u : Nat) : Res FS :=
  (findNext g s u).bind fun
    | none => .ok (s.noWish (.inl u))
    | some (_, t) => .ok (s.wish (.inl u) t)

/-- `do_region_created_at_empty_detector_node` (graph_flooder.cc:39-47). -/
def createRegionAt (g : MGraph) (s : FS) (r n : Nat) : Res FS :=
  let s := s.setNode n fun N => { N with src := some n, rho := 0, arr := some r, top := some r, wrapped := 0 }
  let s := s.setReg r fun R => { R with shell := R.shell ++ [n] }
  reschedule g s n

/-- The time chosen by `schedule_tentative_shrink_event` (graph_flooder.cc:143-149). -/
def shrinkTime (s : FS) (r : Nat) : Int :=
  match (s.reg r).shell.getLast? with
  | none => (s.reg r).radius.timeOfXInterceptForShrinking
  | some n => (localRadius s n).timeOfXInterceptForShrinking

/-- `schedule_tentative_shrink_event` (graph_flooder.cc:143-156). -/
def scheduleShrink (s : FS) (r : Nat) : FS := s.wish (.inr r) (shrinkTime s r)

/-- `do_region_arriving_at_empty_detector_node` (graph_flooder.cc:158-169). -/
def arrive [W : Width] (g : MGraph) (s : FS) (r empty frm idx : Nat) : Res FS :=
  (deref (adj g frm)[idx]?).bind fun nb =>
    let s := s.setNode empty fun N =>
      { N with obs := (s.node frm).obs ^^^ nb.obs, src := (s.node frm).src, rho := (s.reg r).radius.distanceAt s.now,
               arr := some r, top := some (s.reg r).top }
    (computeWrapped s empty).bind fun x =>
      let s := s.setNode empty fun N => { N with wrapped := x }
      let s := s.setReg r fun R => { R with shell := R.shell ++ [empty] }
      reschedule g s empty

/-- `MwpmEvent` (mwpm_event.h): notifications of the flooder to the matcher. -/
inductive MEvent where
  | none
  | hitRegion (r1 r2 : Nat) (e : CompressedEdge)
  | hitBoundary (r : Nat) (e : CompressedEdge)
  | shatter (blossom inParent inChild : Nat)

/-- `do_neighbor_interaction` (graph_flooder.cc:191-211). -/
def interact [W : Width] (g : MGraph) (s : FS) (src idx dst : Nat) : Res (FS × MEvent) :=
  match (s.node src).arr, (s.node dst).arr with
  | some _, none => (deref (s.node src).top).bind fun r => (arrive g s r dst src idx).bind fun s => .ok (s, .none)
  | none, some _ =>
    (deref (s.node dst).top).bind fun r => (indexOfNbr g dst src).bind fun j =>
      (arrive g s r src dst j).bind fun s => .ok (s, .none)
  | _, _ =>
    (deref (s.node src).top).bind fun r1 => (deref (s.node dst).top).bind fun r2 =>
    (deref (adj g src)[idx]?).bind fun nb =>
      .ok (s, .hitRegion r1 r2 ⟨(s.node src).src, (s.node dst).src, (s.node src).obs ^^^ (s.node dst).obs ^^^ nb.obs⟩)

/-- `do_region_hit_boundary_interaction` (graph_flooder.cc:213-218). -/
def hitBoundary (g : MGraph) (s : FS) (n : Nat) : Res MEvent :=
  (deref (s.node n).top).bind fun r => (deref (adj g n)[0]?).bind fun nb =>
    .ok (.hitBoundary r ⟨(s.node n).src, none, (s.node n).obs ^^^ nb.obs⟩)

/-- `do_look_at_node_event` (graph_flooder.cc:322-351).  Without any event `next.second` is the largest 64-bit integer, which
is not the current time. -/
def lookAt [W : Width] (g : MGraph) (s : FS) (u : Nat) : Res (FS × MEvent) :=
  (findNext g s u).bind fun
    | none => .ok (s, .none)
    | some (i, t) =>
      if t = s.now then
        let s := s.wish (.inl u) s.now
        (deref (adj g u)[i]?).bind fun nb =>
        match nb.target with
        | none => (hitBoundary g s u).bind fun ev => .ok (s, ev)
        | some v => interact g s u i v
      else .ok (s.wish (.inl u) t, .none)

/-- Reschedule a list of nodes. -/
def rescheduleAll (g : MGraph) (s : FS) (ns : List Nat) : Res FS := ns.foldlM (reschedule g) s

/-- `set_region_growing` (graph_flooder.cc:280-291). -/
def setGrowing (g : MGraph) (s : FS) (r : Nat) : Res FS :=
  let s := s.setReg r fun R => { R with radius := R.radius.thenGrowingAt s.now }
  let s := s.noWish (.inr r)
  rescheduleAll g s (area s r)

/-- `set_region_frozen` (graph_flooder.cc:293-308). -/
def setFrozen (g : MGraph) (s : FS) (r : Nat) : Res FS :=
  let was := (s.reg r).radius.isShrinking
  let s := s.setReg r fun R => { R with radius := R.radius.thenFrozenAt s.now }
  let s := s.noWish (.inr r)
  if was then rescheduleAll g s (area s r) else .ok s

/-- `set_region_shrinking` (graph_flooder.cc:310-320). -/
def setShrinking (s : FS) (r : Nat) : FS :=
  let s := s.setReg r fun R => { R with radius := R.radius.thenShrinkingAt s.now }
  let s := scheduleShrink s r
  (area s r).foldl (fun s n => s.noWish (.inl n)) s

/-- `region_arena.alloc_default_constructed` (arena.h:49-53), flooder part. -/
def allocRegion (s : FS) : FS × Nat :=
  let (ar, r) := s.regs.alloc s.regs.allocated.length
  (({ s with regs := ar }.setReg r fun _ => .fresh r).clearTracker (.inr r), r)

/-- The loop of `create_blossom` over the children (graph_flooder.cc:241-245). -/
def absorb [W : Width] (B : Nat) (s : FS) (c : Nat) : Res FS :=
  let s := s.setReg c fun R => { R with radius := R.radius.thenFrozenAt s.now }
  (wrapInto s c B).bind fun s => .ok (s.noWish (.inr c))

/-- `create_blossom` (graph_flooder.cc:237-252), flooder part. -/
def blossomFl [W : Width] (g : MGraph) (s : FS) (cyc : List (Nat × CompressedEdge)) : Res (FS × Nat) :=
  let (s, B) := allocRegion s
  let s := s.setReg B fun R => { R with radius := growingZeroAt s.now, children := cyc }
  ((cyc.map (·.1)).foldlM (absorb B) s).bind fun s =>
  (rescheduleAll g s (area s B)).bind fun s => .ok (s, B)

/-! ## Alternating trees -/

/-- `unstable_erase` (alternating_tree.h:43-55) of the first entry for `a`: overwrite it by the last entry, drop the last. -/
def eraseKid (l : List (Nat × CompressedEdge)) (a : Nat) : List (Nat × CompressedEdge) :=
  match l.findIdx? (fun x => x.1 == a), l.getLast? with
  | some i, some z => (l.set i z).dropLast
  | _, _ => l

/-- `add_match` (graph_fill_region.cc:64-67). -/
def addMatch (s : MS) (r r' : Nat) (e : CompressedEdge) : MS := (s.setMate r ⟨some r', e⟩).setMate r' ⟨some r, e.reversed⟩

/-- The constructor of a region sets `alt_tree_node` to null; `match` is default constructed (graph_fill_region.cc:22-28). -/
def MS.newRegion (s : MS) (fl : FS) (r : Nat) : MS := ({ s with fl := fl }.setRalt r none).setMate r ⟨none, .cleared⟩

/-- `create_blossom` (graph_flooder.cc:237-252). -/
def createBlossom [W : Width] (g : MGraph) (s : MS) (cyc : List (Nat × CompressedEdge)) : Res (MS × Nat) :=
  (blossomFl g s.fl cyc).bind fun (fl, B) => .ok (s.newRegion fl B, B)

/-- `do_degenerate_implosion` (graph_flooder.cc:220-228). -/
def implosion (s : MS) (r : Nat) : Res MEvent :=
  (deref (s.ralt r)).bind fun a =>
  (deref (s.alt a).parent).bind fun (p, e) =>
  .ok (.hitRegion (s.alt p).outer (s.alt a).outer ⟨e.locTo, (s.alt a).i2o.locTo, (s.alt a).i2o.obsMask ^^^ e.obsMask⟩)

/-- `do_blossom_shattering` (graph_flooder.cc:230-235). -/
def shattering (s : MS) (r : Nat) : Res MEvent :=
  (deref (s.ralt r)).bind fun a =>
  (deref (s.alt a).parent).bind fun (_, e) =>
  (deref e.locFrom).bind fun n1 =>
  (heir s.fl n1).bind fun r1 =>
  (deref (s.alt a).i2o.locFrom).bind fun n2 =>
  (heir s.fl n2).bind fun r2 => .ok (.shatter r r1 r2)

/-- The last branch of `do_region_shrinking` (graph_flooder.cc:177-187): node `n` leaves region `r`. -/
def leave (g : MGraph) (s : FS) (r n : Nat) : Res FS :=
  let s := s.setReg r fun R => { R with shell := R.shell.dropLast }
  let s := s.setNode n fun _ => .blank
  (reschedule g s n).bind fun s => .ok (scheduleShrink s r)

/-- `do_region_shrinking` (graph_flooder.cc:171-189). -/
def regionShrinking (g : MGraph) (s : MS) (r : Nat) : Res (MS × MEvent) :=
  match (s.fl.reg r).shell.getLast? with
  | none => (shattering s r).bind fun ev => .ok (s, ev)
  | some n =>
    if (s.fl.reg r).shell.length = 1 ∧ (s.fl.reg r).children.isEmpty then (implosion s r).bind fun ev => .ok (s, ev)
    else (s.onFl fun fl => leave g fl r n).bind fun s => .ok (s, .none)

/-- `add_child` (alternating_tree.cc:40-43). -/
def addChild (s : MS) (a c : Nat) (e : CompressedEdge) : MS :=
  (s.setAlt a fun A => { A with children := A.children ++ [(c, e)] }).setAlt c fun C => { C with parent := some (a, e.reversed) }

/-- Lines 90-98 of `become_root` (alternating_tree.cc), where `p` is the old parent and `pe` the edge to it. -/
def rotateUp (s : MS) (a p : Nat) (pe : CompressedEdge) : MS :=
  let inn := (s.alt a).inner
  let i2o := (s.alt a).i2o
  let s := s.setAlt p fun P => { P with inner := inn, i2o := pe }
  let s := s.setAlt a fun A => { A with inner := none }
  let s := s.setAlt p fun P => { P with children := eraseKid P.children a }
  let s := s.setAlt a fun A => { A with parent := none }
  let s := addChild s a p i2o.reversed
  s.setAlt a fun A => { A with i2o := .cleared }

/-- `become_root` (alternating_tree.cc:84-99). -/
def becomeRoot : Nat → MS → Nat → Res MS
  | 0, _, _ => .ub
  | f + 1, s, a =>
    match (s.alt a).parent with
    | none => .ok s
    | some (p, pe) => (becomeRoot f s p).bind fun s => .ok (rotateUp s a p pe)

/-- Recursion depth that suffices for alternating trees. -/
def MS.altDepth (s : MS) : Nat := s.alts.allocated.length

def altKids (s : MS) (a : Nat) : List Nat := (s.alt a).children.map (·.1)

/-- Loop of `most_recent_common_ancestor` (alternating_tree.cc:146-169). -/
def mrcaLoop : Nat → MS → Nat → Nat → Res (MS × Option Nat)
  | 0, _, _, _ => .ub
  | f + 1, s, a, b =>
    match (s.alt a).parent, (s.alt b).parent with
    | none, none => .ok (s, none)
    | pa, pb =>
      let (s, a, hit) := match pa with
        | some (p, _) => if (s.alt p).visited then (s, p, true) else (s.setAlt p fun A => { A with visited := true }, p, false)
        | none => (s, a, false)
      if hit then .ok (s, some a)
      else
        let (s, b, hit) := match pb with
          | some (p, _) => if (s.alt p).visited then (s, p, true) else (s.setAlt p fun A => { A with visited := true }, p, false)
          | none => (s, b, false)
        if hit then .ok (s, some b) else mrcaLoop f s a b

/-- Cleaning of the flags above the common ancestor (alternating_tree.cc:172-176). -/
def unvisit : Nat → MS → Nat → Res MS
  | 0, _, _ => .ub
  | f + 1, s, a =>
    match (s.alt a).parent with
    | none => .ok s
    | some (p, _) => if (s.alt p).visited then unvisit f (s.setAlt p fun A => { A with visited := false }) p else .ok s

/-- `most_recent_common_ancestor` (alternating_tree.cc:138-178). -/
def mrca (s : MS) (a b : Nat) : Res (MS × Option Nat) :=
  let s := (s.setAlt a fun A => { A with visited := true }).setAlt b fun A => { A with visited := true }
  (mrcaLoop (s.altDepth + 1) s a b).bind fun
    | (s, none) => .ok (s, none)
    | (s, some c) => (unvisit (s.altDepth + 1) (s.setAlt c fun A => { A with visited := false }) c).bind fun s => .ok (s, some c)

/-- What `prune_upward_path_stopping_before` returns besides the state: orphans and the pruned path. -/
abbrev Pruned := List (Nat × CompressedEdge) × List (Nat × CompressedEdge)

/-- `prune_upward_path_stopping_before` (alternating_tree.cc:185-214). -/
def prune (anc : Nat) (back : Bool) : Nat → MS → Nat → Pruned → Res (MS × Pruned)
  | 0, _, _, _ => .ub
  | f + 1, s, a, (orphans, path) =>
    if a = anc then .ok (s, (orphans, path))
    else
      let orphans := orphans ++ (s.alt a).children
      let s := s.setAlt a fun A => { A with children := [] }
      (deref (s.alt a).parent).bind fun (p, pe) =>
      (deref (s.alt a).inner).bind fun inn =>
      let path := path ++ (if back then [(inn, (s.alt a).i2o), ((s.alt p).outer, pe.reversed)]
        else [((s.alt a).outer, (s.alt a).i2o.reversed), (inn, pe)])
      let s := s.setAlt p fun P => { P with children := eraseKid P.children a }
      let s := s.setRalt (s.alt a).outer none
      let s := s.setRalt inn none
      let s := { s with alts := s.alts.del a }
      prune anc back f s p (orphans, path)

/-! ## The matcher -/

/-- The end of `shatter_descendants_into_matches_and_freeze` (mwpm.cc:57-60). -/
def dropNode (s : MS) (a o : Nat) : MS := { s.setRalt o none with alts := s.alts.del a }

/-- The body of `shatter_descendants_into_matches_and_freeze` (mwpm.cc:49-60), after the recursive calls. -/
def shatterNode (g : MGraph) (s : MS) (a : Nat) : Res MS :=
  let o := (s.alt a).outer
  match (s.alt a).inner with
  | none => .ok (dropNode s a o)
  | some inn =>
    let s := s.setAlt a fun A => { A with parent := none }
    let s := addMatch s inn o (s.alt a).i2o
    (s.onFl fun fl => setFrozen g fl inn).bind fun s => (s.onFl fun fl => setFrozen g fl o).bind fun s =>
    .ok (dropNode ((s.setRalt inn none).setRalt o none) a o)

/-- `shatter_descendants_into_matches_and_freeze` (mwpm.cc:45-61).  The recursive calls do not change which nodes are below,
so the visit order is computed first. -/
def shatterTree (g : MGraph) (s : MS) (a : Nat) : Res MS := (descPost (altKids s) s.altDepth a).foldlM (shatterNode g) s

/-- `handle_tree_hitting_boundary` (mwpm.cc:63-72). -/
def treeHitsBoundary (g : MGraph) (s : MS) (r : Nat) (e : CompressedEdge) : Res MS :=
  (deref (s.ralt r)).bind fun a =>
  (becomeRoot (s.altDepth + 1) s a).bind fun s =>
  (shatterTree g s a).bind fun s =>
  (s.setMate r ⟨none, e⟩).onFl fun fl => setFrozen g fl r

/-- `handle_tree_hitting_boundary_match` (mwpm.cc:74-83). -/
def treeHitsBoundaryMatch (g : MGraph) (s : MS) (r m : Nat) (e : CompressedEdge) : Res MS :=
  ((addMatch s r m e).onFl fun fl => setFrozen g fl r).bind fun s =>
  (deref (s.ralt r)).bind fun a =>
  (becomeRoot (s.altDepth + 1) s a).bind fun s => shatterTree g s a

/-- `handle_tree_hitting_other_tree` (mwpm.cc:85-99). -/
def treeHitsTree (g : MGraph) (s : MS) (r1 r2 : Nat) (e : CompressedEdge) : Res MS :=
  (deref (s.ralt r1)).bind fun a1 =>
  (deref (s.ralt r2)).bind fun a2 =>
  (becomeRoot (s.altDepth + 1) s a1).bind fun s =>
  (becomeRoot (s.altDepth + 1) s a2).bind fun s =>
  (shatterTree g s a1).bind fun s =>
  (shatterTree g s a2).bind fun s =>
  ((addMatch s r1 r2 e).onFl fun fl => setFrozen g fl r1).bind fun s => s.onFl fun fl => setFrozen g fl r2

/-- `make_child` (mwpm.cc:101-112) with the constructor of `AltTreeNode` (alternating_tree.cc:64-69). -/
def makeChild (s : MS) (par inn out : Nat) (i2o ce : CompressedEdge) : MS × Nat :=
  let (ar, c) := s.alts.alloc s.alts.allocated.length
  let s := { s with alts := ar }.setAlt c fun _ => ⟨some inn, out, i2o, none, [], false⟩
  let s := (s.setRalt inn (some c)).setRalt out (some c)
  (addChild s par c ce, c)

/-- `set_region_shrinking` then `set_region_growing`, as always called in this order (mwpm.cc:128-129, 208-209, 229-230). -/
def startInnerOuter (g : MGraph) (s : MS) (inn out : Nat) : Res MS :=
  s.onFl fun fl => setGrowing g (setShrinking fl inn) out

/-- `handle_tree_hitting_match` (mwpm.cc:114-130). -/
def treeHitsMatch (g : MGraph) (s : MS) (r m : Nat) (e : CompressedEdge) : Res MS :=
  (deref (s.ralt r)).bind fun a =>
  (deref (s.mate m).region).bind fun o =>
  let (s, _) := makeChild s a m o (s.mate m).edge e
  let s := (s.setMate o ⟨none, .cleared⟩).setMate m ⟨none, .cleared⟩
  startInnerOuter g s m o

/-- `handle_tree_hitting_self` (mwpm.cc:132-158). -/
def treeHitsSelf [W : Width] (g : MGraph) (s : MS) (r1 r2 : Nat) (e : CompressedEdge) (anc : Nat) : Res MS :=
  (deref (s.ralt r1)).bind fun a1 =>
  (deref (s.ralt r2)).bind fun a2 =>
  (prune anc true (s.altDepth + 1) s a1 ([], [])).bind fun (s, (orph1, path1)) =>
  (prune anc false (s.altDepth + 1) s a2 ([], [])).bind fun (s, (orph2, path2)) =>
  let cyc := path2 ++ path1.reverse ++ [(r1, e)]
  let s := s.setRalt (s.alt anc).outer none
  (createBlossom g s cyc).bind fun (s, B) =>
  let s := s.setAlt anc fun A => { A with outer := B }
  let s := s.setRalt B (some anc)
  .ok ((orph1 ++ orph2).foldl (fun s c => addChild s anc c.1 c.2) s)

/-- The loop over the path inserted into the alternating tree when a blossom is shattered with even `gap`
(mwpm.cc:200-210): `n` pairs are left, starting with cycle index `i`; `cur` is the current tree node, `ce` the edge to the next
region. -/
def insertEven (g : MGraph) (cyc : List (Nat × CompressedEdge)) : Nat → MS → Nat → Nat → CompressedEdge →
    Res (MS × Nat × CompressedEdge)
  | 0, s, _, cur, ce => .ok (s, cur, ce)
  | n + 1, s, i, cur, ce =>
    (deref cyc[i % cyc.length]?).bind fun (r1, e1) =>
    (deref cyc[(i + 1) % cyc.length]?).bind fun (r2, e2) =>
    let (s, c) := makeChild s cur r1 r2 e1 ce
    (startInnerOuter g s r1 r2).bind fun s => insertEven g cyc n s (i + 2) c e2

/-- The loop for odd `gap` (mwpm.cc:218-231); `i` is the loop variable, `pidx` is `parent_idx`. -/
def insertOdd (g : MGraph) (cyc : List (Nat × CompressedEdge)) (pidx : Nat) : Nat → MS → Nat → Nat → CompressedEdge →
    Res (MS × Nat × CompressedEdge)
  | 0, s, _, cur, ce => .ok (s, cur, ce)
  | n + 1, s, i, cur, ce =>
    (deref cyc[(pidx + cyc.length - i) % cyc.length]?).bind fun (r1, _) =>
    (deref cyc[(pidx + cyc.length - i - 1) % cyc.length]?).bind fun (r2, e2) =>
    (deref cyc[(pidx + cyc.length - i - 2) % cyc.length]?).bind fun (_, e3) =>
    let (s, c) := makeChild s cur r1 r2 e2.reversed ce
    (startInnerOuter g s r1 r2).bind fun s => insertOdd g cyc pidx n s (i + 2) c e3.reversed

/-- The loop matching the remaining children (mwpm.cc:234-247): `n` pairs are left, starting with cycle index `j`. -/
def matchEvens (g : MGraph) (cyc : List (Nat × CompressedEdge)) : Nat → MS → Nat → Res MS
  | 0, s, _ => .ok s
  | n + 1, s, j =>
    (deref cyc[j % cyc.length]?).bind fun (r1, e1) =>
    (deref cyc[(j + 1) % cyc.length]?).bind fun (r2, _) =>
    let s := addMatch s r1 r2 e1
    (s.onFl fun fl => rescheduleAll g fl (area fl r1)).bind fun s =>
    (s.onFl fun fl => rescheduleAll g fl (area fl r2)).bind fun s => matchEvens g cyc n s (j + 2)

/-- The last index of `r` in the cycle, 0 if there is none (mwpm.cc:173-180). -/
def lastIdx (cyc : List (Nat × CompressedEdge)) (r : Nat) : Nat :=
  (cyc.zipIdx).foldl (fun acc x => if x.1.1 = r then x.2 else acc) 0

/-- `handle_blossom_shattering` (mwpm.cc:160-255).  The loops `for (i = a; i < b; i += 2)` run `(b - a + 1) / 2` times. -/
def blossomShatters [W : Width] (g : MGraph) (s : MS) (B inParent inChild : Nat) : Res MS :=
  (s.onFl fun fl => (kidsOf fl B).foldlM clearParent fl).bind fun s =>
  let cyc := (s.fl.reg B).children
  let s := { s with fl := s.fl.setReg B fun R => { R with children := [] } }
  (deref (s.ralt B)).bind fun ba =>
  let bsize := cyc.length
  let pidx := lastIdx cyc inParent
  let cidx := lastIdx cyc inChild
  let gap := (cidx + bsize - pidx) % bsize
  (deref (s.alt ba).parent).bind fun (cur, pe) =>
  let s := s.setAlt cur fun A => { A with children := eraseKid A.children ba }
  let ce := pe.reversed
  (if gap % 2 = 0 then
    (insertEven g cyc ((gap + 1) / 2) s pidx cur ce).bind fun x => .ok (x, cidx + 1, cidx + bsize - gap)
   else
    (insertOdd g cyc pidx ((bsize - gap + 1) / 2) s 0 cur ce).bind fun x => .ok (x, pidx + 1, pidx + gap)).bind
  fun ((s, cur, ce), es, ee) =>
  (matchEvens g cyc ((ee - es + 1) / 2) s es).bind fun s =>
  (deref cyc[cidx]?).bind fun (rc, _) =>
  let s := s.setAlt ba fun A => { A with inner := some rc }
  let s := { s with fl := setShrinking s.fl rc }
  let s := s.setRalt rc (some ba)
  let s := addChild s cur ba ce
  .ok { s with fl := { s.fl with regs := s.fl.regs.del B } }

/-- `handle_region_hit_region` (mwpm.cc:257-283). -/
def regionHitsRegion [W : Width] (g : MGraph) (s : MS) (r1 r2 : Nat) (e : CompressedEdge) : Res MS :=
  match s.ralt r1, s.ralt r2 with
  | some a1, some a2 =>
    (mrca s a1 a2).bind fun
      | (s, none) => treeHitsTree g s r1 r2 e
      | (s, some anc) => treeHitsSelf g s r1 r2 e anc
  | some _, none =>
    match (s.mate r2).region with
    | some _ => treeHitsMatch g s r1 r2 e
    | none => treeHitsBoundaryMatch g s r1 r2 e
  | none, _ =>
    match (s.mate r1).region with
    | some _ => treeHitsMatch g s r2 r1 e.reversed
    | none => treeHitsBoundaryMatch g s r2 r1 e.reversed

/-- `process_event` (mwpm.cc:284-301). -/
def processEvent [W : Width] (g : MGraph) (s : MS) : MEvent → Res MS
  | .hitRegion r1 r2 e => regionHitsRegion g s r1 r2 e
  | .hitBoundary r e => treeHitsBoundary g s r e
  | .shatter B p c => blossomShatters g s B p c
  | .none => .ok s

/-- `create_detection_event` (mwpm.cc:417-423) with the constructor of `AltTreeNode` (alternating_tree.cc:71-74). -/
def createDetectionEvent (g : MGraph) (s : MS) (n : Nat) : Res MS :=
  let (fl, r) := allocRegion s.fl
  let s := s.newRegion fl r
  let (ar, a) := s.alts.alloc s.alts.allocated.length
  let s := { s with alts := ar }.setAlt a fun _ => ⟨none, r, .cleared, none, [], false⟩
  (s.setRalt r (some a)).onFl fun fl => createRegionAt g fl r n

/-! ## The decoding loop -/

/-- One round: `queue.dequeue()` and the owner's decision (graph_flooder.cc:254-278), processing of a valid event
(graph_flooder.cc:353-377), and processing of the notification by the matcher (mwpm_decoding.cc:132-137).  `none`: the queue was
empty, the loop ends. -/
def round [W : Width] (g : MGraph) (s : MS) : Res (Option MS) :=
  match s.fl.w.step .deliver with
  | none => .ub
  | some (.ring o _, w') =>
    let s := { s with fl := { s.fl with w := w' } }
    (match o with
      | .inl u => (lookAt g s.fl u).bind fun (fl, ev) => .ok ({ s with fl := fl }, ev)
      | .inr r => regionShrinking g s r).bind fun (s, ev) => (processEvent g s ev).bind fun s => .ok (some s)
  | some (.idle, w') => let _ := w'; .ok none
  | some (_, w') => .ok (some { s with fl := { s.fl with w := w' } })

/-- The loop (mwpm_decoding.cc:132-137) for at most `f` rounds; `none`: still running. -/
def runLoop [W : Width] (g : MGraph) : Nat → MS → Option (Res MS)
  | 0, _ => none
  | f + 1, s =>
    match round g s with
    | .ok none => some (.ok s)
    | .ok (some s') => runLoop g f s'
    | .throws => some .throws
    | .ub => some .ub

/-- `pair_and_shatter_subblossoms_and_extract_matches` and `shatter_blossom_and_extract_matches` (mwpm.cc:303-359), together
with the variants collecting match edges (mwpm.cc:361-415): both are computed at once, as `(mask, weight, edges)`. -/
structure Extract where
  mask : ObsInt
  weight : Int
  edges : List CompressedEdge

/-- `MatchingResult::operator+=` (mwpm.cc:425-429), and concatenation of match edges. -/
def Extract.add (a b : Extract) : Extract := ⟨a.mask ^^^ b.mask, a.weight + b.weight, a.edges ++ b.edges⟩

def Extract.zero : Extract := ⟨0, 0, []⟩

/-- First lines of `pair_and_shatter_subblossoms_and_extract_matches` (mwpm.cc:304-317): the children become top regions, the
one holding the endpoint of the match inherits the match.  Returns it and its index (the number of children if it is none of
them). -/
def reopen (s : MS) (r : Nat) : Res (MS × Nat × Nat) :=
  let s := { s with fl := (kidsOf s.fl r).foldl clearParentFast s.fl }
  (deref (s.mate r).edge.locFrom).bind fun n =>
  (deref (s.fl.node n).top).bind fun sub =>
  let s := s.setMate sub (s.mate r)
  let s := match (s.mate sub).region with
    | some m => s.setMate m { s.mate m with region := some sub }
    | none => s
  .ok (s, sub, (s.fl.reg r).children.findIdx (fun x => x.1 == sub))

/-- `region_arena.del` -/
def MS.delReg (s : MS) (r : Nat) : MS := { s with fl := { s.fl with regs := s.fl.regs.del r } }

/-- `cleanup_shell_area` called by the matcher. -/
def MS.cleanup (s : MS) (r : Nat) : MS := { s with fl := cleanupShell s.fl r }

mutual
/-- `shatter_blossom_and_extract_matches` (mwpm.cc:328-359); the first argument bounds the recursion depth. -/
def extract : Nat → MS → Nat → Res (MS × Extract)
  | 0, _, _ => .ub
  | f + 1, s, r =>
    let s := s.cleanup r
    match (s.mate r).region with
    | some m =>
      let s := s.cleanup m
      if (s.fl.reg r).children.isEmpty && (s.fl.reg m).children.isEmpty then
        .ok ((s.delReg m).delReg r,
          ⟨(s.mate r).edge.obsMask, (s.fl.reg r).radius.yIntercept + (s.fl.reg m).radius.yIntercept, [(s.mate r).edge]⟩)
      else extractRest f s r
    | none =>
      if (s.fl.reg r).children.isEmpty then
        .ok (s.delReg r, ⟨(s.mate r).edge.obsMask, (s.fl.reg r).radius.yIntercept, [(s.mate r).edge]⟩)
      else extractRest f s r

/-- The second half of `shatter_blossom_and_extract_matches` (mwpm.cc:351-358). -/
def extractRest : Nat → MS → Nat → Res (MS × Extract)
  | 0, _, _ => .ub
  | f + 1, s, r =>
    (if (s.fl.reg r).children.isEmpty then .ok (s, r, Extract.zero) else pairAndShatter f s r).bind fun (s, r, x1) =>
    (match (s.mate r).region with
      | none => Res.ok (s, Extract.zero)
      | some m =>
        if (s.fl.reg m).children.isEmpty then Res.ok (s, Extract.zero)
        else (pairAndShatter f s m).bind fun (s, _, x) => Res.ok (s, x)).bind fun (s, x2) =>
    (extract f s r).bind fun (s, x3) => .ok (s, (x1.add x2).add x3)

/-- `pair_and_shatter_subblossoms_and_extract_matches` (mwpm.cc:303-326). -/
def pairAndShatter : Nat → MS → Nat → Res (MS × Nat × Extract)
  | 0, _, _ => .ub
  | f + 1, s, r =>
    (reopen s r).bind fun (s, sub, idx) =>
    (pairLoop f s (s.fl.reg r).children idx 0 ((s.fl.reg r).children.length / 2)
      ⟨0, (s.fl.reg r).radius.yIntercept, []⟩).bind fun (s, x) => .ok (s.delReg r, sub, x)

/-- The loop over pairs of children (mwpm.cc:318-323): `n` pairs are left, `i` is the loop variable. -/
def pairLoop : Nat → MS → List (Nat × CompressedEdge) → Nat → Nat → Nat → Extract → Res (MS × Extract)
  | 0, _, _, _, _, _, _ => .ub
  | _ + 1, s, _, _, _, 0, x => .ok (s, x)
  | f + 1, s, cyc, idx, i, n + 1, x =>
    (deref cyc[(idx + i + 1) % cyc.length]?).bind fun (r1, e1) =>
    (deref cyc[(idx + i + 2) % cyc.length]?).bind fun (r2, _) =>
    (extract f (addMatch s r1 r2 e1) r1).bind fun (s, y) => pairLoop f s cyc idx (i + 2) n (x.add y)
end

/-- Recursion depth that suffices for `extract`. -/
def MS.extractDepth (s : MS) : Nat := 4 * s.fl.depth + 4

/-- `shatter_blossoms_for_all_detection_events_and_extract_obs_mask_and_weight` and
`shatter_blossoms_for_all_detection_events_and_extract_match_edges` (mwpm_decoding.cc:148-165). -/
def extractAll : MS → List Nat → Extract → Res (MS × Extract)
  | s, [], x => .ok (s, x)
  | s, n :: ns, x =>
    match (s.fl.node n).arr with
    | none => extractAll s ns x
    | some _ => (deref (s.fl.node n).top).bind fun r =>
        (extract s.extractDepth s r).bind fun (s, y) => extractAll s ns (x.add y)

/-- An idealisation: unbounded integers. -/
instance unbounded : Width := ⟨fun x => x⟩

@[simp] theorem keep_unbounded (x : Int) : unbounded.keep x = x := rfl

end Verif.SB
