import Verif.Blossom.Model
import Verif.Timeline
import Mathlib.Data.Finset.Sort

/-!
# Decoding a syndrome

Model of the functions in `/repo/src/pymatching/sparse_blossom/driver/mwpm_decoding.cc` that put together the parts: starting the
detection events, running the loop, checking that no alternating tree is left, extracting the matching, and correcting for edges of
negative weight.

Simplification: the temporary marks that the starting phase leaves in `radius_of_arrival` are kept in the separate set of
`TL.Start` until an exception is raised (no code run in between reads `radius_of_arrival` of a node that no region has reached).
Marks left by an earlier exception are overwritten at the start (`MS.unmark`).
-/

namespace Verif.SB

open Verif Verif.Graph Verif.CE Verif.Mem Verif.Track
open Verif.Sch (Res)

/-- Outcome of a call; an exception carries the state it leaves behind. -/
inductive Outcome (α : Type) where
  | ok (a : α)
  | throws (s : MS)
  | ub

/-- `mwpm.flooder.queue.cur_time = 0` (mwpm_decoding.cc:86). -/
def MS.begin (s : MS) : MS := { s with fl := { s.fl with w := { s.fl.w with q := { s.fl.w.q with cur := 0 } } } }

/-- The calls of `create_detection_event` of the starting phase, in order (mwpm_decoding.cc:98, 116, 128). -/
def launch (g : MGraph) : List Nat → MS → Res MS
  | [], s => .ok s
  | n :: ns, s => (createDetectionEvent g s n).bind (launch g ns)

/-- Marks left in `radius_of_arrival` (mwpm_decoding.cc:103-105). -/
def MS.mark (s : MS) (marks : Finset Nat) : MS :=
  { s with fl := { s.fl with node := fun n => if n ∈ marks then { s.fl.node n with rho := 1 } else s.fl.node n } }

/-- The starting phase writes 1 to `radius_of_arrival` of the nodes of `negative_weight_detection_events`, and then 0, whatever was there before
(mwpm_decoding.cc:103-105, 117-120, 124-128); the 1s are in the set of `TL.Start`. -/
def MS.unmark (s : MS) (neg : List Nat) : MS :=
  { s with fl := { s.fl with node := fun n => if n ∈ neg then { s.fl.node n with rho := 0 } else s.fl.node n } }

/-- `Mwpm::reset` (mwpm.cc:471-479) with `DetectorNode::reset` (detector_node.cc:36-44): nodes and their trackers are reset, the queue is
cleared, both arenas are destroyed (all regions, with their trackers, and all alternating tree nodes are freed).  Simplification: the
arenas are usable afterwards (the code calls destructors of members, see DESIGN). -/
def MS.reset (s : MS) : Res MS :=
  match s.fl.w.q.clear with
  | none => .ub
  | some q => .ok { s with fl := { s.fl with node := fun _ => .blank, regs := .empty, w := ⟨fun _ => {}, q⟩ }, alts := .empty }

/-- `process_timeline_until_completion` (mwpm_decoding.cc:82-146), running the loop for at most `f` rounds (`none`: it still runs).
`bnd` is `is_user_graph_boundary_node`, `neg` is `negative_weight_detection_events`. -/
def timeline [W : Width] (g : MGraph) (bnd : List Bool) (neg : List Nat) (f : Nat) (s : MS) (events : List Nat) : Option (Outcome MS) :=
  if s.fl.w.q.num ≠ 0 then some (.throws s)
  else
    match TL.start g.nodes.length bnd neg events with
    | (st, fine) =>
      match launch g st.started (s.begin.unmark neg) with
      | .ub => some .ub
      | .throws => some (.throws s)
      | .ok s1 =>
        if fine then
          match runLoop g f s1 with
          | none => none
          | some .ub => some .ub
          | some .throws => some (.throws s1)
          | some (.ok s2) =>
            if s2.alts.allocated.length ≠ s2.alts.available.length then
              match s2.reset with
              | .ok s3 => some (.throws s3)
              | .throws => some (.throws s2)
              | .ub => some .ub
            else some (.ok s2)
        else some (.throws (s1.mark st.marks))

/-- `process_timeline_until_completion` and the extraction from `detection_events` and from
`negative_weight_detection_events` (mwpm_decoding.cc:180-184, 214-221, 231-235, 274-279). -/
def matching [W : Width] (g : MGraph) (bnd : List Bool) (neg : List Nat) (f : Nat) (s : MS) (events : List Nat) : Option (Outcome (MS × Extract)) :=
  match timeline g bnd neg f s events with
  | none => none
  | some .ub => some .ub
  | some (.throws s') => some (.throws s')
  | some (.ok s1) =>
    match extractAll s1 events Extract.zero with
    | .ub => some .ub
    | .throws => some (.throws s1)
    | .ok (s2, x) =>
      match extractAll s2 neg x with
      | .ub => some .ub
      | .throws => some (.throws s2)
      | .ok (s3, x) => some (.ok (s3, x))

/-- `negative_weight_detection_events` as a sorted vector (graph_flooder.cc:380-384). -/
def negEvents (g : MGraph) : List Nat := g.negDets.sort (· ≤ ·)

/-- `negative_weight_obs_mask` (graph_flooder.cc:385-395); `none`: a shift by 64 or more. -/
def negMaskOf (g : MGraph) : Option ObsInt := obsMask g.numObs (g.negObs.sort (· ≤ ·))

/-- `decode_detection_events_for_up_to_64_observables` without correlations (mwpm_decoding.cc:167-194): observables and weight.
`negMask`, `negSum` are the members of the flooder of the same names. -/
def decode64 [W : Width] (g : MGraph) (bnd : List Bool) (neg : List Nat) (negMask : ObsInt) (negSum : Int) (f : Nat) (s : MS) (events : List Nat) :
    Option (Outcome (MS × ObsInt × Int)) :=
  match matching g bnd neg f s events with
  | none => none
  | some .ub => some .ub
  | some (.throws s') => some (.throws s')
  | some (.ok (s', x)) => some (.ok (s', x.mask ^^^ negMask, x.weight + negSum))

/-- `decode_detection_events_to_match_edges` (mwpm_decoding.cc:250-257). -/
def decodePairs [W : Width] (g : MGraph) (bnd : List Bool) (neg : List Nat) (negSum : Int) (f : Nat) (s : MS) (events : List Nat) :
    Option (Outcome (MS × List CompressedEdge)) :=
  if negSum ≠ 0 then some (.throws s)
  else
    match timeline g bnd neg f s events with
    | none => none
    | some .ub => some .ub
    | some (.throws s') => some (.throws s')
    | some (.ok s1) =>
      match extractAll s1 events Extract.zero with
      | .ub => some .ub
      | .throws => some (.throws s1)
      | .ok (s2, x) => some (.ok (s2, x.edges))

/-- The rows of `decode_to_matched_dets_array` (user_graph.pybind.cc:233-241); `none`: `loc_from` is null. -/
def matchedArray : List CompressedEdge → Option (List (Int × Int))
  | [] => some []
  | e :: es =>
    match e.locFrom with
    | none => none
    | some a => (matchedArray es).map fun l => ((a : Int), match e.locTo with | some b => (b : Int) | none => -1) :: l

/-- The loop of `decode_to_matched_dets_dict` (user_graph.pybind.cc:349-362), on the dictionary built so far (`none`: key absent;
`some none`: the value is `None`). -/
def matchedDict : (Nat → Option (Option Nat)) → List CompressedEdge → Option (Nat → Option (Option Nat))
  | d, [] => some d
  | d, e :: es =>
    match e.locFrom with
    | none => none
    | some a =>
      match e.locTo with
      | some b => matchedDict (Function.update (Function.update d a (some (some b))) b (some (some a))) es
      | none => matchedDict (Function.update d a (some none)) es

end Verif.SB
