import Verif.Blossom.Decode
import Verif.Search
import Verif.ObsMask
import Verif.Props.Graph

/-!
# Decoding with the search flooder

Model of `decode_detection_events` (any number of observables) and `decode_detection_events_to_edges`
(`/repo/src/pymatching/sparse_blossom/driver/mwpm_decoding.cc:196-326`), and `Mwpm::extract_paths_from_match_edges`
(`/repo/src/pymatching/sparse_blossom/matcher/mwpm.cc:454-466`).

Simplifications.  The code handles the edges of a path while it walks along it; here a search first returns its edges.  The edge marks of the
search graph and the search itself do not touch the same fields, so that all searches are done before the edges are marked.  `Mwpm::reset`
also resets the nodes of the search graph; between two searches they are in the reset state already (`Sch.Fresh`), so it is left out.  An
exception raised by a search would leave a half-done search behind; it is modelled as leaving the previous state (there is none, see
`Verif.Props.Edges`).
-/

namespace Verif.SB

open Verif Verif.Graph Verif.CE
open Verif.Sch (Res)

/-- The search graph that the same insertions build (user_graph.cc:299-321); `none` if one raises. -/
def runS (g : SGraph) : List Props.Graph.EdgeIns → Option SGraph
  | [] => some g
  | .edge u v w o :: is => match g.addEdge u v w o with | .ok g => runS g is | _ => none
  | .bdry u w o :: is => match g.addBoundaryEdge u w o with | .ok g => runS g is | _ => none

/-- `struct Mwpm` (mwpm.h) with the mutable part of its search flooder: the state of the matcher, of the search, and the edge marks. -/
structure Full where
  ms : MS
  ss : Sch.SS
  marks : Sch.Marks

/-- A new decoder. -/
def Full.init : Full := ⟨MS.init, Sch.SS.init, fun _ _ => false⟩

/-- Outcome of a call; an exception carries the state it leaves behind. -/
inductive Ended (α : Type) where
  | ok (a : α)
  | throws (F : Full)
  | ub

/-- `*(obs_begin_ptr + i) ^= 1` (mwpm.cc:462, mwpm_decoding.cc:226).  Writing past the end of the buffer is undefined. -/
def flipByte (buf : List (BitVec 8)) (i : Nat) : Res (List (BitVec 8)) :=
  match buf[i]? with
  | none => .ub
  | some b => .ok (buf.set i (b ^^^ 1#8))

/-- The same for a list of observables. -/
def flipBytes : List (BitVec 8) → List Nat → Res (List (BitVec 8))
  | buf, [] => .ok buf
  | buf, i :: is => (flipByte buf i).bind fun buf' => flipBytes buf' is

/-- The callback of `extract_paths_from_match_edges` (mwpm.cc:459-464) for a list of edges. -/
def takeEdges (sg : SGraph) : List (BitVec 8) → Int → List (Nat × Nat) → Res (List (BitVec 8) × Int)
  | buf, w, [] => .ok (buf, w)
  | buf, w, e :: es =>
    match Sch.nbr sg e.1 e.2 with
    | none => .ub
    | some n => (flipBytes buf n.obs).bind fun buf' => takeEdges sg buf' (w + n.weight) es

/-- The searches for all match edges (mwpm.cc:456-464, mwpm_decoding.cc:292-304): all edges handed to the callback, in order.  Subtracting
from a null `loc_from` is undefined. -/
def searchAll (sg : SGraph) (f : Nat) : Sch.SS → List CompressedEdge → Option (Res (Sch.SS × List (Nat × Nat)))
  | ss, [] => some (.ok (ss, []))
  | ss, e :: es =>
    match e.locFrom with
    | none => some .ub
    | some a =>
      match Sch.pathFromMiddle sg f ss a e.locTo with
      | none => none
      | some .ub => some .ub
      | some .throws => some .throws
      | some (.ok (p, ss')) =>
        match searchAll sg f ss' es with
        | none => none
        | some .ub => some .ub
        | some .throws => some .throws
        | some (.ok (ss'', ps)) => some (.ok (ss'', p ++ ps))

/-- `negative_weight_observables` as a sorted vector (graph_flooder.cc:385-389). -/
def negObservables (g : MGraph) : List Nat := g.negObs.sort (· ≤ ·)

/-- `decode_detection_events` without correlations (mwpm_decoding.cc:213-241).  `buf` is the caller's buffer of predictions, `w0` the value of
its variable `weight` before the call. -/
def decodeObs [W : Width] (g : MGraph) (sg : SGraph) (bnd : List Bool) (negMask : ObsInt) (f : Nat) (F : Full) (events : List Nat)
    (buf : List (BitVec 8)) (w0 : Int) : Option (Ended (Full × List (BitVec 8) × Int)) :=
  match matching g bnd (negEvents g) f F.ms events with
  | none => none
  | some .ub => some .ub
  | some (.throws s') => some (.throws { F with ms := s' })
  | some (.ok (s', x)) =>
    if g.numObs > 64 then
      match searchAll sg f F.ss x.edges with
      | none => none
      | some .ub => some .ub
      | some .throws => some (.throws { F with ms := s' })
      | some (.ok (ss', es)) =>
        match (takeEdges sg buf w0 es).bind fun (buf', w) => (flipBytes buf' (negObservables g)).bind fun buf'' => .ok (buf'', w + g.negSum) with
        | .ub => some .ub
        | .throws => some (.throws { F with ms := s', ss := ss' })
        | .ok r => some (.ok ({ F with ms := s', ss := ss' }, r))
    else
      match Obs.fillBitVector (x.mask ^^^ negMask) buf g.numObs with
      | .ub => some .ub
      | .throws => some (.throws { F with ms := s' })
      | .ok buf' => some (.ok ({ F with ms := s' }, buf', x.weight + g.negSum))

/-- `decode_detection_events_to_edges` (mwpm_decoding.cc:268-326) on an empty vector `edges`, as all its callers have it.  The second
component of an edge is `none` for -1. -/
def decodeEdges [W : Width] (g : MGraph) (sg : SGraph) (bnd : List Bool) (f : Nat) (F : Full) (events : List Nat) :
    Option (Ended (Full × List (Nat × Option Nat))) :=
  if g.nodes.length ≠ sg.nodes.length then some (.throws F)
  else
    match matching g bnd (negEvents g) f F.ms events with
    | none => none
    | some .ub => some .ub
    | some (.throws s') => some (.throws { F with ms := s' })
    | some (.ok (s', x)) =>
      match searchAll sg f F.ss x.edges with
      | none => none
      | some .ub => some .ub
      | some .throws => some (.throws { F with ms := s' })
      | some (.ok (ss', ps)) =>
        match Sch.toEdges sg F.marks sg.negEdges ps with
        | .ub => some .ub
        | .throws => some (.throws { F with ms := s', ss := ss' })
        | .ok (m, es) => some (.ok (⟨s', ss', m⟩, es))

end Verif.SB
