import Mathlib.Data.List.Basic
import Mathlib.Data.List.Range

/-!
# Syndromes given as arrays

Models `Matching._syndrome_array_to_detection_events` (`/repo/src/pymatching/matching.py:202-216`).  Array entries are the
values after the conversion to `uint8`; the conversion itself is numpy's.
-/

namespace Verif.Syn

/-- A numpy array: one or two dimensions with their entries, or anything else. -/
inductive Arr where
  | d1 (z : List Nat)
  | d2 (r c : Nat) (z : Nat → Nat → Nat)
  | other

/-- `z.nonzero()[0]` for a 1-D array: indices of non-zero entries in order. -/
def nonzero (z : List Nat) : List Nat := (z.zipIdx.filter fun x => x.1 ≠ 0).map (·.2)

/-- `times, checks = z.T.nonzero(); times * z.shape[0] + checks` (matching.py:211-212): `nonzero` lists the entries of
the transposed array row by row. -/
def nonzero2 (r c : Nat) (z : Nat → Nat → Nat) : List Nat :=
  (List.range c).flatMap fun t => ((List.range r).filter fun i => z i t ≠ 0).map fun i => t * r + i

/-- `_syndrome_array_to_detection_events` (matching.py:202-216) for a graph with the given numbers of detectors and boundary
nodes; `none` is the `ValueError`. -/
def toEvents (numDetectors numBoundary : Nat) : Arr → Option (List Nat)
  | .d1 z => if numDetectors ≤ z.length ∧ z.length ≤ numDetectors + numBoundary then some (nonzero z) else none
  | .d2 r c z => if r * c = numDetectors then some (nonzero2 r c z) else none
  | .other => none

end Verif.Syn
