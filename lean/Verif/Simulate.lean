import Verif.Session
import Verif.Noise

/-!
# Simulations in Python

Models programs that sample noise with `Matching.add_noise` (`/repo/src/pymatching/matching.py:182-200`; `user_graph.pybind.cc:161-178`, `user_graph.cc:228-248`) and decode what was
sampled, with `decode` or `decode_batch` (`/repo/src/pymatching/matching.py:339-346, 451-460`), among the statements of `Verif/Session.lean`.

The random source is an arbitrary sequence of numbers for each sample.  Simplification: the object does not contain the state of the random source, so that sampling does not change it.
-/

namespace Verif.Sim

open Verif Verif.SB Verif.UG Verif.ObjD Verif.Session
open Verif.Sch (Res)

/-- A sample: the noise vector and the syndrome. -/
abbrev Sample := List Bool × List Bool

/-- The lines of a program; `draw`: the random numbers, one per edge. -/
inductive Line where
  | stmt (s : Stmt)
  /-- `m.add_noise()` -/
  | sample (draw : Nat → ℚ)
  /-- `noise, syndrome = m.add_noise(); m.decode(syndrome, return_weight=True, enable_correlations=corr)` -/
  | trial (draw : Nat → ℚ) (corr : Bool)
  /-- `for i in range(n): noise[i, :], shots[i, :] = m.add_noise()` for an array `shots` with a column for each node, and then `m.decode_batch(shots, enable_correlations=corr)` -/
  | trials (draws : List (Nat → ℚ)) (corr : Bool)

/-- What a line gives. -/
inductive Out where
  | reply (r : Reply)
  /-- `add_noise` returned `None`; a trial ends here with a `TypeError` -/
  | noSample
  | sample (s : Sample)
  | trial (s : Sample) (r : Reply)
  | trials (l : List Sample) (r : Reply)

/-- The samples of a loop, up to the first `None` (matching.py:198-200); the outer `none` is a write past the end of an array. -/
def samples (g : UGraph ℚ) : List (Nat → ℚ) → Option (Option (List Sample))
  | [] => some (some [])
  | draw :: draws =>
    match g.sample draw with
    | none => none
    | some none => some none
    | some (some s) => (samples g draws).map fun l => l.map (s :: ·)

/-- A row of an array of `uint8`. -/
def toRow (l : List Bool) : List (BitVec 8) := l.map fun b => if b then 1 else 0

/-- A question whose reply becomes part of the result. -/
def put (mk : Reply → Out) : Option (Res (Reply × ObjectD)) → Option (Res (Out × ObjectD))
  | none => none
  | some x => some (x.bind fun (r, o) => .ok (mk r, o))

/-- One line (matching.py:182-200, 339-346, 451-460). -/
def exec [W : Width] (mergeW : ℚ → ℚ → ℚ) (f : Nat) (o : ObjectD) : Line → Option (Res (Out × ObjectD))
  | .stmt s => put .reply (Session.exec mergeW f o s)
  | .sample draw =>
    match o.graph.sample draw with
    | none => some .ub
    | some none => some (.ok (.noSample, o))
    | some (some s) => some (.ok (.sample s, o))
  | .trial draw corr =>
    match o.graph.sample draw with
    | none => some .ub
    | some none => some (.ok (.noSample, o))
    | some (some s) => put (.trial s) (Session.exec mergeW f o (.decode (.d1 (s.2.map Bool.toNat)) true corr))
  | .trials draws corr =>
    match samples o.graph draws with
    | none => some .ub
    | some none => some (.ok (.noSample, o))
    | some (some l) => put (.trials l) (Session.exec mergeW f o (.decodeBatch false false false corr o.graph.nodes.length (l.map fun s => toRow s.2)))

/-- A program: what its lines give, and the object afterwards. -/
def run [W : Width] (mergeW : ℚ → ℚ → ℚ) (f : Nat) : ObjectD → List Line → Option (Res (List Out × ObjectD))
  | o, [] => some (.ok ([], o))
  | o, l :: prog =>
    match exec mergeW f o l with
    | none => none
    | some .ub => some .ub
    | some .throws => some .throws
    | some (.ok (r, o')) =>
      match run mergeW f o' prog with
      | none => none
      | some x => some (x.bind fun (rs, o'') => .ok (r :: rs, o''))

end Verif.Sim
