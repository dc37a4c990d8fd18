import Verif.Simulate
import Verif.Dem

/-!
# Programs with several objects and one random source

Models the global random number generator (`/repo/src/pymatching/rand/rand_gen.cc:19-36`, bound in `/repo/src/pymatching/rand/rand_gen.pybind.cc:19-58`), the loop of `add_noise` that draws from it
(`user_graph.cc:228-248`), and programs with any number of `Matching` objects.

`std::mt19937` and `std::uniform_real_distribution` belong to the standard library and stay abstract.  Simplifications: objects are addressed by number; two Python names for the same object are the same
number.  Every exception is the result `raised`; the caller catches it and carries on.
-/

namespace Verif.World

open Verif Verif.SB Verif.UG Verif.ObjD Verif.Session Verif.Sim
open Verif.Sch (Res)

/-- The generator (rand_gen.cc:19-36): the states of `std::mt19937`; `seed`; and what `std::uniform_real_distribution` makes of it for given limits. -/
structure Source where
  State : Type
  seed : BitVec 32 → State
  between : State → ℚ → ℚ → ℚ × State

variable (R : Source)

/-- The loop over the edges (user_graph.cc:232-245); each edge draws `rand_float(0.0, 1.0)`. -/
def noiseFrom : R.State → List (UEdge ℚ) → List Bool → List Bool → Option ((List Bool × List Bool) × R.State)
  | st, [], err, syn => some ((err, syn), st)
  | st, e :: es, err, syn =>
    let (x, st') := R.between st 0 1
    if x < e.prob then (applyEdge e err syn).bind fun (err', syn') => noiseFrom st' es err' syn'
    else noiseFrom st' es err syn

/-- `Matching.add_noise` (matching.py:182-200, user_graph.pybind.cc:161-178, user_graph.cc:228-248): `none` is a write past the end of an array; an inner `none` is Python's `None`. -/
def sampleFrom (g : UGraph ℚ) (st : R.State) : Option (Option Sample × R.State) :=
  if !g.allProbs then some (none, st)
  else
    match noiseFrom R st g.edges (List.replicate g.numObs false) (List.replicate g.nodes.length false) with
    | none => none
    | some ((err, syn), st') =>
      if ∀ b ∈ g.boundary, b < syn.length then some (some (err, syn.mapIdx fun i x => if i ∈ g.boundary then false else x), st') else none

/-- A loop of `n` samples, up to the first `None` (matching.py:198-200). -/
def samplesFrom (g : UGraph ℚ) : Nat → R.State → Option (Option (List Sample) × R.State)
  | 0, st => some (some [], st)
  | n + 1, st =>
    match sampleFrom R g st with
    | none => none
    | some (none, st') => some (none, st')
    | some (some s, st') => (samplesFrom g n st').map fun (l, st'') => (l.map (s :: ·), st'')

/-- The lines of a program that are about one object: those of `Sim.Line`, without given random numbers. -/
inductive Act where
  | stmt (s : Stmt)
  /-- `m.add_noise()` -/
  | sample
  /-- `noise, syndrome = m.add_noise(); m.decode(syndrome, return_weight=True, enable_correlations=corr)` -/
  | trial (corr : Bool)
  /-- `for i in range(n): noise[i, :], shots[i, :] = m.add_noise()` for an array `shots` with a column for each node, and then `m.decode_batch(shots, enable_correlations=corr)` -/
  | trials (n : Nat) (corr : Bool)

/-- One line about an object (matching.py:182-200, 339-346, 451-460). -/
def act [W : Width] (mergeW : ℚ → ℚ → ℚ) (f : Nat) (o : ObjectD) (st : R.State) : Act → Option (Res ((Out × ObjectD) × R.State))
  | .stmt s => (put .reply (Session.exec mergeW f o s)).map fun r => r.bind fun x => .ok (x, st)
  | .sample =>
    match sampleFrom R o.graph st with
    | none => some .ub
    | some (none, st') => some (.ok ((.noSample, o), st'))
    | some (some s, st') => some (.ok ((.sample s, o), st'))
  | .trial corr =>
    match sampleFrom R o.graph st with
    | none => some .ub
    | some (none, st') => some (.ok ((.noSample, o), st'))
    | some (some s, st') => (put (.trial s) (Session.exec mergeW f o (.decode (.d1 (s.2.map Bool.toNat)) true corr))).map fun r => r.bind fun x => .ok (x, st')
  | .trials n corr =>
    match samplesFrom R o.graph n st with
    | none => some .ub
    | some (none, st') => some (.ok ((.noSample, o), st'))
    | some (some l, st') =>
      (put (.trials l) (Session.exec mergeW f o (.decodeBatch false false false corr o.graph.nodes.length (l.map fun s => toRow s.2)))).map fun r => r.bind fun x => .ok (x, st')

/-- How an object is made. -/
inductive Ctor where
  /-- `Matching(H, ...)`, or `Matching()` -/
  | matrix (c : Py.Call ℚ)
  /-- `Matching.from_detector_error_model(model)` -/
  | model (m : Dem.Model ℚ)
  /-- `Matching.from_detector_error_model(model, enable_correlations=True)` -/
  | correlated (m : Dem.Model ℚ)

/-- The commands of a program. -/
inductive Command where
  /-- `x = ...` -/
  | make (x : Nat) (c : Ctor)
  | act (x : Nat) (a : Act)
  /-- `pymatching.set_seed(n)` -/
  | setSeed (n : Int)
  /-- `pymatching.randomize()`, where `std::random_device` gives `e` -/
  | randomize (e : BitVec 32)
  /-- `pymatching.rand_float(a, b)` -/
  | randFloat (a b : ℚ)

/-- What a command gives. -/
inductive Result where
  | out (o : Out)
  | number (q : ℚ)
  | done
  | raised

/-- All objects, and the state of the generator. -/
structure World where
  objs : Nat → Option ObjectD
  state : R.State

/-- What can vary in the arithmetic: merged weights, logarithms, and the arithmetic of the joint probabilities. -/
structure Arithmetic where
  mergeW : ℚ → ℚ → ℚ
  lg : ℚ → ℚ
  joint : Dem.Arith ℚ

/-- The constructors (matching.py:141-180, 1295-1296; user_graph.cc:493-517): `raise` is an exception. -/
def construct (A : Arithmetic) : Ctor → CM.Res ObjectD
  | .matrix c =>
    match Py.construct A.mergeW c with
    | .ok g => .ok (ObjectD.of g false)
    | .raise => .raise
    | .ub => .ub
  | .model m => .ok (ObjectD.of (Dem.load A.mergeW A.lg m) true)
  | .correlated m =>
    match Dem.loadCorr A.mergeW A.lg m A.joint with
    | none => .raise
    | some g => .ok (ObjectD.of g false)

variable {R}

/-- One command.  A name without an object is a `NameError`; a seed that is not a 32-bit number is a `TypeError` of pybind11 (rand_gen.pybind.cc:28). -/
def exec [W : Width] (A : Arithmetic) (f : Nat) (w : World R) : Command → Option (Res (Result × World R))
  | .make x c =>
    match construct A c with
    | .ok o => some (.ok (.done, { w with objs := Function.update w.objs x (some o) }))
    | .raise => some (.ok (.raised, w))
    | .ub => some .ub
  | .act x a =>
    match w.objs x with
    | none => some (.ok (.raised, w))
    | some o =>
      match act R A.mergeW f o w.state a with
      | none => none
      | some r => some (r.bind fun ((out, o'), st) => .ok (.out out, ⟨Function.update w.objs x (some o'), st⟩))
  | .setSeed n => if 0 ≤ n ∧ n < 2 ^ 32 then some (.ok (.done, { w with state := R.seed (BitVec.ofInt 32 n) })) else some (.ok (.raised, w))
  | .randomize e => some (.ok (.done, { w with state := R.seed e }))
  | .randFloat a b => some (.ok (.number (R.between w.state a b).1, { w with state := (R.between w.state a b).2 }))

/-- A program: what its commands give, and the world afterwards. -/
def run [W : Width] (A : Arithmetic) (f : Nat) : World R → List Command → Option (Res (List Result × World R))
  | w, [] => some (.ok ([], w))
  | w, c :: prog =>
    match exec A f w c with
    | none => none
    | some .ub => some .ub
    | some .throws => some .throws
    | some (.ok (r, w')) =>
      match run A f w' prog with
      | none => none
      | some x => some (x.bind fun (rs, w'') => .ok (r :: rs, w''))

end Verif.World
