import Verif.CheckMatrix
import Verif.Syndrome
import Verif.Api
import Verif.ConvertD

/-!
# The Python front-end for check matrices

Models the constructor, `load_from_check_matrix` and `decode` of the Python class `Matching`
(`/repo/src/pymatching/matching.py:141-180, 202-216, 339-346, 1163-1238`).

Simplifications: every exception is the outcome `raise`, whatever its type.  A matrix is what `scipy.sparse.csc_matrix` makes of the argument.  Its entries are integers,
and the cast of `matrix.data` to `uint8` reduces them modulo 256.  Numbers in arrays are elements of `K`; an argument that is neither `None`, a number, nor a
one-dimensional array or list of numbers is `other`.  The argument `graph` of the constructor is `None` or a matrix.
-/

namespace Verif.Py

open Verif Verif.CM Verif.UG Verif.Obj Verif.Dbl Verif.ConvD Verif.SB
open Verif.Api (strategyOf)

/-- A matrix as scipy stores it: for each column, the stored entries as pairs of row and value. -/
structure Mat where
  rows : Nat
  cols : List (List (Nat × Int))

/-- `csc_matrix(x)` for a dense matrix: the non-zero entries, column by column, in increasing row order (matching.py:171, 1170). -/
def dense (rows cols : Nat) (x : Nat → Nat → Int) : Mat :=
  ⟨rows, (List.range cols).map fun c => ((List.range rows).filter fun r => x r c ≠ 0).map fun r => (r, x r c)⟩

/-- `eliminate_zeros()` (matching.py:1202). -/
def Mat.eliminateZeros (m : Mat) : Mat := ⟨m.rows, m.cols.map (·.filter fun e => e.2 ≠ 0)⟩

/-- The arrays that the C++ code reads, with the cast of the values to `uint8` (user_graph.pybind.cc:33-39). -/
def Mat.csc (m : Mat) : Csc :=
  ⟨m.cols.flatten.map fun e => (e.2 % 256).toNat, m.cols.flatten.map (·.1), (m.cols.map List.length).scanl (· + ·) 0, m.rows, m.cols.length⟩

/-- An argument that may be a number or an array.  `npScalar`: a number of a type of numpy that is not a subclass of Python's `int` or `float`. -/
inductive Arg (K : Type) where
  | none
  | scalar (x : K)
  | npScalar (x : K)
  | array (l : List K)
  | other

variable {K : Type} [Field K] [LinearOrder K]

/-- The arguments of `load_from_check_matrix`, including those passed in `**kwargs` under old names (matching.py:1054-1066): `H`, `spacelike_weights` and
`measurement_error_probability`. -/
structure Call (K : Type) where
  checkMatrix : Option Mat := none
  H : Option Mat := none
  weights : Arg K := .none
  spacelikeWeights : Arg K := .none
  errorProbabilities : Arg K := .none
  repetitions : Option Int := none
  timelikeWeights : Arg K := .none
  measProbs : Arg K := .none
  measProb : Arg K := .none
  faults : Option Mat := none
  mergeStrategy : String := "smallest-weight"
  virtualBoundary : Bool := false

/-- A parameter with an old name: at most one of the two may be given (matching.py:1183-1189, 1216-1223).  `none`: the exception. -/
def renamed (new old : Arg K) : Option (Arg K) :=
  match new, old with
  | .none, .none => some .none
  | .none, a => some a
  | a, .none => some a
  | _, _ => none

/-- `weights` and its default (matching.py:1191-1194).  `none`: the array is refused later, by pybind11. -/
def weightArray (n : Nat) : Arg K → Option (List K)
  | .none => some (List.replicate n 1)
  | .scalar x => some (List.replicate n x)
  | .npScalar x => some (List.replicate n x)
  | .array l => some l
  | .other => none

/-- `error_probabilities` (matching.py:1196-1199).  A number of a numpy type is passed on as it is, becomes an array without dimensions, and is refused. -/
def probArray (n : Nat) : Arg K → Option (List K)
  | .none => some (List.replicate n (-1))
  | .scalar x => some (List.replicate n x)
  | .npScalar _ => none
  | .array l => some l
  | .other => none

/-- `timelike_weights` (with default 1) and `measurement_error_probabilities` (with default -1), for more than one repetition (matching.py:1207-1213, 1225-1231). -/
def timeArray (d : K) (n : Nat) : Arg K → Option (List K)
  | .none => some (List.replicate n d)
  | .scalar x => some (List.replicate n x)
  | .npScalar x => some (List.replicate n x)
  | .array l => some l
  | .other => none

/-- The time-like data passed on (matching.py:1206-1234).  `none`: an exception. -/
def timeData (c : Call K) (rows : Nat) (reps : Int) : Option (Option (List K) × Option (List K)) :=
  if reps > 1 then
    match timeArray 1 rows c.timelikeWeights with
    | none => none
    | some tw =>
      match renamed c.measProbs c.measProb with
      | none => none
      | some a =>
        match timeArray (-1) rows a with
        | none => none
        | some mp => some (some tw, some mp)
  else some (none, none)

/-- The faults matrix that the loader uses: without one, the identity (matching.py:1174-1178; user_graph.pybind.cc:479-485). -/
def faultsCsc (n : Nat) : Option Mat → Csc
  | none => identity n
  | some F => F.csc

/-- The arguments of the loader (matching.py:1163-1234); `none`: an exception.  `num_repetitions` is cast to `size_t`, which refuses negative numbers
(user_graph.pybind.cc:473), and `merge_strategy` is looked up (user_graph.pybind.cc:508). -/
def loaderArgs (c : Call K) : Option (Args K) :=
  match c.checkMatrix.or c.H with
  | none => none
  | some m =>
    match renamed c.weights c.spacelikeWeights with
    | none => none
    | some w =>
      match weightArray m.cols.length w, probArray m.cols.length c.errorProbabilities with
      | some ws, some ps =>
        let reps := c.repetitions.getD 1
        match timeData c m.rows reps with
        | none => none
        | some (tw, mp) =>
          if reps < 0 then none
          else
            match strategyOf c.mergeStrategy with
            | none => none
            | some s => some ⟨m.eliminateZeros.csc, faultsCsc m.cols.length c.faults, ws, ps, s, c.virtualBoundary, reps.toNat, tw, mp⟩
      | _, _ => none

/-- `load_from_check_matrix` (matching.py:1163-1238). -/
def load (mergeW : K → K → K) (c : Call K) : CM.Res (UGraph K) :=
  match loaderArgs c with
  | none => .raise
  | some a => loadCheckMatrix mergeW a

/-- `Matching(graph, **kwargs)` (matching.py:141-180), for a graph that is `None` or a matrix: without one, and without `H`, the graph is empty. -/
def construct (mergeW : K → K → K) (c : Call K) : CM.Res (UGraph K) :=
  match c.checkMatrix, c.H with
  | none, none => .ok (UGraph.new 0 0)
  | none, some H => load mergeW { c with checkMatrix := some H, H := none }
  | some _, _ => load mergeW c

/-- What `decode` gives back. -/
inductive Value where
  | array (row : List (BitVec 8))
  | pair (row : List (BitVec 8)) (w : Double)
  | raised

/-- The last lines of `decode` (matching.py:343-346). -/
def value (returnWeight : Bool) : Answer Double → Value
  | .predictions row w => if returnWeight then .pair row w else .array row
  | _ => .raised

/-- `Matching.decode(z, return_weight)` of a new object (matching.py:339-346).  The outer option: the decoder did not finish with fuel `f`. -/
def decode [W : Width] (g : UGraph ℚ) (f : Nat) (z : Syn.Arr) (returnWeight : Bool) : Option (Sch.Res Value) :=
  match Syn.toEvents g.numDetectors g.boundary.card z with
  | none => some (.ok .raised)
  | some events =>
    match askD g false f (.decode false events) with
    | none => none
    | some .ub => some .ub
    | some .throws => some (.ok .raised)
    | some (.ok a) => some (.ok (value returnWeight a))

end Verif.Py
