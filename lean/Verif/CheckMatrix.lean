import Verif.UserGraph

/-!
# Loading a check matrix

Models `CompressedSparseColumnCheckMatrix` and `sparse_column_check_matrix_to_matching_graph`
(`/repo/src/pymatching/sparse_blossom/driver/user_graph.pybind.cc:24-65, 466-590`).

Simplifications: the arrays are lists of natural numbers (the code reads 64-bit integers); when no faults matrix is
given, the caller passes the identity matrix (`identity`), as the code does.  The numpy arrays `timelike_weights` and
`measurement_error_probabilities` are `none` when they are `None`.
An unchecked array access out of range is the outcome `ub`.
-/

namespace Verif.CM

open Verif.UG

/-- A compressed sparse column matrix as scipy stores it. -/
structure Csc where
  data : List Nat
  indices : List Nat
  indptr : List Nat
  numRows : Nat
  numCols : Nat
deriving DecidableEq, Repr

/-- Result of a call: a value, an exception, or undefined behaviour. -/
inductive Res (α : Type) where
  | ok (a : α)
  | raise
  | ub

/-- Sequencing. -/
def Res.bind {α β : Type} (x : Res α) (f : α → Res β) : Res β :=
  match x with
  | .ok a => f a
  | .raise => .raise
  | .ub => .ub

/-- Unchecked array access. -/
def at? {α : Type} (l : List α) (i : Nat) : Res α :=
  match l[i]? with
  | some a => .ok a
  | none => .ub

/-- Left fold that stops at an exception. -/
def foldRes {α β : Type} (f : β → α → Res β) : β → List α → Res β
  | b, [] => .ok b
  | b, a :: as => (f b a).bind fun b => foldRes f b as

/-- Constructor checks (user_graph.pybind.cc:43-64): does construction succeed? -/
def Csc.check (m : Csc) : Bool :=
  m.indptr.length == m.numCols + 1 && m.data.length == m.indices.length && m.data.all (· == 1)

/-- `scipy.sparse.eye(n)` in csc format (user_graph.pybind.cc:479-484). -/
def identity (n : Nat) : Csc := ⟨List.replicate n 1, List.range n, List.range (n + 1), n, n⟩

variable {K : Type} [Field K] [LinearOrder K]

/-- The arguments of the loader. -/
structure Args (K : Type) where
  H : Csc
  F : Csc
  weights : List K
  probs : List K
  strategy : Strategy
  virtualBoundary : Bool
  reps : Nat
  timelike : Option (List K)
  measProbs : Option (List K)

/-- An edge insertion; an exception if the merge strategy disallows it. -/
def ins (r : UGraph K × Bool) : Res (UGraph K) := if r.2 then .ok r.1 else .raise

/-- Reading the fault ids `F_indices[q]` for `q` in `[start, start + n)` (user_graph.pybind.cc:531-533). -/
def readObs (F : Csc) : Nat → Nat → Res (List Nat)
  | _, 0 => .ok []
  | q, n + 1 => (at? F.indices q).bind fun x => (readObs F (q + 1) n).bind fun xs => .ok (x :: xs)

/-- The body of the loop over columns (user_graph.pybind.cc:521-562). -/
def colStep (mergeW : K → K → K) (a : Args K) (rep : Nat) (g : UGraph K) (c : Nat) : Res (UGraph K) :=
  (at? a.H.indptr c).bind fun s =>
  (at? a.H.indptr (c + 1)).bind fun e =>
  if s + 1 > a.H.indices.length ∧ s ≠ e then .raise
  else
    (at? a.F.indptr c).bind fun fs =>
    (at? a.F.indptr (c + 1)).bind fun fe =>
    if fe < fs then .raise  -- `reserve` with a negative length
    else
    (readObs a.F fs (fe - fs)).bind fun obs =>
    if e = s + 2 then
      (at? a.H.indices s).bind fun i => (at? a.H.indices (s + 1)).bind fun j =>
      (at? a.weights c).bind fun w => (at? a.probs c).bind fun p =>
      ins (g.addEdge mergeW (i + a.H.numRows * rep) (j + a.H.numRows * rep) obs w p a.strategy)
    else if e = s + 1 then
      (at? a.H.indices s).bind fun i => (at? a.weights c).bind fun w => (at? a.probs c).bind fun p =>
      if a.virtualBoundary then ins (g.addBoundaryEdge mergeW (i + a.H.numRows * rep) obs w p a.strategy)
      else ins (g.addEdge mergeW (i + a.H.numRows * rep) (a.H.numRows * a.reps) obs w p a.strategy)
    else if e ≠ s then .raise
    else .ok g

/-- The body of the loop over time-like edges (user_graph.pybind.cc:586-596). -/
def timeStep (mergeW : K → K → K) (a : Args K) (tw mp : List K) (rep : Nat) (g : UGraph K) (row : Nat) : Res (UGraph K) :=
  (at? tw row).bind fun w => (at? mp row).bind fun p =>
  ins (g.addEdge mergeW (row + rep * a.H.numRows) (row + (rep + 1) * a.H.numRows) [] w p a.strategy)

/-- The time-like part (user_graph.pybind.cc:565-597). -/
def timePart (mergeW : K → K → K) (a : Args K) (g : UGraph K) : Res (UGraph K) :=
  if a.reps > 1 then
    match a.timelike, a.measProbs with
    | some tw, some mp =>
      if tw.length ≠ a.H.numRows then .raise
      else if mp.length ≠ a.H.numRows then .raise
      else foldRes (fun g rep => foldRes (timeStep mergeW a tw mp rep) g (List.range a.H.numRows)) g (List.range (a.reps - 1))
    | _, _ => .raise
  else .ok g

/-- `sparse_column_check_matrix_to_matching_graph` (user_graph.pybind.cc:466-604). -/
def loadCheckMatrix (mergeW : K → K → K) (a : Args K) : Res (UGraph K) :=
  if !a.H.check then .raise
  else if !a.F.check then .raise
  else if a.weights.length ≠ a.H.numCols then .raise
  else if a.probs.length ≠ a.H.numCols then .raise
  else if a.H.numCols ≠ a.F.numCols then .raise
  else
    (foldRes (fun g rep => foldRes (colStep mergeW a rep) g (List.range a.H.numCols))
      (UGraph.new (a.H.numRows * a.reps) a.F.numRows) (List.range a.reps)).bind fun g =>
    (timePart mergeW a g).bind fun g =>
    if !a.virtualBoundary && g.nodes.length == a.H.numRows * a.reps + 1 then .ok (g.setBoundary [a.H.numRows * a.reps])
    else .ok g

end Verif.CM
