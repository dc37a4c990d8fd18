import Verif.UserGraph

/-!
# Loading a detector error model

Models `iter_detector_error_model_edges`, `iter_dem_instructions_include_correlations`
(`/repo/src/pymatching/sparse_blossom/driver/user_graph.h:226-360`), `handle_dem_instruction`,
`handle_dem_instruction_include_correlations`, `add_decomposed_error_to_joint_probabilities`,
`detector_error_model_to_user_graph` and `populate_implied_edge_weights`
(`/repo/src/pymatching/sparse_blossom/driver/user_graph.cc:349-365, 469-546`).

The model starts from the flattened list of error instructions (`iter_flatten_error_instructions` of the stim library is
not modelled), and the detector and observable counts that stim reports.
The nested `std::map` of joint probabilities is a list of entries with distinct keys; the *order* of the entries (and hence of
the implied-weight rules of an edge) is insertion order instead of key order.
Probabilities are elements of an ordered field; `toW` stands for `std::log((1 - p) / p)`.
-/

namespace Verif.Dem

open Verif.UG

/-- `stim::DemTarget`: relative detector id, observable id, or separator `^`. -/
inductive Target where
  | det (d : Nat)
  | obs (o : Nat)
  | sep
deriving DecidableEq, Repr

/-- A flattened error instruction `error(p) targets`. -/
structure Err (K : Type) where
  p : K
  targets : List Target

/-- A flattened detector error model with stim's `count_detectors()` and `count_observables()`. -/
structure Model (K : Type) where
  errors : List (Err K)
  numDets : Nat
  numObs : Nat

variable {K : Type} [Field K] [LinearOrder K]

/-! ## Without correlations -/

/-- The calls of `handle_dem_error` for one instruction (user_graph.h:229-247); `dets`, `obs` are the two vectors.  At
a separator the vectors are only cleared when `p > 0`. -/
def edgeCalls (p : K) : List Nat → List Nat → List Target → List (List Nat × List Nat)
  | dets, obs, [] => if p > 0 then [(dets, obs)] else []
  | dets, obs, .det d :: ts => edgeCalls p (dets ++ [d]) obs ts
  | dets, obs, .obs o :: ts => edgeCalls p dets (obs ++ [o]) ts
  | dets, obs, .sep :: ts => if p > 0 then (dets, obs) :: edgeCalls p [] [] ts else edgeCalls p dets obs ts

/-- `handle_dem_instruction` (user_graph.cc:349-356) and `handle_dem_instruction_include_correlations`
(user_graph.cc:358-365); the merge strategy INDEPENDENT never raises an exception. -/
def handle (mergeW : K → K → K) (toW : K → K) (g : UGraph K) (p : K) (dets obs : List Nat) : UGraph K :=
  match dets with
  | [a, b] => (g.addEdge mergeW a b obs (toW p) p .independent).1
  | [a] => (g.addBoundaryEdge mergeW a obs (toW p) p .independent).1
  | _ => g

/-- `detector_error_model_to_user_graph` with `enable_correlations = false` (user_graph.cc:493-517). -/
def load (mergeW : K → K → K) (toW : K → K) (m : Model K) : UGraph K :=
  m.errors.foldl (fun g e => (edgeCalls e.p [] [] e.targets).foldl (fun g c => handle mergeW toW g e.p c.1 c.2) g)
    (UGraph.new m.numDets m.numObs)

/-! ## With correlations -/

/-- A component of a decomposed error: `UserEdge` with only `node1`, `node2`, `observable_indices` used
(user_graph.h:252-262); `none` is `SIZE_MAX`. -/
structure Comp where
  node1 : Option Nat
  node2 : Option Nat
  obs : List Nat
deriving DecidableEq, Repr

/-- Locals of the loop over the targets (user_graph.h:284-296). -/
structure PState where
  done : List Comp
  cur : Comp
  n : Nat
  sep : Bool
deriving DecidableEq, Repr

/-- One target (user_graph.h:297-335); `none` is an exception. -/
def pstep (s : PState) : Target → Option PState
  | .det d =>
    match s.n with
    | 0 => some { s with n := 1, cur := { s.cur with node1 := some d } }
    | 1 =>
      match s.cur.node1 with
      | some a =>
        if a ≤ d then some { s with n := 2, cur := { s.cur with node2 := some d } }
        else some { s with n := 2, cur := { s.cur with node2 := some a, node1 := some d } }
      | none => none  -- not reachable: `node1` was assigned when `n` became 1
    | _ => none
  | .obs o => some { s with cur := { s.cur with obs := s.cur.obs ++ [o] } }
  | .sep => if s.n = 0 then none else some ⟨s.done ++ [s.cur], ⟨none, none, []⟩, 0, true⟩

/-- The outcome of parsing one instruction: exception, ignored, or its components. -/
inductive Parsed where
  | raise
  | ignore
  | comps (cs : List Comp)
deriving DecidableEq, Repr

/-- Parsing one instruction (user_graph.h:276-346). -/
def parse (e : Err K) : Parsed :=
  if e.p > 1 / 2 then .raise
  else if e.p = 0 then .ignore
  else
    match e.targets.foldlM pstep (⟨[], ⟨none, none, []⟩, 0, false⟩ : PState) with
    | none => .raise
    | some s => if s.n = 0 then (if s.sep then .raise else .ignore) else .comps (s.done ++ [s.cur])

/-- A pair of nodes as key: `std::minmax(node1, node2)` with `SIZE_MAX` as `none`. -/
abbrev Key := Nat × Option Nat

/-- The key of a component; `none` if `node1` was never assigned (excluded by the parser). -/
def Comp.key (c : Comp) : Option Key := c.node1.map fun u => UG.key u c.node2

/-- The nested map `joint_probabilites`. -/
abbrev Joint (K : Type) := List ((Key × Key) × K)

/-- `joint_probabilites[a][b]`, `none` if there is no entry. -/
def Joint.get (J : Joint K) (a b : Key) : Option K := (J.find? (fun x => x.1 = (a, b))).map Prod.snd

/-- `bernoulli_xor` (user_graph.cc:22-24). -/
def bxor (p q : K) : K := p * (1 - q) + q * (1 - p)

/-- The arithmetic of the loader: how probabilities are combined (`bernoulli_xor`), and how they are divided. -/
structure Arith (K : Type) where
  xor : K → K → K
  div : K → K → K

/-- Without rounding. -/
def Arith.exact : Arith K := ⟨bxor, fun x y => x / y⟩

/-- `x = joint_probabilites[a][b]; x = bernoulli_xor(x, p)`, where a missing entry is created with value 0. -/
def Joint.upd (A : Arith K) (J : Joint K) (a b : Key) (p : K) : Joint K :=
  match J with
  | [] => [((a, b), A.xor 0 p)]
  | x :: xs => if x.1 = (a, b) then (x.1, A.xor x.2 p) :: xs else x :: Joint.upd A xs a b p

/-- The double loop over pairs of components (user_graph.cc:472-486). -/
def pairLoop (A : Arith K) (p : K) (J : Joint K) : List Key → Joint K
  | [] => J
  | k :: ks => pairLoop A p (ks.foldl (fun J k1 => Joint.upd A (Joint.upd A J k k1 p) k1 k p) J) ks

/-- `add_decomposed_error_to_joint_probabilities` (user_graph.cc:469-491). -/
def addJoint (A : Arith K) (p : K) (J : Joint K) (ks : List Key) : Joint K :=
  ks.foldl (fun J k => Joint.upd A J k k p) (if ks.length > 1 then pairLoop A p J ks else J)

/-- The detector vector passed to the handler for a component (user_graph.h:349-356). -/
def Comp.dets (c : Comp) : List Nat :=
  match c.node2 with
  | none => c.node1.toList
  | some v => c.node1.toList ++ [v]

/-- One instruction of the loop (user_graph.h:275-360, with the default
`include_decomposed_error_components_in_edge_weights = true`); `none` is an exception. -/
def corrStep (A : Arith K) (mergeW : K → K → K) (toW : K → K) (s : UGraph K × Joint K) (e : Err K) : Option (UGraph K × Joint K) :=
  match parse e with
  | .raise => none
  | .ignore => some s
  | .comps cs =>
    some (cs.foldl (fun g c => handle mergeW toW g e.p c.dets c.obs) s.1,
      addJoint A e.p s.2 (cs.filterMap Comp.key))

/-- The rules of one edge (user_graph.cc:522-545); `none` is the exception of `std::map::at`. -/
def impliedFor (toW : K → K) (J : Joint K) (a : Key) (A : Arith K := .exact) : Option (List (Implied K)) :=
  let row := J.filter (fun x => x.1.1 = a)
  if row.isEmpty then some []
  else
    match J.get a a with
    | none => none
    | some marginal =>
      if marginal = 0 then some []
      else some (row.filterMap fun x =>
        if x.1.2 ≠ a then some ⟨x.1.2.1, x.1.2.2, toW (min (1 / 2) (A.div x.2 marginal))⟩ else none)

/-- `populate_implied_edge_weights` (user_graph.cc:519-546). -/
def populate (toW : K → K) (J : Joint K) (g : UGraph K) (A : Arith K := .exact) : Option (UGraph K) :=
  (g.edges.mapM fun e => (impliedFor toW J e.key A).map fun r => { e with implied := e.implied ++ r }).map fun es =>
    { g with edges := es }

/-- `detector_error_model_to_user_graph` with `enable_correlations = true` (user_graph.cc:493-517). -/
def loadCorr (mergeW : K → K → K) (toW : K → K) (m : Model K) (A : Arith K := .exact) : Option (UGraph K) :=
  (m.errors.foldlM (corrStep A mergeW toW) (UGraph.new m.numDets m.numObs, ([] : Joint K))).bind fun s =>
    populate toW s.2 s.1 A

end Verif.Dem
