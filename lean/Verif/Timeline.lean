import Mathlib.Data.Finset.Insert
import Mathlib.Data.Finset.Card
import Mathlib.Data.List.Basic

/-!
# Starting a decode

Models the first part of `process_timeline_until_completion`
(`/repo/src/pymatching/sparse_blossom/driver/mwpm_decoding.cc:82-131`): which nodes get a detection event, the temporary marks
in `radius_of_arrival`, and what is left behind when an exception is raised.
-/

namespace Verif.TL

/-- The state that the starting phase touches: nodes for which `create_detection_event` was called (in order), and the
nodes whose `radius_of_arrival` is the temporary mark 1. -/
structure Start where
  started : List Nat
  marks : Finset Nat
deriving DecidableEq

/-- `detection + 1 > is_user_graph_boundary_node.size() || !is_user_graph_boundary_node[detection]`
(mwpm_decoding.cc:96-97, 114-115): the node is not a boundary node. -/
def notBoundary (bnd : List Bool) (d : Nat) : Bool :=
  match bnd[d]? with
  | none => true
  | some b => !b

/-- The loop without negative weights (mwpm_decoding.cc:90-99).  The flag is `false` if an exception is raised. -/
def plainLoop (numNodes : Nat) (bnd : List Bool) : Start → List Nat → Start × Bool
  | s, [] => (s, true)
  | s, d :: ds =>
    if d ≥ numNodes then (s, false)
    else if notBoundary bnd d then plainLoop numNodes bnd { s with started := s.started ++ [d] } ds
    else plainLoop numNodes bnd s ds

/-- The loop with negative weights (mwpm_decoding.cc:108-122). -/
def negLoop (numNodes : Nat) (bnd : List Bool) : Start → List Nat → Start × Bool
  | s, [] => (s, true)
  | s, d :: ds =>
    if d ≥ numNodes then (s, false)
    else if d ∉ s.marks then
      if notBoundary bnd d then negLoop numNodes bnd { s with started := s.started ++ [d] } ds
      else negLoop numNodes bnd s ds
    else negLoop numNodes bnd { s with marks := s.marks.erase d } ds

/-- The final loop (mwpm_decoding.cc:124-130). -/
def finishLoop : Start → List Nat → Start
  | s, [] => s
  | s, d :: ds =>
    if d ∈ s.marks then finishLoop ⟨s.started ++ [d], s.marks.erase d⟩ ds else finishLoop s ds

/-- The starting phase (mwpm_decoding.cc:88-131); `neg` is the sorted vector `negative_weight_detection_events`. -/
def start (numNodes : Nat) (bnd : List Bool) (neg : List Nat) (events : List Nat) : Start × Bool :=
  if neg.isEmpty then plainLoop numNodes bnd ⟨[], ∅⟩ events
  else
    match negLoop numNodes bnd ⟨[], neg.toFinset⟩ events with
    | (s, false) => (s, false)
    | (s, true) => (finishLoop s neg, true)

end Verif.TL
