import Verif.UserGraph

/-!
# Sampling noise

Models `UserGraph::add_noise` (`/repo/src/pymatching/sparse_blossom/driver/user_graph.cc:228-248`), its wrapper
(`user_graph.pybind.cc:161-178`) and `Matching.add_noise` (`/repo/src/pymatching/matching.py:182-200`).
The random source is an arbitrary sequence `draw` of numbers, one per edge.
-/

namespace Verif.UG

variable {K : Type}

/-- `*(arr + i) ^= 1` on an array of zeros and ones; `none` for a write past the end. -/
def flipAt (arr : List Bool) (i : Nat) : Option (List Bool) :=
  if h : i < arr.length then some (arr.set i (!arr[i])) else none

/-- Flipping several entries in order. -/
def flipAll : List Bool → List Nat → Option (List Bool)
  | arr, [] => some arr
  | arr, i :: is => (flipAt arr i).bind fun arr' => flipAll arr' is

/-- The body of the loop for an edge whose draw was below its probability (user_graph.cc:235-243). -/
def applyEdge (e : UEdge K) (err syn : List Bool) : Option (List Bool × List Bool) :=
  (flipAll err e.obs).bind fun err' => (flipAll syn (e.node1 :: e.node2.toList)).map fun syn' => (err', syn')

/-- The loop over the edges (user_graph.cc:232-245); edge `i` consumes `draw i`. -/
def noiseLoop [LT K] [DecidableLT K] (draw : Nat → K) : Nat → List (UEdge K) → List Bool → List Bool → Option (List Bool × List Bool)
  | _, [], err, syn => some (err, syn)
  | i, e :: es, err, syn =>
    if draw i < e.prob then (applyEdge e err syn).bind fun (err', syn') => noiseLoop draw (i + 1) es err' syn'
    else noiseLoop draw (i + 1) es err syn

/-- `add_noise` on arrays of zeros of the sizes chosen by the wrapper; `none` for a write past the end of an array. -/
def UGraph.addNoise [LT K] [DecidableLT K] (g : UGraph K) (draw : Nat → K) : Option (List Bool × List Bool) :=
  let err := List.replicate g.numObs false
  let syn := List.replicate g.nodes.length false
  if !g.allProbs then some (err, syn)
  else
    match noiseLoop draw 0 g.edges err syn with
    | none => none
    | some (err', syn') =>
      if ∀ b ∈ g.boundary, b < syn'.length then some (err', syn'.mapIdx fun i x => if i ∈ g.boundary then false else x) else none

/-- `Matching.add_noise` (matching.py:182-200): `some none` is Python's `None`. -/
def UGraph.sample [LT K] [DecidableLT K] (g : UGraph K) (draw : Nat → K) : Option (Option (List Bool × List Bool)) :=
  if !g.allProbs then some none else (g.addNoise draw).map some

end Verif.UG
