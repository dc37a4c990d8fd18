import Verif.UserGraph
import Mathlib.Algebra.Order.Group.Unbundled.Abs

/-!
# The Python-facing wrapper: argument checks and the cached decoder

* `add_edge` and `add_boundary_edge` (`/repo/src/pymatching/sparse_blossom/driver/user_graph.pybind.cc:72-152`),
* the cache of the built decoder (`/repo/src/pymatching/sparse_blossom/driver/user_graph.cc:217-226, 323-347`).
-/

namespace Verif.Api

open Verif.UG

variable {K : Type}

/-! ## Argument checks -/

/-- A C++ `double`: a finite number, an infinity (`neg` for minus infinity) or not-a-number. -/
inductive Dbl (K : Type) where
  | fin (x : K)
  | inf (neg : Bool)
  | nan
deriving DecidableEq

/-- `MAX_USER_EDGE_WEIGHT = NUM_DISTINCT_WEIGHTS - 1` (user_graph.h:57): `2^24 - 1`. -/
def maxUserWeight : Nat := 2 ^ 24 - 1

/-- `std::abs(weight) > MAX_USER_EDGE_WEIGHT` (user_graph.pybind.cc:105, 137).  Every comparison with a NaN is false. -/
def tooHeavy [Field K] [LinearOrder K] : Dbl K → Bool
  | .fin x => |x| > (maxUserWeight : K)
  | .inf _ => true
  | .nan => false

/-- `merge_strategy_from_string` (user_graph.pybind.cc:72-85); `none`: the exception. -/
def strategyOf (s : String) : Option Strategy :=
  if s = "disallow" then some .disallow
  else if s = "independent" then some .independent
  else if s = "smallest-weight" then some .smallestWeight
  else if s = "keep-original" then some .keepOriginal
  else if s = "replace" then some .replace
  else none

/-- How a call ends. -/
inductive Outcome where
  /-- the call returned normally -/
  | returned
  /-- the call returned normally after emitting a warning -/
  | warned
  /-- `ValueError` -/
  | raised
deriving DecidableEq

/-- The state after a call.  Stored weights are numbers of `K`; a graph into which a NaN weight has been inserted or merged
is not represented and appears as `nanStored`. -/
inductive After (K : Type) where
  | graph (g : UGraph K) (o : Outcome)
  | nanStored

variable [Field K] [LinearOrder K]

/-- The common tail of the two wrappers: warn and return for heavy weights, otherwise parse the strategy and insert
(user_graph.pybind.cc:105-115, 137-147).  `ins` is `add_or_merge_edge` or `add_or_merge_boundary_edge`. -/
def checked (g : UGraph K) (w : Dbl K) (strategy : String) (ins : K → Strategy → UGraph K × Bool) : After K :=
  if tooHeavy w then .graph g .warned
  else
    match strategyOf strategy with
    | none => .graph g .raised
    | some s =>
      match w with
      | .fin x => .graph (ins x s).1 (if (ins x s).2 then .returned else .raised)
      | _ => .nanStored

/-- `add_edge` (user_graph.pybind.cc:91-121). -/
def addEdge (mergeW : K → K → K) (g : UGraph K) (u v : Int) (obs : List Nat) (w : Dbl K) (p : K) (strategy : String) :
    After K :=
  if u < 0 ∨ v < 0 then .graph g .raised
  else checked g w strategy fun x s => g.addEdge mergeW u.toNat v.toNat obs x p s

/-- `add_boundary_edge` (user_graph.pybind.cc:122-152). -/
def addBoundaryEdge (mergeW : K → K → K) (g : UGraph K) (u : Int) (obs : List Nat) (w : Dbl K) (p : K)
    (strategy : String) : After K :=
  if u < 0 then .graph g .raised
  else checked g w strategy fun x s => g.addBoundaryEdge mergeW u.toNat obs x p s

/-! ## The cached decoder -/

/-- What a decoder is built from (`to_mwpm`, user_graph.cc:323-337): the parts of the graph that `to_matching_graph` and
`to_search_graph` read, and whether the search graph was included. -/
structure Built (K : Type) where
  nodes : List UNode
  edges : List (UEdge K)
  boundary : Finset Nat
  numObs : Nat
  search : Bool

/-- `to_mwpm(NUM_DISTINCT_WEIGHTS, ensure)` (user_graph.cc:323-337). -/
def toMwpm (g : UGraph K) (ensure : Bool) : Built K :=
  ⟨g.nodes, g.edges, g.boundary, g.numObs, decide (g.numObs > 64) || ensure⟩

/-- The default-constructed `_mwpm` (user_graph.cc:171-183): empty graphs. -/
def noMwpm : Built K := ⟨[], [], ∅, 0, false⟩

/-- A `UserGraph` with its cached decoder (user_graph.h:130-132). -/
structure State (K : Type) where
  graph : UGraph K
  cache : Built K

/-- The constructor. -/
def State.new (n m : Nat) : State K := ⟨UGraph.new n m, noMwpm⟩

/-- `get_mwpm` (user_graph.cc:222-226): the decoder that `decode` uses. -/
def State.getMwpm (s : State K) : State K :=
  if s.graph.needsUpdating then ⟨{ s.graph with needsUpdating := false }, toMwpm s.graph false⟩ else s

/-- `flooder.graph.nodes.size()` of a decoder. -/
def Built.flooderNodes (b : Built K) : Nat := b.nodes.length

/-- `search_flooder.graph.nodes.size()` of a decoder. -/
def Built.searchNodes (b : Built K) : Nat := if b.search then b.nodes.length else 0

/-- `get_mwpm_with_search_graph` (user_graph.cc:339-347). -/
def State.getMwpmWithSearchGraph (s : State K) : State K :=
  if !s.graph.needsUpdating && s.cache.flooderNodes == s.cache.searchNodes then s
  else ⟨{ s.graph with needsUpdating := false }, toMwpm s.graph true⟩

end Verif.Api
