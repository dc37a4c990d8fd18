import Verif.CompressedEdge
import Mathlib.Data.Finset.SymmDiff
import Mathlib.Data.Finset.Insert
import Mathlib.Data.List.Basic
import Mathlib.Algebra.Group.Int.Defs
import Mathlib.Algebra.BigOperators.Group.List.Basic

/-!
# Construction of the decoding graph

Models `MatchingGraph::add_edge`, `add_boundary_edge`, `update_negative_weight_observables`,
`update_negative_weight_detection_events`
(`/repo/src/pymatching/sparse_blossom/flooder/graph.cc:27-162`), `GraphFlooder::sync_negative_weight_observables_and_detection_events`
(`flooder/graph_flooder.cc`), and `SearchGraph::add_edge`, `add_boundary_edge`
(`/repo/src/pymatching/sparse_blossom/search/search_graph.cc:33-100`).

Simplification: the implied-weight rules stored next to each edge are not part of this model (see `Verif.Reweight`).
-/

namespace Verif.Graph

open Verif.CE (ObsInt)

/-- One neighbour entry of a node: parallel vectors `neighbors`, `neighbor_weights`, `neighbor_observables`
(detector_node.h).  `target = none` is `nullptr`, the boundary. -/
structure Nbr where
  target : Option Nat
  weight : Nat
  obs : ObsInt
deriving Repr, DecidableEq

/-- The part of `class MatchingGraph` (graph.h:40-64) that edge insertion touches.  `std::set<size_t>` is `Finset Nat`. -/
structure MGraph where
  nodes : List (List Nbr)
  numObs : Nat
  negDets : Finset Nat
  negObs : Finset Nat
  negSum : Int

/-- Constructor `MatchingGraph(num_nodes, num_observables)` (graph.cc:114-117). -/
def MGraph.empty (numNodes numObs : Nat) : MGraph := ⟨List.replicate numNodes [], numObs, ∅, ∅, 0⟩

/-- Outcome of an insertion.  An exception carries the state it leaves behind. -/
inductive Ins (α : Type) where
  | ok (g : α)
  | throws (g : α)
  | ub

/-- Insert into or erase from a `std::set` (graph.cc:144-162). -/
def toggle (s : Finset Nat) (x : Nat) : Finset Nat := if x ∈ s then s.erase x else insert x s

/-- `update_negative_weight_observables` (graph.cc:144-153). -/
def toggleAll (s : Finset Nat) (xs : List Nat) : Finset Nat := xs.foldl toggle s

/-- The observable mask of an edge (graph.cc:55-59, 93-97).  Shifting a 64-bit integer by 64 or more is undefined
behaviour: `none`. -/
def obsMask (numObs : Nat) (obs : List Nat) : Option ObsInt :=
  if numObs ≤ 64 then
    obs.foldl (fun m o => m.bind fun m => if o < 64 then some (m ^^^ (1#64 <<< o)) else none) (some 0)
  else some 0

/-- `nodes[u].neighbors.push_back(..)` and the parallel vectors. -/
def pushBack (nodes : List (List Nbr)) (u : Nat) (x : Nbr) : List (List Nbr) := nodes.modify u (· ++ [x])

/-- Negative weight bookkeeping of `add_edge` (graph.cc:42-47). -/
def MGraph.noteNegEdge (g : MGraph) (u v : Nat) (w : Int) (obs : List Nat) : MGraph :=
  if w < 0 then
    { g with negObs := toggleAll g.negObs obs, negDets := toggle (toggle g.negDets u) v, negSum := g.negSum + w }
  else g

/-- Negative weight bookkeeping of `add_boundary_edge` (graph.cc:96-100). -/
def MGraph.noteNegBoundary (g : MGraph) (u : Nat) (w : Int) (obs : List Nat) : MGraph :=
  if w < 0 then
    { g with negObs := toggleAll g.negObs obs, negDets := toggle g.negDets u, negSum := g.negSum + w }
  else g

/-- `MatchingGraph::add_edge` (graph.cc:27-75). -/
def MGraph.addEdge (g : MGraph) (u v : Nat) (w : Int) (obs : List Nat) : Ins MGraph :=
  if max u v + 1 > g.nodes.length then .throws g
  else
    let g := g.noteNegEdge u v w obs
    if u = v then .ok g
    else
      match obsMask g.numObs obs with
      | none => .ub
      | some m => .ok { g with nodes := pushBack (pushBack g.nodes u ⟨some v, w.natAbs, m⟩) v ⟨some u, w.natAbs, m⟩ }

/-- Whether the node already has a boundary edge: `!n.neighbors.empty() && n.neighbors[0] == nullptr`
(graph.cc:103). -/
def hasBoundary (n : List Nbr) : Bool :=
  match n with
  | [] => false
  | x :: _ => x.target.isNone

/-- `MatchingGraph::add_boundary_edge` (graph.cc:77-112).  Note the order: the negative-weight bookkeeping is updated
before the check for a second boundary edge. -/
def MGraph.addBoundaryEdge (g : MGraph) (u : Nat) (w : Int) (obs : List Nat) : Ins MGraph :=
  match g.nodes[u]? with
  | none => .throws g
  | some n =>
    match obsMask g.numObs obs with
    | none => .ub
    | some m =>
      let g := g.noteNegBoundary u w obs
      if hasBoundary n then .throws g
      else .ok { g with nodes := g.nodes.modify u (fun n => ⟨none, w.natAbs, m⟩ :: n) }

/-! ## The search graph -/

/-- `neighbor_markers`: bit 1 `WEIGHT_SIGN`, bit 0 `FLIPPED` (search_detector_node.h). -/
structure SNbr where
  target : Option Nat
  weight : Nat
  obs : List Nat
  weightSign : Bool
deriving Repr, DecidableEq

/-- `class SearchGraph` (search_graph.h); `negEdges` is `negative_weight_edges`, `none` for `SIZE_MAX`. -/
structure SGraph where
  nodes : List (List SNbr)
  negEdges : List (Nat × Option Nat)

def SGraph.empty (numNodes : Nat) : SGraph := ⟨List.replicate numNodes [], []⟩

def pushBackS (nodes : List (List SNbr)) (u : Nat) (x : SNbr) : List (List SNbr) := nodes.modify u (· ++ [x])

/-- `SearchGraph::add_edge` (search_graph.cc:33-72).  Unlike the matching graph, a self-loop is dropped *before* its
negative weight is recorded. -/
def SGraph.addEdge (g : SGraph) (u v : Nat) (w : Int) (obs : List Nat) : Ins SGraph :=
  if max u v + 1 > g.nodes.length then .throws g
  else if u = v then .ok g
  else
    let neg := if w < 0 then g.negEdges ++ [(u, some v)] else g.negEdges
    .ok ⟨pushBackS (pushBackS g.nodes u ⟨some v, w.natAbs, obs, w < 0⟩) v ⟨some u, w.natAbs, obs, w < 0⟩, neg⟩

/-- `SearchGraph::add_boundary_edge` (search_graph.cc:74-100).  There is no check for a second boundary edge. -/
def SGraph.addBoundaryEdge (g : SGraph) (u : Nat) (w : Int) (obs : List Nat) : Ins SGraph :=
  if u ≥ g.nodes.length then .throws g
  else
    let neg := if w < 0 then g.negEdges ++ [(u, none)] else g.negEdges
    .ok ⟨g.nodes.modify u (fun n => ⟨none, w.natAbs, obs, w < 0⟩ :: n), neg⟩

/-! ## Lemmas -/

theorem mem_toggle (s : Finset Nat) (x y : Nat) : y ∈ toggle s x ↔ (y ∈ s ↔ ¬ y = x) := by
  unfold toggle
  split
  · rename_i h
    rw [Finset.mem_erase]
    by_cases hy : y = x
    · subst hy; simp [h]
    · simp [hy]
  · rename_i h
    rw [Finset.mem_insert]
    by_cases hy : y = x
    · subst hy; simp [h]
    · simp [hy]

theorem mem_toggleAll (xs : List Nat) (s : Finset Nat) (y : Nat) :
    y ∈ toggleAll s xs ↔ (y ∈ s ↔ xs.count y % 2 = 0) := by
  induction xs generalizing s with
  | nil => simp [toggleAll]
  | cons x xs ih =>
    show y ∈ toggleAll (toggle s x) xs ↔ _
    rw [ih, mem_toggle, List.count_cons]
    by_cases hy : y = x
    · subst hy
      simp only [beq_self_eq_true, if_true, not_true, iff_false]
      by_cases hs : y ∈ s
      · simp [hs]; omega
      · simp [hs]; omega
    · have : (x == y) = false := by simpa using fun h => hy h.symm
      simp [this, hy]

/-- Bits of the mask: parity of the occurrences. -/
theorem obsMask_spec (numObs : Nat) (obs : List Nat) (hn : numObs ≤ 64) (ho : ∀ o ∈ obs, o < 64) :
    ∃ m, obsMask numObs obs = some m ∧ ∀ i, i < 64 → (m.getLsbD i = true ↔ obs.count i % 2 = 1) := by
  have key : ∀ (obs : List Nat) (m0 : ObsInt), (∀ o ∈ obs, o < 64) →
      ∃ m, obs.foldl (fun m o => m.bind fun m => if o < 64 then some (m ^^^ (1#64 <<< o)) else none) (some m0) = some m ∧
        ∀ i, i < 64 → m.getLsbD i = (m0.getLsbD i ^^ decide (obs.count i % 2 = 1)) := by
    intro obs
    induction obs with
    | nil => intro m0 _; exact ⟨m0, rfl, fun i _ => by simp⟩
    | cons o os ih =>
      intro m0 h
      have ho : o < 64 := h o (by simp)
      obtain ⟨m, h1, h2⟩ := ih (m0 ^^^ (1#64 <<< o)) (fun x hx => h x (by simp [hx]))
      refine ⟨m, by simpa [ho] using h1, fun i hi => ?_⟩
      rw [h2 i hi, BitVec.getLsbD_xor, List.count_cons]
      have hsh : (1#64 <<< o).getLsbD i = decide (o = i) := by
        rw [BitVec.getLsbD_shiftLeft]
        by_cases hoi : o = i
        · subst hoi; simp [hi]
        · by_cases hlt : i < o
          · simp [hlt, hoi]
          · have : ¬ (i - o = 0) := by omega
            simp [this, hoi]
      rw [hsh, Bool.xor_assoc]
      congr 1
      by_cases hoi : o = i
      · subst hoi
        by_cases hc : List.count o os % 2 = 1
        · have : ¬ ((List.count o os + 1) % 2 = 1) := by omega
          simp [hc, this]
        · have : ((List.count o os + 1) % 2 = 1) := by omega
          simp [hc, this]
      · have : (o == i) = false := by simpa using hoi
        simp [this, hoi]
  obtain ⟨m, h1, h2⟩ := key obs 0 ho
  refine ⟨m, by rw [obsMask, if_pos hn]; exact h1, fun i hi => ?_⟩
  rw [h2 i hi]; simp

theorem obsMask_large (numObs : Nat) (obs : List Nat) (hn : 64 < numObs) : obsMask numObs obs = some 0 := by
  rw [obsMask, if_neg (by omega)]

/-- An out-of-range observable makes the mask computation undefined. -/
theorem obsMask_ub (numObs : Nat) (obs : List Nat) (hn : numObs ≤ 64) (ho : ∃ o ∈ obs, 64 ≤ o) :
    obsMask numObs obs = none := by
  rw [obsMask, if_pos hn]
  have hnone : ∀ obs : List Nat, obs.foldl (fun (m : Option ObsInt) o => m.bind fun m => if o < 64 then some (m ^^^ (1#64 <<< o)) else none) none = none := by
    intro obs; induction obs with
    | nil => rfl
    | cons o os ih => simpa using ih
  have : ∀ (obs : List Nat) (m0 : Option ObsInt), (∃ o ∈ obs, 64 ≤ o) →
      obs.foldl (fun m o => m.bind fun m => if o < 64 then some (m ^^^ (1#64 <<< o)) else none) m0 = none := by
    intro obs
    induction obs with
    | nil => intro m0 h; obtain ⟨o, h, -⟩ := h; simp at h
    | cons o os ih =>
      intro m0 h
      rw [List.foldl_cons]
      by_cases h64 : 64 ≤ o
      · have : (m0.bind fun m => if o < 64 then some (m ^^^ (1#64 <<< o)) else none) = none := by
          cases m0 with
          | none => rfl
          | some m => simp; omega
        rw [this]; exact hnone os
      · apply ih
        obtain ⟨x, hx, hx'⟩ := h
        rcases List.mem_cons.1 hx with rfl | hx
        · omega
        · exact ⟨x, hx, hx'⟩
  exact this obs _ ho

end Verif.Graph
