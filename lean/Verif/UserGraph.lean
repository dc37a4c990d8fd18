import Mathlib.Data.Finset.Insert
import Mathlib.Data.Finset.Card
import Mathlib.Data.List.Basic
import Mathlib.Algebra.Order.Field.Basic

/-!
# The user-facing graph

Models `pm::UserGraph` (`/repo/src/pymatching/sparse_blossom/driver/user_graph.h:35-134`, `user_graph.cc:39-216`):
adding and merging edges, boundary nodes, counts, lookups.

Weights and probabilities are elements of an ordered field `K` (the code uses `double`; rounding is not modelled).
`mergeW` is the weight merging function `pm::merge_weights`, studied in `Verif.MergeWeights`.
The `std::list` of edges is a `List` and an iterator is a position; the code never erases from it.
`SIZE_MAX` as a node is `none`.
-/

namespace Verif.UG

/-- `enum MERGE_STRATEGY` (user_graph.h:59). -/
inductive Strategy where
  | disallow | independent | smallestWeight | keepOriginal | replace
deriving DecidableEq, Repr

/-- `struct ImpliedWeightUnconverted` (implied_weights.h:22-30). -/
structure Implied (K : Type) where
  node1 : Nat
  node2 : Option Nat
  weight : K
deriving DecidableEq, Repr

/-- `struct UserEdge` (user_graph.h:35-42). -/
structure UEdge (K : Type) where
  node1 : Nat
  node2 : Option Nat
  obs : List Nat
  weight : K
  prob : K
  implied : List (Implied K)
deriving DecidableEq, Repr

/-- `class UserNode` (user_graph.h:44-55): neighbours as (position in the edge list, `pos`), with `pos = true` for 1
("the neighbour is `node2`"). -/
structure UNode where
  neighbors : List (Nat × Bool)
  isBoundary : Bool
deriving DecidableEq, Repr

/-- `class UserGraph` (user_graph.h:61-134), without the cached decoder (see `Verif.Api`). -/
structure UGraph (K : Type) where
  nodes : List UNode
  edges : List (UEdge K)
  boundary : Finset Nat
  numObs : Nat
  needsUpdating : Bool
  allProbs : Bool

variable {K : Type}

/-- `UserNode()` (user_graph.cc:39-40). -/
def UNode.fresh : UNode := ⟨[], false⟩

/-- Constructor `UserGraph(num_nodes, num_observables)` (user_graph.cc:171-183). -/
def UGraph.new (numNodes numObs : Nat) : UGraph K :=
  ⟨List.replicate numNodes UNode.fresh, [], ∅, numObs, true, true⟩

/-- `nodes.resize(n)` when `n` is larger than the current size. -/
def grow (nodes : List UNode) (n : Nat) : List UNode := nodes ++ List.replicate (n - nodes.length) UNode.fresh

/-- The test in `index_of_neighbor` (user_graph.cc:43-50): does this neighbour entry lead to `target`? -/
def leadsTo (edges : List (UEdge K)) (target : Option Nat) (n : Nat × Bool) : Bool :=
  match edges[n.1]? with
  | none => false  -- dangling iterator; excluded by the invariant `WF`
  | some e => if n.2 then e.node2 = target else some e.node1 = target

/-- `nodes[u].neighbors[nodes[u].index_of_neighbor(target)].edge_it` (user_graph.cc:42-56): the position of the edge that the
first neighbour entry leading to `target` refers to; `none` if `index_of_neighbor` returns `SIZE_MAX`. -/
def UGraph.edgeTo (g : UGraph K) (n : UNode) (target : Option Nat) : Option Nat :=
  (n.neighbors.find? (leadsTo g.edges target)).map Prod.fst

/-- `is_valid_probability` (user_graph.cc:58-60). -/
def validProb [Field K] [LinearOrder K] (p : K) : Bool := 0 ≤ p && p ≤ 1

section merge
variable [Field K] [LinearOrder K]

/-- The new data of an existing edge under a merge; `none` for DISALLOW (the exception).  The second component says
whether anything is written (user_graph.cc:62-109). -/
def mergeData (mergeW : K → K → K) (e : UEdge K) (obs : List Nat) (w p : K) : Strategy → Option (UEdge K × Bool)
  | .disallow => none
  | .keepOriginal => some (e, false)
  | .smallestWeight => if w ≥ e.weight then some (e, false) else some ({ e with obs := obs, weight := w, prob := p }, true)
  | .replace => some ({ e with obs := obs, weight := w, prob := p }, true)
  | .independent =>
    let np := if validProb e.prob && validProb p then p * (1 - e.prob) + e.prob * (1 - p) else -1
    some ({ e with weight := mergeW w e.weight, prob := np }, true)

/-- `merge_edge_or_boundary_edge(node, idx, ..)` (user_graph.cc:62-109).  The result is the state when the function
returns or throws, and `false` if it throws (DISALLOW).  `ei` is the position of the edge that `idx` leads to. -/
def UGraph.mergeEdge (mergeW : K → K → K) (g : UGraph K) (ei : Nat) (obs : List Nat) (w p : K) (s : Strategy) :
    UGraph K × Bool :=
  match g.edges[ei]? with
  | none => (g, true)  -- dangling iterator; excluded by the invariant `WF`
  | some e =>
    match mergeData mergeW e obs w p s with
    | none => (g, false)
    | some (_, false) => (g, true)
    | some (e', true) =>
      ({ g with edges := g.edges.set ei e', needsUpdating := true,
                allProbs := if e'.prob < 0 ∨ e'.prob > 1 then false else g.allProbs }, true)

/-- `if (obs + 1 > _num_observables) _num_observables = obs + 1` for each observable (user_graph.cc:131-134, 159-162). -/
def bumpObs (n : Nat) (obs : List Nat) : Nat := obs.foldl (fun n o => if o + 1 > n then o + 1 else n) n

/-- `add_or_merge_edge` (user_graph.cc:111-141).  The result is the state at the
return or the exception, and `false` for the exception. -/
def UGraph.addEdge (mergeW : K → K → K) (g : UGraph K) (u v : Nat) (obs : List Nat) (w p : K) (s : Strategy) :
    UGraph K × Bool :=
  let g := { g with nodes := grow g.nodes (max u v + 1) }
  match g.nodes[u]? with
  | none => (g, true)  -- not reachable: `u < nodes.size()` after growing
  | some n =>
    match g.edgeTo n (some v) with
    | none =>
      let k := g.edges.length
      let nodes := g.nodes.modify u (fun n => { n with neighbors := n.neighbors ++ [(k, true)] })
      let nodes := if u ≠ v then nodes.modify v (fun n => { n with neighbors := n.neighbors ++ [(k, false)] }) else nodes
      ({ g with nodes := nodes, edges := g.edges ++ [⟨u, some v, obs, w, p, []⟩], numObs := bumpObs g.numObs obs,
                needsUpdating := true, allProbs := if p < 0 ∨ p > 1 then false else g.allProbs }, true)
    | some ei => g.mergeEdge mergeW ei obs w p s

/-- `add_or_merge_boundary_edge` (user_graph.cc:143-169). -/
def UGraph.addBoundaryEdge (mergeW : K → K → K) (g : UGraph K) (u : Nat) (obs : List Nat) (w p : K) (s : Strategy) :
    UGraph K × Bool :=
  let g := { g with nodes := grow g.nodes (u + 1) }
  match g.nodes[u]? with
  | none => (g, true)  -- not reachable
  | some n =>
    match g.edgeTo n none with
    | none =>
      let k := g.edges.length
      ({ g with nodes := g.nodes.modify u (fun n => { n with neighbors := n.neighbors ++ [(k, true)] }),
                edges := g.edges ++ [⟨u, none, obs, w, p, []⟩], numObs := bumpObs g.numObs obs,
                needsUpdating := true, allProbs := if p < 0 ∨ p > 1 then false else g.allProbs }, true)
    | some ei => g.mergeEdge mergeW ei obs w p s

end merge

/-- Setting `is_boundary` at one node, growing the vector if necessary (user_graph.cc:189-193). -/
def markBoundary (nodes : List UNode) (n : Nat) : List UNode :=
  (grow nodes (n + 1)).modify n (fun x => { x with isBoundary := true })

/-- `set_boundary` (user_graph.cc:185-195); the `std::set` is given as the sorted list of its elements. -/
def UGraph.setBoundary (g : UGraph K) (b : List Nat) : UGraph K :=
  let nodes := g.nodes.mapIdx (fun i x => if i ∈ g.boundary then { x with isBoundary := false } else x)
  { g with nodes := b.foldl markBoundary nodes, boundary := b.toFinset, needsUpdating := true }

/-- `set_min_num_observables` (user_graph.cc:417-420). -/
def UGraph.setMinNumObs (g : UGraph K) (n : Nat) : UGraph K := { g with numObs := if n > g.numObs then n else g.numObs }

/-- `get_num_detectors` (user_graph.cc:209-211). -/
def UGraph.numDetectors (g : UGraph K) : Nat := g.nodes.length - g.boundary.card

/-- `is_boundary_node` (user_graph.cc:213-215); `none`: out of bounds access. -/
def UGraph.isBoundaryNode (g : UGraph K) : Option Nat → Option Bool
  | none => some true
  | some n => (g.nodes[n]?).map (·.isBoundary)

/-- `has_edge` (user_graph.cc:393-397) and `has_boundary_edge` (user_graph.cc:399-403, target `none`). -/
def UGraph.hasEdge (g : UGraph K) (u : Nat) (target : Option Nat) : Bool :=
  match g.nodes[u]? with
  | none => false
  | some n => (g.edgeTo n target).isSome

/-- `get_edge_data` / `get_boundary_edge_data` (user_graph.pybind.cc:387-424): `none` is the exception. -/
def UGraph.getEdge (g : UGraph K) (u : Nat) (target : Option Nat) : Option (UEdge K) :=
  match g.nodes[u]? with
  | none => none
  | some n =>
    match g.edgeTo n target with
    | none => none
    | some ei => g.edges[ei]?

/-! ## Well-formedness -/

/-- The unordered pair of an edge; the boundary is `none`. -/
def key (u : Nat) : Option Nat → Nat × Option Nat
  | none => (u, none)
  | some v => (min u v, some (max u v))

/-- The pair an edge connects. -/
def UEdge.key (e : UEdge K) : Nat × Option Nat := UG.key e.node1 e.node2

/-- Consistency of edge list and neighbour lists. -/
structure WF (g : UGraph K) : Prop where
  fwd1 : ∀ i (h : i < g.edges.length), ∃ n : UNode, g.nodes[g.edges[i].node1]? = some n ∧ (i, true) ∈ n.neighbors
  fwd2 : ∀ i (h : i < g.edges.length) v, g.edges[i].node2 = some v → v ≠ g.edges[i].node1 →
    ∃ n : UNode, g.nodes[v]? = some n ∧ (i, false) ∈ n.neighbors
  back : ∀ (u : Nat) (n : UNode), g.nodes[u]? = some n → ∀ (i : Nat) (b : Bool), (i, b) ∈ n.neighbors →
    ∃ h : i < g.edges.length, if b = true then g.edges[i].node1 = u else (g.edges[i].node2 = some u ∧ g.edges[i].node1 ≠ u)
  uniq : ∀ i j (hi : i < g.edges.length) (hj : j < g.edges.length), g.edges[i].key = g.edges[j].key → i = j

theorem key_eq_iff (a : Nat) (b : Option Nat) (u : Nat) (t : Option Nat) :
    key a b = key u t ↔ (a = u ∧ b = t) ∨ (∃ v, t = some v ∧ b = some u ∧ a = v) := by
  cases b <;> cases t <;> simp [key]; omega

theorem wf_new (n m : Nat) : WF (UGraph.new n m : UGraph K) where
  fwd1 := by simp [UGraph.new]
  fwd2 := by simp [UGraph.new]
  back := by
    intro u x hx i b hm
    simp only [UGraph.new, List.getElem?_replicate] at hx
    split at hx
    · cases hx; simp [UNode.fresh] at hm
    · cases hx
  uniq := by simp [UGraph.new]

theorem edgeTo_spec {g : UGraph K} (hw : WF g) {u : Nat} {n : UNode} (hn : g.nodes[u]? = some n) (t : Option Nat) (i : Nat) :
    g.edgeTo n t = some i ↔ ∃ h : i < g.edges.length, g.edges[i].key = key u t := by
  have lead : ∀ j b, (j, b) ∈ n.neighbors → leadsTo g.edges t (j, b) = true →
      ∃ h : j < g.edges.length, g.edges[j].key = key u t := by
    intro j b hm hl
    obtain ⟨hj, hb⟩ := hw.back u n hn j b hm
    refine ⟨hj, ?_⟩
    simp only [leadsTo, List.getElem?_eq_getElem hj] at hl
    unfold UEdge.key
    rw [key_eq_iff]
    cases b with
    | true =>
      simp only [if_true] at hb hl
      exact Or.inl ⟨hb, by simpa using hl⟩
    | false =>
      simp only [Bool.false_eq_true, if_false] at hb hl
      right
      exact ⟨g.edges[j].node1, by simpa using (of_decide_eq_true hl).symm, hb.1, rfl⟩
  constructor
  · intro h
    unfold UGraph.edgeTo at h
    rw [Option.map_eq_some_iff] at h
    obtain ⟨⟨j, b⟩, h1, h2⟩ := h
    simp only at h2
    subst h2
    exact lead j b (List.mem_of_find?_eq_some h1) (List.find?_some h1)
  · rintro ⟨hi, hk⟩
    have hex : ∃ x ∈ n.neighbors, leadsTo g.edges t x = true := by
      unfold UEdge.key at hk
      rw [key_eq_iff] at hk
      rcases hk with ⟨h1, h2⟩ | ⟨v, h1, h2, h3⟩
      · obtain ⟨n', hn', hm⟩ := hw.fwd1 i hi
        rw [h1, hn] at hn'
        cases hn'
        exact ⟨_, hm, by simp [leadsTo, List.getElem?_eq_getElem hi, h2]⟩
      · by_cases huv : u = v
        · obtain ⟨n', hn', hm⟩ := hw.fwd1 i hi
          rw [h3, ← huv, hn] at hn'
          cases hn'
          exact ⟨_, hm, by simp [leadsTo, List.getElem?_eq_getElem hi, h2, h1, huv]⟩
        · obtain ⟨n', hn', hm⟩ := hw.fwd2 i hi u h2 (by rw [h3]; exact huv)
          rw [hn] at hn'
          cases hn'
          exact ⟨_, hm, by simp [leadsTo, List.getElem?_eq_getElem hi, h3, h1]⟩
    obtain ⟨x, hx, hl⟩ := hex
    have hs : (n.neighbors.find? (leadsTo g.edges t)).isSome := by
      rw [List.find?_isSome]; exact ⟨x, hx, hl⟩
    obtain ⟨⟨j, b⟩, hj⟩ := Option.isSome_iff_exists.1 hs
    obtain ⟨hjl, hjk⟩ := lead j b (List.mem_of_find?_eq_some hj) (List.find?_some hj)
    have : j = i := hw.uniq j i hjl hi (hjk.trans hk.symm)
    subst this
    unfold UGraph.edgeTo
    rw [hj]; rfl

theorem edgeTo_none {g : UGraph K} (hw : WF g) {u : Nat} {n : UNode} (hn : g.nodes[u]? = some n) (t : Option Nat) :
    g.edgeTo n t = none ↔ ∀ i (h : i < g.edges.length), g.edges[i].key ≠ key u t := by
  constructor
  · intro h i hi hk
    have := (edgeTo_spec hw hn t i).2 ⟨hi, hk⟩
    rw [h] at this; cases this
  · intro h
    cases hc : g.edgeTo n t with
    | none => rfl
    | some i =>
      obtain ⟨hi, hk⟩ := (edgeTo_spec hw hn t i).1 hc
      exact absurd hk (h i hi)

theorem grow_get (nodes : List UNode) (m u : Nat) :
    (grow nodes m)[u]? = if u < nodes.length then nodes[u]? else if u < m then some UNode.fresh else none := by
  unfold grow
  split
  · rename_i h; rw [List.getElem?_append_left h]
  · rename_i h
    rw [List.getElem?_append_right (by omega), List.getElem?_replicate]
    by_cases hm : u < m
    · rw [if_pos (by omega), if_pos hm]
    · rw [if_neg (by omega), if_neg hm]

theorem grow_len (nodes : List UNode) (m : Nat) : (grow nodes m).length = max nodes.length m := by
  simp [grow]; omega

theorem wf_grow {g : UGraph K} (hw : WF g) (m : Nat) : WF { g with nodes := grow g.nodes m } where
  fwd1 := by
    intro i h
    obtain ⟨n, hn, hm⟩ := hw.fwd1 i h
    refine ⟨n, ?_, hm⟩
    show (grow g.nodes m)[_]? = _
    rw [grow_get, if_pos (List.getElem?_eq_some_iff.1 hn).1]; exact hn
  fwd2 := by
    intro i h v h1 h2
    obtain ⟨n, hn, hm⟩ := hw.fwd2 i h v h1 h2
    refine ⟨n, ?_, hm⟩
    show (grow g.nodes m)[_]? = _
    rw [grow_get, if_pos (List.getElem?_eq_some_iff.1 hn).1]; exact hn
  back := by
    intro u n hn i b hm
    have hn : (grow g.nodes m)[u]? = some n := hn
    rw [grow_get] at hn
    split at hn
    · exact hw.back u n hn i b hm
    · split at hn
      · cases hn; simp [UNode.fresh] at hm
      · cases hn
  uniq := hw.uniq

/-- Replacing an edge by one with the same end points. -/
theorem wf_set {g g' : UGraph K} (hw : WF g) (ei : Nat) (e' : UEdge K) (hei : ei < g.edges.length)
    (h1 : e'.node1 = g.edges[ei].node1) (h2 : e'.node2 = g.edges[ei].node2) (hn : g'.nodes = g.nodes)
    (he : g'.edges = g.edges.set ei e') : WF g' := by
  have hl : g'.edges.length = g.edges.length := by rw [he]; simp
  have hnode : ∀ i (h : i < g'.edges.length) (h' : i < g.edges.length),
      g'.edges[i].node1 = g.edges[i].node1 ∧ g'.edges[i].node2 = g.edges[i].node2 := by
    intro i h h'
    simp only [he, List.getElem_set]
    split
    · rename_i hi; subst hi; exact ⟨h1, h2⟩
    · exact ⟨rfl, rfl⟩
  refine ⟨?_, ?_, ?_, ?_⟩
  · intro i h
    rw [(hnode i h (hl ▸ h)).1, hn]
    exact hw.fwd1 i (hl ▸ h)
  · intro i h v
    rw [(hnode i h (hl ▸ h)).1, (hnode i h (hl ▸ h)).2, hn]
    exact hw.fwd2 i (hl ▸ h) v
  · intro u n hnu i b hm
    rw [hn] at hnu
    obtain ⟨h, hb⟩ := hw.back u n hnu i b hm
    refine ⟨hl ▸ h, ?_⟩
    rw [(hnode i (hl ▸ h) h).1, (hnode i (hl ▸ h) h).2]
    exact hb
  · intro i j hi hj hk
    unfold UEdge.key at hk
    rw [(hnode i hi (hl ▸ hi)).1, (hnode i hi (hl ▸ hi)).2, (hnode j hj (hl ▸ hj)).1, (hnode j hj (hl ▸ hj)).2] at hk
    exact hw.uniq i j (hl ▸ hi) (hl ▸ hj) hk

/-- Appending an edge whose pair is new, together with its neighbour entries. -/
theorem wf_push {g g' : UGraph K} (hw : WF g) (e : UEdge K) (hu : e.node1 < g.nodes.length)
    (hv : ∀ v, e.node2 = some v → v < g.nodes.length)
    (hnew : ∀ i (h : i < g.edges.length), g.edges[i].key ≠ e.key)
    (he : g'.edges = g.edges ++ [e])
    (hn : ∀ x : Nat, g'.nodes[x]? = (g.nodes[x]?).map fun n : UNode => { n with neighbors := n.neighbors ++
      (if x = e.node1 then [(g.edges.length, true)] else if e.node2 = some x then [(g.edges.length, false)] else []) }) :
    WF g' := by
  have hl : g'.edges.length = g.edges.length + 1 := by rw [he]; simp
  have hlast : ∀ (h : g.edges.length < g'.edges.length), g'.edges[g.edges.length] = e := by
    intro h; simp [he]
  have hold : ∀ i (h : i < g.edges.length) (h' : i < g'.edges.length), g'.edges[i] = g.edges[i] := by
    intro i h h'; simp [he, List.getElem_append_left h]
  have keep : ∀ (x : Nat) (n : UNode), g.nodes[x]? = some n → ∃ n', g'.nodes[x]? = some n' ∧ ∀ y ∈ n.neighbors, y ∈ n'.neighbors := by
    intro x n hx
    refine ⟨_, by rw [hn x, hx]; rfl, ?_⟩
    intro y hy; simp [hy]
  refine ⟨?_, ?_, ?_, ?_⟩
  · intro i h
    by_cases hi : i < g.edges.length
    · rw [hold i hi h]
      obtain ⟨n, h1, h2⟩ := hw.fwd1 i hi
      obtain ⟨n', h3, h4⟩ := keep _ n h1
      exact ⟨n', h3, h4 _ h2⟩
    · have : i = g.edges.length := by omega
      subst this
      rw [hlast h, hn, List.getElem?_eq_getElem hu]
      exact ⟨_, rfl, by simp⟩
  · intro i h v
    by_cases hi : i < g.edges.length
    · rw [hold i hi h]
      intro h1 h2
      obtain ⟨n, h1, h2⟩ := hw.fwd2 i hi v h1 h2
      obtain ⟨n', h3, h4⟩ := keep _ n h1
      exact ⟨n', h3, h4 _ h2⟩
    · have : i = g.edges.length := by omega
      subst this
      rw [hlast h]
      intro h1 h2
      rw [hn, List.getElem?_eq_getElem (hv v h1)]
      exact ⟨_, rfl, by simp [h2, h1]⟩
  · intro u n' hu' i b hm
    rw [hn u] at hu'
    rw [Option.map_eq_some_iff] at hu'
    obtain ⟨n, hnu, rfl⟩ := hu'
    simp only [List.mem_append] at hm
    rcases hm with hm | hm
    · obtain ⟨h, hb⟩ := hw.back u n hnu i b hm
      exact ⟨by omega, by rw [hold i h (by omega)]; exact hb⟩
    · by_cases h1 : u = e.node1
      · rw [if_pos h1] at hm
        simp only [List.mem_singleton, Prod.mk.injEq] at hm
        obtain ⟨rfl, rfl⟩ := hm
        exact ⟨by omega, by rw [hlast (by omega)]; simpa using h1.symm⟩
      · rw [if_neg h1] at hm
        by_cases h2 : e.node2 = some u
        · rw [if_pos h2] at hm
          simp only [List.mem_singleton, Prod.mk.injEq] at hm
          obtain ⟨rfl, rfl⟩ := hm
          refine ⟨by omega, ?_⟩
          rw [hlast (by omega)]
          simp only [Bool.false_eq_true, if_false]
          exact ⟨h2, fun h => h1 h.symm⟩
        · rw [if_neg h2] at hm; simp at hm
  · intro i j hi hj hk
    by_cases h1 : i < g.edges.length <;> by_cases h2 : j < g.edges.length
    · rw [hold i h1 hi, hold j h2 hj] at hk
      exact hw.uniq i j h1 h2 hk
    · have : j = g.edges.length := by omega
      subst this
      rw [hold i h1 hi, hlast hj] at hk
      exact absurd hk (hnew i h1)
    · have : i = g.edges.length := by omega
      subst this
      rw [hold j h2 hj, hlast hi] at hk
      exact absurd hk.symm (hnew j h2)
    · omega

end Verif.UG
