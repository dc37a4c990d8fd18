import Verif.UserGraph
import Mathlib.Tactic.Ring
import Mathlib.Tactic.Linarith
import Mathlib.Algebra.Order.Ring.Rat
import Mathlib.Algebra.Field.Rat

/-!
# Properties of the user-facing graph (C16, C17, C18, C47)
-/

namespace Verif.Props.UserGraph

open Verif.UG

variable {K : Type} [Field K] [LinearOrder K]

/-! ## Specification -/

/-- A call of the public interface that changes the graph. -/
inductive Call (K : Type) where
  /-- `add_edge` (`target = some v`) or `add_boundary_edge` (`target = none`). -/
  | add (u : Nat) (target : Option Nat) (obs : List Nat) (w p : K) (s : Strategy)
  | setBoundary (b : List Nat)
  | setMinNumObs (n : Nat)

/-- The data attached to an edge. -/
structure Data (K : Type) where
  obs : List Nat
  weight : K
  prob : K
deriving DecidableEq

/-- Executing a call: the state afterwards, and whether the call returned (`true`) or raised (`false`). -/
def exec (mergeW : K → K → K) (g : UGraph K) : Call K → UGraph K × Bool
  | .add u (some v) obs w p s => g.addEdge mergeW u v obs w p s
  | .add u none obs w p s => g.addBoundaryEdge mergeW u obs w p s
  | .setBoundary b => (g.setBoundary b, true)
  | .setMinNumObs n => (g.setMinNumObs n, true)

/-- Any history; raised exceptions are caught by the caller, who carries on. -/
def run (mergeW : K → K → K) (g : UGraph K) (cs : List (Call K)) : UGraph K := cs.foldl (fun g c => (exec mergeW g c).1) g

/-- Do `(u, t)` and `(u', t')` name the same connection?  (`none` is the virtual boundary.) -/
def samePair (u : Nat) (t : Option Nat) (u' : Nat) (t' : Option Nat) : Prop :=
  (u = u' ∧ t = t') ∨ (t = some u' ∧ t' = some u)

instance (u : Nat) (t : Option Nat) (u' : Nat) (t' : Option Nat) : Decidable (samePair u t u' t') := by
  unfold samePair; infer_instance

/-- The insertions of a history that concern the connection `(u, t)`: data and strategy. -/
def insertions (u : Nat) (t : Option Nat) (cs : List (Call K)) : List (Data K × Strategy) :=
  cs.filterMap fun
    | .add u' t' obs w p s => if samePair u t u' t' then some (⟨obs, w, p⟩, s) else none
    | _ => none

/-- Data of the stored edge between `u` and `t`. -/
def dataOf (g : UGraph K) (u : Nat) (t : Option Nat) : Option (Data K) :=
  (g.getEdge u t).map fun e => ⟨e.obs, e.weight, e.prob⟩

/-! ## Helper lemmas -/

theorem samePair_iff_key (u : Nat) (t : Option Nat) (u' : Nat) (t' : Option Nat) :
    samePair u t u' t' ↔ key u' t' = key u t := by
  rw [key_eq_iff]
  unfold samePair
  constructor
  · rintro (⟨h1, h2⟩ | ⟨h1, h2⟩)
    · exact Or.inl ⟨h1.symm, h2.symm⟩
    · exact Or.inr ⟨u', h1, h2, rfl⟩
  · rintro (⟨h1, h2⟩ | ⟨v, h1, h2, h3⟩)
    · exact Or.inl ⟨h1.symm, h2.symm⟩
    · exact Or.inr ⟨by rw [h1, h3], h2⟩

/-- The largest node index of a connection. -/
def top (u : Nat) : Option Nat → Nat
  | none => u
  | some v => max u v

omit [Field K] [LinearOrder K] in
theorem key_in_range {g : UGraph K} (hw : WF g) (i : Nat) (hi : i < g.edges.length) (u : Nat) (t : Option Nat)
    (hk : g.edges[i].key = key u t) : top u t < g.nodes.length := by
  have h1 : g.edges[i].node1 < g.nodes.length := by
    obtain ⟨n, hn, -⟩ := hw.fwd1 i hi
    exact (List.getElem?_eq_some_iff.1 hn).1
  have h2 : ∀ v, g.edges[i].node2 = some v → v < g.nodes.length := by
    intro v hv
    by_cases h : v = g.edges[i].node1
    · rw [h]; exact h1
    · obtain ⟨n, hn, -⟩ := hw.fwd2 i hi v hv h
      exact (List.getElem?_eq_some_iff.1 hn).1
  unfold UEdge.key at hk
  rw [key_eq_iff] at hk
  rcases hk with ⟨h3, h4⟩ | ⟨v, h3, h4, h5⟩
  · cases t with
    | none => simpa [top, ← h3] using h1
    | some v => have := h2 v h4; simp only [top]; omega
  · subst h3; have := h2 u h4; simp only [top]; omega

theorem grow_self {nodes : List UNode} {m : Nat} (h : m ≤ nodes.length) : grow nodes m = nodes := by
  have : m - nodes.length = 0 := by omega
  simp [grow, this]

/-- What adding an edge does: either the pair is new and the edge is appended, or the existing edge is merged into. -/
theorem add_cases (mergeW : K → K → K) {g : UGraph K} (hw : WF g) (u : Nat) (t : Option Nat) (obs : List Nat) (w p : K)
    (s : Strategy) :
    (∃ g', exec mergeW g (.add u t obs w p s) = (g', true) ∧ WF g' ∧ g'.edges = g.edges ++ [⟨u, t, obs, w, p, []⟩] ∧
      (∀ i (h : i < g.edges.length), g.edges[i].key ≠ key u t) ∧ g'.numObs = bumpObs g.numObs obs ∧
      g'.allProbs = (if p < 0 ∨ p > 1 then false else g.allProbs)) ∨
    (∃ ei, ∃ h : ei < g.edges.length, g.edges[ei].key = key u t ∧
      exec mergeW g (.add u t obs w p s) = g.mergeEdge mergeW ei obs w p s) := by
  set m := top u t + 1 with hm
  set g1 : UGraph K := { g with nodes := grow g.nodes m } with hg1
  have hw1 : WF g1 := wf_grow hw m
  have hlen : m ≤ g1.nodes.length := by rw [hg1]; show m ≤ (grow g.nodes m).length; rw [grow_len]; omega
  have hu : u < g1.nodes.length := by cases t <;> simp [top] at hm <;> omega
  have hn : g1.nodes[u]? = some g1.nodes[u] := List.getElem?_eq_getElem hu
  cases hf : g1.edgeTo g1.nodes[u] t with
  | some ei =>
    right
    obtain ⟨hei, hk⟩ := (edgeTo_spec hw1 hn t ei).1 hf
    have hr : top u t < g.nodes.length := key_in_range hw ei hei u t hk
    have hsame : g1 = g := by
      rw [hg1, grow_self (show m ≤ g.nodes.length by omega)]
    refine ⟨ei, hei, hk, ?_⟩
    cases t with
    | none =>
      show UGraph.addBoundaryEdge mergeW g u obs w p s = _
      unfold UGraph.addBoundaryEdge
      simp only
      change (match g1.nodes[u]? with | none => _ | some n => _) = _
      rw [hn]; simp only
      change (match g1.edgeTo _ none with | none => _ | some n => _) = _
      rw [hf]; simp only
      change g1.mergeEdge mergeW ei obs w p s = _
      rw [hsame]
    | some v =>
      show UGraph.addEdge mergeW g u v obs w p s = _
      unfold UGraph.addEdge
      simp only
      change (match g1.nodes[u]? with | none => _ | some n => _) = _
      rw [hn]; simp only
      change (match g1.edgeTo _ (some v) with | none => _ | some n => _) = _
      rw [hf]; simp only
      change g1.mergeEdge mergeW ei obs w p s = _
      rw [hsame]
  | none =>
    left
    have hnew := (edgeTo_none hw1 hn t).1 hf
    cases t with
    | none =>
      refine ⟨{ g1 with
        nodes := g1.nodes.modify u (fun n => { n with neighbors := n.neighbors ++ [(g1.edges.length, true)] }),
        edges := g1.edges ++ [⟨u, none, obs, w, p, []⟩], numObs := bumpObs g1.numObs obs, needsUpdating := true,
        allProbs := if p < 0 ∨ p > 1 then false else g1.allProbs }, ?_, ?_, ?_, hnew, ?_, ?_⟩
      · show UGraph.addBoundaryEdge mergeW g u obs w p s = _
        unfold UGraph.addBoundaryEdge
        simp only
        change (match g1.nodes[u]? with | none => _ | some n => _) = _
        rw [hn]; simp only
        change (match g1.edgeTo _ none with | none => _ | some n => _) = _
        rw [hf]; rfl
      · refine wf_push hw1 ⟨u, none, obs, w, p, []⟩ hu (by simp) (by simpa [UEdge.key] using hnew) rfl ?_
        intro x
        show (List.modify g1.nodes _ _)[x]? = _
        rw [List.getElem?_modify]
        by_cases hx : x = u
        · subst hx; simp [hn]
        · have hx' : u ≠ x := fun h => hx h.symm
          simp [hx, hx']
      · rfl
      · rfl
      · rfl
    | some v =>
      have hv : v < g1.nodes.length := by simp [top] at hm; omega
      refine ⟨{ g1 with
        nodes := if u ≠ v then
            (g1.nodes.modify u (fun n => { n with neighbors := n.neighbors ++ [(g1.edges.length, true)] })).modify v
              (fun n => { n with neighbors := n.neighbors ++ [(g1.edges.length, false)] })
          else g1.nodes.modify u (fun n => { n with neighbors := n.neighbors ++ [(g1.edges.length, true)] }),
        edges := g1.edges ++ [⟨u, some v, obs, w, p, []⟩], numObs := bumpObs g1.numObs obs, needsUpdating := true,
        allProbs := if p < 0 ∨ p > 1 then false else g1.allProbs }, ?_, ?_, ?_, hnew, ?_, ?_⟩
      · show UGraph.addEdge mergeW g u v obs w p s = _
        unfold UGraph.addEdge
        simp only
        change (match g1.nodes[u]? with | none => _ | some n => _) = _
        rw [hn]; simp only
        change (match g1.edgeTo _ (some v) with | none => _ | some n => _) = _
        rw [hf]; rfl
      · refine wf_push hw1 ⟨u, some v, obs, w, p, []⟩ hu (by simpa using hv) (by simpa [UEdge.key] using hnew) rfl ?_
        intro x
        show (if u ≠ v then (List.modify (List.modify g1.nodes _ _) _ _) else List.modify g1.nodes _ _)[x]? = _
        by_cases huv : u = v
        · subst huv
          simp only [ne_eq, not_true, if_false]
          rw [List.getElem?_modify]
          by_cases hx : x = u
          · subst hx; simp [hn]
          · have hx' : u ≠ x := fun h => hx h.symm
            simp [hx, hx']
        · simp only [ne_eq, huv, not_false_iff, if_true]
          rw [List.getElem?_modify, List.getElem?_modify]
          by_cases hx : x = u
          · subst hx
            have : v ≠ x := fun h => huv h.symm
            simp [hn, this]
          · have hx' : u ≠ x := fun h => hx h.symm
            by_cases hxv : x = v
            · subst hxv
              simp [hx, hx']
            · have hx2 : v ≠ x := fun h => hxv h.symm
              simp [hx, hx', hx2]
      · rfl
      · rfl
      · rfl

theorem mergeEdge_cases (mergeW : K → K → K) {g : UGraph K} (hw : WF g) (ei : Nat) (hei : ei < g.edges.length)
    (obs : List Nat) (w p : K) (s : Strategy) :
    (s = .disallow ∧ g.mergeEdge mergeW ei obs w p s = (g, false)) ∨
    (s ≠ .disallow ∧ ∃ g' e', g.mergeEdge mergeW ei obs w p s = (g', true) ∧ WF g' ∧ g'.edges = g.edges.set ei e' ∧
      e'.node1 = g.edges[ei].node1 ∧ e'.node2 = g.edges[ei].node2 ∧ g'.numObs = g.numObs ∧
      ∃ b, mergeData mergeW g.edges[ei] obs w p s = some (e', b) ∧
        g'.allProbs = if b ∧ (e'.prob < 0 ∨ e'.prob > 1) then false else g.allProbs) := by
  cases hd : mergeData mergeW g.edges[ei] obs w p s with
  | none =>
    left
    have hs : s = .disallow := by
      cases s <;> simp [mergeData] at hd ⊢
      split at hd <;> simp at hd
    refine ⟨hs, ?_⟩
    simp [UGraph.mergeEdge, List.getElem?_eq_getElem hei, hd]
  | some r =>
    right
    obtain ⟨e', b⟩ := r
    have hs : s ≠ .disallow := by rintro rfl; simp [mergeData] at hd
    have hnodes : e'.node1 = g.edges[ei].node1 ∧ e'.node2 = g.edges[ei].node2 := by
      cases s <;> simp only [mergeData, Option.some.injEq, Prod.mk.injEq, reduceCtorEq] at hd
      · rw [← hd.1]; exact ⟨rfl, rfl⟩
      · split at hd <;> simp only [Option.some.injEq, Prod.mk.injEq] at hd <;> rw [← hd.1] <;> exact ⟨rfl, rfl⟩
      · rw [← hd.1]; exact ⟨rfl, rfl⟩
      · rw [← hd.1]; exact ⟨rfl, rfl⟩
    refine ⟨hs, ?_⟩
    cases b with
    | false =>
      have he : e' = g.edges[ei] := by
        cases s <;> simp [mergeData] at hd
        · split at hd <;> simp at hd; exact hd.symm
        · exact hd.symm
      refine ⟨g, e', ?_, hw, ?_, hnodes.1, hnodes.2, rfl, false, rfl, by simp⟩
      · simp [UGraph.mergeEdge, List.getElem?_eq_getElem hei, hd]
      · rw [he]; simp
    | true =>
      refine ⟨{ g with edges := g.edges.set ei e', needsUpdating := true,
                       allProbs := if e'.prob < 0 ∨ e'.prob > 1 then false else g.allProbs }, e', ?_, ?_, rfl, hnodes.1,
        hnodes.2, rfl, true, rfl, by simp⟩
      · simp [UGraph.mergeEdge, List.getElem?_eq_getElem hei, hd]
      · exact wf_set hw ei e' hei hnodes.1 hnodes.2 rfl rfl

omit [Field K] [LinearOrder K] in
theorem foldl_mark_neighbors (b : List Nat) (nodes : List UNode) :
    ∀ (x : Nat) (n : UNode), (b.foldl markBoundary nodes)[x]? = some n →
      (n.neighbors = [] ∧ nodes[x]? = none) ∨ ∃ n0, nodes[x]? = some n0 ∧ n0.neighbors = n.neighbors := by
  induction b generalizing nodes with
  | nil => intro x n h; exact Or.inr ⟨n, h, rfl⟩
  | cons a b ih =>
    intro x n h
    have step : ∀ n, (markBoundary nodes a)[x]? = some n →
        (n.neighbors = [] ∧ nodes[x]? = none) ∨ ∃ n0, nodes[x]? = some n0 ∧ n0.neighbors = n.neighbors := by
      intro n hn
      unfold markBoundary at hn
      rw [List.getElem?_modify, grow_get] at hn
      by_cases hx : x < nodes.length
      · rw [if_pos hx, List.getElem?_eq_getElem hx] at hn
        right
        refine ⟨_, List.getElem?_eq_getElem hx, ?_⟩
        simp only [Option.map_eq_map, Option.map_some, Option.some.injEq] at hn
        rw [← hn]; split <;> rfl
      · left
        rw [if_neg hx] at hn
        refine ⟨?_, by simp; omega⟩
        by_cases hxa : x < a + 1
        · rw [if_pos hxa] at hn
          simp only [Option.map_eq_map, Option.map_some, Option.some.injEq] at hn
          rw [← hn]; split <;> rfl
        · rw [if_neg hxa] at hn
          simp at hn
    rcases ih (markBoundary nodes a) x n h with ⟨h1, h2⟩ | ⟨n0, h1, h2⟩
    · refine Or.inl ⟨h1, ?_⟩
      have : (markBoundary nodes a).length ≤ x := by simpa using h2
      have : nodes.length ≤ (markBoundary nodes a).length := by
        simp [markBoundary, grow_len]
      simp; omega
    · rcases step n0 h1 with ⟨h3, h4⟩ | ⟨n1, h3, h4⟩
      · exact Or.inl ⟨h2 ▸ h3, h4⟩
      · exact Or.inr ⟨n1, h3, h4.trans h2⟩

omit [Field K] [LinearOrder K] in
theorem foldl_mark_keep (b : List Nat) (nodes : List UNode) (x : Nat) (n : UNode) (h : nodes[x]? = some n) :
    ∃ n', (b.foldl markBoundary nodes)[x]? = some n' ∧ n'.neighbors = n.neighbors := by
  have hlen : ∀ (b : List Nat) (nodes : List UNode), nodes.length ≤ (b.foldl markBoundary nodes).length := by
    intro b
    induction b with
    | nil => intro nodes; exact Nat.le_refl _
    | cons a b ih =>
      intro nodes
      have : nodes.length ≤ (markBoundary nodes a).length := by simp [markBoundary, grow_len]
      exact this.trans (ih _)
  have hx : x < nodes.length := (List.getElem?_eq_some_iff.1 h).1
  have hx' : x < (b.foldl markBoundary nodes).length := lt_of_lt_of_le hx (hlen b nodes)
  refine ⟨_, List.getElem?_eq_getElem hx', ?_⟩
  rcases foldl_mark_neighbors b nodes x _ (List.getElem?_eq_getElem hx') with ⟨-, h2⟩ | ⟨n0, h1, h2⟩
  · rw [h] at h2; cases h2
  · rw [h] at h1; cases h1; exact h2.symm

omit [Field K] [LinearOrder K] in
theorem wf_setBoundary {g : UGraph K} (hw : WF g) (b : List Nat) : WF (g.setBoundary b) := by
  have h1 : ∀ (x : Nat) (n : UNode), g.nodes[x]? = some n →
      ∃ n', (g.setBoundary b).nodes[x]? = some n' ∧ n'.neighbors = n.neighbors := by
    intro x n hn
    set nodes := g.nodes.mapIdx (fun i x => if i ∈ g.boundary then { x with isBoundary := false } else x) with hdef
    have : ∃ n1, nodes[x]? = some n1 ∧ n1.neighbors = n.neighbors := by
      refine ⟨if x ∈ g.boundary then { n with isBoundary := false } else n, by rw [hdef, List.getElem?_mapIdx, hn]; rfl, ?_⟩
      split <;> rfl
    obtain ⟨n1, h1, h2⟩ := this
    obtain ⟨n', h3, h4⟩ := foldl_mark_keep b nodes x n1 h1
    exact ⟨n', h3, h4.trans h2⟩
  refine ⟨?_, ?_, ?_, hw.uniq⟩
  · intro i h
    obtain ⟨n, hn, hm⟩ := hw.fwd1 i h
    obtain ⟨n', h2, h3⟩ := h1 _ n hn
    exact ⟨n', h2, h3 ▸ hm⟩
  · intro i h v hv hne
    obtain ⟨n, hn, hm⟩ := hw.fwd2 i h v hv hne
    obtain ⟨n', h2, h3⟩ := h1 _ n hn
    exact ⟨n', h2, h3 ▸ hm⟩
  · intro u n hn i c hm
    rcases foldl_mark_neighbors b _ u n hn with ⟨h2, -⟩ | ⟨n0, h2, h3⟩
    · rw [h2] at hm; cases hm
    · rw [List.getElem?_mapIdx, Option.map_eq_some_iff] at h2
      obtain ⟨n1, h4, h5⟩ := h2
      refine hw.back u n1 h4 i c ?_
      rw [← h3, ← h5] at hm
      split at hm <;> exact hm

theorem wf_exec (mergeW : K → K → K) {g : UGraph K} (hw : WF g) (c : Call K) : WF (exec mergeW g c).1 := by
  cases c with
  | add u t obs w p s =>
    rcases add_cases mergeW hw u t obs w p s with ⟨g', h1, h2, -⟩ | ⟨ei, hei, -, h2⟩
    · rw [h1]; exact h2
    · rw [h2]
      rcases mergeEdge_cases mergeW hw ei hei obs w p s with ⟨-, h3⟩ | ⟨-, g', e', h3, h4, -⟩
      · rw [h3]; exact hw
      · rw [h3]; exact h4
  | setBoundary b => exact wf_setBoundary hw b
  | setMinNumObs n => exact ⟨hw.fwd1, hw.fwd2, hw.back, hw.uniq⟩

theorem wf_run (mergeW : K → K → K) {g : UGraph K} (hw : WF g) (cs : List (Call K)) : WF (run mergeW g cs) := by
  unfold run
  induction cs generalizing g with
  | nil => exact hw
  | cons c cs ih => exact ih (wf_exec mergeW hw c)

omit [Field K] [LinearOrder K] in
/-- Looking up an edge finds the edge with that pair of end points. -/
theorem getEdge_iff {g : UGraph K} (hw : WF g) (u : Nat) (t : Option Nat) (e : UEdge K) :
    g.getEdge u t = some e ↔ ∃ i, ∃ h : i < g.edges.length, g.edges[i] = e ∧ e.key = key u t := by
  unfold UGraph.getEdge
  constructor
  · intro h
    cases hn : g.nodes[u]? with
    | none => rw [hn] at h; cases h
    | some n =>
      rw [hn] at h; simp only at h
      cases hf : g.edgeTo n t with
      | none => rw [hf] at h; cases h
      | some i =>
        rw [hf] at h; simp only at h
        obtain ⟨hi, hk⟩ := (edgeTo_spec hw hn t i).1 hf
        rw [List.getElem?_eq_getElem hi] at h
        cases h
        exact ⟨i, hi, rfl, hk⟩
  · rintro ⟨i, hi, rfl, hk⟩
    have hr := key_in_range hw i hi u t hk
    have hu : u < g.nodes.length := by cases t <;> simp [top] at hr <;> omega
    rw [List.getElem?_eq_getElem hu]; simp only
    rw [(edgeTo_spec hw (List.getElem?_eq_getElem hu) t i).2 ⟨hi, hk⟩]
    simp only [List.getElem?_eq_getElem hi]

omit [Field K] [LinearOrder K] in
theorem hasEdge_eq {g : UGraph K} (hw : WF g) (u : Nat) (t : Option Nat) : g.hasEdge u t = (g.getEdge u t).isSome := by
  unfold UGraph.hasEdge UGraph.getEdge
  cases hn : g.nodes[u]? with
  | none => rfl
  | some n =>
    simp only
    cases hf : g.edgeTo n t with
    | none => rfl
    | some i =>
      obtain ⟨hi, -⟩ := (edgeTo_spec hw hn t i).1 hf
      simp [List.getElem?_eq_getElem hi]

/-- The data of the edge at a connection after one more call. -/
def after (mergeW : K → K → K) (d : Option (Data K)) : Data K × Strategy → Option (Data K)
  | (n, s) =>
    match d with
    | none => some n
    | some d =>
      match s with
      | .disallow | .keepOriginal => some d
      | .smallestWeight => some (if n.weight < d.weight then n else d)
      | .replace => some n
      | .independent => some ⟨d.obs, mergeW n.weight d.weight,
          if (0 ≤ d.prob ∧ d.prob ≤ 1) ∧ (0 ≤ n.prob ∧ n.prob ≤ 1) then n.prob * (1 - d.prob) + d.prob * (1 - n.prob) else -1⟩

omit [Field K] [LinearOrder K] in
theorem dataOf_congr {g g' : UGraph K} (hw : WF g) (hw' : WF g') (h : g'.edges = g.edges) (u : Nat) (t : Option Nat) :
    dataOf g' u t = dataOf g u t := by
  unfold dataOf
  congr 1
  apply Option.ext
  intro e
  rw [getEdge_iff hw, getEdge_iff hw']
  simp only [h]

theorem dataOf_exec (mergeW : K → K → K) {g : UGraph K} (hw : WF g) (c : Call K) (u : Nat) (t : Option Nat) :
    dataOf (exec mergeW g c).1 u t = (insertions u t [c]).foldl (after mergeW) (dataOf g u t) := by
  have hw' := wf_exec mergeW hw c
  cases c with
  | setBoundary b =>
    rw [dataOf_congr hw hw' rfl]; rfl
  | setMinNumObs n => rw [dataOf_congr hw hw' rfl]; rfl
  | add u' t' obs w p s =>
    rcases add_cases mergeW hw u' t' obs w p s with ⟨g', h1, h2, h3, h4, -⟩ | ⟨ei, hei, hk, h2⟩
    · rw [h1]
      simp only
      by_cases hp : samePair u t u' t'
      · have hi : insertions u t [Call.add u' t' obs w p s] = [(⟨obs, w, p⟩, s)] := by simp [insertions, hp]
        rw [hi]
        rw [samePair_iff_key] at hp
        have e1 : g'.getEdge u t = some ⟨u', t', obs, w, p, []⟩ := by
          rw [getEdge_iff h2]
          exact ⟨g.edges.length, by simp [h3], by simp [h3], hp⟩
        have e2 : g.getEdge u t = none := by
          cases hc : g.getEdge u t with
          | none => rfl
          | some e =>
            obtain ⟨i, hi, rfl, hk⟩ := (getEdge_iff hw u t e).1 hc
            exact absurd (hk.trans hp.symm) (h4 i hi)
        simp [dataOf, e1, e2, after]
      · have hi : insertions u t [Call.add u' t' obs w p s] = [] := by simp [insertions, hp]
        rw [hi]
        rw [samePair_iff_key] at hp
        show dataOf g' u t = dataOf g u t
        unfold dataOf
        congr 1
        apply Option.ext
        intro e
        rw [getEdge_iff hw, getEdge_iff h2]
        constructor
        · rintro ⟨i, hi, rfl, hk⟩
          by_cases hlt : i < g.edges.length
          · refine ⟨i, hlt, ?_, hk⟩
            simp [h3, List.getElem_append_left hlt]
          · exfalso
            have : i = g.edges.length := by rw [h3] at hi; simp at hi; omega
            subst this
            apply hp
            rw [← hk]
            simp [h3, UEdge.key]
        · rintro ⟨i, hi, rfl, hk⟩
          exact ⟨i, by rw [h3]; simp; omega, by simp [h3, List.getElem_append_left hi], hk⟩
    · rw [h2]
      rcases mergeEdge_cases mergeW hw ei hei obs w p s with ⟨rfl, h3⟩ | ⟨hs, g', e', h3, h4, h5, h6, h7, -, b, h8, -⟩
      · rw [h3]
        simp only
        by_cases hp : samePair u t u' t'
        · have hi : insertions u t [Call.add u' t' obs w p .disallow] = [(⟨obs, w, p⟩, .disallow)] := by
            simp [insertions, hp]
          rw [hi]
          rw [samePair_iff_key] at hp
          have e1 : g.getEdge u t = some g.edges[ei] := (getEdge_iff hw u t _).2 ⟨ei, hei, rfl, hk.trans hp⟩
          simp [dataOf, e1, after]
        · have hi : insertions u t [Call.add u' t' obs w p .disallow] = [] := by simp [insertions, hp]
          rw [hi]; rfl
      · rw [h3]
        simp only
        have hkey' : e'.key = g.edges[ei].key := by simp [UEdge.key, h6, h7]
        by_cases hp : samePair u t u' t'
        · have hi : insertions u t [Call.add u' t' obs w p s] = [(⟨obs, w, p⟩, s)] := by simp [insertions, hp]
          rw [hi]
          rw [samePair_iff_key] at hp
          have e1 : g'.getEdge u t = some e' :=
            (getEdge_iff h4 u t _).2 ⟨ei, by rw [h5]; simpa using hei, by simp [h5], hkey'.trans (hk.trans hp)⟩
          have e2 : g.getEdge u t = some g.edges[ei] := (getEdge_iff hw u t _).2 ⟨ei, hei, rfl, hk.trans hp⟩
          simp only [dataOf, e1, e2, Option.map_some, List.foldl_cons, List.foldl_nil]
          cases s with
          | disallow => exact absurd rfl hs
          | keepOriginal =>
            simp only [mergeData, Option.some.injEq, Prod.mk.injEq] at h8
            simp [after, ← h8.1]
          | replace =>
            simp only [mergeData, Option.some.injEq, Prod.mk.injEq] at h8
            simp [after, ← h8.1]
          | smallestWeight =>
            simp only [mergeData] at h8
            split at h8
            · rename_i hge
              simp only [Option.some.injEq, Prod.mk.injEq] at h8
              simp [after, ← h8.1, not_lt.2 hge]
            · rename_i hge
              simp only [Option.some.injEq, Prod.mk.injEq] at h8
              simp [after, ← h8.1, not_le.1 hge]
          | independent =>
            simp only [mergeData, Option.some.injEq, Prod.mk.injEq] at h8
            simp [after, ← h8.1, validProb]
        · have hi : insertions u t [Call.add u' t' obs w p s] = [] := by simp [insertions, hp]
          rw [hi]
          rw [samePair_iff_key] at hp
          show dataOf g' u t = dataOf g u t
          unfold dataOf
          congr 1
          apply Option.ext
          intro e
          rw [getEdge_iff hw, getEdge_iff h4]
          have hne : ∀ i (h : i < g.edges.length), g.edges[i].key = key u t → i ≠ ei := by
            rintro i h hk' rfl
            exact hp (hk.symm.trans hk')
          constructor
          · rintro ⟨i, hi, rfl, hk'⟩
            have hil : i < g.edges.length := by rw [h5] at hi; simpa using hi
            by_cases hie : ei = i
            · subst hie
              exfalso
              simp only [h5, List.getElem_set_self] at hk'
              exact hp (hk.symm.trans (hkey'.symm.trans hk'))
            · refine ⟨i, hil, ?_, hk'⟩
              simp [h5, List.getElem_set_ne hie]
          · rintro ⟨i, hi, rfl, hk'⟩
            have := hne i hi hk'
            refine ⟨i, by rw [h5]; simpa using hi, ?_, hk'⟩
            simp [h5, List.getElem_set_ne this.symm]

omit [Field K] [LinearOrder K] in
theorem insertions_cons (u : Nat) (t : Option Nat) (c : Call K) (cs : List (Call K)) :
    insertions u t (c :: cs) = insertions u t [c] ++ insertions u t cs := by
  unfold insertions
  rw [← List.filterMap_append]; rfl

theorem dataOf_run (mergeW : K → K → K) {g : UGraph K} (hw : WF g) (cs : List (Call K)) (u : Nat) (t : Option Nat) :
    dataOf (run mergeW g cs) u t = (insertions u t cs).foldl (after mergeW) (dataOf g u t) := by
  induction cs generalizing g with
  | nil => rfl
  | cons c cs ih =>
    rw [insertions_cons, List.foldl_append, ← dataOf_exec mergeW hw c u t]
    exact ih (wf_exec mergeW hw c)

omit [Field K] [LinearOrder K] in
theorem dataOf_new (n m : Nat) (u : Nat) (t : Option Nat) : dataOf (UGraph.new n m : UGraph K) u t = none := by
  unfold dataOf
  cases hc : (UGraph.new n m : UGraph K).getEdge u t with
  | none => rfl
  | some e =>
    obtain ⟨i, hi, -⟩ := (getEdge_iff (wf_new n m) u t e).1 hc
    simp [UGraph.new] at hi

/-- Adding an edge creates its nodes. -/
theorem exec_add_nodes (mergeW : K → K → K) (g : UGraph K) (u : Nat) (t : Option Nat) (obs : List Nat) (w p : K) (s : Strategy) :
    (exec mergeW g (.add u t obs w p s)).1.nodes.length = max g.nodes.length (top u t + 1) := by
  have hmerge : ∀ (g : UGraph K) ei obs w p s, (g.mergeEdge mergeW ei obs w p s).1.nodes = g.nodes := by
    intro g ei obs w p s
    unfold UGraph.mergeEdge
    split
    · rfl
    · split <;> rfl
  cases t with
  | none =>
    simp only [exec, UGraph.addBoundaryEdge, top]
    split
    · rw [grow_len]
    · split
      · simp [grow_len]
      · rw [hmerge, grow_len]
  | some v =>
    simp only [exec, UGraph.addEdge, top]
    split
    · rw [grow_len]
    · split
      · simp only
        split <;> simp [grow_len]
      · rw [hmerge, grow_len]

/-! ## C16 -/

/-- C16 (one edge per pair).  In every reachable graph, two different stored edges never connect the same pair. -/
theorem C16_one_edge_per_pair (mergeW : K → K → K) (n m : Nat) (cs : List (Call K)) (i j : Nat) (e e' : UEdge K)
    (hi : (run mergeW (UGraph.new n m) cs).edges[i]? = some e) (hj : (run mergeW (UGraph.new n m) cs).edges[j]? = some e')
    (h : samePair e.node1 e.node2 e'.node1 e'.node2) : i = j := by
  have hw := wf_run mergeW (wf_new n m) cs
  obtain ⟨h1, rfl⟩ := List.getElem?_eq_some_iff.1 hi
  obtain ⟨h2, rfl⟩ := List.getElem?_eq_some_iff.1 hj
  rw [samePair_iff_key] at h
  exact hw.uniq i j h1 h2 h.symm

/-- C16 (lookups).  In every reachable graph: an edge is found from both of its ends, with the same data; it is
found iff some call of the history inserted it; and what is found connects the nodes that were asked for. -/
theorem C16_lookup (mergeW : K → K → K) (n m : Nat) (cs : List (Call K)) :
    let g := run mergeW (UGraph.new n m) cs
    (∀ u v, g.hasEdge u (some v) = g.hasEdge v (some u) ∧ g.getEdge u (some v) = g.getEdge v (some u)) ∧
    (∀ u t, g.hasEdge u t = true ↔
      ∃ u' t' obs w p s, Call.add u' t' obs w p s ∈ cs ∧ samePair u t u' t') ∧
    (∀ u t, g.hasEdge u t = (g.getEdge u t).isSome) ∧
    (∀ u t e, g.getEdge u t = some e → e ∈ g.edges ∧ samePair u t e.node1 e.node2) := by
  intro g
  have hw : WF g := wf_run mergeW (wf_new n m) cs
  have hsym : ∀ u v, g.getEdge u (some v) = g.getEdge v (some u) := by
    intro u v
    apply Option.ext
    intro e
    rw [getEdge_iff hw, getEdge_iff hw]
    have : key u (some v) = key v (some u) := by simp [key]; omega
    rw [this]
  refine ⟨fun u v => ⟨by rw [hasEdge_eq hw, hasEdge_eq hw, hsym], hsym u v⟩, ?_, fun u t => hasEdge_eq hw u t, ?_⟩
  · intro u t
    have h1 : g.hasEdge u t = (dataOf g u t).isSome := by rw [hasEdge_eq hw]; unfold dataOf; simp
    rw [h1, dataOf_run mergeW (wf_new n m), dataOf_new]
    have hfold : ∀ (l : List (Data K × Strategy)) (d : Option (Data K)),
        (l.foldl (after mergeW) d).isSome = true ↔ d.isSome = true ∨ l ≠ [] := by
      intro l
      induction l with
      | nil => intro d; simp
      | cons x l ih =>
        intro d
        rw [List.foldl_cons, ih]
        have : (after mergeW d x).isSome = true := by
          obtain ⟨n, s⟩ := x
          cases d <;> cases s <;> simp [after]
        simp [this]
    rw [hfold]
    simp only [Option.isSome_none, Bool.false_eq_true, false_or]
    rw [← List.length_pos_iff, List.length_pos_iff_exists_mem]
    constructor
    · rintro ⟨x, hx⟩
      simp only [insertions, List.mem_filterMap] at hx
      obtain ⟨c, hc, hx⟩ := hx
      cases c with
      | add u' t' obs w p s =>
        simp only at hx
        split at hx
        · rename_i hp; exact ⟨u', t', obs, w, p, s, hc, hp⟩
        · cases hx
      | setBoundary b => cases hx
      | setMinNumObs k => cases hx
    · rintro ⟨u', t', obs, w, p, s, hc, hp⟩
      exact ⟨(⟨obs, w, p⟩, s), by
        simp only [insertions, List.mem_filterMap]
        exact ⟨_, hc, by simp [hp]⟩⟩
  · intro u t e he
    obtain ⟨i, hi, rfl, hk⟩ := (getEdge_iff hw u t e).1 he
    exact ⟨List.getElem_mem hi, (samePair_iff_key _ _ _ _).2 hk⟩

/-- C16 (rejection).  In every reachable graph, a call raises iff it is an insertion with strategy `disallow` for a pair
that already has an edge; and a call that raises leaves the graph exactly as it was. -/
theorem C16_rejected_call_changes_nothing (mergeW : K → K → K) (n m : Nat) (cs : List (Call K)) (c : Call K) :
    let g := run mergeW (UGraph.new n m) cs
    ((exec mergeW g c).2 = false ↔ ∃ u t obs w p, c = .add u t obs w p .disallow ∧ g.hasEdge u t = true) ∧
    ((exec mergeW g c).2 = false → (exec mergeW g c).1 = g) := by
  intro g
  have hw : WF g := wf_run mergeW (wf_new n m) cs
  cases c with
  | setBoundary b => simp [exec]
  | setMinNumObs k => simp [exec]
  | add u t obs w p s =>
    rcases add_cases mergeW hw u t obs w p s with ⟨g', h1, h2, h3, h4, -⟩ | ⟨ei, hei, hk, h2⟩
    · rw [h1]
      refine ⟨?_, by simp⟩
      simp only [Bool.true_eq_false, Call.add.injEq, false_iff, not_exists, not_and, and_imp]
      rintro u' t' obs' w' p' rfl rfl - - - - hc
      rw [hasEdge_eq hw, Option.isSome_iff_exists] at hc
      obtain ⟨e, he⟩ := hc
      obtain ⟨i, hi, rfl, hk⟩ := (getEdge_iff hw u t e).1 he
      exact h4 i hi hk
    · have he : g.hasEdge u t = true := by
        rw [hasEdge_eq hw, (getEdge_iff hw u t _).2 ⟨ei, hei, rfl, hk⟩]; rfl
      rw [h2]
      rcases mergeEdge_cases mergeW hw ei hei obs w p s with ⟨rfl, h3⟩ | ⟨hs, g', e', h3, -⟩
      · rw [h3]
        refine ⟨?_, by simp⟩
        simp only [true_iff]
        exact ⟨u, t, obs, w, p, rfl, he⟩
      · rw [h3]
        refine ⟨?_, by simp⟩
        simp only [Bool.true_eq_false, Call.add.injEq, false_iff, not_exists, not_and, and_imp]
        intro _ _ _ _ _ _ _ _ _ _ hc
        exact absurd hc hs

/-- A history that meets the hypotheses: parallel insertions from both ends, a self-loop, a boundary edge, a rejected call. -/
example :
    let cs : List (Call ℚ) := [.add 0 (some 1) [0] 3 0 .disallow, .add 1 (some 0) [1] 2 0 .smallestWeight,
      .add 2 none [2] 1 0 .disallow, .add 1 (some 1) [] 5 0 .disallow, .add 0 (some 1) [4] 9 0 .disallow]
    let g := run (fun a b => min a b) (UGraph.new 0 0) cs
    g.edges.length = 3 ∧ g.nodes.length = 3 ∧ dataOf g 0 (some 1) = some ⟨[1], 2, 0⟩ ∧ g.hasEdge 2 none = true ∧
    g.hasEdge 0 none = false ∧ (exec (fun a b => min a b) g (.add 1 (some 0) [] 0 0 .disallow)).2 = false := by
  decide +kernel

/-! ## C17 -/

section strategies
variable (mergeW : K → K → K) (n m : Nat) (cs : List (Call K)) (u : Nat) (t : Option Nat)

/-- The history inserts the connection `(u, t)` with data `d` first, then with each of `ds`, all later ones with strategy `s`.
(The strategy of the first insertion does not matter.) -/
def InsertedWith (s : Strategy) (d : Data K) (ds : List (Data K)) : Prop :=
  ∃ s₀, insertions u t cs = (d, s₀) :: ds.map (·, s)

theorem dataOf_inserted (s : Strategy) (d : Data K) (ds : List (Data K)) (h : InsertedWith cs u t s d ds) :
    dataOf (run mergeW (UGraph.new n m) cs) u t = ds.foldl (fun a x => after mergeW a (x, s)) (some d) := by
  obtain ⟨s₀, h⟩ := h
  rw [dataOf_run mergeW (wf_new n m), dataOf_new, h, List.foldl_cons, List.foldl_map]
  rfl

/-- C17, `keep-original`: the first insertion's data stay. -/
theorem C17_keep_original (d : Data K) (ds : List (Data K)) (h : InsertedWith cs u t .keepOriginal d ds) :
    dataOf (run mergeW (UGraph.new n m) cs) u t = some d := by
  rw [dataOf_inserted mergeW n m cs u t _ d ds h]
  clear h
  induction ds with
  | nil => rfl
  | cons x ds ih => rw [List.foldl_cons]; exact ih

/-- C17, `disallow`: the first insertion's data stay (all later ones raise, see `C16_rejected_call_changes_nothing`). -/
theorem C17_disallow (d : Data K) (ds : List (Data K)) (h : InsertedWith cs u t .disallow d ds) :
    dataOf (run mergeW (UGraph.new n m) cs) u t = some d := by
  rw [dataOf_inserted mergeW n m cs u t _ d ds h]
  clear h
  induction ds with
  | nil => rfl
  | cons x ds ih => rw [List.foldl_cons]; exact ih

/-- C17, `replace`: the last insertion's data. -/
theorem C17_replace (d : Data K) (ds : List (Data K)) (h : InsertedWith cs u t .replace d ds) :
    dataOf (run mergeW (UGraph.new n m) cs) u t = (d :: ds).getLast? := by
  rw [dataOf_inserted mergeW n m cs u t _ d ds h]
  clear h
  induction ds generalizing d with
  | nil => rfl
  | cons x ds ih =>
    rw [List.foldl_cons]
    rw [List.getLast?_cons_cons]
    exact ih x

/-- C17, `smallest-weight`: the data of a lightest insertion, and the earliest one among equally light ones: everything
inserted before it is strictly heavier, everything after it at least as heavy. -/
theorem C17_smallest_weight (d : Data K) (ds : List (Data K)) (h : InsertedWith cs u t .smallestWeight d ds) :
    ∃ before best later, d :: ds = before ++ best :: later ∧ dataOf (run mergeW (UGraph.new n m) cs) u t = some best ∧
      (∀ x ∈ before, best.weight < x.weight) ∧ (∀ x ∈ later, best.weight ≤ x.weight) := by
  rw [dataOf_inserted mergeW n m cs u t _ d ds h]
  clear h
  induction ds using List.reverseRecOn with
  | nil => exact ⟨[], d, [], rfl, rfl, by simp, by simp⟩
  | append_singleton ds x ih =>
    obtain ⟨before, best, later, h1, h2, h3, h4⟩ := ih
    rw [List.foldl_append, h2, List.foldl_cons, List.foldl_nil]
    simp only [after]
    by_cases hx : x.weight < best.weight
    · refine ⟨d :: ds, x, [], by simp, by simp [hx], ?_, by simp⟩
      intro y hy
      rw [h1] at hy
      simp only [List.mem_append, List.mem_cons] at hy
      rcases hy with hy | rfl | hy
      · exact hx.trans (h3 y hy)
      · exact hx
      · exact lt_of_lt_of_le hx (h4 y hy)
    · refine ⟨before, best, later ++ [x], ?_, by simp [hx], h3, ?_⟩
      · rw [← List.cons_append, h1]; simp
      · intro y hy
        simp only [List.mem_append, List.mem_singleton] at hy
        rcases hy with hy | rfl
        · exact h4 y hy
        · exact not_lt.1 hx

/-- Is this a probability? -/
def isProb (p : K) : Prop := 0 ≤ p ∧ p ≤ 1

/-- C17, `independent`: the first insertion's fault ids stay; the weights are combined one after the other (see C20 for
what the combination means); and if all probabilities are known the result is the probability `p` that an odd number of the
independent mechanisms happen, i.e. `1 - 2 p = ∏ (1 - 2 pᵢ)`; if one is unknown, the result is unknown. -/
theorem C17_independent [IsStrictOrderedRing K] (d : Data K) (ds : List (Data K))
    (h : InsertedWith cs u t .independent d ds) :
    ∃ r, dataOf (run mergeW (UGraph.new n m) cs) u t = some r ∧ r.obs = d.obs ∧
      r.weight = (ds.map (·.weight)).foldl (fun acc w => mergeW w acc) d.weight ∧
      ((∀ x ∈ d :: ds, isProb x.prob) → isProb r.prob ∧ 1 - 2 * r.prob = ((d :: ds).map (fun x => 1 - 2 * x.prob)).prod) ∧
      (ds ≠ [] → (∃ x ∈ d :: ds, ¬ isProb x.prob) → r.prob = -1) := by
  rw [dataOf_inserted mergeW n m cs u t _ d ds h]
  clear h
  have hm1 : ¬ isProb (-1 : K) := by
    unfold isProb; rintro ⟨h, -⟩; linarith
  suffices H : ∃ r, ds.foldl (fun a x => after mergeW a (x, .independent)) (some d) = some r ∧ r.obs = d.obs ∧
      r.weight = (ds.map (·.weight)).foldl (fun acc w => mergeW w acc) d.weight ∧
      ((∀ x ∈ d :: ds, isProb x.prob) → isProb r.prob ∧ 1 - 2 * r.prob = ((d :: ds).map (fun x => 1 - 2 * x.prob)).prod) ∧
      (ds ≠ [] → (∃ x ∈ d :: ds, ¬ isProb x.prob) → r.prob = -1) ∧ ((∃ x ∈ d :: ds, ¬ isProb x.prob) → ¬ isProb r.prob) by
    obtain ⟨r, h1, h2, h3, h4, h5, -⟩ := H
    exact ⟨r, h1, h2, h3, h4, h5⟩
  induction ds using List.reverseRecOn with
  | nil =>
    refine ⟨d, rfl, rfl, rfl, ?_, by simp, ?_⟩
    · intro hx; exact ⟨hx d (by simp), by simp⟩
    · rintro ⟨x, hx, hp⟩; simp only [List.mem_singleton] at hx; subst hx; exact hp
  | append_singleton ds x ih =>
    obtain ⟨r, h1, h2, h3, h4, h5, h6⟩ := ih
    rw [List.foldl_append, h1, List.foldl_cons, List.foldl_nil]
    by_cases hall : ∀ y ∈ d :: (ds ++ [x]), isProb y.prob
    · have hr : isProb r.prob := (h4 (fun y hy => hall y (by simp at hy ⊢; tauto))).1
      have hx : isProb x.prob := hall x (by simp)
      have hprod := (h4 (fun y hy => hall y (by simp at hy ⊢; tauto))).2
      refine ⟨_, rfl, h2, ?_, ?_, ?_, ?_⟩
      · rw [List.map_append, List.foldl_append, ← h3]; rfl
      · intro _
        rw [if_pos ⟨hr, hx⟩]
        obtain ⟨hr0, hr1⟩ := hr
        obtain ⟨hx0, hx1⟩ := hx
        refine ⟨⟨?_, ?_⟩, ?_⟩
        · have := mul_nonneg hx0 (sub_nonneg.2 hr1)
          have := mul_nonneg hr0 (sub_nonneg.2 hx1)
          linarith
        · have := mul_nonneg hr0 hx0
          have := mul_nonneg (sub_nonneg.2 hr1) (sub_nonneg.2 hx1)
          have e : x.prob * (1 - r.prob) + r.prob * (1 - x.prob) = 1 - (1 - r.prob) * (1 - x.prob) - r.prob * x.prob := by ring
          rw [e]; linarith
        · rw [← List.cons_append, List.map_append, List.prod_append, ← hprod]
          simp only [List.map_cons, List.map_nil, List.prod_cons, List.prod_nil, mul_one]
          ring
      · rintro - ⟨y, hy, hny⟩; exact absurd (hall y hy) hny
      · rintro ⟨y, hy, hny⟩; exact absurd (hall y hy) hny
    · have hbad : ¬ (isProb r.prob ∧ isProb x.prob) := by
        rintro ⟨hr, hx⟩
        apply hall
        by_contra hc
        simp only [not_forall] at hc
        obtain ⟨y, hy, hny⟩ := hc
        rw [← List.cons_append, List.mem_append, List.mem_singleton] at hy
        rcases hy with hy | rfl
        · exact h6 ⟨y, hy, hny⟩ hr
        · exact hny hx
      refine ⟨_, rfl, h2, ?_, fun hc => absurd hc hall, ?_, ?_⟩
      · rw [List.map_append, List.foldl_append, ← h3]; rfl
      · intro _ _; exact if_neg hbad
      · intro _
        have : ∀ q : K, ¬ isProb (if (0 ≤ r.prob ∧ r.prob ≤ 1) ∧ (0 ≤ x.prob ∧ x.prob ≤ 1) then q else -1) := by
          intro q; rw [if_neg (show ¬ ((0 ≤ r.prob ∧ r.prob ≤ 1) ∧ (0 ≤ x.prob ∧ x.prob ≤ 1)) from hbad)]; exact hm1
        exact this _

end strategies

/-- Each strategy is exercised by a concrete history. -/
example : InsertedWith (K := ℚ) [.add 0 (some 1) [0] 3 (1/2) .disallow, .setMinNumObs 3, .add 1 (some 0) [1] 2 (1/4) .independent]
    1 (some 0) .independent ⟨[0], 3, 1/2⟩ [⟨[1], 2, 1/4⟩] := ⟨.disallow, by decide +kernel⟩

/-! ## C18 -/

/-- C18, the full statement: in every reachable graph, every stored fault id is below the number of fault ids. -/
def C18_statement (K : Type) [Field K] [LinearOrder K] : Prop :=
  ∀ (mergeW : K → K → K) (n m : Nat) (cs : List (Call K)) (e : UEdge K),
    e ∈ (run mergeW (UGraph.new n m) cs).edges → ∀ o ∈ e.obs, o < (run mergeW (UGraph.new n m) cs).numObs

/-- The full statement is false: `replace` (and `smallest-weight`) write fault ids without updating the count
(user_graph.cc:102-103).  After `add_edge(0,1,fault_ids={0})`, `add_edge(0,1,fault_ids={70},merge_strategy="replace")`
there is one fault id although fault id 70 is stored. -/
theorem C18_statement_false : ¬ C18_statement ℚ := by
  intro h
  have := h (fun a b => min a b) 0 0 [.add 0 (some 1) [0] 1 0 .disallow, .add 0 (some 1) [70] 1 0 .replace]
    ⟨0, some 1, [70], 1, 0, []⟩ (by decide +kernel) 70 (by decide)
  revert this
  decide +kernel

omit [Field K] [LinearOrder K] in
theorem bumpObs_spec (obs : List Nat) (n : Nat) : n ≤ bumpObs n obs ∧ ∀ o ∈ obs, o < bumpObs n obs := by
  unfold bumpObs
  induction obs generalizing n with
  | nil => simp
  | cons a obs ih =>
    rw [List.foldl_cons]
    obtain ⟨h1, h2⟩ := ih (if a + 1 > n then a + 1 else n)
    have h3 : n ≤ (if a + 1 > n then a + 1 else n) ∧ a + 1 ≤ (if a + 1 > n then a + 1 else n) := by split <;> omega
    refine ⟨h3.1.trans h1, ?_⟩
    intro o ho
    simp only [List.mem_cons] at ho
    rcases ho with rfl | ho
    · exact h3.2.trans h1
    · exact h2 o ho

/-- C18 for the histories that never use `replace` or `smallest-weight` to change an existing edge.  Missing from the full
statement: those two strategies, for which it is false (`C18_statement_false`). -/
theorem C18_fault_ids_covered_partial (mergeW : K → K → K) (n m : Nat) (cs : List (Call K))
    (hcs : ∀ c ∈ cs, ∀ u t obs w p s, c = .add u t obs w p s → s ≠ .replace ∧ s ≠ .smallestWeight) (e : UEdge K)
    (he : e ∈ (run mergeW (UGraph.new n m) cs).edges) (o : Nat) (ho : o ∈ e.obs) :
    o < (run mergeW (UGraph.new n m) cs).numObs := by
  suffices H : ∀ (cs : List (Call K)) (g : UGraph K), WF g → (∀ e ∈ g.edges, ∀ o ∈ e.obs, o < g.numObs) →
      (∀ c ∈ cs, ∀ u t obs w p s, c = .add u t obs w p s → s ≠ .replace ∧ s ≠ .smallestWeight) →
      ∀ e ∈ (run mergeW g cs).edges, ∀ o ∈ e.obs, o < (run mergeW g cs).numObs by
    exact H cs _ (wf_new n m) (by simp [UGraph.new]) hcs e he o ho
  intro cs
  induction cs with
  | nil => intro g _ hg _; exact hg
  | cons c cs ih =>
    intro g hw hg hcs
    refine ih (exec mergeW g c).1 (wf_exec mergeW hw c) ?_ (fun c' hc' => hcs c' (List.mem_cons_of_mem _ hc'))
    cases c with
    | setBoundary b => exact hg
    | setMinNumObs k =>
      intro e he o ho
      have := hg e he o ho
      simp only [exec, UGraph.setMinNumObs]
      split <;> omega
    | add u t obs w p s =>
      have hs := hcs _ List.mem_cons_self u t obs w p s rfl
      rcases add_cases mergeW hw u t obs w p s with ⟨g', h1, -, h3, -, h5, -⟩ | ⟨ei, hei, hk, h2⟩
      · rw [h1]; simp only
        rw [h3, h5]
        obtain ⟨hb1, hb2⟩ := bumpObs_spec obs g.numObs
        intro e he o ho
        simp only [List.mem_append, List.mem_singleton] at he
        rcases he with he | rfl
        · exact lt_of_lt_of_le (hg e he o ho) hb1
        · exact hb2 o ho
      · rw [h2]
        rcases mergeEdge_cases mergeW hw ei hei obs w p s with ⟨-, h3⟩ | ⟨-, g', e', h3, -, h5, -, -, h8, b, h9, -⟩
        · rw [h3]; exact hg
        · rw [h3]; simp only
          rw [h5, h8]
          intro e he o ho
          rcases List.mem_or_eq_of_mem_set he with he | rfl
          · exact hg e he o ho
          · have hobs : e.obs = g.edges[ei].obs := by
              cases s <;> simp only [mergeData, Option.some.injEq, Prod.mk.injEq, reduceCtorEq] at h9
              · rw [← h9.1]
              · exact absurd rfl hs.2
              · rw [← h9.1]
              · exact absurd rfl hs.1
            rw [hobs] at ho
            exact hg _ (List.getElem_mem hei) o ho

/-- The hypotheses are satisfiable with a merge that stores something. -/
example : ∀ c ∈ ([.add 0 (some 1) [3] 1 (1/4) .disallow, .add 0 (some 1) [7] 1 (1/4) .independent] : List (Call ℚ)),
    ∀ u t obs w p s, c = .add u t obs w p s → s ≠ .replace ∧ s ≠ .smallestWeight := by
  intro c hc u t obs w p s h
  simp only [List.mem_cons, List.not_mem_nil, or_false] at hc
  rcases hc with rfl | rfl <;> cases h <;> decide

/-! ## C47 -/

/-- C47.  In every reachable graph, if the graph reports that all edges have error probabilities, then they have: each
stored probability lies between 0 and 1. -/
theorem C47_probabilities_valid [IsStrictOrderedRing K] (mergeW : K → K → K) (n m : Nat) (cs : List (Call K))
    (h : (run mergeW (UGraph.new n m) cs).allProbs = true) (e : UEdge K)
    (he : e ∈ (run mergeW (UGraph.new n m) cs).edges) : 0 ≤ e.prob ∧ e.prob ≤ 1 := by
  suffices H : ∀ (cs : List (Call K)) (g : UGraph K), WF g → (g.allProbs = true → ∀ e ∈ g.edges, 0 ≤ e.prob ∧ e.prob ≤ 1) →
      (run mergeW g cs).allProbs = true → ∀ e ∈ (run mergeW g cs).edges, 0 ≤ e.prob ∧ e.prob ≤ 1 by
    exact H cs _ (wf_new n m) (by simp [UGraph.new]) h e he
  intro cs
  induction cs with
  | nil => intro g _ hg; exact hg
  | cons c cs ih =>
    intro g hw hg
    refine ih (exec mergeW g c).1 (wf_exec mergeW hw c) ?_
    cases c with
    | setBoundary b => exact hg
    | setMinNumObs k => exact hg
    | add u t obs w p s =>
      rcases add_cases mergeW hw u t obs w p s with ⟨g', h1, -, h3, -, -, h6⟩ | ⟨ei, hei, hk, h2⟩
      · rw [h1]; simp only
        rw [h3, h6]
        intro hp e he
        split at hp
        · cases hp
        · rename_i hpp
          simp only [List.mem_append, List.mem_singleton] at he
          rcases he with he | rfl
          · exact hg hp e he
          · simp only [not_or, not_lt] at hpp; exact hpp
      · rw [h2]
        rcases mergeEdge_cases mergeW hw ei hei obs w p s with ⟨-, h3⟩ | ⟨-, g', e', h3, -, h5, -, -, -, b, h9, h10⟩
        · rw [h3]; exact hg
        · rw [h3]; simp only
          rw [h5, h10]
          intro hp e he
          split at hp
          · cases hp
          · rename_i hpp
            rcases List.mem_or_eq_of_mem_set he with he | rfl
            · exact hg hp e he
            · cases b with
              | true =>
                simp only [true_and, not_or, not_lt] at hpp; exact hpp
              | false =>
                have : e = g.edges[ei] := by
                  cases s <;> simp [mergeData] at h9
                  · split at h9 <;> simp at h9; exact h9.symm
                  · exact h9.symm
                rw [this]; exact hg hp _ (List.getElem_mem hei)

example : (run (K := ℚ) (fun a b => min a b) (UGraph.new 0 0)
    [.add 0 (some 1) [3] 1 (1/4) .disallow, .add 1 (some 0) [7] 1 (1/2) .independent]).allProbs = true := by decide +kernel

end Verif.Props.UserGraph
