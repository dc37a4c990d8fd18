import Verif.Api
import Verif.Props.UserGraph

/-!
# Argument checks (C42) and the cached decoder (C43)
-/

namespace Verif.Props.Api

open Verif.UG Verif.Api Verif.Props.UserGraph

variable {K : Type} [Field K] [LinearOrder K]

/-! ## C42 -/

/-- The two ways of adding an edge. -/
inductive AddCall (K : Type) where
  | edge (u v : Int) (obs : List Nat) (w : Dbl K) (p : K) (strategy : String)
  | boundaryEdge (u : Int) (obs : List Nat) (w : Dbl K) (p : K) (strategy : String)

/-- Running the call. -/
def AddCall.exec (mergeW : K → K → K) (g : UGraph K) : AddCall K → After K
  | .edge u v obs w p s => addEdge mergeW g u v obs w p s
  | .boundaryEdge u obs w p s => addBoundaryEdge mergeW g u obs w p s

/-- The weight argument. -/
def AddCall.weight : AddCall K → Dbl K
  | .edge _ _ _ w _ _ => w
  | .boundaryEdge _ _ w _ _ => w

/-- The node arguments. -/
def AddCall.nodes : AddCall K → List Int
  | .edge u v _ _ _ _ => [u, v]
  | .boundaryEdge u _ _ _ _ => [u]

/-- The strategy argument. -/
def AddCall.strategy : AddCall K → String
  | .edge _ _ _ _ _ s => s
  | .boundaryEdge _ _ _ _ s => s

/-- The five documented strategies. -/
def strategies : List (String × Strategy) :=
  [("disallow", .disallow), ("independent", .independent), ("smallest-weight", .smallestWeight),
    ("keep-original", .keepOriginal), ("replace", .replace)]

/-- Their names. -/
def knownStrategies : List String := strategies.map Prod.fst

/-- A weight that is accepted: a number of absolute value at most `2^24 - 1 = 16777215`. -/
def acceptable : Dbl K → Prop
  | .fin x => -16777215 ≤ x ∧ x ≤ 16777215
  | _ => False

/-- The full statement of C42. -/
def C42_statement (K : Type) [Field K] [LinearOrder K] : Prop :=
  ∀ (mergeW : K → K → K) (g : UGraph K) (c : AddCall K),
    ((∃ n ∈ c.nodes, n < 0) → c.exec mergeW g = .graph g .raised) ∧
    ((∀ n ∈ c.nodes, 0 ≤ n) → ¬ acceptable c.weight → c.exec mergeW g = .graph g .warned)

/-- C42 is false: a NaN weight passes the check and is stored. -/
theorem C42_statement_false : ¬ C42_statement ℚ := by
  intro h
  have := (h (fun a _ => a) (UGraph.new 2 0) (.edge 0 1 [] .nan (1/10) "disallow")).2
    (by simp [AddCall.nodes]) (by simp [AddCall.weight, acceptable])
  simp [AddCall.exec, addEdge, checked, tooHeavy, strategyOf] at this

omit [Field K] [LinearOrder K] in
theorem strategyOf_none (s : String) : strategyOf s = none ↔ s ∉ knownStrategies := by
  unfold strategyOf knownStrategies strategies
  split_ifs <;> simp_all

theorem tooHeavy_iff [IsStrictOrderedRing K] (w : Dbl K) (h : w ≠ .nan) : tooHeavy w = true ↔ ¬ acceptable w := by
  cases w with
  | nan => exact absurd rfl h
  | inf b => simp [tooHeavy, acceptable]
  | fin x =>
    have h16 : ((maxUserWeight : Nat) : K) = 16777215 := by
      have : maxUserWeight = 16777215 := by decide
      rw [this]; norm_num
    simp only [tooHeavy, acceptable, h16, decide_eq_true_eq, gt_iff_lt]
    rw [← abs_le, not_le]

/-- C42 for weights other than NaN (what is missing: the NaN case, which is false).  Negative indices are rejected; heavy and
infinite weights are dropped with a warning; an unknown merge strategy is rejected; in all these cases the graph is the
old one.  In the remaining cases the edge is handed to the graph (see C16 and C17). -/
theorem C42_checks_partial [IsStrictOrderedRing K] (mergeW : K → K → K) (g : UGraph K) (c : AddCall K) (hn : c.weight ≠ .nan) :
    ((∃ n ∈ c.nodes, n < 0) → c.exec mergeW g = .graph g .raised) ∧
    ((∀ n ∈ c.nodes, 0 ≤ n) → ¬ acceptable c.weight → c.exec mergeW g = .graph g .warned) ∧
    ((∀ n ∈ c.nodes, 0 ≤ n) → acceptable c.weight → c.strategy ∉ knownStrategies → c.exec mergeW g = .graph g .raised) ∧
    ((∀ n ∈ c.nodes, 0 ≤ n) → acceptable c.weight → c.strategy ∈ knownStrategies →
      ∃ x s, c.weight = .fin x ∧ (c.strategy, s) ∈ strategies ∧
        ∃ call : Call K, (match c, call with
          | .edge u v obs _ p _, .add u' t' obs' w' p' s' =>
            (u' : Int) = u ∧ t'.map Int.ofNat = some v ∧ obs' = obs ∧ w' = x ∧ p' = p ∧ s' = s
          | .boundaryEdge u obs _ p _, .add u' t' obs' w' p' s' =>
            (u' : Int) = u ∧ t' = none ∧ obs' = obs ∧ w' = x ∧ p' = p ∧ s' = s
          | _, _ => False) ∧
        c.exec mergeW g = .graph (Verif.Props.UserGraph.exec mergeW g call).1
          (if (Verif.Props.UserGraph.exec mergeW g call).2 then .returned else .raised)) := by
  have hth := tooHeavy_iff c.weight hn
  have known : ∀ s ∈ knownStrategies, ∃ st, strategyOf s = some st ∧ (s, st) ∈ strategies := by
    intro s hs
    cases h : strategyOf s with
    | none => exact absurd hs ((strategyOf_none s).1 h)
    | some st =>
      refine ⟨st, rfl, ?_⟩
      unfold strategyOf at h
      split_ifs at h <;> cases h <;> simp_all [strategies]
  cases c with
  | edge u v obs w p s =>
    simp only [AddCall.weight, AddCall.nodes, AddCall.exec, AddCall.strategy, List.mem_cons, List.not_mem_nil, or_false,
      exists_eq_or_imp, exists_eq_left, forall_eq_or_imp, forall_eq] at *
    refine ⟨fun h => by simp [addEdge, h], ?_, ?_, ?_⟩
    · rintro ⟨h1, h2⟩ ha
      simp [addEdge, not_lt.2 h1, not_lt.2 h2, checked, hth.2 ha]
    · rintro ⟨h1, h2⟩ ha hs
      have : tooHeavy w = false := by
        rw [← Bool.not_eq_true, hth]; exact not_not.2 ha
      simp [addEdge, not_lt.2 h1, not_lt.2 h2, checked, this, (strategyOf_none s).2 hs]
    · rintro ⟨h1, h2⟩ ha hs
      have ht : tooHeavy w = false := by
        rw [← Bool.not_eq_true, hth]; exact not_not.2 ha
      obtain ⟨st, hst, hmem⟩ := known s hs
      cases w with
      | nan => exact absurd rfl hn
      | inf b => exact ha.elim
      | fin x =>
        refine ⟨x, st, rfl, hmem, .add u.toNat (some v.toNat) obs x p st, ?_, ?_⟩
        · exact ⟨by omega, by simp; omega, rfl, rfl, rfl, rfl⟩
        · simp [addEdge, not_lt.2 h1, not_lt.2 h2, checked, ht, hst, Verif.Props.UserGraph.exec]; rfl
  | boundaryEdge u obs w p s =>
    simp only [AddCall.weight, AddCall.nodes, AddCall.exec, AddCall.strategy, List.mem_cons, List.not_mem_nil, or_false,
      exists_eq_left, forall_eq] at *
    refine ⟨fun h => by simp [addBoundaryEdge, h], ?_, ?_, ?_⟩
    · intro h1 ha
      simp [addBoundaryEdge, not_lt.2 h1, checked, hth.2 ha]
    · intro h1 ha hs
      have : tooHeavy w = false := by
        rw [← Bool.not_eq_true, hth]; exact not_not.2 ha
      simp [addBoundaryEdge, not_lt.2 h1, checked, this, (strategyOf_none s).2 hs]
    · intro h1 ha hs
      have ht : tooHeavy w = false := by
        rw [← Bool.not_eq_true, hth]; exact not_not.2 ha
      obtain ⟨st, hst, hmem⟩ := known s hs
      cases w with
      | nan => exact absurd rfl hn
      | inf b => exact ha.elim
      | fin x =>
        refine ⟨x, st, rfl, hmem, .add u.toNat none obs x p st, ?_, ?_⟩
        · exact ⟨by omega, rfl, rfl, rfl, rfl, rfl⟩
        · simp [addBoundaryEdge, not_lt.2 h1, checked, ht, hst, Verif.Props.UserGraph.exec]; rfl

/-- The largest accepted weight, and the next integer. -/
example : acceptable (.fin (16777215 : ℚ)) ∧ ¬ acceptable (.fin (16777216 : ℚ)) ∧ ¬ acceptable (.inf true : Dbl ℚ) := by
  refine ⟨?_, ?_, ?_⟩ <;> norm_num [acceptable]

/-! ## C43 -/

/-- Modifications of the graph, and the requests for a decoder that decoding methods make. -/
inductive Op (K : Type) where
  | modify (c : Call K)
  /-- `decode`, `decode_batch`, `decode_to_matched_dets_*` -/
  | decode
  /-- `decode_to_edges_array`, `get_shortest_path`, decoding with correlations -/
  | decodeWithSearch

/-- Executing an operation. -/
def step (mergeW : K → K → K) (s : State K) : Op K → State K
  | .modify c => { s with graph := (exec mergeW s.graph c).1 }
  | .decode => s.getMwpm
  | .decodeWithSearch => s.getMwpmWithSearchGraph

/-- Any history. -/
def history (mergeW : K → K → K) (n m : Nat) (ops : List (Op K)) : State K := ops.foldl (step mergeW) (State.new n m)

/-- The full statement of C43: after any history the decoder that `decode` uses is built from the current graph. -/
def C43_statement (K : Type) [Field K] [LinearOrder K] : Prop :=
  ∀ (mergeW : K → K → K) (n m : Nat) (ops : List (Op K)),
    let g := (history mergeW n m ops).graph
    let d := (history mergeW n m ops).getMwpm.cache
    d.nodes = g.nodes ∧ d.edges = g.edges ∧ d.boundary = g.boundary ∧ d.numObs = g.numObs

/-- C43 is false: `ensure_num_fault_ids` after a decode does not invalidate the decoder. -/
theorem C43_statement_false : ¬ C43_statement ℚ := by
  intro h
  have := (h (fun a _ => a) 1 0 [.decode, .modify (.setMinNumObs 3)]).2.2.2
  simp [history, step, State.new, State.getMwpm, UGraph.new, exec, UGraph.setMinNumObs, toMwpm] at this

/-- The invariant behind C43. -/
structure Fresh (s : State K) : Prop where
  nodes : s.graph.needsUpdating = false → s.cache.nodes = s.graph.nodes
  edges : s.graph.needsUpdating = false → s.cache.edges = s.graph.edges
  boundary : s.graph.needsUpdating = false → s.cache.boundary = s.graph.boundary
  obs : s.graph.needsUpdating = false → s.cache.numObs ≤ s.graph.numObs
  search : s.cache.numObs > 64 → s.cache.search = true

theorem mergeEdge_flag (mergeW : K → K → K) (g : UGraph K) (ei : Nat) (obs : List Nat) (w p : K) (s : Strategy) :
    (g.mergeEdge mergeW ei obs w p s).1.needsUpdating = true ∨ (g.mergeEdge mergeW ei obs w p s).1 = g := by
  unfold UGraph.mergeEdge
  split
  · exact Or.inr rfl
  · split
    · exact Or.inr rfl
    · exact Or.inr rfl
    · exact Or.inl rfl

theorem grow_of_le (nodes : List UNode) (m : Nat) (h : m ≤ nodes.length) : grow nodes m = nodes := by
  simp [grow, Nat.sub_eq_zero_of_le h]

/-- A call either sets the flag, or changes nothing but the number of observables (upwards). -/
theorem exec_flag (mergeW : K → K → K) (g : UGraph K) (hw : WF g) (c : Call K) :
    (exec mergeW g c).1.needsUpdating = true ∨
    ((exec mergeW g c).1.nodes = g.nodes ∧ (exec mergeW g c).1.edges = g.edges ∧
      (exec mergeW g c).1.boundary = g.boundary ∧ g.numObs ≤ (exec mergeW g c).1.numObs ∧
      (exec mergeW g c).1.needsUpdating = g.needsUpdating) := by
  cases c with
  | setBoundary b => exact Or.inl rfl
  | setMinNumObs n =>
    right
    refine ⟨rfl, rfl, rfl, ?_, rfl⟩
    simp only [exec, UGraph.setMinNumObs]
    split <;> omega
  | add u t obs w p s =>
    cases t with
    | none =>
      simp only [exec, UGraph.addBoundaryEdge]
      split
      · rename_i hn
        rw [grow_get] at hn
        split at hn
        · rename_i h; rw [List.getElem?_eq_none_iff] at hn; omega
        · rw [if_pos (by omega)] at hn; cases hn
      · rename_i nd hn
        split
        · exact Or.inl rfl
        · rename_i ei he
          obtain ⟨hi, hk⟩ := (edgeTo_spec (wf_grow hw _) hn none ei).1 he
          have hlt : top u none < g.nodes.length := key_in_range hw ei hi u none hk
          simp only [top] at hlt
          have hg : ({ g with nodes := grow g.nodes (u + 1) } : UGraph K) = g := by rw [grow_of_le _ _ (by omega)]
          rw [hg]
          rcases mergeEdge_flag mergeW g ei obs w p s with h | h
          · exact Or.inl h
          · right; rw [h]; exact ⟨rfl, rfl, rfl, le_refl _, rfl⟩
    | some v =>
      simp only [exec, UGraph.addEdge]
      split
      · rename_i hn
        rw [grow_get] at hn
        split at hn
        · rename_i h; rw [List.getElem?_eq_none_iff] at hn; omega
        · rw [if_pos (by omega)] at hn; cases hn
      · rename_i nd hn
        split
        · exact Or.inl rfl
        · rename_i ei he
          obtain ⟨hi, hk⟩ := (edgeTo_spec (wf_grow hw _) hn (some v) ei).1 he
          have hlt : top u (some v) < g.nodes.length := key_in_range hw ei hi u (some v) hk
          simp only [top] at hlt
          have hg : ({ g with nodes := grow g.nodes (max u v + 1) } : UGraph K) = g := by rw [grow_of_le _ _ (by omega)]
          rw [hg]
          rcases mergeEdge_flag mergeW g ei obs w p s with h | h
          · exact Or.inl h
          · right; rw [h]; exact ⟨rfl, rfl, rfl, le_refl _, rfl⟩

theorem fresh_history (mergeW : K → K → K) (n m : Nat) (ops : List (Op K)) :
    Fresh (history mergeW n m ops) ∧ WF (history mergeW n m ops).graph := by
  unfold history
  induction ops using List.reverseRecOn with
  | nil =>
    refine ⟨⟨?_, ?_, ?_, ?_, ?_⟩, wf_new n m⟩ <;> simp [State.new, UGraph.new, noMwpm]
  | append_singleton ops o ih =>
    obtain ⟨hf, hw⟩ := ih
    rw [List.foldl_append, List.foldl_cons, List.foldl_nil]
    generalize ops.foldl (step mergeW) (State.new n m) = s at hf hw ⊢
    cases o with
    | modify c =>
      refine ⟨?_, by simpa [step, run] using wf_run mergeW hw [c]⟩
      rcases exec_flag mergeW s.graph hw c with h | ⟨h1, h2, h3, h4, h5⟩
      · refine ⟨?_, ?_, ?_, ?_, hf.search⟩ <;> · simp only [step, h]; intro h; cases h
      · refine ⟨?_, ?_, ?_, ?_, hf.search⟩ <;> simp only [step, h1, h2, h3, h5]
        · exact hf.nodes
        · exact hf.edges
        · exact hf.boundary
        · exact fun h => (hf.obs h).trans h4
    | decode =>
      simp only [step, State.getMwpm]
      split
      · refine ⟨⟨fun _ => rfl, fun _ => rfl, fun _ => rfl, fun _ => le_refl _, ?_⟩, hw.1, hw.2, hw.3, hw.4⟩
        simp only [toMwpm, gt_iff_lt, Bool.or_false, decide_eq_true_eq]; exact id
      · exact ⟨hf, hw⟩
    | decodeWithSearch =>
      simp only [step, State.getMwpmWithSearchGraph]
      split
      · exact ⟨hf, hw⟩
      · exact ⟨⟨fun _ => rfl, fun _ => rfl, fun _ => rfl, fun _ => le_refl _, by simp [toMwpm]⟩, hw.1, hw.2, hw.3, hw.4⟩

/-- C43 except for the number of observables (what is missing: `numObs` may lag behind after `ensure_num_fault_ids`; it is
never too large).  After any history, the decoder that `decode` uses, and the one that edge-level decoding uses, has the
current nodes, edges and boundary; the latter includes the search graph, and both do when they were built for more than 64
observables. -/
theorem C43_current_partial (mergeW : K → K → K) (n m : Nat) (ops : List (Op K)) :
    let s := history mergeW n m ops
    (∀ d ∈ [s.getMwpm.cache, s.getMwpmWithSearchGraph.cache],
      d.nodes = s.graph.nodes ∧ d.edges = s.graph.edges ∧ d.boundary = s.graph.boundary ∧ d.numObs ≤ s.graph.numObs ∧
      (d.numObs > 64 → d.search = true)) ∧
    (s.graph.nodes ≠ [] → s.getMwpmWithSearchGraph.cache.search = true) := by
  intro s
  obtain ⟨hf, -⟩ := fresh_history mergeW n m ops
  have hf : Fresh s := hf
  refine ⟨?_, ?_⟩
  · intro d hd
    simp only [List.mem_cons, List.not_mem_nil, or_false] at hd
    rcases hd with rfl | rfl
    · unfold State.getMwpm
      split
      · refine ⟨rfl, rfl, rfl, le_refl _, ?_⟩
        simp only [toMwpm, gt_iff_lt, Bool.or_false, decide_eq_true_eq]; exact id
      · rename_i h
        have h : s.graph.needsUpdating = false := by simpa using h
        exact ⟨hf.nodes h, hf.edges h, hf.boundary h, hf.obs h, hf.search⟩
    · unfold State.getMwpmWithSearchGraph
      split
      · rename_i h
        have h : s.graph.needsUpdating = false := by
          simp only [Bool.and_eq_true, Bool.not_eq_true'] at h; exact h.1
        exact ⟨hf.nodes h, hf.edges h, hf.boundary h, hf.obs h, hf.search⟩
      · exact ⟨rfl, rfl, rfl, le_refl _, by simp [toMwpm]⟩
  · intro hne
    unfold State.getMwpmWithSearchGraph
    split
    · rename_i h
      simp only [Bool.and_eq_true, Bool.not_eq_true', beq_iff_eq, Built.flooderNodes, Built.searchNodes] at h
      obtain ⟨h1, h2⟩ := h
      rw [hf.nodes h1] at h2
      cases hs : s.cache.search with
      | true => rfl
      | false =>
        rw [hs] at h2
        simp only [Bool.false_eq_true, if_false, List.length_eq_zero_iff] at h2
        exact absurd h2 hne
    · simp [toMwpm]

/-- When `ensure_num_fault_ids` is not called after the first decode the whole of C43 holds; more generally it holds whenever
no such call raised the number since the last rebuild. -/
theorem C43_without_ensure (mergeW : K → K → K) (n m : Nat) (ops : List (Op K))
    (h : ∀ k, Op.modify (.setMinNumObs k) ∉ ops) :
    (history mergeW n m ops).getMwpm.cache.numObs = (history mergeW n m ops).graph.numObs := by
  have key : (history mergeW n m ops).graph.needsUpdating = false →
      (history mergeW n m ops).cache.numObs = (history mergeW n m ops).graph.numObs := by
    unfold history
    induction ops using List.reverseRecOn with
    | nil => simp [State.new, UGraph.new]
    | append_singleton ops o ih =>
      have hw := (fresh_history mergeW n m ops).2
      unfold history at hw
      have ih := ih (fun k hk => h k (by simp [hk]))
      have ho : ∀ k, o ≠ .modify (.setMinNumObs k) := fun k hk => h k (by simp [hk])
      clear h
      rw [List.foldl_append, List.foldl_cons, List.foldl_nil]
      generalize ops.foldl (step mergeW) (State.new n m) = s at hw ih ⊢
      cases o with
      | modify c =>
        cases c with
        | setMinNumObs k => exact absurd rfl (ho k)
        | setBoundary b => intro h; cases h
        | add u t obs w p st =>
          intro h
          have hsame : (exec mergeW s.graph (.add u t obs w p st)).1.needsUpdating = false →
              (exec mergeW s.graph (.add u t obs w p st)).1.numObs = s.graph.numObs := by
            cases t with
            | none =>
              simp only [exec, UGraph.addBoundaryEdge]
              split
              · exact fun _ => rfl
              · split
                · intro h; cases h
                · rename_i ei _
                  intro h
                  rcases mergeEdge_flag mergeW { s.graph with nodes := grow s.graph.nodes (u + 1) } ei obs w p st with h' | h'
                  · rw [h'] at h; cases h
                  · rw [h']
            | some v =>
              simp only [exec, UGraph.addEdge]
              split
              · exact fun _ => rfl
              · split
                · intro h; cases h
                · rename_i ei _
                  intro h
                  rcases mergeEdge_flag mergeW { s.graph with nodes := grow s.graph.nodes (max u v + 1) } ei obs w p st with h' | h'
                  · rw [h'] at h; cases h
                  · rw [h']
          have hflag : s.graph.needsUpdating = false := by
            rcases exec_flag mergeW s.graph hw (.add u t obs w p st) with h' | ⟨-, -, -, -, h'⟩
            · rw [show (step mergeW s (.modify (.add u t obs w p st))).graph =
                (exec mergeW s.graph (.add u t obs w p st)).1 from rfl, h'] at h
              cases h
            · rw [← h']; exact h
          rw [show (step mergeW s (.modify (.add u t obs w p st))).graph =
                (exec mergeW s.graph (.add u t obs w p st)).1 from rfl, hsame h]
          exact ih hflag
      | decode =>
        simp only [step, State.getMwpm]
        split
        · exact fun _ => rfl
        · exact ih
      | decodeWithSearch =>
        simp only [step, State.getMwpmWithSearchGraph]
        split
        · exact ih
        · exact fun _ => rfl
  unfold State.getMwpm
  split
  · rfl
  · rename_i h'
    exact key (by simpa using h')

/-- A history with a decode between modifications. -/
example : (history (fun a _ => a) 2 0 [.modify (.add 0 (some 1) [0] (3 : ℚ) (1/10) .disallow), .decode,
    .modify (.add 1 none [1] 2 (1/10) .disallow), .decodeWithSearch, .decode]).getMwpm.cache.edges.length = 2 := by
  decide +kernel

end Verif.Props.Api
