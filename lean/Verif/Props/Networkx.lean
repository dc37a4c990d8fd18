import Verif.Networkx
import Verif.Props.Api
import Verif.Props.Convert

/-!
# C45: export and import
-/

namespace Verif.Props.Networkx

open Verif.UG Verif.Nx Verif.Props.UserGraph

variable {K : Type} [Field K] [LinearOrder K]

/-! ## Specification -/

/-- What a user sees of an edge: set of fault ids, weight, error probability (or -1). -/
def seen (d : Data K) : Finset Nat × K × K := (d.obs.toFinset, d.weight, if 0 ≤ d.prob ∧ d.prob ≤ 1 then d.prob else -1)

/-- No stored weight exceeds the limit of `add_edge` (C42). -/
def NotHeavy (g : UGraph K) : Prop := ∀ e ∈ g.edges, -16777215 ≤ e.weight ∧ e.weight ≤ 16777215

/-- `g'` has the edges of `g`, boundary edges being attached to node `n` instead of the virtual boundary. -/
structure SameEdges (g g' : UGraph K) (n : Nat) : Prop where
  inner : ∀ u v, u < n → v < n → (dataOf g' u (some v)).map seen = (dataOf g u (some v)).map seen
  bound : ∀ u, u < n → (dataOf g' u (some n)).map seen = (dataOf g u none).map seen
  virtual : ∀ u, dataOf g' u none = none
  outside : ∀ u v, n < v → dataOf g' u (some v) = none
  loop : dataOf g' n (some n) = none

/-- Every node is the end point of some edge. -/
def NoIsolated (g : UGraph K) : Prop := ∀ u < g.nodes.length, ∃ e ∈ g.edges, e.node1 = u ∨ e.node2 = some u

/-- The full statement of C45 for an export function: any listing of the exported edges loads as the same problem, with the
same nodes and boundary, plus the extra boundary node if there is a virtual boundary edge. -/
def C45_statement (K : Type) [Field K] [LinearOrder K] (exporter : UGraph K → XGraph K) : Prop :=
  ∀ (mergeW : K → K → K) (n m : Nat) (cs : List (Call K)) (l : List (XEdge K)),
    let g := run mergeW (UGraph.new n m) cs
    Reordered (exporter g).edges l →
    let g' := load mergeW { exporter g with edges := l }
    let hasVirtual := ∃ e ∈ g.edges, e.node2 = none
    SameEdges g g' g.nodes.length ∧
    (hasVirtual → g'.nodes.length = g.nodes.length + 1 ∧ g'.boundary = insert g.nodes.length g.boundary) ∧
    (¬ hasVirtual → g'.nodes.length = g.nodes.length ∧ g'.boundary = g.boundary)

/-! ## Helpers -/

/-- The calls that `load` makes. -/
def calls (x : XGraph K) : List (Call K) :=
  .setBoundary (x.boundary.sort (· ≤ ·)) :: x.edges.map fun e => .add e.u (some e.v) e.obs e.weight e.prob .smallestWeight

theorem load_eq [IsStrictOrderedRing K] (mergeW : K → K → K) (x : XGraph K)
    (h : ∀ e ∈ x.edges, -16777215 ≤ e.weight ∧ e.weight ≤ 16777215) :
    load mergeW x = run mergeW (UGraph.new x.numNodes 0) (calls x) := by
  unfold load calls run
  rw [List.foldl_cons]
  show _ = List.foldl _ ((UGraph.new x.numNodes 0).setBoundary (x.boundary.sort (· ≤ ·))) _
  generalize (UGraph.new x.numNodes 0).setBoundary (x.boundary.sort (· ≤ ·)) = g
  have : ∀ l : List (XEdge K), (∀ e ∈ l, -16777215 ≤ e.weight ∧ e.weight ≤ 16777215) → ∀ g : UGraph K,
      l.foldl (fun g e =>
        match Api.addEdge mergeW g e.u e.v e.obs (.fin e.weight) e.prob "smallest-weight" with
        | .graph g' _ => g'
        | .nanStored => g) g =
      (l.map fun e => Call.add e.u (some e.v) e.obs e.weight e.prob .smallestWeight).foldl (fun g c => (exec mergeW g c).1) g := by
    intro l hl
    induction l with
    | nil => intro g; rfl
    | cons e l ih =>
      intro g
      rw [List.map_cons, List.foldl_cons, List.foldl_cons, ih (fun e he => hl e (by simp [he]))]
      congr 1
      have hth : Api.tooHeavy (.fin e.weight) = false := by
        rw [← Bool.not_eq_true, Props.Api.tooHeavy_iff _ (by simp)]
        exact not_not.2 (hl e (by simp))
      have hs : Api.strategyOf "smallest-weight" = some .smallestWeight := by decide
      have hneg : ¬ ((e.u : Int) < 0 ∨ (e.v : Int) < 0) := by omega
      simp only [Api.addEdge, if_neg hneg, Api.checked, hth, hs, exec, Bool.false_eq_true, if_false, Int.toNat_natCast]
  exact this x.edges h g

/-- The insertion of an exported edge, seen from `(u, v)`. -/
def ins (u v : Nat) (e : XEdge K) : Option (Data K × Strategy) :=
  if samePair u (some v) e.u (some e.v) then some (⟨e.obs, e.weight, e.prob⟩, .smallestWeight) else none

omit [Field K] [LinearOrder K] in
theorem ins_flip (u v : Nat) (e : XEdge K) : ins u v e.flip = ins u v e := by
  unfold ins XEdge.flip
  have : samePair u (some v) e.v (some e.u) ↔ samePair u (some v) e.u (some e.v) := by
    unfold samePair; simp only [Option.some.injEq]; omega
  simp only [this]

omit [Field K] [LinearOrder K] in
theorem insertions_calls (x : XGraph K) (u v : Nat) : insertions u (some v) (calls x) = x.edges.filterMap (ins u v) := by
  unfold insertions calls
  rw [List.filterMap_cons, List.filterMap_map]
  rfl

omit [Field K] [LinearOrder K] in
theorem insertions_none (x : XGraph K) (u : Nat) : insertions u none (calls x) = [] := by
  unfold insertions calls
  rw [List.filterMap_cons, List.filterMap_map, List.filterMap_eq_nil_iff]
  intro e _
  simp [samePair]

omit [Field K] [LinearOrder K] in
theorem reordered_filterMap {l l' : List (XEdge K)} (h : Reordered l l') (u v : Nat) :
    (l.filterMap (ins u v)).Perm (l'.filterMap (ins u v)) := by
  obtain ⟨m, h1, h2⟩ := h
  refine (h1.filterMap _).trans ?_
  rw [show m.filterMap (ins u v) = l'.filterMap (ins u v) from ?_]
  clear h1
  induction h2 with
  | nil => rfl
  | cons h _ ih =>
    rw [List.filterMap_cons, List.filterMap_cons, ih]
    rcases h with rfl | rfl
    · rfl
    · rw [ins_flip]

omit [Field K] [LinearOrder K] in
theorem reordered_mem {l l' : List (XEdge K)} (h : Reordered l l') {e' : XEdge K} (he : e' ∈ l') : e' ∈ l ∨ e'.flip ∈ l := by
  obtain ⟨m, h1, h2⟩ := h
  have : e' ∈ m ∨ e'.flip ∈ m := by
    clear h1
    induction h2 with
    | nil => simp at he
    | cons h _ ih =>
      rw [List.mem_cons] at he
      rcases he with rfl | he
      · rcases h with rfl | rfl
        · left; simp
        · right; simp [XEdge.flip]
      · rcases ih he with h | h
        · left; simp [h]
        · right; simp [h]
  rcases this with h | h
  · exact Or.inl (h1.mem_iff.2 h)
  · exact Or.inr (h1.mem_iff.2 h)

omit [Field K] [LinearOrder K] in
theorem reordered_mem' {l l' : List (XEdge K)} (h : Reordered l l') {e : XEdge K} (he : e ∈ l) : e ∈ l' ∨ e.flip ∈ l' := by
  obtain ⟨m, h1, h2⟩ := h
  have he := h1.mem_iff.1 he
  clear h1
  induction h2 with
  | nil => simp at he
  | cons h _ ih =>
    rw [List.mem_cons] at he
    rcases he with rfl | he
    · rcases h with rfl | rfl
      · left; simp
      · right; simp
    · rcases ih he with h | h
      · left; simp [h]
      · right; simp [h]

theorem filterMap_unique {α β : Type} (l : List α) (f : α → Option β) (i : Nat) (hi : i < l.length) (b : β)
    (h : f l[i] = some b) (hu : ∀ j (hj : j < l.length), j ≠ i → f l[j] = none) : l.filterMap f = [b] := by
  induction l generalizing i with
  | nil => simp at hi
  | cons x l ih =>
    rw [List.filterMap_cons]
    cases i with
    | zero =>
      have h0 : f x = some b := h
      rw [h0]
      simp only [List.cons.injEq, true_and]
      rw [List.filterMap_eq_nil_iff]
      intro a ha
      obtain ⟨j, hj, rfl⟩ := List.getElem_of_mem ha
      exact hu (j + 1) (by simp [hj]) (by omega)
    | succ i =>
      have h0 : f x = none := hu 0 (by simp) (by omega)
      rw [h0]
      exact ih i (by simpa using hi) h fun j hj hne => hu (j + 1) (by simp [hj]) (by omega)

/-- How a pair of the exported graph reads in the original one. -/
def back (n v : Nat) : Option Nat := if v = n then none else some v

theorem samePair_export {g : UGraph K} (hw : WF g) (i : Nat) (hi : i < g.edges.length) (u v : Nat) (hu : u < g.nodes.length) :
    samePair u (some v) (exportEdge g.nodes.length g.edges[i]).u (some (exportEdge g.nodes.length g.edges[i]).v) ↔
      g.edges[i].key = key u (back g.nodes.length v) := by
  have hr : ∀ (e : UEdge K), e.key = key e.node1 e.node2 := fun e => rfl
  have hlt := key_in_range hw i hi g.edges[i].node1 g.edges[i].node2 rfl
  rw [hr, ← samePair_iff_key]
  unfold samePair exportEdge back
  rcases he : g.edges[i] with ⟨a, b, o, w, p, im⟩
  rw [he] at hlt
  cases b with
  | none =>
    simp only [top] at hlt
    simp only [Option.some.injEq]
    split
    · simp; omega
    · simp; omega
  | some b =>
    simp only [top] at hlt
    simp only [Option.some.injEq]
    split
    · simp; omega
    · simp only [Option.some.injEq]

theorem filterMap_export {g : UGraph K} (hw : WF g) (u v : Nat) (hu : u < g.nodes.length) :
    (exportEdges g).filterMap (ins u v) =
      ((g.getEdge u (back g.nodes.length v)).toList.map fun e =>
        ((⟨(exportEdge g.nodes.length e).obs, e.weight, (exportEdge g.nodes.length e).prob⟩ : Data K), Strategy.smallestWeight)) := by
  cases hg : g.getEdge u (back g.nodes.length v) with
  | some e =>
    obtain ⟨i, hi, rfl, hk⟩ := (getEdge_iff hw _ _ _).1 hg
    refine filterMap_unique _ _ i (by simpa [exportEdges] using hi) _ ?_ ?_
    · simp only [exportEdges, List.getElem_map, ins]
      rw [if_pos ((samePair_export hw i hi u v hu).2 hk)]
      rfl
    · intro j hj hne
      have hj : j < g.edges.length := by simpa [exportEdges] using hj
      simp only [exportEdges, List.getElem_map, ins]
      rw [if_neg]
      rw [samePair_export hw j hj u v hu, ← hk]
      exact fun h => hne (hw.uniq j i hj hi h)
  | none =>
    simp only [Option.toList_none, List.map_nil]
    rw [List.filterMap_eq_nil_iff]
    intro x hx
    obtain ⟨j, hj, rfl⟩ := List.getElem_of_mem hx
    have hj : j < g.edges.length := by simpa [exportEdges] using hj
    simp only [exportEdges, List.getElem_map, ins]
    rw [if_neg]
    rw [samePair_export hw j hj u v hu]
    intro hk
    rw [(getEdge_iff hw _ _ _).2 ⟨j, hj, rfl, hk⟩] at hg
    cases hg

theorem dataOf_of_insertions (mergeW : K → K → K) (n m : Nat) (cs : List (Call K)) (u : Nat) (t : Option Nat) :
    (insertions u t cs = [] → dataOf (run mergeW (UGraph.new n m) cs) u t = none) ∧
    (∀ d s, insertions u t cs = [(d, s)] → dataOf (run mergeW (UGraph.new n m) cs) u t = some d) := by
  constructor
  · intro h
    rw [dataOf_run mergeW (wf_new n m), dataOf_new, h]
    rfl
  · intro d s h
    exact dataOf_inserted mergeW n m cs u t s d [] ⟨s, by simpa using h⟩

theorem seen_export (n : Nat) (e : UEdge K) :
    seen ⟨(exportEdge n e).obs, e.weight, (exportEdge n e).prob⟩ = seen ⟨e.obs, e.weight, e.prob⟩ := by
  simp only [seen, exportEdge, Finset.sort_toFinset, Prod.mk.injEq, true_and]
  by_cases h : e.prob < 0 ∨ e.prob > 1
  · have : ¬ (0 ≤ e.prob ∧ e.prob ≤ 1) := by
      rw [not_and_or, not_le, not_le]; exact h
    simp only [h, this, if_true, if_false]
    split <;> rfl
  · simp only [h, if_false]

theorem sameEdges [IsStrictOrderedRing K] {g : UGraph K} (hw : WF g) (hh : NotHeavy g) (mergeW : K → K → K) (nn : Nat)
    (bd : Finset Nat) (l : List (XEdge K)) (hl : Reordered (exportEdges g) l) :
    load mergeW ⟨nn, bd, l⟩ = run mergeW (UGraph.new nn 0) (calls ⟨nn, bd, l⟩) ∧
    SameEdges g (load mergeW ⟨nn, bd, l⟩) g.nodes.length := by
  have hheavy : ∀ e ∈ l, -16777215 ≤ e.weight ∧ e.weight ≤ 16777215 := by
    intro e he
    have : ∀ x ∈ exportEdges g, -16777215 ≤ x.weight ∧ x.weight ≤ 16777215 := by
      intro x hx
      simp only [exportEdges, List.mem_map] at hx
      obtain ⟨y, hy, rfl⟩ := hx
      exact hh y hy
    rcases reordered_mem hl he with h | h
    · exact this _ h
    · exact this e.flip h
  have hload := load_eq mergeW ⟨nn, bd, l⟩ hheavy
  refine ⟨hload, ?_⟩
  rw [hload]
  have main : ∀ u v, u < g.nodes.length →
      (dataOf (run mergeW (UGraph.new nn 0) (calls ⟨nn, bd, l⟩)) u (some v)).map seen =
        (dataOf g u (back g.nodes.length v)).map seen := by
    intro u v hu
    have hp := (reordered_filterMap hl u v)
    rw [filterMap_export hw u v hu] at hp
    have hi := insertions_calls (⟨nn, bd, l⟩ : XGraph K) u v
    obtain ⟨d1, d2⟩ := dataOf_of_insertions mergeW nn 0 (calls ⟨nn, bd, l⟩) u (some v)
    unfold dataOf at d1 d2 ⊢
    cases hg : g.getEdge u (back g.nodes.length v) with
    | none =>
      rw [hg] at hp
      simp only [Option.toList_none, List.map_nil, List.nil_perm] at hp
      rw [d1 (by rw [hi]; exact hp)]
      rfl
    | some e =>
      rw [hg] at hp
      simp only [Option.toList_some, List.map_cons, List.map_nil] at hp
      have := (List.singleton_perm.1 hp).symm
      rw [d2 _ _ (by rw [hi]; exact this)]
      simp only [Option.map_some, Option.some.injEq]
      exact seen_export _ _
  have range : ∀ e ∈ l, e.u ≤ g.nodes.length ∧ e.v ≤ g.nodes.length ∧ (e.u < g.nodes.length ∨ e.v < g.nodes.length) := by
    have : ∀ x ∈ exportEdges g, x.u < g.nodes.length ∧ x.v ≤ g.nodes.length := by
      intro x hx
      obtain ⟨j, hj, rfl⟩ := List.getElem_of_mem hx
      have hj : j < g.edges.length := by simpa [exportEdges] using hj
      simp only [exportEdges, List.getElem_map, exportEdge]
      have hlt := key_in_range hw j hj g.edges[j].node1 g.edges[j].node2 rfl
      cases hn : g.edges[j].node2 with
      | none => rw [hn] at hlt; simp only [top] at hlt; exact ⟨hlt, le_refl _⟩
      | some b => rw [hn] at hlt; simp only [top] at hlt; simp only; omega
    intro e he
    rcases reordered_mem hl he with h | h
    · have := this _ h; omega
    · have := this _ h; simp only [XEdge.flip] at this; omega
  refine ⟨?_, ?_, ?_, ?_, ?_⟩
  · intro u v hu hv
    rw [main u v hu, back, if_neg hv.ne]
  · intro u hu
    rw [main u _ hu, back, if_pos rfl]
  · intro u
    exact (dataOf_of_insertions _ _ _ _ _ _).1 (insertions_none _ _)
  · intro u v hv
    refine (dataOf_of_insertions _ _ _ _ _ _).1 ?_
    rw [insertions_calls, List.filterMap_eq_nil_iff]
    intro e he
    have := range e he
    unfold ins
    rw [if_neg]
    simp only [samePair, Option.some.injEq]; omega
  · refine (dataOf_of_insertions _ _ _ _ _ _).1 ?_
    rw [insertions_calls, List.filterMap_eq_nil_iff]
    intro e he
    have := range e he
    unfold ins
    rw [if_neg]
    simp only [samePair, Option.some.injEq]; omega

theorem exec_boundary (mergeW : K → K → K) (g : UGraph K) (u : Nat) (t : Option Nat) (obs : List Nat) (w p : K) (s : Strategy) :
    (exec mergeW g (.add u t obs w p s)).1.boundary = g.boundary := by
  have hmerge : ∀ (g : UGraph K) ei obs w p s, (g.mergeEdge mergeW ei obs w p s).1.boundary = g.boundary := by
    intro g ei obs w p s
    unfold UGraph.mergeEdge
    split
    · rfl
    · split <;> rfl
  cases t with
  | none =>
    simp only [exec, UGraph.addBoundaryEdge]
    split
    · rfl
    · split
      · rfl
      · rw [hmerge]
  | some v =>
    simp only [exec, UGraph.addEdge]
    split
    · rfl
    · split
      · rfl
      · rw [hmerge]

omit [Field K] [LinearOrder K] in
theorem foldl_mark_len (b : List Nat) (nodes : List UNode) (h : ∀ x ∈ b, x < nodes.length) :
    (b.foldl markBoundary nodes).length = nodes.length := by
  induction b generalizing nodes with
  | nil => rfl
  | cons a b ih =>
    have hlen : (markBoundary nodes a).length = nodes.length := by
      have := h a (by simp)
      simp [markBoundary, grow_len]; omega
    rw [List.foldl_cons, ih _ (fun x hx => by rw [hlen]; exact h x (by simp [hx])), hlen]

theorem load_shape (mergeW : K → K → K) (x : XGraph K) (hb : ∀ i ∈ x.boundary, i < x.numNodes)
    (he : ∀ e ∈ x.edges, e.u < x.numNodes ∧ e.v < x.numNodes) :
    (run mergeW (UGraph.new x.numNodes 0) (calls x)).nodes.length = x.numNodes ∧
    (run mergeW (UGraph.new x.numNodes 0) (calls x)).boundary = x.boundary := by
  unfold calls run
  rw [List.foldl_cons]
  show (List.foldl _ ((UGraph.new x.numNodes 0).setBoundary (x.boundary.sort (· ≤ ·))) _).nodes.length = _ ∧
    (List.foldl _ ((UGraph.new x.numNodes 0).setBoundary (x.boundary.sort (· ≤ ·))) _).boundary = _
  have h1 : ((UGraph.new x.numNodes 0 : UGraph K).setBoundary (x.boundary.sort (· ≤ ·))).nodes.length = x.numNodes := by
    simp only [UGraph.setBoundary]
    rw [foldl_mark_len]
    · simp [UGraph.new]
    · intro i hi; simpa [UGraph.new] using hb i (by simpa using hi)
  have h2 : ((UGraph.new x.numNodes 0 : UGraph K).setBoundary (x.boundary.sort (· ≤ ·))).boundary = x.boundary := by
    simp [UGraph.setBoundary]
  generalize (UGraph.new x.numNodes 0 : UGraph K).setBoundary (x.boundary.sort (· ≤ ·)) = g at h1 h2
  have : ∀ l : List (XEdge K), (∀ e ∈ l, e.u < x.numNodes ∧ e.v < x.numNodes) → ∀ g : UGraph K, g.nodes.length = x.numNodes →
      g.boundary = x.boundary →
      ((l.map fun e => Call.add e.u (some e.v) e.obs e.weight e.prob .smallestWeight).foldl
        (fun g c => (exec mergeW g c).1) g).nodes.length = x.numNodes ∧
      ((l.map fun e => Call.add e.u (some e.v) e.obs e.weight e.prob .smallestWeight).foldl
        (fun g c => (exec mergeW g c).1) g).boundary = x.boundary := by
    intro l hl
    induction l with
    | nil => exact fun g h1 h2 => ⟨h1, h2⟩
    | cons e l ih =>
      intro g h1 h2
      rw [List.map_cons, List.foldl_cons]
      refine ih (fun e he => hl e (by simp [he])) _ ?_ ?_
      · rw [exec_add_nodes, h1]
        have := hl e (by simp)
        simp only [top]; omega
      · rw [exec_boundary, h2]
  exact this x.edges he g h1 h2

omit [Field K] [LinearOrder K] in
theorem hasVirtual_iff (g : UGraph K) : hasVirtual g = true ↔ ∃ e ∈ g.edges, e.node2 = none := by
  simp [hasVirtual, List.any_eq_true]

theorem export_range {g : UGraph K} (hw : WF g) : ∀ x ∈ exportEdges g, x.u < g.nodes.length ∧
    (x.v < g.nodes.length ∨ (x.v = g.nodes.length ∧ hasVirtual g = true)) := by
  intro x hx
  obtain ⟨j, hj, rfl⟩ := List.getElem_of_mem hx
  have hj : j < g.edges.length := by simpa [exportEdges] using hj
  simp only [exportEdges, List.getElem_map, exportEdge]
  have hlt := key_in_range hw j hj g.edges[j].node1 g.edges[j].node2 rfl
  cases hn : g.edges[j].node2 with
  | none =>
    rw [hn] at hlt
    simp only [top] at hlt
    exact ⟨hlt, Or.inr ⟨rfl, (hasVirtual_iff g).2 ⟨_, List.getElem_mem hj, hn⟩⟩⟩
  | some b => rw [hn] at hlt; simp only [top] at hlt; simp only; omega

/-! ## Properties -/

/-- C45 for rustworkx, for graphs without overweight edges (what is missing: edges heavier than `2^24 - 1`, which can be
loaded from a check matrix or a detector error model; they are dropped on import). -/
theorem C45_rustworkx_partial [IsStrictOrderedRing K] (mergeW : K → K → K) (n m : Nat) (cs : List (Call K)) (l : List (XEdge K)) :
    let g := run mergeW (UGraph.new n m) cs
    NotHeavy g → Reordered (toRustworkx g).edges l →
    let g' := load mergeW { toRustworkx g with edges := l }
    let hasVirtual := ∃ e ∈ g.edges, e.node2 = none
    SameEdges g g' g.nodes.length ∧
    (hasVirtual → g'.nodes.length = g.nodes.length + 1 ∧ g'.boundary = insert g.nodes.length g.boundary) ∧
    (¬ hasVirtual → g'.nodes.length = g.nodes.length ∧ g'.boundary = g.boundary) := by
  intro g hh hl g' hv
  have hw : WF g := wf_run mergeW (wf_new n m) cs
  have hb := (Convert.bndOk_run mergeW (Convert.bndOk_new n m) cs).1
  have hb : ∀ i ∈ g.boundary, i < g.nodes.length := hb
  obtain ⟨h1, h2⟩ := sameEdges hw hh mergeW (toRustworkx g).numNodes (toRustworkx g).boundary l hl
  have hsh := load_shape mergeW { toRustworkx g with edges := l } (by
    intro i hi
    simp only [toRustworkx, Finset.mem_filter, Finset.mem_range] at hi ⊢
    exact hi.1) (by
    intro e he
    have hr := export_range hw
    rcases reordered_mem hl he with h | h
    · have := hr _ h
      simp only [toRustworkx]
      split <;> rename_i hv <;> simp only [hv] at this <;> simp at this <;> omega
    · have := hr _ h
      simp only [toRustworkx, XEdge.flip] at this ⊢
      split <;> rename_i hv <;> simp only [hv] at this <;> simp at this <;> omega)
  have hg' : g' = run mergeW (UGraph.new (toRustworkx g).numNodes 0) (calls { toRustworkx g with edges := l }) := h1
  refine ⟨h2, ?_, ?_⟩
  · intro hv
    have hv := (hasVirtual_iff g).2 hv
    rw [hg']
    refine ⟨hsh.1.trans (by simp [toRustworkx, hv]), hsh.2.trans ?_⟩
    ext i
    simp only [toRustworkx, hv, if_true, true_and, Finset.mem_filter, Finset.mem_range, Finset.mem_insert]
    constructor
    · rintro ⟨-, h | h⟩
      · exact Or.inr h
      · exact Or.inl h
    · rintro (h | h)
      · exact ⟨by omega, Or.inr h⟩
      · exact ⟨by have := hb i h; omega, Or.inl h⟩
  · intro hv
    have hv : Nx.hasVirtual g = false := by
      rw [← Bool.not_eq_true]; exact fun h => hv ((hasVirtual_iff g).1 h)
    rw [hg']
    refine ⟨hsh.1.trans (by simp [toRustworkx, hv]), hsh.2.trans ?_⟩
    ext i
    simp only [toRustworkx, hv, Bool.false_eq_true, if_false, false_and, or_false, Nat.add_zero, Finset.mem_filter,
      Finset.mem_range]
    exact ⟨fun h => h.2, fun h => ⟨hb i h, h⟩⟩

/-- C45 for networkx, for graphs without overweight edges: the edges are always preserved; nodes and boundary are preserved
when no node is isolated (what is missing: isolated nodes, where the statement is false). -/
theorem C45_networkx_partial [IsStrictOrderedRing K] (mergeW : K → K → K) (n m : Nat) (cs : List (Call K)) (l : List (XEdge K)) :
    let g := run mergeW (UGraph.new n m) cs
    NotHeavy g → Reordered (toNetworkx g).edges l →
    let g' := load mergeW { toNetworkx g with edges := l }
    let hasVirtual := ∃ e ∈ g.edges, e.node2 = none
    SameEdges g g' g.nodes.length ∧
    (NoIsolated g → hasVirtual → g'.nodes.length = g.nodes.length + 1 ∧ g'.boundary = insert g.nodes.length g.boundary) ∧
    (NoIsolated g → ¬ hasVirtual → g'.nodes.length = g.nodes.length ∧ g'.boundary = g.boundary) := by
  intro g hh hl g' hv
  have hw : WF g := wf_run mergeW (wf_new n m) cs
  have hb := (Convert.bndOk_run mergeW (Convert.bndOk_new n m) cs).1
  have hb : ∀ i ∈ g.boundary, i < g.nodes.length := hb
  obtain ⟨h1, h2⟩ := sameEdges hw hh mergeW (toNetworkx g).numNodes (toNetworkx g).boundary l hl
  refine ⟨h2, ?_⟩
  have same : NoIsolated g → toNetworkx g = toRustworkx g := by
    intro hi
    have ht : touched (exportEdges g) = Finset.range (g.nodes.length + (if Nx.hasVirtual g then 1 else 0)) := by
      ext i
      simp only [touched, List.mem_toFinset, List.mem_flatMap, List.mem_cons, List.not_mem_nil, or_false, Finset.mem_range]
      constructor
      · rintro ⟨e, he, h⟩
        have := export_range hw e he
        split <;> rename_i hv <;> simp only [hv] at this <;> simp at this <;> omega
      · intro h
        by_cases hlt : i < g.nodes.length
        · obtain ⟨e, he, h⟩ := hi i hlt
          refine ⟨exportEdge g.nodes.length e, List.mem_map_of_mem he, ?_⟩
          rcases h with h | h
          · exact Or.inl h.symm
          · right; simp [exportEdge, h]
        · cases hv : Nx.hasVirtual g with
          | false => rw [hv] at h; simp at h; omega
          | true =>
            rw [hv] at h
            simp only [if_true] at h
            obtain ⟨e, he, h0⟩ := (hasVirtual_iff g).1 hv
            refine ⟨exportEdge g.nodes.length e, List.mem_map_of_mem he, Or.inr ?_⟩
            simp [exportEdge, h0]; omega
    unfold toNetworkx toRustworkx
    rw [ht, Finset.card_range]
  have hrx := C45_rustworkx_partial mergeW n m cs l hh
  constructor
  · intro hi hv
    have := (hrx (by rw [← same hi]; exact hl)).2.1 hv
    rw [← same hi] at this
    exact this
  · intro hi hv
    have := (hrx (by rw [← same hi]; exact hl)).2.2 hv
    rw [← same hi] at this
    exact this

omit [Field K] [LinearOrder K] in
theorem reordered_refl (l : List (XEdge K)) : Reordered l l :=
  ⟨l, List.Perm.refl _, by
    induction l with
    | nil => exact .nil
    | cons e l ih => exact .cons (Or.inl rfl) ih⟩

/-- The full statement is false for networkx: a graph with nodes 0, 1, 2 and one edge between 0 and 1 comes back with two
nodes. -/
theorem C45_statement_false_networkx : ¬ C45_statement ℚ toNetworkx := by
  intro h
  have := ((h (fun a _ => a) 3 0 [.add 0 (some 1) [0] 1 (1/10) .disallow] _ (reordered_refl _)).2.2 (by
    decide +kernel)).1
  revert this
  decide +kernel

/-- The full statement is false for rustworkx: a heavy edge (it can be created by loading a check matrix) is dropped. -/
theorem C45_statement_false_rustworkx : ¬ C45_statement ℚ toRustworkx := by
  intro h
  have := (h (fun a _ => a) 2 0 [.add 0 (some 1) [0] 16777216 (1/10) .disallow] _ (reordered_refl _)).1.inner 0 1
    (by decide +kernel) (by decide +kernel)
  revert this
  decide +kernel

/-- The hypotheses are met by a graph with inner edges, a boundary node and a virtual boundary edge. -/
example :
    let g := run (fun a _ => a) (UGraph.new 0 0 : UGraph ℚ) [.add 0 (some 1) [0] 1 (1/10) .disallow, .add 1 none [1] 2 2 .disallow,
      .add 1 (some 2) [] 3 0 .disallow, .setBoundary [2]]
    (∀ e ∈ g.edges, -16777215 ≤ e.weight ∧ e.weight ≤ 16777215) ∧
    (∀ u < g.nodes.length, ∃ e ∈ g.edges, e.node1 = u ∨ e.node2 = some u) ∧ ∃ e ∈ g.edges, e.node2 = none := by
  decide +kernel

end Verif.Props.Networkx
