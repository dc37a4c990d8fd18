import Verif.Convert
import Verif.Timeline
import Verif.Props.UserGraph
import Verif.Props.Graph

/-!
# Boundary nodes and the conversion to the decoding graph (C35)
-/

namespace Verif.Props.Convert

open Verif.UG Verif.Conv

variable {K : Type} [Field K] [LinearOrder K] [IsStrictOrderedRing K] [FloorRing K]

/-! ## Boundary bookkeeping -/

/-- The boundary flags of the nodes agree with the boundary set. -/
def BndOk (g : UGraph K) : Prop :=
  (∀ n ∈ g.boundary, n < g.nodes.length) ∧ ∀ (x : Nat) (n : UNode), g.nodes[x]? = some n → (n.isBoundary = true ↔ x ∈ g.boundary)

omit [Field K] [LinearOrder K] [IsStrictOrderedRing K] [FloorRing K] in
theorem foldl_mark (b : List Nat) (nodes : List UNode) :
    (∀ n ∈ b, n < (b.foldl markBoundary nodes).length) ∧ nodes.length ≤ (b.foldl markBoundary nodes).length ∧
    ∀ (x : Nat) (n : UNode), (b.foldl markBoundary nodes)[x]? = some n →
      (n.isBoundary = true ↔ x ∈ b ∨ ∃ n0, nodes[x]? = some n0 ∧ n0.isBoundary = true) := by
  induction b generalizing nodes with
  | nil =>
    refine ⟨by simp, Nat.le_refl _, ?_⟩
    intro x n h
    simp only [List.foldl_nil] at h
    simp [h]
  | cons a b ih =>
    obtain ⟨h1, h2, h3⟩ := ih (markBoundary nodes a)
    have hlen : (markBoundary nodes a).length = max nodes.length (a + 1) := by simp [markBoundary, grow_len]
    have hget : ∀ x, (markBoundary nodes a)[x]? = (fun n : UNode => if a = x then { n with isBoundary := true } else n) <$>
        (if x < nodes.length then nodes[x]? else if x < a + 1 then some UNode.fresh else none) := by
      intro x
      unfold markBoundary
      rw [List.getElem?_modify, grow_get]
    rw [List.foldl_cons]
    refine ⟨?_, by omega, ?_⟩
    · intro n hn
      simp only [List.mem_cons] at hn
      rcases hn with rfl | hn
      · omega
      · exact h1 n hn
    · intro x n hx
      rw [h3 x n hx]
      simp only [List.mem_cons, hget]
      by_cases hax : a = x
      · subst hax
        simp only [true_or, if_true, iff_true]
        right
        by_cases hl : a < nodes.length
        · exact ⟨_, by rw [if_pos hl, List.getElem?_eq_getElem hl]; rfl, rfl⟩
        · exact ⟨_, by rw [if_neg hl, if_pos (by omega)]; rfl, rfl⟩
      · have hxa : ¬ x = a := fun h => hax h.symm
        simp only [hax, hxa, if_false, false_or]
        by_cases hl : x < nodes.length
        · simp [hl]
        · simp only [if_neg hl, List.getElem?_eq_none (Nat.le_of_not_lt hl)]
          by_cases hl2 : x < a + 1
          · simp [hl2, UNode.fresh]
          · simp [hl2]

omit [Field K] [LinearOrder K] [IsStrictOrderedRing K] [FloorRing K] in
theorem bndOk_setBoundary {g : UGraph K} (h : BndOk g) (b : List Nat) : BndOk (g.setBoundary b) := by
  obtain ⟨h1, h2, h3⟩ := foldl_mark b (g.nodes.mapIdx (fun i x => if i ∈ g.boundary then { x with isBoundary := false } else x))
  refine ⟨fun n hn => h1 n (List.mem_toFinset.1 hn), ?_⟩
  intro x n hn
  rw [h3 x n hn]
  simp only [UGraph.setBoundary, List.mem_toFinset, or_iff_left_iff_imp]
  rintro ⟨n0, hn0, hb⟩
  exfalso
  rw [List.getElem?_mapIdx, Option.map_eq_some_iff] at hn0
  obtain ⟨n1, hn1, rfl⟩ := hn0
  split at hb
  · cases hb
  · rename_i hx
    exact hx ((h.2 x n1 hn1).1 hb)

omit [Field K] [LinearOrder K] [IsStrictOrderedRing K] [FloorRing K] in
theorem bndOk_new (n m : Nat) : BndOk (UGraph.new n m : UGraph K) := by
  refine ⟨by simp [UGraph.new], ?_⟩
  intro x u hx
  simp only [UGraph.new, List.getElem?_replicate] at hx
  split at hx
  · cases hx; simp [UNode.fresh, UGraph.new]
  · cases hx

omit [Field K] [LinearOrder K] [IsStrictOrderedRing K] [FloorRing K] in
/-- Boundary bookkeeping survives changes that only grow the graph by unmarked nodes and touch neighbour lists. -/
theorem bndOk_of {g g' : UGraph K} (h : BndOk g) (hb : g'.boundary = g.boundary) (hl : g.nodes.length ≤ g'.nodes.length)
    (hf : ∀ (x : Nat) (n : UNode), g'.nodes[x]? = some n →
      (n.isBoundary = false ∧ g.nodes[x]? = none) ∨ ∃ n0, g.nodes[x]? = some n0 ∧ n0.isBoundary = n.isBoundary) : BndOk g' := by
  refine ⟨fun n hn => lt_of_lt_of_le (h.1 n (hb ▸ hn)) hl, ?_⟩
  intro x n hx
  rw [hb]
  rcases hf x n hx with ⟨h1, h2⟩ | ⟨n0, h1, h2⟩
  · rw [h1]
    constructor
    · intro hc; cases hc
    · intro hc
      have := h.1 x hc
      rw [List.getElem?_eq_none_iff] at h2
      omega
  · rw [← h2]; exact h.2 x n0 h1

omit [Field K] [LinearOrder K] [IsStrictOrderedRing K] [FloorRing K] in
theorem grow_flags (nodes : List UNode) (m : Nat) (x : Nat) (n : UNode) (h : (grow nodes m)[x]? = some n) :
    (n.isBoundary = false ∧ nodes[x]? = none) ∨ ∃ n0, nodes[x]? = some n0 ∧ n0.isBoundary = n.isBoundary := by
  rw [grow_get] at h
  split at h
  · exact Or.inr ⟨n, h, rfl⟩
  · rename_i hl
    split at h
    · cases h; exact Or.inl ⟨rfl, by simp; omega⟩
    · cases h

omit [IsStrictOrderedRing K] [FloorRing K] in
theorem bndOk_exec (mergeW : K → K → K) {g : UGraph K} (h : BndOk g) (c : UserGraph.Call K) :
    BndOk (UserGraph.exec mergeW g c).1 := by
  have hmod : ∀ (nodes : List UNode) (u : Nat) (l : List (Nat × Bool)) (x : Nat) (n : UNode),
      (nodes.modify u (fun n => { n with neighbors := n.neighbors ++ l }))[x]? = some n →
      ∃ n0, nodes[x]? = some n0 ∧ n0.isBoundary = n.isBoundary := by
    intro nodes u l x n hx
    rw [List.getElem?_modify] at hx
    cases hn : nodes[x]? with
    | none => rw [hn] at hx; cases hx
    | some n0 =>
      rw [hn] at hx
      simp only [Option.map_eq_map, Option.map_some, Option.some.injEq] at hx
      refine ⟨n0, rfl, ?_⟩
      rw [← hx]; split <;> rfl
  have hmerge : ∀ (g : UGraph K), BndOk g → ∀ ei obs w p s, BndOk (g.mergeEdge mergeW ei obs w p s).1 := by
    intro g hg ei obs w p s
    unfold UGraph.mergeEdge
    split
    · exact hg
    · split
      · exact hg
      · exact hg
      · exact hg
  cases c with
  | setBoundary b => exact bndOk_setBoundary h b
  | setMinNumObs n => exact h
  | add u t obs w p s =>
    cases t with
    | none =>
      have hg1 : BndOk { g with nodes := grow g.nodes (u + 1) } :=
        bndOk_of h rfl (by simp [grow_len]) (fun x n hx => grow_flags g.nodes _ x n hx)
      show BndOk (UGraph.addBoundaryEdge mergeW g u obs w p s).1
      unfold UGraph.addBoundaryEdge
      simp only
      split
      · exact hg1
      · split
        · refine bndOk_of hg1 rfl (by simp) ?_
          intro x n hx
          exact Or.inr (hmod _ _ _ x n hx)
        · exact hmerge _ hg1 _ _ _ _ _
    | some v =>
      have hg1 : BndOk { g with nodes := grow g.nodes (max u v + 1) } :=
        bndOk_of h rfl (by simp [grow_len]) (fun x n hx => grow_flags g.nodes _ x n hx)
      show BndOk (UGraph.addEdge mergeW g u v obs w p s).1
      unfold UGraph.addEdge
      simp only
      split
      · exact hg1
      · split
        · refine bndOk_of hg1 rfl ?_ ?_
          · simp only; split <;> simp
          · intro x n hx
            simp only at hx
            right
            split at hx
            · obtain ⟨n1, h1, h2⟩ := hmod _ _ _ x n hx
              obtain ⟨n0, h3, h4⟩ := hmod _ _ _ x n1 h1
              exact ⟨n0, h3, h4.trans h2⟩
            · exact hmod _ _ _ x n hx
        · exact hmerge _ hg1 _ _ _ _ _

omit [IsStrictOrderedRing K] [FloorRing K] in
theorem bndOk_run (mergeW : K → K → K) {g : UGraph K} (h : BndOk g) (cs : List (UserGraph.Call K)) :
    BndOk (UserGraph.run mergeW g cs) := by
  unfold UserGraph.run
  induction cs generalizing g with
  | nil => exact h
  | cons c cs ih => exact ih (bndOk_exec mergeW h c)

omit [IsStrictOrderedRing K] [FloorRing K] in
/-- C35 (counts).  In every reachable graph: the number of detectors plus the number of boundary nodes is the number of
nodes, and a node of the graph is reported as a boundary node iff it is in the boundary set. -/
theorem C35_counts (mergeW : K → K → K) (n m : Nat) (cs : List (UserGraph.Call K)) :
    let g := UserGraph.run mergeW (UGraph.new n m) cs
    g.numDetectors + g.boundary.card = g.nodes.length ∧
    ∀ x, x < g.nodes.length → g.isBoundaryNode (some x) = some (decide (x ∈ g.boundary)) := by
  intro g
  have hb : BndOk g := bndOk_run mergeW (bndOk_new n m) cs
  constructor
  · have hsub : g.boundary ⊆ Finset.range g.nodes.length := fun x hx => Finset.mem_range.2 (hb.1 x hx)
    have := Finset.card_le_card hsub
    rw [Finset.card_range] at this
    unfold UGraph.numDetectors
    omega
  · intro x hx
    simp only [UGraph.isBoundaryNode, List.getElem?_eq_getElem hx, Option.map_some, Option.some.injEq]
    have := hb.2 x _ (List.getElem?_eq_getElem hx)
    rw [Bool.eq_iff_iff, this]
    simp

/-! ## Which insertions reach the decoding graph -/

/-- `e` connects the (non-boundary) detector `u` to the boundary: to the virtual boundary or to a boundary node. -/
def LinksToBoundary (B : Nat → Bool) (u : Nat) (e : UEdge K) : Prop :=
  B u = false ∧ ((e.node1 = u ∧ (e.node2 = none ∨ ∃ v, e.node2 = some v ∧ B v = true)) ∨ (e.node2 = some u ∧ B e.node1 = true))

instance (B : Nat → Bool) (u : Nat) (e : UEdge K) : Decidable (LinksToBoundary B u e) := by
  unfold LinksToBoundary
  have : Decidable (∃ v, e.node2 = some v ∧ B v = true) :=
    match h : e.node2 with
    | none => isFalse (by simp)
    | some v => decidable_of_iff (B v = true) (by simp)
  infer_instance

/-- The insertion of an edge between two detectors. -/
def detectorEdge (B : Nat → Bool) (c : K) (e : UEdge K) : Option (Conv.Ins K) :=
  match e.node2 with
  | none => none
  | some v => if B e.node1 = false ∧ B v = false then some (.edge e.node1 v (disc c e.weight) e.obs e.implied) else none

/-- The insertions of boundary edges at `u`. -/
def bdryAt (u : Nat) : Conv.Ins K → Option (Cand K)
  | .edge .. => none
  | .bdry u' w o im => if u' = u then some (w, o, im) else none

/-- Is it an edge between two detectors? -/
def isEdge : Conv.Ins K → Bool
  | .edge .. => true
  | .bdry .. => false

omit [Field K] [LinearOrder K] [IsStrictOrderedRing K] [FloorRing K] in
theorem emit_isEdge (i : Nat) (cs : List (Option (Cand K))) : (emit i cs).filter isEdge = [] := by
  induction cs generalizing i with
  | nil => rfl
  | cons c cs ih =>
    cases c with
    | none => exact ih (i + 1)
    | some c =>
      obtain ⟨w, o, im⟩ := c
      show List.filter isEdge (Ins.bdry i w o im :: emit (i + 1) cs) = []
      rw [List.filter_cons_of_neg (by simp [isEdge])]
      exact ih (i + 1)

omit [Field K] [LinearOrder K] [IsStrictOrderedRing K] [FloorRing K] in
theorem emit_bdryAt (i u : Nat) (cs : List (Option (Cand K))) :
    (emit i cs).filterMap (bdryAt u) = if i ≤ u then (cs[u - i]?.join).toList else [] := by
  induction cs generalizing i with
  | nil => simp [emit]
  | cons c cs ih =>
    have hrest : (emit (i + 1) cs).filterMap (bdryAt u) = if i + 1 ≤ u then (cs[u - (i + 1)]?.join).toList else [] := ih (i + 1)
    by_cases h1 : i + 1 ≤ u
    · have e : u - i = (u - (i + 1)) + 1 := by omega
      rw [if_pos (by omega), e, List.getElem?_cons_succ]
      rw [if_pos h1] at hrest
      cases c with
      | none => exact hrest
      | some c =>
        obtain ⟨w, o, im⟩ := c
        show (Ins.bdry i w o im :: emit (i + 1) cs).filterMap (bdryAt u) = _
        rw [List.filterMap_cons_none (by simp only [bdryAt]; rw [if_neg (by omega)])]
        exact hrest
    · rw [if_neg h1] at hrest
      by_cases h2 : i ≤ u
      · have : u = i := by omega
        subst this
        rw [if_pos h2, Nat.sub_self, List.getElem?_cons_zero]
        cases c with
        | none => exact hrest
        | some c =>
          obtain ⟨w, o, im⟩ := c
          show (Ins.bdry u w o im :: emit (u + 1) cs).filterMap (bdryAt u) = _
          rw [List.filterMap_cons_some (b := (w, o, im)) (by simp [bdryAt]), hrest]
          rfl
      · rw [if_neg h2]
        cases c with
        | none => exact hrest
        | some c =>
          obtain ⟨w, o, im⟩ := c
          show (Ins.bdry i w o im :: emit (i + 1) cs).filterMap (bdryAt u) = _
          rw [List.filterMap_cons_none (by simp only [bdryAt]; rw [if_neg (by omega)])]
          exact hrest

/-- `best` is the earliest lightest element of `l`. -/
def EarliestLightest (l : List (Cand K)) (best : Cand K) : Prop :=
  ∃ before later, l = before ++ best :: later ∧ (∀ x ∈ before, best.1 < x.1) ∧ (∀ x ∈ later, best.1 ≤ x.1)

omit [Field K] [LinearOrder K] [IsStrictOrderedRing K] [FloorRing K] in
theorem helper_fold (l : List (Conv.Ins K)) (n : Nat) :
    let h := l.foldl helperStep ⟨[], List.replicate n none⟩
    h.calls = l.filter isEdge ∧ h.cand.length = n ∧
    ∀ u, u < n → (h.cand[u]? = some none ∧ l.filterMap (bdryAt u) = []) ∨
      ∃ best, h.cand[u]? = some (some best) ∧ EarliestLightest (l.filterMap (bdryAt u)) best := by
  induction l using List.reverseRecOn with
  | nil =>
    refine ⟨rfl, by simp, fun u hu => Or.inl ⟨by simp [hu], rfl⟩⟩
  | append_singleton l x ih =>
    obtain ⟨h1, h2, h3⟩ := ih
    simp only [List.foldl_append, List.foldl_cons, List.foldl_nil, List.filter_append, List.filterMap_append]
    generalize l.foldl helperStep ⟨[], List.replicate n none⟩ = h at h1 h2 h3 ⊢
    cases x with
    | edge a b w o im =>
      refine ⟨by simp [helperStep, h1]; rfl, h2, ?_⟩
      intro u hu
      have : List.filterMap (bdryAt u) [Ins.edge a b w o im] = [] := rfl
      rw [this, List.append_nil]
      exact h3 u hu
    | bdry a w o im =>
      refine ⟨by simp [helperStep, h1, isEdge], by simp [helperStep, h2], ?_⟩
      intro u hu
      by_cases hau : a = u
      · subst hau
        have e : List.filterMap (bdryAt a) [Ins.bdry a w o im] = [(w, o, im)] := by simp [bdryAt]
        rw [e]
        right
        simp only [helperStep, List.getElem?_modify]
        rcases h3 a hu with ⟨h4, h5⟩ | ⟨best, h4, bef, lat, h5, h6, h7⟩
        · refine ⟨(w, o, im), by rw [h4]; simp, [], [], by rw [h5], by simp, by simp⟩
        · obtain ⟨w', o', im'⟩ := best
          by_cases hlt : w' > w
          · refine ⟨(w, o, im), by rw [h4]; simp [hlt], List.filterMap (bdryAt a) l, [], by simp, ?_, by simp⟩
            intro y hy
            rw [h5] at hy
            simp only [List.mem_append, List.mem_cons] at hy
            rcases hy with hy | rfl | hy
            · exact lt_trans hlt (h6 y hy)
            · exact hlt
            · exact lt_of_lt_of_le hlt (h7 y hy)
          · refine ⟨(w', o', im'), by rw [h4]; simp [hlt], bef, lat ++ [(w, o, im)], by rw [h5]; simp, h6, ?_⟩
            intro y hy
            simp only [List.mem_append, List.mem_singleton] at hy
            rcases hy with hy | rfl
            · exact h7 y hy
            · exact not_lt.1 hlt
      · have e : List.filterMap (bdryAt u) [Ins.bdry a w o im] = [] := by simp [bdryAt, hau]
        rw [e, List.append_nil]
        simp only [helperStep, List.getElem?_modify, if_neg hau]
        rcases h3 u hu with ⟨h4, h5⟩ | ⟨best, h4, h5⟩
        · exact Or.inl ⟨by simp [h4], h5⟩
        · exact Or.inr ⟨best, by simp [h4], h5⟩

omit [IsStrictOrderedRing K] in
theorem route_isEdge (B : Nat → Bool) (c : K) (es : List (UEdge K)) :
    (es.filterMap (route B c)).filter isEdge = es.filterMap (detectorEdge B c) := by
  induction es with
  | nil => rfl
  | cons e es ih =>
    have hstep : (Option.toList (route B c e)).filter isEdge = (detectorEdge B c e).toList := by
      obtain ⟨n1, n2, o, w, p, im⟩ := e
      cases n2 with
      | none => cases hB : B n1 <;> simp [route, detectorEdge, isEdge, hB]
      | some v => cases hB : B n1 <;> cases hv : B v <;> simp [route, detectorEdge, isEdge, hB, hv]
    have hcons : ∀ {α : Type} (f : UEdge K → Option α), (e :: es).filterMap f = (f e).toList ++ es.filterMap f := by
      intro α f
      rw [List.filterMap_cons]
      cases f e <;> rfl
    rw [hcons, hcons, List.filter_append, hstep, ih]

omit [IsStrictOrderedRing K] in
theorem route_bdryAt (B : Nat → Bool) (c : K) (es : List (UEdge K)) (u : Nat) :
    (es.filterMap (route B c)).filterMap (bdryAt u) =
      (es.filter (fun e => LinksToBoundary B u e)).map (fun e => (disc c e.weight, e.obs, e.implied)) := by
  induction es with
  | nil => rfl
  | cons e es ih =>
    have hstep : (Option.toList (route B c e)).filterMap (bdryAt u) =
        if LinksToBoundary B u e then [(disc c e.weight, e.obs, e.implied)] else [] := by
      obtain ⟨n1, n2, o, w, p, im⟩ := e
      by_cases hL : LinksToBoundary B u ⟨n1, n2, o, w, p, im⟩
      · rw [if_pos hL]
        obtain ⟨hu, ⟨h1, h2 | ⟨v, h2, h3⟩⟩ | ⟨h1, h2⟩⟩ := hL
        · simp only at h1 h2; subst h1 h2; simp [route, hu, bdryAt]
        · simp only at h1 h2; subst h1 h2; simp [route, hu, h3, bdryAt]
        · simp only at h1 h2; subst h1; simp [route, hu, h2, bdryAt]
      · rw [if_neg hL]
        simp only [LinksToBoundary] at hL
        cases n2 with
        | none =>
          cases hB : B n1
          · by_cases hu : n1 = u
            · subst hu; simp [hB] at hL
            · simp [route, hB, bdryAt, hu]
          · simp [route, hB]
        | some v =>
          cases hB : B n1 <;> cases hv : B v
          · simp [route, hB, hv, bdryAt]
          · by_cases hu : n1 = u
            · subst hu; simp [hB, hv] at hL
            · simp [route, hB, hv, bdryAt, hu]
          · by_cases hu : v = u
            · subst hu; simp [hB, hv] at hL
            · simp [route, hB, hv, bdryAt, hu]
          · simp [route, hB, hv]
    have hcons : ∀ {α : Type} (f : UEdge K → Option α), (e :: es).filterMap f = (f e).toList ++ es.filterMap f := by
      intro α f
      rw [List.filterMap_cons]
      cases f e <;> rfl
    rw [hcons, List.filterMap_append, hstep, ih, List.filter_cons]
    split <;> simp_all

omit [IsStrictOrderedRing K] in
/-- C35 (conversion).  When the user graph is converted to the decoding graph, the insertion calls are exactly:
every edge between two detectors, once, in order, with its discretised weight; and for each detector connected to
the boundary (virtual boundary or boundary nodes) one boundary edge, with the data of the lightest such edge, the
earliest among equally light ones.  Edges between two boundary nodes contribute nothing. -/
theorem C35_conversion (g : UGraph K) (ins : List (Conv.Ins K)) (k : K) (h : convert g = some (ins, k)) :
    ∃ c, normConst g numDistinctWeights = some c ∧ k = 2 * c ∧
      ins.filter isEdge = g.edges.filterMap (detectorEdge (isB g) c) ∧
      ∀ u, u < g.nodes.length →
        (ins.filterMap (bdryAt u) = [] ∧ ∀ e ∈ g.edges, ¬ LinksToBoundary (isB g) u e) ∨
        ∃ best, ins.filterMap (bdryAt u) = [best] ∧
          EarliestLightest ((g.edges.filter (fun e => LinksToBoundary (isB g) u e)).map
            (fun e => (disc c e.weight, e.obs, e.implied))) best := by
  unfold convert at h
  cases hc : normConst g numDistinctWeights with
  | none => rw [hc] at h; cases h
  | some c =>
    rw [hc] at h
    simp only [Option.some.injEq, Prod.mk.injEq] at h
    obtain ⟨h1, h2⟩ := h
    refine ⟨c, rfl, by rw [← h2, mul_comm], ?_, ?_⟩
    all_goals
      obtain ⟨e1, e2, e3⟩ := helper_fold (g.edges.filterMap (route (isB g) c)) g.nodes.length
      generalize List.foldl helperStep ⟨[], List.replicate g.nodes.length none⟩ (g.edges.filterMap (route (isB g) c)) = st at *
    · rw [← h1, List.filter_append, emit_isEdge, List.append_nil, e1, List.filter_filter, ← route_isEdge]
      congr 1
      funext x; simp
    · intro u hu
      have hcalls : st.calls.filterMap (bdryAt u) = [] := by
        rw [e1, List.filterMap_eq_nil_iff]
        intro x hx
        rw [List.mem_filter] at hx
        cases x with
        | edge => rfl
        | bdry => simp [isEdge] at hx
      have hins : ins.filterMap (bdryAt u) = (st.cand[u]?.join).toList := by
        rw [← h1, List.filterMap_append, hcalls, List.nil_append, emit_bdryAt, if_pos (Nat.zero_le u), Nat.sub_zero]
      rw [hins]
      rcases e3 u hu with ⟨h4, h5⟩ | ⟨best, h4, h5⟩
      · left
        rw [h4]
        refine ⟨rfl, ?_⟩
        rw [route_bdryAt, List.map_eq_nil_iff, List.filter_eq_nil_iff] at h5
        intro e he
        simpa using h5 e he
      · right
        rw [h4]
        refine ⟨best, rfl, ?_⟩
        rw [route_bdryAt] at h5
        exact h5

/-! ## The decoding graph accepts the insertions -/

/-- The insertion call on the decoding graph. -/
def toGraphIns : Conv.Ins K → Graph.EdgeIns
  | .edge u v w o _ => .edge u v w o
  | .bdry u w o _ => .bdry u w o

/-- The nodes an insertion mentions are nodes of the graph. -/
def InRange (n : Nat) : Graph.EdgeIns → Prop
  | .edge u v _ _ => u < n ∧ v < n
  | .bdry u _ _ => u < n

omit [Field K] [LinearOrder K] [IsStrictOrderedRing K] [FloorRing K] in
/-- The decoding graph accepts insertions in range with at most one boundary edge per node and representable observables. -/
theorem run_accepts (n numObs : Nat) (ops : List Graph.EdgeIns) (hr : ∀ i ∈ ops, InRange n i)
    (hb : ∀ x, (ops.filterMap (Graph.seenBdry x)).length ≤ 1) (ho : 64 < numObs ∨ ∀ i ∈ ops, ∀ o ∈ i.obs, o < 64) :
    ∃ g, Graph.run (Verif.Graph.MGraph.empty n numObs) ops = some g := by
  have run_append : ∀ (ops : List Graph.EdgeIns) (i : Graph.EdgeIns) (g : Verif.Graph.MGraph),
      Graph.run g (ops ++ [i]) = (Graph.run g ops).bind fun g => Graph.exec g i := by
    intro ops i
    induction ops with
    | nil =>
      intro g
      show (Graph.exec g i).bind (fun g => some g) = Graph.exec g i
      cases Graph.exec g i <;> rfl
    | cons j ops ih =>
      intro g
      show (Graph.exec g j).bind (fun g => Graph.run g (ops ++ [i])) = ((Graph.exec g j).bind fun g => Graph.run g ops).bind _
      cases Graph.exec g j with
      | none => rfl
      | some g1 => exact ih g1
  induction ops using List.reverseRecOn with
  | nil => exact ⟨_, rfl⟩
  | append_singleton ops i ih =>
    obtain ⟨g, hg⟩ := ih (fun j hj => hr j (by simp [hj]))
      (fun x => by have := hb x; rw [List.filterMap_append, List.length_append] at this; omega)
      (by rcases ho with h | h
          · exact Or.inl h
          · exact Or.inr fun j hj => h j (by simp [hj]))
    rw [run_append, hg, Option.bind_some]
    have hB := Graph.built_run (Graph.built_empty n numObs) hg
    rw [List.nil_append] at hB
    have hmask : ∃ m, Verif.Graph.obsMask g.numObs i.obs = some m := by
      rw [hB.nobs]
      by_cases hn : numObs ≤ 64
      · rcases ho with h | h
        · omega
        · obtain ⟨m, hm, -⟩ := Verif.Graph.obsMask_spec numObs i.obs hn (h i (by simp))
          exact ⟨m, hm⟩
      · exact ⟨0, Verif.Graph.obsMask_large numObs i.obs (by omega)⟩
    obtain ⟨m, hm⟩ := hmask
    have hri := hr i (by simp)
    cases i with
    | edge u v w o =>
      simp only [InRange] at hri
      simp only [Graph.EdgeIns.obs] at hm
      simp only [Graph.exec, Verif.Graph.MGraph.addEdge]
      rw [if_neg (by rw [hB.len]; omega)]
      have hnob : (g.noteNegEdge u v w o).numObs = g.numObs := by
        unfold Verif.Graph.MGraph.noteNegEdge; split <;> rfl
      by_cases huv : u = v
      · simp [huv]
      · simp only [huv, if_false, hnob, hm]
        exact ⟨_, rfl⟩
    | bdry u w o =>
      simp only [InRange] at hri
      simp only [Graph.EdgeIns.obs] at hm
      have hu : u < g.nodes.length := by rw [hB.len]; exact hri
      have hno : ops.filterMap (Graph.seenBdry u) = [] := by
        have := hb u
        rw [List.filterMap_append, List.length_append] at this
        have e : List.filterMap (Graph.seenBdry u) [Graph.EdgeIns.bdry u w o] = [(none, w, o)] := by
          simp [Graph.seenBdry]
        rw [e] at this
        simp only [List.length_singleton] at this
        exact List.eq_nil_of_length_eq_zero (by omega)
      have hadj := hB.adj u hu
      rw [hno, List.nil_append] at hadj
      have hbd : Verif.Graph.hasBoundary g.nodes[u] = false := by
        cases hn : g.nodes[u] with
        | nil => rfl
        | cons x xs =>
          rw [hn] at hadj
          cases hadj' : ops.filterMap (Graph.seenFrom u) with
          | nil => rw [hadj'] at hadj; cases hadj
          | cons r rs =>
            rw [hadj'] at hadj
            cases hadj with
            | cons h1 h2 =>
              have hmem : r ∈ ops.filterMap (Graph.seenFrom u) := by rw [hadj']; simp
              rw [List.mem_filterMap] at hmem
              obtain ⟨op, -, hop⟩ := hmem
              have : r.1.isSome := by
                cases op with
                | edge a b w' o' =>
                  simp only [Graph.seenFrom] at hop
                  split at hop
                  · cases hop
                  · split at hop
                    · cases hop; rfl
                    · split at hop
                      · cases hop; rfl
                      · cases hop
                | bdry a w' o' => cases hop
              show x.target.isNone = false
              rw [h1.1]
              cases hr1 : r.1 with
              | none => rw [hr1] at this; cases this
              | some _ => rfl
      simp only [Graph.exec, Verif.Graph.MGraph.addBoundaryEdge, List.getElem?_eq_getElem hu, hm, hbd, Bool.false_eq_true,
        if_false]
      exact ⟨_, rfl⟩

omit [Field K] [LinearOrder K] [IsStrictOrderedRing K] [FloorRing K] in
theorem seenBdry_map (ins : List (Conv.Ins K)) (x : Nat) :
    ((ins.map toGraphIns).filterMap (Graph.seenBdry x)).length = (ins.filterMap (bdryAt x)).length := by
  induction ins with
  | nil => rfl
  | cons i ins ih =>
    cases i with
    | edge u v w o im =>
      simp only [List.map_cons, toGraphIns]
      rw [List.filterMap_cons_none (by rfl), List.filterMap_cons_none (by rfl)]
      exact ih
    | bdry u w o im =>
      simp only [List.map_cons, toGraphIns]
      by_cases h : u = x
      · rw [List.filterMap_cons_some (b := (none, w, o)) (by simp [Graph.seenBdry, h]),
          List.filterMap_cons_some (b := (w, o, im)) (by simp [bdryAt, h])]
        rw [List.length_cons, List.length_cons, ih]
      · rw [List.filterMap_cons_none (by simp [Graph.seenBdry, h]), List.filterMap_cons_none (by simp [bdryAt, h])]
        exact ih

omit [IsStrictOrderedRing K] in
/-- The insertions of the conversion of a well-formed graph are accepted. -/
theorem accepted_of_wf {g : UGraph K} (hw : WF g) {ins : List (Conv.Ins K)} {k : K} (hconv : convert g = some (ins, k))
    (hobs : 64 < g.numObs ∨ ∀ e ∈ g.edges, ∀ o ∈ e.obs, o < 64) :
    ∃ mg, Graph.run (Verif.Graph.MGraph.empty g.nodes.length g.numObs) (ins.map toGraphIns) = some mg := by
  obtain ⟨c, hc, hk, hedges, hbdry⟩ := C35_conversion g ins k hconv
  -- every insertion comes from a user edge, and mentions only existing nodes
  have hr1 : ∀ e ∈ g.edges, e.node1 < g.nodes.length ∧ ∀ v, e.node2 = some v → v < g.nodes.length := by
    intro e he
    obtain ⟨i, hi, rfl⟩ := List.getElem_of_mem he
    have := UserGraph.key_in_range hw i hi g.edges[i].node1 g.edges[i].node2 rfl
    cases hn2 : g.edges[i].node2 with
    | none => rw [hn2] at this; exact ⟨this, by simp⟩
    | some v =>
      rw [hn2] at this
      simp only [UserGraph.top] at this
      exact ⟨by omega, by intro v' hv'; cases hv'; omega⟩
  have hedge : ∀ i ∈ ins, isEdge i = true → ∃ e ∈ g.edges, ∃ v, e.node2 = some v ∧
      i = .edge e.node1 v (disc c e.weight) e.obs e.implied := by
    intro i hi hie
    have : i ∈ ins.filter isEdge := List.mem_filter.2 ⟨hi, hie⟩
    rw [hedges, List.mem_filterMap] at this
    obtain ⟨e, he, hde⟩ := this
    unfold detectorEdge at hde
    split at hde
    · cases hde
    · rename_i v hv
      split at hde
      · cases hde; exact ⟨e, he, v, hv, rfl⟩
      · cases hde
  have hlenc : ∀ u w o im, Conv.Ins.bdry u w o im ∈ ins → u < g.nodes.length ∧ ∃ e ∈ g.edges, e.obs = o := by
    intro u w o im hi
    have hu : u < g.nodes.length := by
      -- only nodes of the graph are emitted
      unfold convert at hconv
      rw [hc] at hconv
      simp only [Option.some.injEq, Prod.mk.injEq] at hconv
      obtain ⟨h1, -⟩ := hconv
      obtain ⟨e1, e2, e3⟩ := helper_fold (g.edges.filterMap (route (isB g) c)) g.nodes.length
      generalize List.foldl helperStep ⟨[], List.replicate g.nodes.length none⟩ (g.edges.filterMap (route (isB g) c)) = st at *
      rw [← h1, List.mem_append] at hi
      rcases hi with hi | hi
      · rw [e1, List.mem_filter] at hi; simp [isEdge] at hi
      · have : (w, o, im) ∈ (emit 0 st.cand).filterMap (bdryAt u) := by
          rw [List.mem_filterMap]; exact ⟨_, hi, by simp [bdryAt]⟩
        rw [emit_bdryAt, if_pos (Nat.zero_le _), Nat.sub_zero] at this
        by_contra hge
        rw [List.getElem?_eq_none (by omega)] at this
        simp at this
    refine ⟨hu, ?_⟩
    have hmem : (w, o, im) ∈ ins.filterMap (bdryAt u) := by
      rw [List.mem_filterMap]; exact ⟨_, hi, by simp [bdryAt]⟩
    rcases hbdry u hu with ⟨h1, -⟩ | ⟨best, h1, bef, lat, h2, -⟩
    · rw [h1] at hmem; cases hmem
    · rw [h1, List.mem_singleton] at hmem
      subst hmem
      have : (w, o, im) ∈ (g.edges.filter (fun e => LinksToBoundary (isB g) u e)).map
          (fun e => (disc c e.weight, e.obs, e.implied)) := by rw [h2]; simp
      rw [List.mem_map] at this
      obtain ⟨e, he, heq⟩ := this
      simp only [Prod.mk.injEq] at heq
      exact ⟨e, (List.mem_filter.1 he).1, heq.2.1⟩
  refine run_accepts _ _ _ ?_ ?_ ?_
  · intro i hi
    rw [List.mem_map] at hi
    obtain ⟨j, hj, rfl⟩ := hi
    cases j with
    | edge u v w o im =>
      obtain ⟨e, he, v', hv, heq⟩ := hedge _ hj rfl
      cases heq
      exact ⟨(hr1 e he).1, (hr1 e he).2 v hv⟩
    | bdry u w o im => exact (hlenc u w o im hj).1
  · intro x
    rw [seenBdry_map]
    by_cases hx : x < g.nodes.length
    · rcases hbdry x hx with ⟨h1, -⟩ | ⟨best, h1, -⟩ <;> rw [h1] <;> simp
    · have : ins.filterMap (bdryAt x) = [] := by
        rw [List.filterMap_eq_nil_iff]
        intro i hi
        cases i with
        | edge => rfl
        | bdry u w o im =>
          have := (hlenc u w o im hi).1
          simp only [bdryAt]
          rw [if_neg (by omega)]
      rw [this]; simp
  · rcases hobs with h | h
    · exact Or.inl h
    · right
      intro i hi o ho
      rw [List.mem_map] at hi
      obtain ⟨j, hj, rfl⟩ := hi
      cases j with
      | edge u v w ob im =>
        obtain ⟨e, he, v', hv, heq⟩ := hedge _ hj rfl
        cases heq
        exact h e he o ho
      | bdry u w ob im =>
        obtain ⟨-, e, he, heo⟩ := hlenc u w ob im hj
        simp only [toGraphIns, Graph.EdgeIns.obs] at ho
        exact h e he o (heo ▸ ho)

omit [IsStrictOrderedRing K] in
/-- C35 (no rejection).  For every graph reachable through the public interface, the conversion's insertion calls are all
accepted by the decoding graph, provided the observables fit (no fault id of 64 or more while at most 64 fault
ids are declared; see C18 for how that can be violated). -/
theorem C35_conversion_accepted (mergeW : K → K → K) (n m : Nat) (cs : List (UserGraph.Call K))
    (ins : List (Conv.Ins K)) (k : K) :
    let g := UserGraph.run mergeW (UGraph.new n m) cs
    convert g = some (ins, k) → (64 < g.numObs ∨ ∀ e ∈ g.edges, ∀ o ∈ e.obs, o < 64) →
    ∃ mg, Graph.run (Verif.Graph.MGraph.empty g.nodes.length g.numObs) (ins.map toGraphIns) = some mg :=
  fun hconv hobs => accepted_of_wf (UserGraph.wf_run mergeW (wf_new n m) cs) hconv hobs

/-- A concrete graph: node 3 is a boundary node; detector 1 has two edges to the boundary, and the lighter one is used; the
edge between boundary nodes 3 and 4 disappears. -/
example :
    let cs : List (UserGraph.Call ℚ) := [.add 0 (some 1) [0] 3 0 .disallow, .add 1 none [1] 5 0 .disallow,
      .add 3 (some 1) [2] 2 0 .disallow, .add 3 (some 4) [] (-7) 0 .disallow, .setBoundary [3, 4]]
    let g := UserGraph.run (fun a b => min a b) (UGraph.new 0 0) cs
    convert g = some ([.edge 0 1 6 [0] [], .bdry 1 4 [2] []], 2) ∧ g.numDetectors = 3 ∧ g.nodes.length = 5 := by
  decide +kernel

/-! ## Detection events at boundary nodes -/

omit [IsStrictOrderedRing K] in
/-- C35 (pre-flipped nodes).  Whatever the negative weights, the decoding graph never pre-flips a boundary node: the
hypothesis on `neg` in the theorems below holds for every converted graph. -/
theorem C35_boundary_nodes_never_preflipped (g : UGraph K) (ins : List (Conv.Ins K)) (k : K)
    (h : convert g = some (ins, k)) (numNodes numObs : Nat) (mg : Verif.Graph.MGraph)
    (hrun : Graph.run (Verif.Graph.MGraph.empty numNodes numObs) (ins.map toGraphIns) = some mg) :
    ∀ x ∈ mg.negDets, isB g x = false := by
  intro x hx
  rw [(Graph.C15_negative_bookkeeping _ _ _ _ hrun).1] at hx
  by_contra hB
  rw [Bool.not_eq_false] at hB
  -- no insertion mentions a boundary node
  have hno : ∀ i ∈ ins, Graph.EdgeIns.incidence x (toGraphIns i) = 0 := by
    unfold convert at h
    cases hc : normConst g numDistinctWeights with
    | none => rw [hc] at h; cases h
    | some c =>
      rw [hc] at h
      simp only [Option.some.injEq, Prod.mk.injEq] at h
      obtain ⟨h1, -⟩ := h
      obtain ⟨e1, e2, e3⟩ := helper_fold (g.edges.filterMap (route (isB g) c)) g.nodes.length
      generalize List.foldl helperStep ⟨[], List.replicate g.nodes.length none⟩ (g.edges.filterMap (route (isB g) c)) = st at *
      have hroute : ∀ i ∈ g.edges.filterMap (route (isB g) c), Graph.EdgeIns.incidence x (toGraphIns i) = 0 := by
        intro i hi
        rw [List.mem_filterMap] at hi
        obtain ⟨e, -, he⟩ := hi
        simp only [route] at he
        have key : ∀ y, isB g y = false → y ≠ x := by rintro y hy rfl; rw [hB] at hy; cases hy
        split at he
        · split at he
          · cases he
          · rename_i hb
            cases he
            have := key e.node1 (by simpa using hb)
            simp [toGraphIns, Graph.EdgeIns.incidence, this]
        · rename_i v hv
          split at he
          · rename_i hb
            cases he
            have := key e.node1 (by simp at hb; exact hb.2)
            simp [toGraphIns, Graph.EdgeIns.incidence, this]
          · split at he
            · rename_i hb
              cases he
              have := key v (by simp at hb; exact hb.2)
              simp [toGraphIns, Graph.EdgeIns.incidence, this]
            · split at he
              · rename_i hb1 hb2 hb3
                cases he
                have h1' : isB g e.node1 = false := by simpa using hb3
                have h2' : isB g v = false := by
                  rw [h1'] at hb1; simpa using hb1
                have := key _ h1'
                have := key _ h2'
                simp [toGraphIns, Graph.EdgeIns.incidence, *]
              · cases he
      intro i hi
      rw [← h1, List.mem_append] at hi
      rcases hi with hi | hi
      · rw [e1] at hi
        exact hroute i (List.mem_filter.1 hi).1
      · cases i with
        | edge u v w o im =>
          have : Conv.Ins.edge u v w o im ∈ (emit 0 st.cand).filter isEdge := List.mem_filter.2 ⟨hi, rfl⟩
          rw [emit_isEdge] at this
          cases this
        | bdry u w o im =>
          have hm : (w, o, im) ∈ (emit 0 st.cand).filterMap (bdryAt u) := by
            rw [List.mem_filterMap]; exact ⟨_, hi, by simp [bdryAt]⟩
          rw [emit_bdryAt, if_pos (Nat.zero_le _), Nat.sub_zero] at hm
          by_cases hge : u < g.nodes.length
          · rcases e3 u hge with ⟨e4, -⟩ | ⟨best, e4, bef, lat, e5, -⟩
            · rw [e4] at hm; simp at hm
            · have : best ∈ (g.edges.filterMap (route (isB g) c)).filterMap (bdryAt u) := by rw [e5]; simp
              rw [List.mem_filterMap] at this
              obtain ⟨j, hj, hj2⟩ := this
              have := hroute j hj
              cases j with
              | edge => cases hj2
              | bdry u' w' o' im' =>
                simp only [bdryAt] at hj2
                split at hj2
                · rename_i hu'; subst hu'; exact this
                · cases hj2
          · rw [List.getElem?_eq_none (by omega)] at hm
            simp at hm
  have : (((ins.map toGraphIns).filter (·.w < 0)).map (Graph.EdgeIns.incidence x)).sum = 0 := by
    apply List.sum_eq_zero
    intro y hy
    simp only [List.mem_map, List.mem_filter] at hy
    obtain ⟨_, ⟨⟨i, hi, rfl⟩, -⟩, rfl⟩ := hy
    exact hno i hi
  omega

/-- C35 (events at boundary nodes).  Detection events at boundary nodes do not change which nodes are started, whatever
the negative-weight nodes, as long as no boundary node is one of them (`C35_boundary_nodes_never_preflipped`). -/
theorem C35_boundary_events_ignored (numNodes : Nat) (bnd : List Bool) (neg events : List Nat)
    (hev : ∀ d ∈ events, d < numNodes) (hneg : ∀ d ∈ neg, TL.notBoundary bnd d = true) :
    TL.start numNodes bnd neg events = TL.start numNodes bnd neg (events.filter (TL.notBoundary bnd)) := by
  have h1 : ∀ (ev : List Nat) (s : TL.Start), (∀ d ∈ ev, d < numNodes) →
      TL.plainLoop numNodes bnd s ev = TL.plainLoop numNodes bnd s (ev.filter (TL.notBoundary bnd)) := by
    intro ev
    induction ev with
    | nil => intro s _; rfl
    | cons d ds ih =>
      intro s h
      have hd := h d (by simp)
      have hds : ∀ x ∈ ds, x < numNodes := fun x hx => h x (by simp [hx])
      cases hb : TL.notBoundary bnd d
      · rw [List.filter_cons_of_neg (by simp [hb])]
        rw [TL.plainLoop, if_neg (by omega), hb]
        simp only [Bool.false_eq_true, if_false]
        exact ih s hds
      · rw [List.filter_cons_of_pos hb]
        simp only [TL.plainLoop, if_neg (show ¬ d ≥ numNodes by omega), hb, if_true]
        exact ih _ hds
  have h2 : ∀ (ev : List Nat) (s : TL.Start), (∀ d ∈ ev, d < numNodes) → (∀ d ∈ s.marks, TL.notBoundary bnd d = true) →
      TL.negLoop numNodes bnd s ev = TL.negLoop numNodes bnd s (ev.filter (TL.notBoundary bnd)) := by
    intro ev
    induction ev with
    | nil => intro s _ _; rfl
    | cons d ds ih =>
      intro s h hm
      have hd := h d (by simp)
      have hds : ∀ x ∈ ds, x < numNodes := fun x hx => h x (by simp [hx])
      cases hb : TL.notBoundary bnd d
      · rw [List.filter_cons_of_neg (by simp [hb])]
        have hnm : d ∉ s.marks := fun hc => by rw [hm d hc] at hb; cases hb
        rw [TL.negLoop, if_neg (by omega), if_pos hnm, hb]
        simp only [Bool.false_eq_true, if_false]
        exact ih s hds hm
      · rw [List.filter_cons_of_pos hb]
        simp only [TL.negLoop, if_neg (show ¬ d ≥ numNodes by omega), hb, if_true]
        by_cases hnm : d ∉ s.marks
        · rw [if_pos hnm, if_pos hnm]
          exact ih _ hds hm
        · rw [if_neg hnm, if_neg hnm]
          exact ih _ hds (fun x hx => hm x (Finset.mem_of_mem_erase hx))
  unfold TL.start
  split
  · exact h1 events _ hev
  · rw [h2 events _ hev (fun d hd => hneg d (List.mem_toFinset.1 hd))]

/-- C35 (which nodes are started).  For distinct in-range events, the nodes that get a detection event are each started
once, and are exactly those in the symmetric difference of the non-boundary events and the pre-flipped nodes; no marks
are left behind. -/
theorem C35_started_nodes (numNodes : Nat) (bnd : List Bool) (neg events : List Nat)
    (hev : ∀ d ∈ events, d < numNodes) (hnd : events.Nodup) (hneg : ∀ d ∈ neg, TL.notBoundary bnd d = true)
    (hnn : neg.Nodup) :
    ∃ s, TL.start numNodes bnd neg events = (s, true) ∧ s.marks = ∅ ∧ s.started.Nodup ∧
      ∀ d, d ∈ s.started ↔ ¬ ((d ∈ events ∧ TL.notBoundary bnd d = true) ↔ d ∈ neg) := by
  have h1 : ∀ (ev : List Nat) (s : TL.Start), (∀ d ∈ ev, d < numNodes) → ev.Nodup → s.started.Nodup →
      (∀ d ∈ ev, d ∉ s.started) → ∃ s', TL.plainLoop numNodes bnd s ev = (s', true) ∧ s'.marks = s.marks ∧
        s'.started.Nodup ∧ ∀ d, d ∈ s'.started ↔ d ∈ s.started ∨ (d ∈ ev ∧ TL.notBoundary bnd d = true) := by
    intro ev
    induction ev with
    | nil => intro s _ _ hs _; exact ⟨s, rfl, rfl, hs, by simp⟩
    | cons d ds ih =>
      intro s h hn hs hdis
      have hd := h d (by simp)
      have hds : ∀ x ∈ ds, x < numNodes := fun x hx => h x (by simp [hx])
      rw [List.nodup_cons] at hn
      rw [TL.plainLoop, if_neg (by omega)]
      cases hb : TL.notBoundary bnd d
      · simp only [Bool.false_eq_true, if_false]
        obtain ⟨s', e1, e2, e3, e4⟩ := ih s hds hn.2 hs (fun x hx => hdis x (by simp [hx]))
        refine ⟨s', e1, e2, e3, ?_⟩
        intro x
        rw [e4]
        by_cases hx : x = d
        · subst hx; simp [hb]
        · simp [hx]
      · simp only [if_true]
        obtain ⟨s', e1, e2, e3, e4⟩ := ih ⟨s.started ++ [d], s.marks⟩ hds hn.2
          (by
            rw [List.nodup_append]
            refine ⟨hs, by simp, ?_⟩
            intro a ha b hb'
            simp only [List.mem_singleton] at hb'
            subst hb'
            rintro rfl
            exact hdis a (by simp) ha)
          (by
            intro x hx
            simp only [List.mem_append, List.mem_singleton, not_or]
            exact ⟨hdis x (by simp [hx]), by rintro rfl; exact hn.1 hx⟩)
        refine ⟨s', e1, e2, e3, ?_⟩
        intro x
        rw [e4]
        by_cases hx : x = d
        · subst hx; simp [hb]
        · simp [hx]
  have h2 : ∀ (ev : List Nat) (s : TL.Start), (∀ d ∈ ev, d < numNodes) → ev.Nodup → s.started.Nodup →
      (∀ d ∈ ev, d ∉ s.started) → (∀ d ∈ s.started, d ∉ s.marks) →
      ∃ s', TL.negLoop numNodes bnd s ev = (s', true) ∧
        s'.started.Nodup ∧ (∀ d, d ∈ s'.started ↔ d ∈ s.started ∨ (d ∈ ev ∧ d ∉ s.marks ∧ TL.notBoundary bnd d = true)) ∧
        (∀ d, d ∈ s'.marks ↔ d ∈ s.marks ∧ d ∉ ev) := by
    intro ev
    induction ev with
    | nil => intro s _ _ hs _ _; exact ⟨s, rfl, hs, by simp, by simp⟩
    | cons d ds ih =>
      intro s h hn hs hdis hsm
      have hd := h d (by simp)
      have hds : ∀ x ∈ ds, x < numNodes := fun x hx => h x (by simp [hx])
      rw [List.nodup_cons] at hn
      rw [TL.negLoop, if_neg (by omega)]
      by_cases hm : d ∈ s.marks
      · rw [if_neg (by simpa using hm)]
        obtain ⟨s', e1, e2, e3, e4⟩ := ih ⟨s.started, s.marks.erase d⟩ hds hn.2 hs (fun x hx => hdis x (by simp [hx]))
          (fun x hx hc => hsm x hx (Finset.mem_of_mem_erase hc))
        refine ⟨s', e1, e2, ?_, ?_⟩
        · intro x
          rw [e3]
          by_cases hx : x = d
          · subst hx; simp [hm, hn.1]
          · simp [hx]
        · intro x
          rw [e4]
          by_cases hx : x = d
          · subst hx; simp
          · simp [hx]
      · rw [if_pos hm]
        cases hb : TL.notBoundary bnd d
        · simp only [Bool.false_eq_true, if_false]
          obtain ⟨s', e1, e2, e3, e4⟩ := ih s hds hn.2 hs (fun x hx => hdis x (by simp [hx])) hsm
          refine ⟨s', e1, e2, ?_, ?_⟩
          · intro x
            rw [e3]
            by_cases hx : x = d
            · subst hx; simp [hb]
            · simp [hx]
          · intro x
            rw [e4]
            by_cases hx : x = d
            · subst hx; simp [hm]
            · simp [hx]
        · simp only [if_true]
          obtain ⟨s', e1, e2, e3, e4⟩ := ih ⟨s.started ++ [d], s.marks⟩ hds hn.2
            (by
              rw [List.nodup_append]
              refine ⟨hs, by simp, ?_⟩
              intro a ha b hb'
              simp only [List.mem_singleton] at hb'
              subst hb'
              rintro rfl
              exact hdis a (by simp) ha)
            (by
              intro x hx
              simp only [List.mem_append, List.mem_singleton, not_or]
              exact ⟨hdis x (by simp [hx]), by rintro rfl; exact hn.1 hx⟩)
            (by
              intro x hx
              simp only [List.mem_append, List.mem_singleton] at hx
              rcases hx with hx | rfl
              · exact hsm x hx
              · exact hm)
          refine ⟨s', e1, e2, ?_, ?_⟩
          · intro x
            rw [e3]
            by_cases hx : x = d
            · subst hx; simp [hb, hm]
            · simp [hx]
          · intro x
            rw [e4]
            by_cases hx : x = d
            · subst hx; simp [hm]
            · simp [hx]
  have h3 : ∀ (ng : List Nat) (s : TL.Start), ng.Nodup → s.started.Nodup → (∀ d ∈ s.started, d ∉ s.marks) →
      (TL.finishLoop s ng).started.Nodup ∧
      (∀ d, d ∈ (TL.finishLoop s ng).started ↔ d ∈ s.started ∨ (d ∈ ng ∧ d ∈ s.marks)) ∧
      (∀ d, d ∈ (TL.finishLoop s ng).marks ↔ d ∈ s.marks ∧ d ∉ ng) := by
    intro ng
    induction ng with
    | nil => intro s _ hs _; exact ⟨hs, by simp [TL.finishLoop], by simp [TL.finishLoop]⟩
    | cons d ds ih =>
      intro s hn hs hsm
      rw [List.nodup_cons] at hn
      rw [TL.finishLoop]
      by_cases hm : d ∈ s.marks
      · rw [if_pos hm]
        obtain ⟨e1, e2, e3⟩ := ih ⟨s.started ++ [d], s.marks.erase d⟩ hn.2
          (by
            rw [List.nodup_append]
            refine ⟨hs, by simp, ?_⟩
            intro a ha b hb'
            simp only [List.mem_singleton] at hb'
            subst hb'
            rintro rfl
            exact hsm a ha hm)
          (by
            intro x hx
            simp only [List.mem_append, List.mem_singleton] at hx
            simp only [Finset.mem_erase, not_and]
            rcases hx with hx | rfl
            · intro _; exact hsm x hx
            · intro hc; exact absurd rfl hc)
        refine ⟨e1, ?_, ?_⟩
        · intro x
          rw [e2]
          by_cases hx : x = d
          · subst hx; simp [hm]
          · simp [hx]
        · intro x
          rw [e3]
          by_cases hx : x = d
          · subst hx; simp
          · simp [hx]
      · rw [if_neg hm]
        obtain ⟨e1, e2, e3⟩ := ih s hn.2 hs hsm
        refine ⟨e1, ?_, ?_⟩
        · intro x
          rw [e2]
          by_cases hx : x = d
          · subst hx; simp [hm]
          · simp [hx]
        · intro x
          rw [e3]
          by_cases hx : x = d
          · subst hx; simp [hm]
          · simp [hx]
  unfold TL.start
  by_cases hne : neg.isEmpty = true
  · rw [if_pos hne]
    rw [List.isEmpty_iff] at hne
    subst hne
    obtain ⟨s, e1, e2, e3, e4⟩ := h1 events ⟨[], ∅⟩ hev hnd (by simp) (by simp)
    exact ⟨s, e1, e2, e3, by intro d; rw [e4]; simp⟩
  · rw [if_neg hne]
    obtain ⟨s, e1, e2, e3, e4⟩ := h2 events ⟨[], neg.toFinset⟩ hev hnd (by simp) (by simp) (by simp)
    have hsm : ∀ d ∈ s.started, d ∉ s.marks := by
      intro d hd hm
      rw [e3] at hd
      rw [e4] at hm
      simp only [List.not_mem_nil, false_or] at hd
      exact hm.2 hd.1
    obtain ⟨f1, f2, f3⟩ := h3 neg s hnn e2 hsm
    rw [e1]
    refine ⟨_, rfl, ?_, f1, ?_⟩
    · ext d
      rw [f3, e4]
      simp only [List.mem_toFinset, Finset.notMem_empty, iff_false]
      exact fun h => h.2 h.1.1
    · intro d
      rw [f2, e3, e4]
      simp only [List.not_mem_nil, false_or, List.mem_toFinset]
      by_cases hd : d ∈ neg
      · have := hneg d hd
        simp [hd, this]
      · simp [hd]

example : TL.start 5 [false, false, false, true, false] [1, 4] [0, 1, 3] = (⟨[0, 4], ∅⟩, true) := by decide

end Verif.Props.Convert
