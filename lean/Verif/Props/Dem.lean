import Verif.Dem
import Verif.Props.MergeWeights

/-!
# Properties of loading a detector error model (C21, C22)
-/

namespace Verif.Props.Dem

open Verif.UG Verif.Dem Verif.Props.UserGraph Verif.Props.MergeWeights
open Verif.MW (mergeWeights)

/-! ## Specification -/

/-- Detectors named in a list of targets. -/
def detsOf (ts : List Target) : List Nat := ts.filterMap fun | .det d => some d | _ => none

/-- Observables named in a list of targets. -/
def obsOf (ts : List Target) : List Nat := ts.filterMap fun | .obs o => some o | _ => none

/-- The components of an error: the target list is split at the separators; each component has detectors and observables. -/
def components {K : Type} (e : Err K) : List (List Nat × List Nat) :=
  (e.targets.splitOn .sep).map fun c => (detsOf c, obsOf c)

/-- The component is graph-like and connects `u` with `t` (`none`: the boundary). -/
def connects (u : Nat) (t : Option Nat) (dets : List Nat) : Prop :=
  match dets with
  | [a] => samePair u t a none
  | [a, b] => samePair u t a (some b)
  | _ => False

instance (u : Nat) (t : Option Nat) : (dets : List Nat) → Decidable (connects u t dets)
  | [] => isFalse id
  | [a] => inferInstanceAs (Decidable (samePair u t a none))
  | [a, b] => inferInstanceAs (Decidable (samePair u t a (some b)))
  | _ :: _ :: _ :: _ => isFalse id

/-- All components of the model (of errors with non-zero probability) that connect `u` with `t`, in order: their observables and the
probability of their error. -/
noncomputable def contributions (u : Nat) (t : Option Nat) (es : List (Err ℝ)) : List (List Nat × ℝ) :=
  es.flatMap fun e =>
    if e.p = 0 then [] else ((components e).filter (fun c => connects u t c.1)).map fun c => (c.2, e.p)

/-- The loaded graph has exactly the edges that the model's components dictate. -/
def LoadedFrom (es : List (Err ℝ)) (g : UGraph ℝ) : Prop :=
  ∀ u t, match contributions u t es with
    | [] => dataOf g u t = none
    | c :: cs => ∃ r, dataOf g u t = some r ∧ r.obs = c.1 ∧ r.prob = oddOf ((c :: cs).map Prod.snd) ∧ r.weight = llr r.prob

/-- The probabilities are probabilities, and detectors and observables are within the counts that stim reports. -/
def Valid (m : Model ℝ) : Prop :=
  ∀ e ∈ m.errors, (0 ≤ e.p ∧ e.p < 1) ∧ (∀ d, .det d ∈ e.targets → d < m.numDets) ∧ (∀ o, .obs o ∈ e.targets → o < m.numObs)

/-! ## Helper lemmas: splitting -/

/-- Splitting at separators with accumulators. -/
def segs : List Nat → List Nat → List Target → List (List Nat × List Nat)
  | ds, os, [] => [(ds, os)]
  | ds, os, .det d :: ts => segs (ds ++ [d]) os ts
  | ds, os, .obs o :: ts => segs ds (os ++ [o]) ts
  | ds, os, .sep :: ts => (ds, os) :: segs [] [] ts

theorem segs_eq (ds os : List Nat) (ts : List Target) :
    segs ds os ts = ((ts.splitOn .sep).map fun c => (detsOf c, obsOf c)).modifyHead fun c => (ds ++ c.1, os ++ c.2) := by
  induction ts generalizing ds os with
  | nil => simp [segs, List.splitOn, detsOf, obsOf]
  | cons x ts ih =>
    have hcons : (x :: ts).splitOn .sep = if x = .sep then [] :: ts.splitOn .sep else (ts.splitOn .sep).modifyHead (x :: ·) := by
      unfold List.splitOn
      rw [List.splitOnP_cons_eq_if_modifyHead]
      simp
    rw [hcons]
    have hne : ts.splitOn .sep ≠ [] := List.splitOnP_ne_nil _ _
    cases hs : ts.splitOn .sep with
    | nil => exact absurd hs hne
    | cons c cs =>
      rw [hs] at ih
      cases x with
      | sep => simp [segs, ih, detsOf, obsOf]
      | det d => simp [segs, ih, detsOf, obsOf]
      | obs o => simp [segs, ih, detsOf, obsOf]

theorem segs_components {K : Type} (e : Err K) : segs [] [] e.targets = components e := by
  rw [segs_eq]
  unfold components
  cases (e.targets.splitOn .sep).map fun c => (detsOf c, obsOf c) <;> simp

theorem segs_mem (ds os : List Nat) (ts : List Target) :
    ∀ c ∈ segs ds os ts, (∀ d ∈ c.1, d ∈ ds ∨ .det d ∈ ts) ∧ (∀ o ∈ c.2, o ∈ os ∨ .obs o ∈ ts) := by
  induction ts generalizing ds os with
  | nil => intro c hc; simp only [segs, List.mem_singleton] at hc; subst hc; exact ⟨fun d h => Or.inl h, fun o h => Or.inl h⟩
  | cons x ts ih =>
    intro c hc
    cases x with
    | det d =>
      obtain ⟨h1, h2⟩ := ih _ _ c hc
      refine ⟨fun y hy => ?_, fun o ho => ?_⟩
      · rcases h1 y hy with h | h
        · simp only [List.mem_append, List.mem_singleton] at h
          rcases h with h | rfl <;> simp_all
        · simp [h]
      · rcases h2 o ho with h | h <;> simp [h]
    | obs o' =>
      obtain ⟨h1, h2⟩ := ih _ _ c hc
      refine ⟨fun y hy => ?_, fun o ho => ?_⟩
      · rcases h1 y hy with h | h <;> simp [h]
      · rcases h2 o ho with h | h
        · simp only [List.mem_append, List.mem_singleton] at h
          rcases h with h | rfl <;> simp_all
        · simp [h]
    | sep =>
      simp only [segs, List.mem_cons] at hc
      rcases hc with rfl | hc
      · exact ⟨fun d h => Or.inl h, fun o h => Or.inl h⟩
      · obtain ⟨h1, h2⟩ := ih _ _ c hc
        refine ⟨fun y hy => ?_, fun o ho => ?_⟩
        · rcases h1 y hy with h | h
          · cases h
          · simp [h]
        · rcases h2 o ho with h | h
          · cases h
          · simp [h]

theorem edgeCalls_pos {p : ℝ} (hp : p > 0) (ds os : List Nat) (ts : List Target) : edgeCalls p ds os ts = segs ds os ts := by
  induction ts generalizing ds os with
  | nil => simp [edgeCalls, segs, hp]
  | cons x ts ih => cases x <;> simp [edgeCalls, segs, hp, ih]

theorem edgeCalls_zero {p : ℝ} (hp : p = 0) (ds os : List Nat) (ts : List Target) : edgeCalls p ds os ts = [] := by
  induction ts generalizing ds os with
  | nil => simp [edgeCalls, hp]
  | cons x ts ih => cases x <;> simp [edgeCalls, hp] <;> subst hp <;> simpa using ih _ _

/-! ## Helper lemmas: loading is a history of insertions -/

/-- The insertion call for one component. -/
noncomputable def callOf (p : ℝ) (c : List Nat × List Nat) : Option (Call ℝ) :=
  match c.1 with
  | [a] => some (.add a none c.2 (llr p) p .independent)
  | [a, b] => some (.add a (some b) c.2 (llr p) p .independent)
  | _ => none

/-- All insertion calls for a list of errors. -/
noncomputable def callsOf (es : List (Err ℝ)) : List (Call ℝ) :=
  es.flatMap fun e => if e.p = 0 then [] else (components e).filterMap (callOf e.p)

theorem handle_fold (p : ℝ) (cs : List (List Nat × List Nat)) (g : UGraph ℝ) :
    cs.foldl (fun g c => handle mergeWeights llr g p c.1 c.2) g = run mergeWeights g (cs.filterMap (callOf p)) := by
  induction cs generalizing g with
  | nil => rfl
  | cons c cs ih =>
    rw [List.foldl_cons, ih]
    obtain ⟨ds, os⟩ := c
    match ds with
    | [] => rw [List.filterMap_cons_none (by rfl)]; rfl
    | [a] => simp [handle, callOf, run, exec]
    | [a, b] => simp [handle, callOf, run, exec]
    | a :: b :: c :: l => rw [List.filterMap_cons_none (by rfl)]; rfl

theorem run_append (g : UGraph ℝ) (a b : List (Call ℝ)) : run mergeWeights g (a ++ b) = run mergeWeights (run mergeWeights g a) b := by
  simp [run]

theorem load_eq (m : Model ℝ) (hp : ∀ e ∈ m.errors, 0 ≤ e.p) :
    load mergeWeights llr m = run mergeWeights (UGraph.new m.numDets m.numObs) (callsOf m.errors) := by
  unfold load
  generalize UGraph.new m.numDets m.numObs = g
  generalize m.errors = es at hp
  induction es generalizing g with
  | nil => rfl
  | cons e es ih =>
    rw [List.foldl_cons, ih _ (fun x hx => hp x (by simp [hx]))]
    have : callsOf (e :: es) = (if e.p = 0 then [] else (components e).filterMap (callOf e.p)) ++ callsOf es := by
      simp [callsOf]
    rw [this, run_append]
    congr 1
    by_cases h0 : e.p = 0
    · rw [edgeCalls_zero h0, if_pos h0]; rfl
    · rw [edgeCalls_pos (lt_of_le_of_ne (hp e (by simp)) (Ne.symm h0)), segs_components, if_neg h0, handle_fold]

theorem insertions_append (u : Nat) (t : Option Nat) (a b : List (Call ℝ)) :
    insertions u t (a ++ b) = insertions u t a ++ insertions u t b := by
  simp [insertions]

/-- The insertions at one connection. -/
theorem insertions_callsOf (u : Nat) (t : Option Nat) (es : List (Err ℝ)) :
    insertions u t (callsOf es) =
      (contributions u t es).map fun c => (⟨c.1, llr c.2, c.2⟩, Strategy.independent) := by
  have hcomp : ∀ (p : ℝ) (cs : List (List Nat × List Nat)), insertions u t (cs.filterMap (callOf p)) =
      ((cs.filter (fun c => connects u t c.1)).map fun c => (c.2, p)).map
        fun c => ((⟨c.1, llr c.2, c.2⟩ : Data ℝ), Strategy.independent) := by
    intro p cs
    induction cs with
    | nil => rfl
    | cons c cs ih =>
      obtain ⟨ds, os⟩ := c
      match ds with
      | [] =>
        rw [List.filterMap_cons_none (by rfl), List.filter_cons_of_neg (by rw [decide_eq_true_iff]; exact id)]; exact ih
      | [a] =>
        rw [List.filterMap_cons_some (by rfl), insertions_cons, ih]
        by_cases h : samePair u t a none
        · rw [List.filter_cons_of_pos (by rw [decide_eq_true_iff]; exact h)]
          simp [insertions, h]
        · rw [List.filter_cons_of_neg (by rw [decide_eq_true_iff]; exact h)]
          simp [insertions, h]
      | [a, b] =>
        rw [List.filterMap_cons_some (by rfl), insertions_cons, ih]
        by_cases h : samePair u t a (some b)
        · rw [List.filter_cons_of_pos (by rw [decide_eq_true_iff]; exact h)]
          simp [insertions, h]
        · rw [List.filter_cons_of_neg (by rw [decide_eq_true_iff]; exact h)]
          simp [insertions, h]
      | a :: b :: d :: l =>
        rw [List.filterMap_cons_none (by rfl), List.filter_cons_of_neg (by rw [decide_eq_true_iff]; exact id)]; exact ih
  induction es with
  | nil => rfl
  | cons e es ih =>
    have h1 : callsOf (e :: es) = (if e.p = 0 then [] else (components e).filterMap (callOf e.p)) ++ callsOf es := by
      simp [callsOf]
    have h2 : contributions u t (e :: es) = (if e.p = 0 then [] else
        ((components e).filter (fun c => connects u t c.1)).map fun c => (c.2, e.p)) ++ contributions u t es := by
      simp [contributions]
    rw [h1, h2, insertions_append, ih, List.map_append]
    congr 1
    by_cases h0 : e.p = 0
    · rw [if_pos h0, if_pos h0]; rfl
    · rw [if_neg h0, if_neg h0, hcomp]

theorem contributions_prob {u : Nat} {t : Option Nat} {es : List (Err ℝ)} {c : List Nat × ℝ} (hc : c ∈ contributions u t es) :
    ∃ e ∈ es, e.p = c.2 ∧ e.p ≠ 0 := by
  simp only [contributions, List.mem_flatMap] at hc
  obtain ⟨e, he, hm⟩ := hc
  by_cases h0 : e.p = 0
  · rw [if_pos h0] at hm; cases hm
  · rw [if_neg h0, List.mem_map] at hm
    obtain ⟨x, -, rfl⟩ := hm
    exact ⟨e, he, rfl, h0⟩

theorem loaded_run (n k : Nat) (es : List (Err ℝ)) (hp : ∀ e ∈ es, 0 ≤ e.p ∧ e.p < 1) (calls : List (Call ℝ))
    (hcalls : ∀ u t, insertions u t calls = insertions u t (callsOf es)) :
    LoadedFrom es (run mergeWeights (UGraph.new n k) calls) := by
  intro u t
  have hins := (hcalls u t).trans (insertions_callsOf u t es)
  have hpr : ∀ c ∈ contributions u t es, 0 < c.2 ∧ c.2 < 1 := by
    intro c hc
    obtain ⟨e, he, h1, h2⟩ := contributions_prob hc
    rw [← h1]
    exact ⟨lt_of_le_of_ne (hp e he).1 (Ne.symm h2), (hp e he).2⟩
  cases hc : contributions u t es with
  | nil =>
    rw [hc] at hins
    simp only
    rw [dataOf_run mergeWeights (wf_new _ _), hins, dataOf_new]
    rfl
  | cons c cs =>
    rw [hc] at hins hpr
    have h : InsertedWith calls u t .independent ⟨c.1, llr c.2, c.2⟩ (cs.map fun c => ⟨c.1, llr c.2, c.2⟩) := by
      refine ⟨.independent, ?_⟩
      rw [hins]
      simp
    obtain ⟨r, h1, h2, h3, h4⟩ := C20_parallel_edges n k calls u t _ _ h (by
      intro x hx
      simp only [List.mem_cons, List.mem_map] at hx
      rcases hx with rfl | ⟨y, hy, rfl⟩
      · exact ⟨hpr c (by simp), rfl⟩
      · exact ⟨hpr y (by simp [hy]), rfl⟩)
    refine ⟨r, h1, h2, ?_, h4⟩
    rw [h3]
    simp [Function.comp_def]

/-! ## Helper lemmas: counts -/

theorem bumpObs_of_lt (n : Nat) (obs : List Nat) (h : ∀ o ∈ obs, o < n) : bumpObs n obs = n := by
  unfold bumpObs
  induction obs with
  | nil => rfl
  | cons o obs ih =>
    rw [List.foldl_cons, if_neg (by have := h o (by simp); omega)]
    exact ih (fun x hx => h x (by simp [hx]))

theorem run_counts (n k : Nat) (cs : List (Call ℝ)) (g : UGraph ℝ) (hw : WF g) (hn : g.nodes.length = n) (hk : g.numObs = k)
    (hc : ∀ c ∈ cs, ∃ u t obs w p s, c = .add u t obs w p s ∧ top u t < n ∧ ∀ o ∈ obs, o < k) :
    (run mergeWeights g cs).nodes.length = n ∧ (run mergeWeights g cs).numObs = k := by
  induction cs generalizing g with
  | nil => exact ⟨hn, hk⟩
  | cons c cs ih =>
    obtain ⟨u, t, obs, w, p, s, rfl, h1, h2⟩ := hc c (by simp)
    have hlen := exec_add_nodes mergeWeights g u t obs w p s
    have hobs : (exec mergeWeights g (.add u t obs w p s)).1.numObs = k := by
      rcases add_cases mergeWeights hw u t obs w p s with ⟨g', e1, -, -, -, e2, -⟩ | ⟨ei, hei, -, e2⟩
      · rw [e1]; simp only; rw [e2, hk, bumpObs_of_lt k obs h2]
      · rw [e2]
        rcases mergeEdge_cases mergeWeights hw ei hei obs w p s with ⟨-, h3⟩ | ⟨-, g', e', h3, -, -, -, -, h4, -⟩
        · rw [h3]; exact hk
        · rw [h3]; simp only; rw [h4, hk]
    exact ih _ (wf_exec mergeWeights hw _) (by rw [hlen, hn]; omega) hobs (fun x hx => hc x (by simp [hx]))

theorem callsOf_range (m : Model ℝ) (hv : Valid m) :
    ∀ c ∈ callsOf m.errors, ∃ u t obs w p s, c = Call.add u t obs w p s ∧ top u t < m.numDets ∧ ∀ o ∈ obs, o < m.numObs := by
  intro c hc
  simp only [callsOf, List.mem_flatMap] at hc
  obtain ⟨e, he, hm⟩ := hc
  obtain ⟨-, hd, ho⟩ := hv e he
  by_cases h0 : e.p = 0
  · rw [if_pos h0] at hm; cases hm
  · rw [if_neg h0, List.mem_filterMap] at hm
    obtain ⟨x, hx, hcall⟩ := hm
    rw [← segs_components] at hx
    obtain ⟨h1, h2⟩ := segs_mem [] [] e.targets x hx
    have hD : ∀ d ∈ x.1, d < m.numDets := fun d hd' => by
      rcases h1 d hd' with h | h
      · cases h
      · exact hd d h
    have hO : ∀ o ∈ x.2, o < m.numObs := fun o ho' => by
      rcases h2 o ho' with h | h
      · cases h
      · exact ho o h
    obtain ⟨ds, os⟩ := x
    match ds with
    | [] => simp [callOf] at hcall
    | [a] =>
      simp only [callOf, Option.some.injEq] at hcall
      refine ⟨_, _, _, _, _, _, hcall.symm, ?_, hO⟩
      exact hD a (by simp)
    | [a, b] =>
      simp only [callOf, Option.some.injEq] at hcall
      refine ⟨_, _, _, _, _, _, hcall.symm, ?_, hO⟩
      have := hD a (by simp)
      have := hD b (by simp)
      simp only [top]; omega
    | a :: b :: d :: l => simp [callOf] at hcall

/-! ## C21 -/

/-- C21.  Loading without correlations: for every pair of detectors (or detector and boundary) the graph has an edge iff
some graph-like component of a possible error connects them; its probability is that of "an odd number of these errors
happen", its weight the corresponding log-likelihood ratio, its observables those of the first such component;
and the node and observable counts are those of the model. -/
theorem C21_load (m : Model ℝ) (hv : Valid m) :
    LoadedFrom m.errors (load mergeWeights llr m) ∧
    (load mergeWeights llr m).nodes.length = m.numDets ∧ (load mergeWeights llr m).numObs = m.numObs := by
  rw [load_eq m (fun e he => (hv e he).1.1)]
  refine ⟨loaded_run _ _ _ (fun e he => (hv e he).1) _ (fun _ _ => rfl), ?_⟩
  exact run_counts m.numDets m.numObs _ _ (wf_new _ _) (by simp [UGraph.new]) rfl (callsOf_range m hv)

/-- A model with a decomposed error (edge 0-1 and boundary edge 1), an error in parallel, a three-detector component that is
ignored and an error of probability zero. -/
example : Valid ⟨[⟨1/10, [.det 0, .det 1, .obs 0, .sep, .det 1]⟩, ⟨1/4, [.det 1, .det 0, .obs 1]⟩,
      ⟨1/5, [.det 0, .det 1, .det 2]⟩, ⟨0, [.det 2]⟩], 3, 2⟩ ∧
    contributions 1 (some 0) [⟨1/10, [.det 0, .det 1, .obs 0, .sep, .det 1]⟩, ⟨1/4, [.det 1, .det 0, .obs 1]⟩,
      ⟨1/5, [.det 0, .det 1, .det 2]⟩, ⟨0, [.det 2]⟩] = [([0], 1/10), ([1], 1/4)] := by
  constructor
  · intro e he
    simp only [List.mem_cons, List.not_mem_nil, or_false] at he
    rcases he with rfl | rfl | rfl | rfl <;>
      refine ⟨by norm_num, fun d hd => ?_, fun o ho => ?_⟩ <;> simp at * <;> omega
  · have h : ∀ (p : ℝ) (ts : List Target), components (⟨p, ts⟩ : Err ℝ) = segs [] [] ts := fun p ts => (segs_components _).symm
    simp [contributions, h, segs, connects, samePair, List.filter_cons]
    exact decide_eq_false id

/-! ## Helper lemmas: the parser with correlations -/

/-- A component as the parser stores it. -/
def mk (c : List Nat × List Nat) : Comp :=
  match c.1 with
  | [] => ⟨none, none, c.2⟩
  | [a] => ⟨some a, none, c.2⟩
  | a :: b :: _ => ⟨some (min a b), some (max a b), c.2⟩

/-- Result of the loop over the targets, in terms of the components. -/
def fin (done : List Comp) (sp : Bool) : List (List Nat × List Nat) → Option PState
  | [] => none
  | [c] => if c.1.length ≤ 2 then some ⟨done, mk c, c.1.length, sp⟩ else none
  | c :: L => if c.1.length = 1 ∨ c.1.length = 2 then fin (done ++ [mk c]) true L else none

theorem segs_head (ds os : List Nat) (ts : List Target) : ∃ c L, segs ds os ts = c :: L ∧ ds.length ≤ c.1.length := by
  induction ts generalizing ds os with
  | nil => exact ⟨_, _, rfl, Nat.le_refl _⟩
  | cons x ts ih =>
    cases x with
    | det d =>
      obtain ⟨c, L, h1, h2⟩ := ih (ds ++ [d]) os
      exact ⟨c, L, h1, by simp at h2; omega⟩
    | obs o => exact ih ds (os ++ [o])
    | sep => exact ⟨_, _, rfl, Nat.le_refl _⟩

theorem fin_none (done : List Comp) (sp : Bool) (c : List Nat × List Nat) (L : List (List Nat × List Nat)) (h : 2 < c.1.length) :
    fin done sp (c :: L) = none := by
  cases L with
  | nil => simp only [fin]; rw [if_neg (by omega)]
  | cons d L => simp only [fin]; rw [if_neg (by omega)]

theorem fold_pstep (ts : List Target) (done : List Comp) (ds os : List Nat) (sp : Bool) (h : ds.length ≤ 2) :
    ts.foldlM pstep ⟨done, mk (ds, os), ds.length, sp⟩ = fin done sp (segs ds os ts) := by
  induction ts generalizing done ds os sp with
  | nil => simp only [List.foldlM_nil, segs, fin]; rw [if_pos h]; rfl
  | cons x ts ih =>
    rw [List.foldlM_cons]
    cases x with
    | det d =>
      match ds, h with
      | [], _ => exact ih done [d] os sp (by simp)
      | [a], _ =>
        have hstep : pstep ⟨done, mk ([a], os), [a].length, sp⟩ (.det d) = some ⟨done, mk ([a, d], os), 2, sp⟩ := by
          simp only [pstep, mk, List.length_singleton]
          by_cases had : a ≤ d
          · rw [if_pos had, Nat.min_eq_left had, Nat.max_eq_right had]
          · rw [if_neg had, Nat.min_eq_right (by omega), Nat.max_eq_left (by omega)]
        rw [hstep]
        exact ih done [a, d] os sp (by simp)
      | [a, b], _ =>
        obtain ⟨c, L, h1, h2⟩ := segs_head ([a, b] ++ [d]) os ts
        simp only [segs]
        rw [h1, fin_none _ _ _ _ (by simp at h2; omega)]
        rfl
      | a :: b :: c :: l, h => simp at h
    | obs o =>
      have hstep : pstep ⟨done, mk (ds, os), ds.length, sp⟩ (.obs o) = some ⟨done, mk (ds, os ++ [o]), ds.length, sp⟩ := by
        match ds with
        | [] => rfl
        | [a] => rfl
        | a :: b :: l => rfl
      rw [hstep]
      exact ih done ds (os ++ [o]) sp h
    | sep =>
      simp only [segs]
      obtain ⟨c, L, h1, -⟩ := segs_head [] [] ts
      match ds, h with
      | [], _ => rw [h1]; rfl
      | [a], _ =>
        have := ih (done ++ [mk ([a], os)]) [] [] true (by simp)
        rw [h1] at this ⊢
        exact this
      | [a, b], _ =>
        have := ih (done ++ [mk ([a, b], os)]) [] [] true (by simp)
        rw [h1] at this ⊢
        exact this
      | a :: b :: c :: l, h => simp at h

/-- All components of an error are graph-like. -/
def GraphLike (cs : List (List Nat × List Nat)) : Prop := ∀ c ∈ cs, c.1.length = 1 ∨ c.1.length = 2

instance (cs : List (List Nat × List Nat)) : Decidable (GraphLike cs) := by unfold GraphLike; infer_instance

theorem fin_spec (L : List (List Nat × List Nat)) (hL : L ≠ []) (done : List Comp) (sp : Bool) :
    (GraphLike L → ∃ c cs, done ++ L.map mk = cs ++ [c] ∧ ∃ n sp', n ≠ 0 ∧ fin done sp L = some ⟨cs, c, n, sp'⟩) ∧
    (¬ GraphLike L → fin done sp L = none ∨ ∃ s, fin done sp L = some s ∧ s.n = 0 ∧ (s.sep = sp ∧ L.length = 1 ∨ s.sep = true)) := by
  induction L generalizing done sp with
  | nil => exact absurd rfl hL
  | cons c L ih =>
    cases L with
    | nil =>
      simp only [fin]
      constructor
      · intro h
        have := h c (by simp)
        rw [if_pos (by omega)]
        exact ⟨mk c, done, by simp, _, _, by omega, rfl⟩
      · intro h
        by_cases h2 : c.1.length ≤ 2
        · rw [if_pos h2]
          right
          refine ⟨_, rfl, ?_, Or.inl ⟨rfl, rfl⟩⟩
          show c.1.length = 0
          by_contra h0
          exact h (by intro x hx; simp only [List.mem_singleton] at hx; subst hx; omega)
        · rw [if_neg h2]; exact Or.inl rfl
    | cons d L =>
      obtain ⟨h1, h2⟩ := ih (by simp) (done ++ [mk c]) true
      have hf : fin done sp (c :: d :: L) = if c.1.length = 1 ∨ c.1.length = 2 then fin (done ++ [mk c]) true (d :: L) else none := rfl
      rw [hf]
      constructor
      · intro h
        rw [if_pos (h c (by simp))]
        obtain ⟨c', cs', e1, e2⟩ := h1 (fun x hx => h x (List.mem_cons_of_mem _ hx))
        exact ⟨c', cs', by rw [← e1]; simp, e2⟩
      · intro h
        by_cases hc : c.1.length = 1 ∨ c.1.length = 2
        · rw [if_pos hc]
          rcases h2 (fun hg => h (by
            intro x hx
            rcases List.mem_cons.1 hx with rfl | hx
            · exact hc
            · exact hg x hx)) with h3 | ⟨s, h3, h4, h5⟩
          · exact Or.inl h3
          · right
            refine ⟨s, h3, h4, Or.inr ?_⟩
            rcases h5 with ⟨h5, -⟩ | h5 <;> exact h5
        · rw [if_neg hc]; exact Or.inl rfl

section
variable {K : Type} [Field K] [LinearOrder K] [IsStrictOrderedRing K] {mw : K → K → K} {lg : K → K}

/-- What the parser with correlations accepts: probability zero, or at most one half with every component graph-like, or a
single component without detectors. -/
def Accepted (e : Err K) : Prop :=
  e.p ≤ 1 / 2 ∧ (e.p = 0 ∨ GraphLike (components e) ∨ ∃ o, components e = [([], o)])

theorem components_ne_nil (e : Err K) : components e ≠ [] := by
  rw [← segs_components]
  obtain ⟨c, L, h, -⟩ := segs_head [] [] e.targets
  rw [h]; simp

theorem parse_spec (e : Err K) :
    (¬ Accepted e → parse e = .raise) ∧
    (Accepted e → e.p = 0 ∨ ¬ GraphLike (components e) → parse e = .ignore) ∧
    (Accepted e → e.p ≠ 0 → GraphLike (components e) → parse e = .comps ((components e).map mk)) := by
  have hfold : e.targets.foldlM pstep (⟨[], ⟨none, none, []⟩, 0, false⟩ : PState) = fin [] false (components e) := by
    rw [← segs_components]
    exact fold_pstep e.targets [] [] [] false (by simp)
  obtain ⟨h1, h2⟩ := fin_spec (components e) (components_ne_nil e) [] false
  unfold parse
  rw [hfold]
  refine ⟨?_, ?_, ?_⟩
  · intro hA
    by_cases hp : e.p > 1 / 2
    · rw [if_pos hp]
    · rw [if_neg hp]
      have hp0 : e.p ≠ 0 := fun h => hA ⟨not_lt.1 hp, Or.inl h⟩
      rw [if_neg hp0]
      rcases h2 (fun hg => hA ⟨not_lt.1 hp, Or.inr (Or.inl hg)⟩) with h3 | ⟨s, h3, h4, h5⟩
      · rw [h3]
      · rw [h3]
        simp only [h4, if_true]
        rcases h5 with ⟨h5, h6⟩ | h5
        · exfalso
          obtain ⟨c, hc⟩ := List.length_eq_one_iff.1 h6
          rw [hc] at h3
          simp only [fin] at h3
          split at h3
          · cases h3
            simp only at h4
            refine hA ⟨not_lt.1 hp, Or.inr (Or.inr ⟨c.2, ?_⟩)⟩
            rw [hc, ← List.eq_nil_of_length_eq_zero h4]
          · cases h3
        · rw [h5]; rfl
  · rintro ⟨hp, hA⟩ hor
    rw [if_neg (not_lt.2 hp)]
    by_cases h0 : e.p = 0
    · rw [if_pos h0]
    · rw [if_neg h0]
      have hng : ¬ GraphLike (components e) := by tauto
      have : ∃ o, components e = [([], o)] := by tauto
      obtain ⟨o, ho⟩ := this
      rw [ho]
      rfl
  · rintro ⟨hp, hA⟩ h0 hg
    rw [if_neg (not_lt.2 hp), if_neg h0]
    obtain ⟨c, cs, e1, n, sp', e2, e3⟩ := h1 hg
    rw [e3]
    simp only [e2, if_false]
    rw [← e1]; simp

theorem mk_dets (c : List Nat × List Nat) (h : c.1.length = 1 ∨ c.1.length = 2) :
    (mk c).obs = c.2 ∧ ((∃ a, c.1 = [a] ∧ (mk c).dets = [a] ∧ (mk c).key = some (key a none)) ∨
      ∃ a b, c.1 = [a, b] ∧ (mk c).dets = [min a b, max a b] ∧ (mk c).key = some (key a (some b))) := by
  obtain ⟨ds, os⟩ := c
  match ds with
  | [] => simp at h
  | [a] => exact ⟨rfl, Or.inl ⟨a, rfl, rfl, rfl⟩⟩
  | [a, b] =>
    refine ⟨rfl, Or.inr ⟨a, b, rfl, rfl, ?_⟩⟩
    simp [mk, Comp.key, key]
  | a :: b :: c :: l => simp at h

/-! ## Helper lemmas: joint probabilities -/

/-- All updates of the joint map for a mechanism with components `ks`. -/
def updList : List Key → List (Key × Key)
  | [] => []
  | k :: ks => ks.flatMap (fun k1 => [(k, k1), (k1, k)]) ++ updList ks

def apply (A : Arith K) (p : K) (J : Joint K) (l : List (Key × Key)) : Joint K := l.foldl (fun J x => Joint.upd A J x.1 x.2 p) J

theorem pairLoop_eq (A : Arith K) (p : K) (J : Joint K) (ks : List Key) : pairLoop A p J ks = apply A p J (updList ks) := by
  induction ks generalizing J with
  | nil => rfl
  | cons k ks ih =>
    rw [pairLoop, ih, updList]
    unfold apply
    rw [List.foldl_append]
    congr 1
    clear ih
    induction ks generalizing J with
    | nil => rfl
    | cons k1 ks ih => rw [List.foldl_cons, List.flatMap_cons, List.foldl_append, ih]; rfl

theorem addJoint_eq (A : Arith K) (p : K) (J : Joint K) (ks : List Key) :
    addJoint A p J ks = apply A p J (updList ks ++ ks.map fun k => (k, k)) := by
  have : (if ks.length > 1 then pairLoop A p J ks else J) = apply A p J (updList ks) := by
    split
    · exact pairLoop_eq A p J ks
    · rename_i h
      match ks, h with
      | [], _ => rfl
      | [k], _ => rfl
      | a :: b :: l, h => simp at h
  unfold addJoint
  rw [this]
  unfold apply
  rw [List.foldl_append, List.foldl_map]

/-- The number of updates of one entry by one mechanism. -/
theorem count_upd (ks : List Key) (a b : Key) :
    (updList ks ++ ks.map fun k => (k, k)).count (a, b) = ks.count a * ks.count b := by
  have hdiag : ∀ ks : List Key, (ks.map fun k => (k, k)).count (a, b) = if a = b then ks.count a else 0 := by
    intro ks
    induction ks with
    | nil => simp
    | cons k ks ih =>
      rw [List.map_cons, List.count_cons, ih, List.count_cons]
      by_cases hab : a = b
      · subst hab; simp [Prod.ext_iff]
      · have : ¬ (k = a ∧ k = b) := by rintro ⟨rfl, rfl⟩; exact hab rfl
        simp [hab, Prod.mk.injEq, this]
  have hpair : ∀ (k : Key) (ks : List Key), (ks.flatMap (fun k1 => [(k, k1), (k1, k)])).count (a, b) =
      (if k = a then ks.count b else 0) + (if k = b then ks.count a else 0) := by
    intro k ks
    induction ks with
    | nil => simp
    | cons k1 ks ih =>
      rw [List.flatMap_cons, List.count_append, ih]
      simp only [List.count_cons, List.count_nil, beq_iff_eq, Prod.mk.injEq]
      grind
  rw [List.count_append, hdiag]
  induction ks with
  | nil => simp [updList]
  | cons k ks ih =>
    rw [updList, List.count_append, hpair]
    simp only [List.count_cons, beq_iff_eq]
    by_cases hab : a = b
    · subst hab
      by_cases hk : k = a
      · simp only [hk, if_true] at ih ⊢
        rw [Nat.add_mul, Nat.mul_add]; omega
      · simp only [hk, if_false, if_true, Nat.add_zero] at ih ⊢
        omega
    · by_cases h1 : k = a <;> by_cases h2 : k = b
      · exact absurd (h1.symm.trans h2) hab
      · simp only [h1, hab, if_true, if_false, Nat.add_zero] at ih ⊢
        rw [Nat.add_mul]; omega
      · simp only [h2, Ne.symm hab, hab, if_true, if_false, Nat.add_zero] at ih ⊢
        rw [Nat.mul_add]; omega
      · simp only [h1, h2, hab, if_false, Nat.add_zero] at ih ⊢
        omega

theorem get_upd (A : Arith K) (J : Joint K) (a b c d : Key) (p : K) :
    (Joint.upd A J a b p).get c d = if (a, b) = (c, d) then some (A.xor ((J.get a b).getD 0) p) else J.get c d := by
  induction J with
  | nil =>
    by_cases h : (a, b) = (c, d)
    · simp [Joint.upd, Joint.get, h]
    · simp [Joint.upd, Joint.get, h]
  | cons x xs ih =>
    rw [Joint.upd]
    by_cases hx : x.1 = (a, b)
    · rw [if_pos hx]
      by_cases h : (a, b) = (c, d)
      · rw [if_pos h]
        simp [Joint.get, hx, h]
      · rw [if_neg h]
        simp [Joint.get, hx, h]
    · rw [if_neg hx]
      by_cases h : (a, b) = (c, d)
      · rw [if_pos h] at ih ⊢
        unfold Joint.get at ih ⊢
        rw [← h] at ih ⊢
        simp [hx, ih]
      · rw [if_neg h] at ih ⊢
        unfold Joint.get at ih ⊢
        by_cases hx2 : x.1 = (c, d)
        · simp [hx2]
        · simp [hx2, ih]

/-- All the probabilities combined. -/
def all (A : Arith K) (ps : List K) : K := ps.foldl A.xor 0

/-- One update of an entry. -/
def bump (A : Arith K) (v : Option K) (p : K) : Option K := some (A.xor (v.getD 0) p)

theorem bump_all (A : Arith K) (ps : List K) : ps.foldl (bump A) none = if ps = [] then none else some (all A ps) := by
  have h : ∀ (ps : List K) (v : K), ps.foldl (bump A) (some v) = some (ps.foldl A.xor v) := by
    intro ps
    induction ps with
    | nil => intro v; rfl
    | cons p ps ih => intro v; exact ih _
  cases ps with
  | nil => rfl
  | cons p ps => rw [if_neg (by simp)]; exact h ps _

theorem get_apply (A : Arith K) (p : K) (l : List (Key × Key)) (J : Joint K) (a b : Key) :
    (apply A p J l).get a b = (List.replicate (l.count (a, b)) p).foldl (bump A) (J.get a b) := by
  induction l generalizing J with
  | nil => simp [apply]
  | cons x l ih =>
    obtain ⟨x1, x2⟩ := x
    have hstep : apply A p J ((x1, x2) :: l) = apply A p (Joint.upd A J x1 x2 p) l := rfl
    rw [hstep, ih, get_upd]
    by_cases h : (x1, x2) = (a, b)
    · rw [if_pos h]
      have h1 : x1 = a := congrArg Prod.fst h
      have h2 : x2 = b := congrArg Prod.snd h
      subst h1 h2
      rw [List.count_cons_self]
      rfl
    · rw [if_neg h, List.count_cons_of_ne h]

/-! ## C22 specification -/

/-- How often the connection `(u, t)` occurs among the components of an error; 0 if the error has probability zero. -/
def multiplicity (u : Nat) (t : Option Nat) (e : Err K) : Nat :=
  if e.p = 0 then 0 else ((components e).filter (fun c => connects u t c.1)).length

/-- For two connections: one entry with the error's probability for every way of choosing a component of each kind from the same
error.  If no error lists the same connection twice, these are the probabilities of the errors that contain both
(`fires_of_distinct`). -/
def fires (u : Nat) (t : Option Nat) (u' : Nat) (t' : Option Nat) (es : List (Err K)) : List K :=
  es.flatMap fun e => List.replicate (multiplicity u t e * multiplicity u' t' e) e.p

/-! ## Helper lemmas: the loop with correlations -/

/-- Keys of the components of an error, as the joint map uses them. -/
def keysOf (e : Err K) : List Key := if e.p = 0 then [] else ((components e).map mk).filterMap Comp.key

/-- The insertion call for one component, with ordered nodes. -/
def callOf' (lg : K → K) (p : K) (c : List Nat × List Nat) : Option (Call K) :=
  match c.1 with
  | [a] => some (.add a none c.2 (lg p) p .independent)
  | [a, b] => some (.add (min a b) (some (max a b)) c.2 (lg p) p .independent)
  | _ => none

def callsOf' (lg : K → K) (es : List (Err K)) : List (Call K) :=
  es.flatMap fun e => if e.p = 0 then [] else (components e).filterMap (callOf' lg e.p)

end

theorem insertions_callsOf' (u : Nat) (t : Option Nat) (es : List (Err ℝ)) :
    insertions u t (callsOf' llr es) = insertions u t (callsOf es) := by
  have hc : ∀ p (cs : List (List Nat × List Nat)),
      insertions u t (cs.filterMap (callOf' llr p)) = insertions u t (cs.filterMap (callOf p)) := by
    intro p cs
    induction cs with
    | nil => rfl
    | cons c cs ih =>
      obtain ⟨ds, os⟩ := c
      match ds with
      | [] => rw [List.filterMap_cons_none (by rfl), List.filterMap_cons_none (by rfl), ih]
      | [a] => rw [List.filterMap_cons_some (by rfl), List.filterMap_cons_some (by rfl), insertions_cons, insertions_cons (K := ℝ) u t _ (cs.filterMap (callOf p)), ih]
      | [a, b] =>
        rw [List.filterMap_cons_some (by rfl), List.filterMap_cons_some (by rfl), insertions_cons, insertions_cons (K := ℝ) u t _ (cs.filterMap (callOf p)), ih]
        congr 1
        have hiff : samePair u t (min a b) (some (max a b)) ↔ samePair u t a (some b) := by
          rw [samePair_iff_key, samePair_iff_key]
          simp [key]
        by_cases hs : samePair u t a (some b)
        · simp [insertions, hs, hiff.2 hs]
        · simp [insertions, hs, mt hiff.1 hs]
      | a :: b :: d :: l => rw [List.filterMap_cons_none (by rfl), List.filterMap_cons_none (by rfl), ih]
  induction es with
  | nil => rfl
  | cons e es ih =>
    have h1 : callsOf (e :: es) = (if e.p = 0 then [] else (components e).filterMap (callOf e.p)) ++ callsOf es := by
      simp [callsOf]
    have h2 : callsOf' llr (e :: es) = (if e.p = 0 then [] else (components e).filterMap (callOf' llr e.p)) ++ callsOf' llr es := by
      simp [callsOf']
    rw [h1, h2, insertions_append, insertions_append, ih]
    congr 1
    split
    · rfl
    · exact hc _ _

section
variable {K : Type} [Field K] [LinearOrder K] [IsStrictOrderedRing K] {mw : K → K → K} {lg : K → K}

theorem handle_fold' (p : K) (cs : List (List Nat × List Nat)) (hg : GraphLike cs) (g : UGraph K) :
    (cs.map mk).foldl (fun g c => handle mw lg g p c.dets c.obs) g = run mw g (cs.filterMap (callOf' lg p)) := by
  induction cs generalizing g with
  | nil => rfl
  | cons c cs ih =>
    rw [List.map_cons, List.foldl_cons, ih (fun x hx => hg x (List.mem_cons_of_mem _ hx))]
    obtain ⟨h1, h2⟩ := mk_dets c (hg c List.mem_cons_self)
    rw [h1]
    rcases h2 with ⟨a, e1, e2, -⟩ | ⟨a, b, e1, e2, -⟩
    · rw [e2, List.filterMap_cons_some (b := Call.add a none c.2 (lg p) p .independent) (by simp [callOf', e1])]
      simp [handle, run, exec]
    · rw [e2, List.filterMap_cons_some (b := Call.add (min a b) (some (max a b)) c.2 (lg p) p .independent)
        (by simp [callOf', e1])]
      simp [handle, run, exec]

theorem corr_fold (A : Arith K) (es : List (Err K)) (hA : ∀ e ∈ es, Accepted e) (g : UGraph K) (J : Joint K) :
    es.foldlM (corrStep A mw lg) (g, J) =
      some (run mw g (callsOf' lg es), es.foldl (fun J e => addJoint A e.p J (keysOf e)) J) := by
  induction es generalizing g J with
  | nil => rfl
  | cons e es ih =>
    have hAe := hA e List.mem_cons_self
    obtain ⟨-, p2, p3⟩ := parse_spec e
    have h2 : callsOf' lg (e :: es) = (if e.p = 0 then [] else (components e).filterMap (callOf' lg e.p)) ++ callsOf' lg es := by
      simp [callsOf']
    have hrun : ∀ a b, run mw g (a ++ b) = run mw (run mw g a) b := fun a b => by simp [run]
    rw [List.foldlM_cons, List.foldl_cons, h2, hrun]
    have hstep : corrStep A mw lg (g, J) e =
        some (run mw g (if e.p = 0 then [] else (components e).filterMap (callOf' lg e.p)), addJoint A e.p J (keysOf e)) := by
      unfold corrStep
      by_cases h0 : e.p = 0
      · rw [p2 hAe (Or.inl h0)]
        simp [h0, keysOf, addJoint, run]
      · by_cases hg : GraphLike (components e)
        · rw [p3 hAe h0 hg]
          simp only
          rw [handle_fold' e.p _ hg, if_neg h0]
          simp [keysOf, h0]
        · rw [p2 hAe (Or.inr hg)]
          obtain ⟨-, h | h | ⟨o, ho⟩⟩ := hAe
          · exact absurd h h0
          · exact absurd h hg
          · simp only [keysOf, h0, if_false, ho]; rfl
    rw [hstep]
    exact ih (fun x hx => hA x (List.mem_cons_of_mem _ hx)) _ _

theorem corr_fold_none (A : Arith K) (es : List (Err K)) (e : Err K) (he : e ∈ es) (hA : ¬ Accepted e) (s : UGraph K × Joint K) :
    es.foldlM (corrStep A mw lg) s = none := by
  induction es generalizing s with
  | nil => cases he
  | cons x es ih =>
    rw [List.foldlM_cons]
    by_cases hx : Accepted x
    · have : e ∈ es := by
        rcases List.mem_cons.1 he with rfl | h
        · exact absurd hx hA
        · exact h
      obtain ⟨g, J⟩ := s
      cases hs : corrStep A mw lg (g, J) x with
      | none => rfl
      | some s' => exact ih this s'
    · have : corrStep A mw lg s x = none := by
        unfold corrStep
        rw [(parse_spec x).1 hx]
      rw [this]; rfl

/-! ## Helper lemmas: reading the joint map -/

theorem key_mk_iff (u : Nat) (t : Option Nat) (c : List Nat × List Nat) (h : c.1.length ≤ 2) :
    (mk c).key = some (key u t) ↔ connects u t c.1 := by
  obtain ⟨ds, os⟩ := c
  match ds, h with
  | [], _ => simp [mk, Comp.key, connects]
  | [a], _ =>
    show some (key a none) = some (key u t) ↔ samePair u t a none
    rw [samePair_iff_key, Option.some.injEq]
  | [a, b], _ =>
    show (mk ([a, b], os)).key = some (key u t) ↔ samePair u t a (some b)
    have : (mk ([a, b], os)).key = some (key a (some b)) := by simp [mk, Comp.key, key]
    rw [this, samePair_iff_key, Option.some.injEq]
  | a :: b :: d :: l, h => simp at h

theorem count_keysOf (u : Nat) (t : Option Nat) (e : Err K) (hA : Accepted e) :
    (keysOf e).count (key u t) = multiplicity u t e := by
  unfold keysOf multiplicity
  by_cases h0 : e.p = 0
  · simp [h0]
  · rw [if_neg h0, if_neg h0]
    have hlen : ∀ c ∈ components e, c.1.length ≤ 2 := by
      intro c hc
      obtain ⟨-, h | h | ⟨o, ho⟩⟩ := hA
      · exact absurd h h0
      · rcases h c hc with h | h <;> omega
      · rw [ho, List.mem_singleton] at hc; subst hc; simp
    generalize components e = cs at hlen
    induction cs with
    | nil => rfl
    | cons c cs ih =>
      have ih := ih (fun x hx => hlen x (List.mem_cons_of_mem _ hx))
      have hk := key_mk_iff u t c (hlen c List.mem_cons_self)
      rw [List.map_cons, List.filterMap_cons, List.filter_cons]
      by_cases hc : connects u t c.1
      · rw [hk.2 hc]
        simp only [List.count_cons_self, hc, decide_true, if_true, List.length_cons, ih]
      · rw [if_neg (by rw [decide_eq_true_iff]; exact hc), ← ih]
        cases hm : (mk c).key with
        | none => rfl
        | some k =>
          simp only
          rw [List.count_cons_of_ne]
          intro hh
          exact hc (hk.1 (by rw [hm, hh]))

theorem mem_keysOf (e : Err K) (k : Key) (h : k ∈ keysOf e) : ∃ u t, k = key u t := by
  unfold keysOf at h
  split at h
  · cases h
  · simp only [List.filterMap_map, List.mem_filterMap, Function.comp] at h
    obtain ⟨c, -, hc⟩ := h
    unfold Comp.key at hc
    cases hn : (mk c).node1 with
    | none => rw [hn] at hc; cases hc
    | some a => rw [hn] at hc; cases hc; exact ⟨_, _, rfl⟩

/-- The joint map after all errors. -/
def jointFold (es : List (Err K)) (A : Arith K := .exact) : Joint K := es.foldl (fun J e => addJoint A e.p J (keysOf e)) []

theorem joint_get (A : Arith K) (es : List (Err K)) (a b : Key) (J : Joint K) :
    (es.foldl (fun J e => addJoint A e.p J (keysOf e)) J).get a b =
      (es.flatMap fun e => List.replicate ((keysOf e).count a * (keysOf e).count b) e.p).foldl (bump A) (J.get a b) := by
  induction es generalizing J with
  | nil => rfl
  | cons e es ih => rw [List.foldl_cons, ih, addJoint_eq, get_apply, count_upd, List.flatMap_cons, List.foldl_append]

theorem joint_fold (A : Arith K) (es : List (Err K)) (a b : Key) :
    (jointFold es A).get a b =
      if (es.flatMap fun e => List.replicate ((keysOf e).count a * (keysOf e).count b) e.p) = [] then none
      else some (all A (es.flatMap fun e => List.replicate ((keysOf e).count a * (keysOf e).count b) e.p)) :=
  (joint_get A es a b []).trans (bump_all A _)

theorem fires_get (A : Arith K) (u : Nat) (t : Option Nat) (u' : Nat) (t' : Option Nat) (es : List (Err K)) (hA : ∀ e ∈ es, Accepted e) :
    (jointFold es A).get (key u t) (key u' t') =
      if fires u t u' t' es = [] then none else some (all A (fires u t u' t' es)) := by
  have h : (es.flatMap fun e => List.replicate ((keysOf e).count (key u t) * (keysOf e).count (key u' t')) e.p) = fires u t u' t' es := by
    unfold fires
    refine List.flatMap_congr fun e he => ?_
    rw [count_keysOf u t e (hA e he), count_keysOf u' t' e (hA e he)]
  rw [joint_fold, h]

theorem all_exact (l : List K) : all .exact l = oddOf l := by
  have h : ∀ (l : List K) (v : K), 1 - 2 * l.foldl bxor v = (1 - 2 * v) * (l.map (fun p => 1 - 2 * p)).prod := by
    intro l
    induction l with
    | nil => intro v; simp
    | cons p l ih =>
      intro v
      rw [List.foldl_cons, ih, List.map_cons, List.prod_cons, ← mul_assoc]
      congr 1
      unfold bxor
      ring
  have := h l 0
  unfold oddOf
  rw [mul_zero, sub_zero, one_mul] at this
  rw [← this]
  show l.foldl bxor 0 = _
  ring

theorem fires_eq (u : Nat) (t : Option Nat) (u' : Nat) (t' : Option Nat) (es : List (Err K)) (hA : ∀ e ∈ es, Accepted e) :
    (jointFold es).get (key u t) (key u' t') =
      if fires u t u' t' es = [] then none else some (oddOf (fires u t u' t' es)) := by
  rw [fires_get .exact u t u' t' es hA, all_exact]

theorem oddOf_range (l : List K) (hl : l ≠ []) (h : ∀ p ∈ l, 0 < p ∧ p ≤ 1 / 2) : 0 < oddOf l ∧ oddOf l ≤ 1 / 2 := by
  have key : ∀ l : List K, (∀ p ∈ l, 0 < p ∧ p ≤ 1 / 2) → 0 ≤ (l.map (fun p => 1 - 2 * p)).prod ∧
      (l.map (fun p => 1 - 2 * p)).prod ≤ 1 ∧ (l ≠ [] → (l.map (fun p => 1 - 2 * p)).prod < 1) := by
    intro l
    induction l with
    | nil => intro _; simp
    | cons p l ih =>
      intro h
      obtain ⟨h1, h2, -⟩ := ih (fun q hq => h q (List.mem_cons_of_mem _ hq))
      obtain ⟨h3, h4⟩ := h p List.mem_cons_self
      simp only [List.map_cons, List.prod_cons]
      have hp0 : 0 ≤ 1 - 2 * p := by linarith
      have hlt : (1 - 2 * p) * (l.map (fun p => 1 - 2 * p)).prod < 1 := by nlinarith
      exact ⟨mul_nonneg hp0 h1, hlt.le, fun _ => hlt⟩
  obtain ⟨h1, h2, h3⟩ := key l h
  have := h3 hl
  unfold oddOf
  constructor <;> linarith

theorem fires_range (u : Nat) (t : Option Nat) (u' : Nat) (t' : Option Nat) (es : List (Err K))
    (hA : ∀ e ∈ es, 0 ≤ e.p ∧ Accepted e) : ∀ p ∈ fires u t u' t' es, 0 < p ∧ p ≤ 1 / 2 := by
  intro p hp
  simp only [fires, List.mem_flatMap] at hp
  obtain ⟨e, he, hm⟩ := hp
  rw [List.mem_replicate] at hm
  obtain ⟨h1, rfl⟩ := hm
  obtain ⟨h2, h3⟩ := hA e he
  refine ⟨lt_of_le_of_ne h2 ?_, h3.1⟩
  intro h0
  apply h1
  simp [multiplicity, ← h0]

/-- If no error lists a connection twice, `fires` are the probabilities of the errors that contain both connections. -/
theorem fires_of_distinct (u : Nat) (t : Option Nat) (u' : Nat) (t' : Option Nat) (es : List (Err K))
    (hd : ∀ e ∈ es, multiplicity u t e ≤ 1 ∧ multiplicity u' t' e ≤ 1) :
    fires u t u' t' es =
      (es.filter fun e => multiplicity u t e = 1 ∧ multiplicity u' t' e = 1).map Err.p := by
  induction es with
  | nil => rfl
  | cons e es ih =>
    have hcons : fires u t u' t' (e :: es) =
        List.replicate (multiplicity u t e * multiplicity u' t' e) e.p ++ fires u t u' t' es := by simp [fires]
    rw [hcons, ih (fun x hx => hd x (List.mem_cons_of_mem _ hx)), List.filter_cons]
    obtain ⟨h1, h2⟩ := hd e List.mem_cons_self
    by_cases h : multiplicity u t e = 1 ∧ multiplicity u' t' e = 1
    · rw [if_pos (by simpa using h), h.1, h.2]; rfl
    · rw [if_neg (by simpa using h)]
      have : multiplicity u t e * multiplicity u' t' e = 0 := by
        rw [Nat.mul_eq_zero]; omega
      rw [this]; rfl

theorem fires_symm (u : Nat) (t : Option Nat) (u' : Nat) (t' : Option Nat) (es : List (Err K)) :
    fires u t u' t' es = fires u' t' u t es := by
  unfold fires
  congr 1
  funext e
  rw [Nat.mul_comm]

/-! ## Helper lemmas: implied weights -/

theorem nodup_upd (A : Arith K) (J : Joint K) (h : (J.map Prod.fst).Nodup) (a b : Key) (p : K) :
    ((Joint.upd A J a b p).map Prod.fst).Nodup ∧ ∀ k, k ∈ (Joint.upd A J a b p).map Prod.fst ↔ k = (a, b) ∨ k ∈ J.map Prod.fst := by
  induction J with
  | nil => simp [Joint.upd]
  | cons x xs ih =>
    rw [List.map_cons, List.nodup_cons] at h
    rw [Joint.upd]
    split
    · rename_i hx
      simp only [List.map_cons, List.nodup_cons, List.mem_cons]
      refine ⟨h, fun k => ?_⟩
      rw [hx]; tauto
    · rename_i hx
      obtain ⟨h1, h2⟩ := ih h.2
      simp only [List.map_cons, List.nodup_cons, List.mem_cons]
      refine ⟨⟨?_, h1⟩, fun k => ?_⟩
      · rw [h2]
        rintro (h3 | h3)
        · exact hx h3
        · exact h.1 h3
      · rw [h2]; tauto

theorem nodup_joint (A : Arith K) (es : List (Err K)) (J : Joint K) (h : (J.map Prod.fst).Nodup) :
    ((es.foldl (fun J e => addJoint A e.p J (keysOf e)) J).map Prod.fst).Nodup := by
  induction es generalizing J with
  | nil => exact h
  | cons e es ih =>
    rw [List.foldl_cons]
    apply ih
    rw [addJoint_eq]
    generalize updList (keysOf e) ++ (keysOf e).map (fun k => (k, k)) = l
    unfold apply
    induction l generalizing J with
    | nil => exact h
    | cons x l ih2 => exact ih2 _ (nodup_upd A J h x.1 x.2 e.p).1

theorem mem_iff_get (J : Joint K) (h : (J.map Prod.fst).Nodup) (a b : Key) (v : K) :
    ((a, b), v) ∈ J ↔ J.get a b = some v := by
  unfold Joint.get
  induction J with
  | nil => simp
  | cons x xs ih =>
    rw [List.map_cons, List.nodup_cons] at h
    by_cases hx : x.1 = (a, b)
    · rw [List.find?_cons_of_pos (by simpa using hx)]
      simp only [List.mem_cons, Option.map_some, Option.some.injEq]
      constructor
      · rintro (h1 | h1)
        · rw [← h1]
        · exact absurd (List.mem_map.2 ⟨_, h1, hx.symm⟩) h.1
      · intro h1
        left
        rw [← h1, ← hx]
    · rw [List.find?_cons_of_neg (by simpa using hx), ← ih h.2, List.mem_cons]
      constructor
      · rintro (h1 | h1)
        · exact absurd (by rw [← h1]) hx
        · exact h1
      · exact Or.inr

theorem mapM_some {α β : Type} (f : α → Option β) (h : α → β) (l : List α) (H : ∀ x ∈ l, f x = some (h x)) :
    l.mapM f = some (l.map h) := by
  induction l with
  | nil => rfl
  | cons x l ih =>
    rw [List.mapM_cons, H x List.mem_cons_self, ih (fun y hy => H y (List.mem_cons_of_mem _ hy))]
    rfl

theorem get_fires_none {A : Arith K} {es : List (Err K)} {a b : Key} {v : K} (h : (jointFold es A).get a b = some v) :
    (∃ u t, a = key u t) ∧ (∃ u t, b = key u t) := by
  have : ¬ ∀ e ∈ es, (keysOf e).count a * (keysOf e).count b = 0 := by
    intro hc
    rw [joint_fold, if_pos (List.flatMap_eq_nil_iff.2 fun e he => by rw [hc e he]; rfl)] at h
    cases h
  push Not at this
  obtain ⟨e, -, hne⟩ := this
  have ha : 0 < (keysOf e).count a := Nat.pos_of_ne_zero (by intro h; rw [h] at hne; simp at hne)
  have hb : 0 < (keysOf e).count b := Nat.pos_of_ne_zero (by intro h; rw [h] at hne; simp at hne)
  exact ⟨mem_keysOf e a (List.count_pos_iff.1 ha), mem_keysOf e b (List.count_pos_iff.1 hb)⟩

theorem fires_diag {u : Nat} {t : Option Nat} {u' : Nat} {t' : Option Nat} {es : List (Err K)}
    (h : fires u t u' t' es ≠ []) : fires u t u t es ≠ [] ∧ fires u' t' u' t' es ≠ [] := by
  have : ∃ e ∈ es, multiplicity u t e * multiplicity u' t' e ≠ 0 := by
    by_contra hc
    push Not at hc
    apply h
    unfold fires
    rw [List.flatMap_eq_nil_iff]
    intro e he
    rw [hc e he]; rfl
  obtain ⟨e, he, hne⟩ := this
  rw [Nat.mul_ne_zero_iff] at hne
  constructor <;> (unfold fires; rw [Ne, List.flatMap_eq_nil_iff]; intro hc; have := hc e he; simp at this; omega)

theorem key_fst_snd (u : Nat) (t : Option Nat) : key (key u t).1 (key u t).2 = key u t := by
  cases t <;> simp [key]

/-- The rules of an edge, explicitly. -/
theorem impliedFor_any (A : Arith K) (es : List (Err K)) (hA' : ∀ e ∈ es, Accepted e) (u : Nat) (t : Option Nat) :
    ∃ rs, impliedFor lg (jointFold es A) (key u t) A = some rs ∧
      (∀ u' t' w, (∃ r ∈ rs, samePair r.node1 r.node2 u' t' ∧ r.weight = w) ↔
        ¬ samePair u t u' t' ∧ fires u t u' t' es ≠ [] ∧ all A (fires u t u t es) ≠ 0 ∧
          w = lg (min (1 / 2) (A.div (all A (fires u t u' t' es)) (all A (fires u t u t es))))) ∧
      rs.Pairwise (fun r r' => ¬ samePair r.node1 r.node2 r'.node1 r'.node2) := by
  have hnd : ((jointFold es A).map Prod.fst).Nodup := nodup_joint A es [] (by simp)
  unfold impliedFor
  simp only
  by_cases hrow : ((jointFold es A).filter (fun x => decide (x.1.1 = key u t))).isEmpty = true
  · rw [if_pos hrow]
    refine ⟨[], rfl, ?_, List.Pairwise.nil⟩
    intro u' t' w
    simp only [List.not_mem_nil, false_and, exists_false, false_iff, not_and]
    intro _ hf
    exfalso
    have := fires_get A u t u' t' es hA'
    rw [if_neg hf, ← mem_iff_get _ hnd] at this
    rw [List.isEmpty_iff, List.filter_eq_nil_iff] at hrow
    exact hrow _ this (by simp)
  · rw [if_neg hrow]
    have hdiag : fires u t u t es ≠ [] := by
      rw [List.isEmpty_iff, List.filter_eq_nil_iff] at hrow
      push Not at hrow
      obtain ⟨⟨⟨a, b⟩, v⟩, hmem, ha⟩ := hrow
      simp only [decide_eq_true_eq] at ha
      subst ha
      rw [mem_iff_get _ hnd] at hmem
      obtain ⟨-, u', t', hb⟩ := get_fires_none hmem
      rw [hb, fires_get A u t u' t' es hA'] at hmem
      by_cases hf : fires u t u' t' es = []
      · rw [if_pos hf] at hmem; cases hmem
      · exact (fires_diag hf).1
    have hget := fires_get A u t u t es hA'
    rw [if_neg hdiag] at hget
    rw [hget]
    simp only
    by_cases hpos : all A (fires u t u t es) = 0
    · rw [if_pos hpos]
      refine ⟨[], rfl, fun u' t' w => ?_, List.Pairwise.nil⟩
      simp [hpos]
    rw [if_neg hpos]
    refine ⟨_, rfl, ?_, ?_⟩
    · intro u' t' w
      simp only [List.mem_filterMap, List.mem_filter, decide_eq_true_eq]
      constructor
      · rintro ⟨r, ⟨⟨⟨a, b⟩, v⟩, ⟨hmem, rfl⟩, hr⟩, hs, hw⟩
        simp only at hr
        split at hr
        · rename_i hba
          simp only [Option.some.injEq] at hr
          subst hr
          rw [mem_iff_get _ hnd] at hmem
          obtain ⟨-, u2, t2, hb⟩ := get_fires_none hmem
          simp only at hs hw
          rw [samePair_iff_key, hb, key_fst_snd, ← hb] at hs
          rw [← hs, fires_get A u t u' t' es hA'] at hmem
          by_cases hf : fires u t u' t' es = []
          · rw [if_pos hf] at hmem; cases hmem
          · rw [if_neg hf] at hmem
            cases hmem
            refine ⟨?_, hf, hpos, hw.symm⟩
            rw [samePair_iff_key, hs]
            exact hba
        · cases hr
      · rintro ⟨hns, hf, -, rfl⟩
        have hg := fires_get A u t u' t' es hA'
        rw [if_neg hf, ← mem_iff_get _ hnd] at hg
        refine ⟨⟨(key u' t').1, (key u' t').2, lg (min (1 / 2) (A.div (all A (fires u t u' t' es)) (all A (fires u t u t es))))⟩,
          ⟨_, ⟨hg, rfl⟩, ?_⟩, ?_, rfl⟩
        · rw [samePair_iff_key] at hns
          simp only
          rw [if_pos hns]
        · rw [samePair_iff_key]
          exact (key_fst_snd u' t').symm
    · rw [List.pairwise_filterMap]
      have hpw : (jointFold es A).Pairwise (fun x y => x.1 ≠ y.1) := by
        rw [List.Nodup, List.pairwise_map] at hnd; exact hnd
      refine List.Pairwise.imp_of_mem ?_ (hpw.filter _)
      rintro ⟨⟨a, b⟩, v⟩ ⟨⟨a', b'⟩, v'⟩ hm hm' hne r hr r' hr'
      rw [List.mem_filter, mem_iff_get _ hnd] at hm hm'
      simp only [decide_eq_true_eq] at hm hm'
      obtain ⟨-, u2, t2, hb⟩ := get_fires_none hm.1
      obtain ⟨-, u3, t3, hb'⟩ := get_fires_none hm'.1
      simp only at hr hr'
      split at hr
      · split at hr'
        · simp only [Option.some.injEq] at hr hr'
          subst hr hr'
          simp only
          rw [samePair_iff_key, hb, hb', key_fst_snd, key_fst_snd, ← hb, ← hb']
          intro hbb
          exact hne (by simp only; rw [hm.2, hm'.2, hbb])
        · simp at hr'
      · simp at hr

/-- The rules of an edge, without rounding. -/
theorem impliedFor_spec (es : List (Err K)) (hA : ∀ e ∈ es, 0 ≤ e.p ∧ Accepted e) (u : Nat) (t : Option Nat) :
    ∃ rs, impliedFor lg (jointFold es) (key u t) = some rs ∧
      (∀ u' t' w, (∃ r ∈ rs, samePair r.node1 r.node2 u' t' ∧ r.weight = w) ↔
        ¬ samePair u t u' t' ∧ fires u t u' t' es ≠ [] ∧
          w = lg (min (1 / 2) (oddOf (fires u t u' t' es) / oddOf (fires u t u t es)))) ∧
      rs.Pairwise (fun r r' => ¬ samePair r.node1 r.node2 r'.node1 r'.node2) := by
  obtain ⟨rs, h1, h2, h3⟩ := impliedFor_any (lg := lg) .exact es (fun e he => (hA e he).2) u t
  refine ⟨rs, h1, fun u' t' w => ?_, h3⟩
  rw [h2]
  simp only [all_exact]
  refine and_congr_right fun _ => ⟨fun h => ⟨h.1, h.2.2⟩, fun h => ⟨h.1, ?_, h.2⟩⟩
  exact (oddOf_range _ (fires_diag h.1).1 (fires_range u t u t es hA)).1.ne'

/-- The ends of the rules are in increasing order. -/
theorem impliedFor_sorted {A : Arith K} {es : List (Err K)} {k : Key} {rs : List (Implied K)} (h : impliedFor lg (jointFold es A) k A = some rs) :
    ∀ r ∈ rs, key r.node1 r.node2 = (r.node1, r.node2) := by
  have hnd : ((jointFold es A).map Prod.fst).Nodup := nodup_joint A es [] (by simp)
  unfold impliedFor at h
  simp only at h
  split at h
  · cases h
    intro r hr
    cases hr
  · split at h
    · cases h
    · split at h
      · cases h
        intro r hr
        cases hr
      · simp only [Option.some.injEq] at h
        subst h
        intro r hr
        simp only [List.mem_filterMap, List.mem_filter] at hr
        obtain ⟨⟨⟨a, b⟩, v⟩, ⟨hmem, -⟩, hr⟩ := hr
        rw [mem_iff_get _ hnd] at hmem
        obtain ⟨-, u, t, rfl⟩ := get_fires_none hmem
        split at hr
        · cases hr
          exact key_fst_snd u t
        · cases hr

/-! ## C21 and C22 with correlations -/

theorem dataOf_map (g : UGraph K) (h : UEdge K → UEdge K)
    (hh : ∀ e, (h e).node1 = e.node1 ∧ (h e).node2 = e.node2 ∧ (h e).obs = e.obs ∧ (h e).weight = e.weight ∧ (h e).prob = e.prob)
    (u : Nat) (t : Option Nat) :
    dataOf { g with edges := g.edges.map h } u t = dataOf g u t ∧
    UGraph.hasEdge { g with edges := g.edges.map h } u t = g.hasEdge u t := by
  have hl : ∀ t, leadsTo (g.edges.map h) t = leadsTo g.edges t := by
    intro t
    funext x
    unfold leadsTo
    rw [List.getElem?_map]
    cases g.edges[x.1]? with
    | none => rfl
    | some e => simp [(hh e).1, (hh e).2.1]
  have he : ∀ n, UGraph.edgeTo { g with edges := g.edges.map h } n t = g.edgeTo n t := by
    intro n
    unfold UGraph.edgeTo
    simp only [hl]
  constructor
  · unfold dataOf UGraph.getEdge
    cases g.nodes[u]? with
    | none => rfl
    | some n =>
      simp only [he]
      cases g.edgeTo n t with
      | none => rfl
      | some i =>
        simp only [List.getElem?_map]
        cases g.edges[i]? with
        | none => rfl
        | some e => simp [(hh e).2.2]
  · unfold UGraph.hasEdge
    cases g.nodes[u]? with
    | none => rfl
    | some n => simp only [he]

/-- Summary of loading with correlations. -/
theorem loadCorr_any (A : Arith K) (m : Model K) (hA : ∀ e ∈ m.errors, Accepted e) :
    ∃ h : UEdge K → UEdge K,
      (∀ e, (h e).node1 = e.node1 ∧ (h e).node2 = e.node2 ∧ (h e).obs = e.obs ∧ (h e).weight = e.weight ∧ (h e).prob = e.prob ∧
        ∃ rs, impliedFor lg (jointFold m.errors A) e.key A = some rs ∧ (h e).implied = e.implied ++ rs) ∧
      loadCorr mw lg m A =
        let g := run mw (UGraph.new m.numDets m.numObs) (callsOf' lg m.errors)
        some { g with edges := g.edges.map h } := by
  have hrs : ∀ e : UEdge K, ∃ rs, impliedFor lg (jointFold m.errors A) e.key A = some rs := by
    intro e
    obtain ⟨rs, h1, -⟩ := impliedFor_any A m.errors hA e.node1 e.node2
    exact ⟨rs, h1⟩
  choose f hf using hrs
  refine ⟨fun e => { e with implied := e.implied ++ f e }, fun e => ⟨rfl, rfl, rfl, rfl, rfl, f e, hf e, rfl⟩, ?_⟩
  unfold loadCorr
  rw [corr_fold A m.errors hA]
  simp only [Option.bind_some]
  unfold populate
  change Option.map _ (List.mapM _ _) = _
  rw [mapM_some _ (fun e => { e with implied := e.implied ++ f e }) _ (by
    intro e _
    change Option.map _ (impliedFor lg (jointFold m.errors A) e.key A) = _
    rw [hf e]; rfl)]
  rfl

theorem loadCorr_eq (m : Model K) (hA : ∀ e ∈ m.errors, 0 ≤ e.p ∧ Accepted e) :
    ∃ h : UEdge K → UEdge K,
      (∀ e, (h e).node1 = e.node1 ∧ (h e).node2 = e.node2 ∧ (h e).obs = e.obs ∧ (h e).weight = e.weight ∧ (h e).prob = e.prob ∧
        ∃ rs, impliedFor lg (jointFold m.errors) e.key = some rs ∧ (h e).implied = e.implied ++ rs) ∧
      loadCorr mw lg m =
        let g := run mw (UGraph.new m.numDets m.numObs) (callsOf' lg m.errors)
        some { g with edges := g.edges.map h } :=
  loadCorr_any .exact m fun e he => (hA e he).2

theorem loadCorr_none (A : Arith K) (m : Model K) : loadCorr mw lg m A = none ↔ ∃ e ∈ m.errors, ¬ Accepted e := by
  constructor
  · intro h
    by_contra hc
    push Not at hc
    obtain ⟨f, -, hl⟩ := loadCorr_any (mw := mw) (lg := lg) A m hc
    rw [hl] at h
    cases h
  · rintro ⟨e, he, hA⟩
    unfold loadCorr
    rw [corr_fold_none A m.errors e he hA]
    rfl

end

/-- C21 with correlations: the model is rejected exactly if some error is more likely than one half, has a
component with three or more detectors, or a component without detectors next to others. -/
theorem C21_load_with_correlations_rejects (m : Model ℝ) (hp : ∀ e ∈ m.errors, 0 ≤ e.p) :
    loadCorr mergeWeights llr m = none ↔ ∃ e ∈ m.errors, ¬ Accepted e :=
  loadCorr_none .exact m

/-- C21 with correlations: the same edges, weights, probabilities and observables as without. -/
theorem C21_load_with_correlations (m : Model ℝ) (hp : ∀ e ∈ m.errors, 0 ≤ e.p) (g : UGraph ℝ)
    (h : loadCorr mergeWeights llr m = some g) : LoadedFrom m.errors g := by
  have hA : ∀ e ∈ m.errors, 0 ≤ e.p ∧ Accepted e := by
    intro e he
    refine ⟨hp e he, ?_⟩
    by_contra hc
    rw [(C21_load_with_correlations_rejects m hp).2 ⟨e, he, hc⟩] at h
    cases h
  obtain ⟨f, hf, hl⟩ := loadCorr_eq m hA
  rw [hl] at h
  cases h
  have := loaded_run m.numDets m.numObs m.errors (fun e he => ⟨(hA e he).1, by have := (hA e he).2.1; linarith⟩)
    (callsOf' llr m.errors) (fun u t => insertions_callsOf' u t m.errors)
  intro u t
  have h2 := this u t
  rw [(dataOf_map _ f (fun e => ⟨(hf e).1, (hf e).2.1, (hf e).2.2.1, (hf e).2.2.2.1, (hf e).2.2.2.2.1⟩) u t).1]
  exact h2

/-- C22 (joint probabilities).  The recorded joint probability of two connections is that of "an odd number of the listed events
fire", one event per choice of one component of each kind in the same error; it is symmetric, and at most one half. -/
theorem C22_joint (m : Model ℝ) (hA : ∀ e ∈ m.errors, 0 ≤ e.p ∧ Accepted e) (u : Nat) (t : Option Nat) (u' : Nat) (t' : Option Nat) :
    let J := jointFold m.errors
    (m.errors.foldlM (corrStep .exact mergeWeights llr) (UGraph.new m.numDets m.numObs, [])).map Prod.snd = some J ∧
    J.get (key u t) (key u' t') = (if fires u t u' t' m.errors = [] then none else some (oddOf (fires u t u' t' m.errors))) ∧
    J.get (key u t) (key u' t') = J.get (key u' t') (key u t) ∧
    ∀ v, J.get (key u t) (key u' t') = some v → 0 < v ∧ v ≤ 1 / 2 := by
  intro J
  have hA' : ∀ e ∈ m.errors, Accepted e := fun e he => (hA e he).2
  refine ⟨?_, fires_eq u t u' t' m.errors hA', ?_, ?_⟩
  · rw [corr_fold .exact m.errors hA']; rfl
  · rw [fires_eq u t u' t' m.errors hA', fires_eq u' t' u t m.errors hA', fires_symm]
  · intro v hv
    rw [fires_eq u t u' t' m.errors hA'] at hv
    split at hv
    · cases hv
    · rename_i hne
      cases hv
      exact oddOf_range _ hne (fires_range u t u' t' m.errors hA)

/-- C22, the full statement about joint probabilities: the entry is the probability that an odd number of the errors containing both
connections happen. -/
def C22_statement : Prop :=
  ∀ (m : Model ℝ), (∀ e ∈ m.errors, 0 ≤ e.p ∧ Accepted e) → ∀ u t u' t',
    let both := m.errors.filter fun e => 0 < multiplicity u t e ∧ 0 < multiplicity u' t' e
    both ≠ [] → (jointFold m.errors).get (key u t) (key u' t') = some (oddOf (both.map Err.p))

/-- C22 holds as stated when no error lists the same connection twice.  Missing: errors with a repeated component. -/
theorem C22_joint_partial (m : Model ℝ) (hA : ∀ e ∈ m.errors, 0 ≤ e.p ∧ Accepted e) (u : Nat) (t : Option Nat) (u' : Nat)
    (t' : Option Nat) (hd : ∀ e ∈ m.errors, multiplicity u t e ≤ 1 ∧ multiplicity u' t' e ≤ 1) :
    let both := m.errors.filter fun e => 0 < multiplicity u t e ∧ 0 < multiplicity u' t' e
    both ≠ [] → (jointFold m.errors).get (key u t) (key u' t') = some (oddOf (both.map Err.p)) := by
  intro both hb
  rw [fires_eq u t u' t' m.errors (fun e he => (hA e he).2), fires_of_distinct u t u' t' m.errors hd]
  have hboth : (m.errors.filter fun e => multiplicity u t e = 1 ∧ multiplicity u' t' e = 1) = both := by
    apply List.filter_congr
    intro e he
    obtain ⟨h1, h2⟩ := hd e he
    rw [decide_eq_decide]
    omega
  rw [hboth, if_neg (by simpa using hb)]

/-- The full statement of C22 is false: `error(0.1) D0 ^ D0` lists the boundary edge of detector 0 twice, and the marginal
recorded for it is not 0.1 (it is updated four times). -/
theorem C22_statement_false : ¬ C22_statement := by
  intro h
  have hcomp : components (⟨1/10, [.det 0, .sep, .det 0]⟩ : Err ℝ) = [([0], []), ([0], [])] := by
    rw [← segs_components]; rfl
  have hmul : multiplicity 0 none (⟨1/10, [.det 0, .sep, .det 0]⟩ : Err ℝ) = 2 := by
    unfold multiplicity
    rw [if_neg (by norm_num), hcomp]
    rfl
  have hA : ∀ e ∈ [(⟨1/10, [.det 0, .sep, .det 0]⟩ : Err ℝ)], 0 ≤ e.p ∧ Accepted e := by
    intro e he
    rw [List.mem_singleton] at he
    subst he
    refine ⟨by norm_num, by norm_num, Or.inr (Or.inl ?_)⟩
    rw [hcomp]; decide
  have := h ⟨[⟨1/10, [.det 0, .sep, .det 0]⟩], 1, 0⟩ hA 0 none 0 none
  simp only at this
  rw [fires_eq 0 none 0 none _ (fun e he => (hA e he).2)] at this
  simp only [fires, List.flatMap_cons, List.flatMap_nil, hmul, List.filter_cons, List.filter_nil] at this
  norm_num [oddOf, List.replicate] at this

/-- C22 (implied weights).  After loading with correlations, every edge has exactly one rule for each other connection that shares an
error with it, whose weight is the log-likelihood ratio of the conditional probability (capped at one half), hence
never negative, and which refers to an edge of the graph. -/
theorem C22_rules (m : Model ℝ) (hp : ∀ e ∈ m.errors, 0 ≤ e.p) (g : UGraph ℝ) (hl : loadCorr mergeWeights llr m = some g) :
    ∀ e ∈ g.edges,
      (∀ u' t' w, (∃ r ∈ e.implied, samePair r.node1 r.node2 u' t' ∧ r.weight = w) ↔
        ¬ samePair e.node1 e.node2 u' t' ∧ fires e.node1 e.node2 u' t' m.errors ≠ [] ∧
          w = llr (min (1 / 2) (oddOf (fires e.node1 e.node2 u' t' m.errors) / oddOf (fires e.node1 e.node2 e.node1 e.node2 m.errors)))) ∧
      e.implied.Pairwise (fun r r' => ¬ samePair r.node1 r.node2 r'.node1 r'.node2) ∧
      ∀ r ∈ e.implied, 0 ≤ r.weight ∧ g.hasEdge r.node1 r.node2 = true := by
  have hA : ∀ e ∈ m.errors, 0 ≤ e.p ∧ Accepted e := by
    intro e he
    refine ⟨hp e he, ?_⟩
    by_contra hc
    rw [(C21_load_with_correlations_rejects m hp).2 ⟨e, he, hc⟩] at hl
    cases hl
  have hload := C21_load_with_correlations m hp g hl
  obtain ⟨f, hf, hl2⟩ := loadCorr_eq m hA
  rw [hl2] at hl
  simp only [Option.some.injEq] at hl
  set g0 := run mergeWeights (UGraph.new m.numDets m.numObs) (callsOf' llr m.errors) with hg0
  have himp0 : ∀ e ∈ g0.edges, e.implied = [] := by
    have : ∀ (cs : List (Call ℝ)) (g : UGraph ℝ), WF g → (∀ e ∈ g.edges, e.implied = []) →
        (∀ c ∈ cs, ∃ u t obs w p s, c = Call.add u t obs w p s) → ∀ e ∈ (run mergeWeights g cs).edges, e.implied = [] := by
      intro cs
      induction cs with
      | nil => intro g _ hg _; exact hg
      | cons c cs ih =>
        intro g hw hg hcs
        obtain ⟨u, t, obs, w, p, s, rfl⟩ := hcs c List.mem_cons_self
        refine ih _ (wf_exec mergeWeights hw _) ?_ (fun x hx => hcs x (List.mem_cons_of_mem _ hx))
        show ∀ e ∈ (exec mergeWeights g (.add u t obs w p s)).1.edges, e.implied = []
        rcases add_cases mergeWeights hw u t obs w p s with ⟨g', e1, -, e2, -⟩ | ⟨ei, hei, -, e2⟩
        · rw [e1]
          simp only [e2, List.mem_append, List.mem_singleton]
          rintro e (he | rfl)
          · exact hg e he
          · rfl
        · rw [e2]
          rcases mergeEdge_cases mergeWeights hw ei hei obs w p s with ⟨-, h3⟩ | ⟨-, g', e', h3, -, h4, -, -, -, b, h5, -⟩
          · rw [h3]; exact hg
          · rw [h3]
            simp only [h4]
            intro e he
            rcases List.mem_or_eq_of_mem_set he with he | rfl
            · exact hg e he
            · have hm := hg _ (List.getElem_mem hei)
              cases s <;> simp only [mergeData] at h5
              · cases h5
              · cases h5; exact hm
              · split at h5 <;> cases h5 <;> exact hm
              · cases h5; exact hm
              · cases h5; exact hm
    apply this _ _ (wf_new _ _) (by simp [UGraph.new])
    intro c hc
    simp only [callsOf', List.mem_flatMap] at hc
    obtain ⟨e, -, hm⟩ := hc
    split at hm
    · cases hm
    · rw [List.mem_filterMap] at hm
      obtain ⟨x, -, hx⟩ := hm
      unfold callOf' at hx
      split at hx
      · cases hx; exact ⟨_, _, _, _, _, _, rfl⟩
      · cases hx; exact ⟨_, _, _, _, _, _, rfl⟩
      · cases hx
  intro e he
  rw [← hl] at he
  simp only [List.mem_map] at he
  obtain ⟨e0, he0, rfl⟩ := he
  obtain ⟨h1, h2, -, -, -, rs, h6, h7⟩ := hf e0
  obtain ⟨rs', h8, h9, h10⟩ := impliedFor_spec m.errors hA e0.node1 e0.node2
  have : rs' = rs := by
    unfold UEdge.key at h6
    rw [h8] at h6
    exact Option.some.inj h6
  subst this
  rw [himp0 e0 he0, List.nil_append] at h7
  rw [h7, h1, h2]
  refine ⟨h9, h10, ?_⟩
  intro r hr
  obtain ⟨hns, hne, hw⟩ := (h9 r.node1 r.node2 r.weight).1 ⟨r, hr, Or.inl ⟨rfl, rfl⟩, rfl⟩
  obtain ⟨hd1, hd2⟩ := fires_diag hne
  constructor
  · obtain ⟨a1, a2⟩ := oddOf_range _ hne (fires_range e0.node1 e0.node2 r.node1 r.node2 m.errors hA)
    obtain ⟨b1, b2⟩ := oddOf_range _ hd1 (fires_range e0.node1 e0.node2 e0.node1 e0.node2 m.errors hA)
    rw [hw]
    set q := min (1 / 2 : ℝ) (oddOf (fires e0.node1 e0.node2 r.node1 r.node2 m.errors) / oddOf (fires e0.node1 e0.node2 e0.node1 e0.node2 m.errors)) with hq
    have hq0 : 0 < q := lt_min (by norm_num) (div_pos a1 b1)
    have hq1 : q ≤ 1 / 2 := min_le_left _ _
    unfold llr
    apply Real.log_nonneg
    rw [le_div_iff₀ hq0]
    linarith
  · have hl3 := hload r.node1 r.node2
    have hc : contributions r.node1 r.node2 m.errors ≠ [] := by
      intro hc
      apply hd2
      unfold fires
      rw [List.flatMap_eq_nil_iff]
      intro e he
      unfold contributions at hc
      rw [List.flatMap_eq_nil_iff] at hc
      have := hc e he
      unfold multiplicity
      by_cases h0 : e.p = 0
      · simp [h0]
      · rw [if_neg h0] at this ⊢
        rw [List.map_eq_nil_iff] at this
        rw [this]; rfl
    cases hcc : contributions r.node1 r.node2 m.errors with
    | nil => exact absurd hcc hc
    | cons c cs =>
      rw [hcc] at hl3
      obtain ⟨d, hd, -⟩ := hl3
      have hw0 : WF g0 := wf_run mergeWeights (wf_new _ _) _
      have hh := dataOf_map g0 f (fun e => ⟨(hf e).1, (hf e).2.1, (hf e).2.2.1, (hf e).2.2.2.1, (hf e).2.2.2.2.1⟩) r.node1 r.node2
      rw [hl] at hh
      rw [hh.2, hasEdge_eq hw0]
      rw [hh.1] at hd
      unfold dataOf at hd
      cases hge : g0.getEdge r.node1 r.node2 with
      | none => rw [hge] at hd; cases hd
      | some _ => rfl

/-- A model that is accepted with correlations and gives rise to a rule. -/
example : ∃ m : Model ℝ, (∀ e ∈ m.errors, 0 ≤ e.p ∧ Accepted e) ∧ fires 0 (some 1) 1 none m.errors = [1/10] := by
  have hcomp : components (⟨1/10, [.det 0, .det 1, .sep, .det 1, .obs 0]⟩ : Err ℝ) = [([0, 1], []), ([1], [0])] := by
    rw [← segs_components]; rfl
  refine ⟨⟨[⟨1/10, [.det 0, .det 1, .sep, .det 1, .obs 0]⟩], 2, 1⟩, ?_, ?_⟩
  · intro e he
    rw [List.mem_singleton] at he
    subst he
    refine ⟨by norm_num, by norm_num, Or.inr (Or.inl ?_)⟩
    rw [hcomp]; decide
  · have h1 : multiplicity 0 (some 1) (⟨1/10, [.det 0, .det 1, .sep, .det 1, .obs 0]⟩ : Err ℝ) = 1 := by
      unfold multiplicity; rw [if_neg (by norm_num), hcomp]; rfl
    have h2 : multiplicity 1 none (⟨1/10, [.det 0, .det 1, .sep, .det 1, .obs 0]⟩ : Err ℝ) = 1 := by
      unfold multiplicity; rw [if_neg (by norm_num), hcomp]; rfl
    simp only [fires, List.flatMap_cons, List.flatMap_nil, h1, h2]; rfl

end Verif.Props.Dem
