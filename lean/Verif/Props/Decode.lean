import Verif.Blossom.Total
import Verif.Blossom.Link

/-!
# Properties of whole decodes (C46, C14, C31)

The decoder is a fresh one or one that was used before: any sequence of completed calls, whether they returned or raised the
exception "no perfect matching".
-/

namespace Verif.Props.Decode

open Verif Verif.Graph Verif.CE Verif.SB Verif.Props.Graph Verif.Props.NegWeights

/-! ## Specification -/

/-- The edges that were inserted into the decoding graph: at most one per pair of nodes, of even weight (weights are doubled when they
are discretised, C19), and of absolute value less than 2^31 (at most 2^25 after discretisation, C19). -/
structure Edges (ops : List EdgeIns) : Prop where
  pairs : (ops.filterMap pairOf).Nodup
  even : ∀ op ∈ ops, op.w % 2 = 0
  small : ∀ op ∈ ops, |op.w| < 2 ^ 31

/-- A list of detection events that a caller may pass: distinct nodes of the graph. -/
structure Valid (g : MGraph) (events : List Nat) : Prop where
  nodup : events.Nodup
  range : ∀ d ∈ events, d < g.nodes.length

/-- The detection events that count: boundary nodes are ignored. -/
def counted (bnd : List Bool) (events : List Nat) : Finset Nat := (events.filter (TL.notBoundary bnd)).toFinset

/-- `Used g bnd s`: the decoder is in state `s` after any sequence of completed decoding calls with valid events. -/
inductive Used [W : Width] (g : MGraph) (bnd : List Bool) : MS → Prop where
  | fresh : Used g bnd MS.init
  | decoded {s s' : MS} {f : Nat} {events : List Nat} {m : ObsInt} {r : ObsInt × Int} (h : Used g bnd s) (hv : Valid g events)
      (hd : decode64 g bnd (negEvents g) m g.negSum f s events = some (.ok (s', r))) : Used g bnd s'
  | failed {s s' : MS} {f : Nat} {events : List Nat} {m : ObsInt} (h : Used g bnd s) (hv : Valid g events)
      (hd : decode64 g bnd (negEvents g) m g.negSum f s events = some (.throws s')) : Used g bnd s'
  | paired {s s' : MS} {f : Nat} {events : List Nat} {es : List CompressedEdge} (h : Used g bnd s) (hv : Valid g events)
      (hd : decodePairs g bnd (negEvents g) g.negSum f s events = some (.ok (s', es))) : Used g bnd s'
  | unpaired {s s' : MS} {f : Nat} {events : List Nat} (h : Used g bnd s) (hv : Valid g events)
      (hd : decodePairs g bnd (negEvents g) g.negSum f s events = some (.throws s')) : Used g bnd s'

/-- What a caller expects from a completed call: observables and weight of an explanation of the syndrome that has minimum weight among
all explanations by inserted edges, or an exception if there is no explanation. -/
def Correct (ops : List EdgeIns) (bnd : List Bool) (events : List Nat) (out : Outcome (MS × ObsInt × Int)) : Prop :=
  (∃ s' mask w, out = .ok (s', mask, w) ∧ ∃ c : Correction ops, Optimal weight c (counted bnd events) ∧ weight c = w ∧
    ∀ k, k < 64 → (mask.getLsbD k = true ↔ crossed c k % 2 = 1)) ∨
  (∃ s', out = .throws s' ∧ ∀ c : Correction ops, ¬ Explains c (counted bnd events))

/-! ## Lemmas -/

theorem neg_sort (g : MGraph) : (negEvents g).Nodup ∧ (∀ d, d ∈ negEvents g ↔ d ∈ g.negDets) :=
  ⟨Finset.sort_nodup _ _, fun _ => Finset.mem_sort _⟩

theorem started_eq (g : MGraph) (bnd : List Bool) (events : List Nat) : startedOf bnd (negEvents g) events = symmDiff (counted bnd events) g.negDets := by
  unfold startedOf counted
  congr 1
  ext d
  rw [List.mem_toFinset, (neg_sort g).2]

theorem decode64_cases {g : MGraph} (hg : Spec.Proper g) {bnd : List Bool} (hb : ∀ d ∈ g.negDets, TL.notBoundary bnd d = true) {s : MS} (hs : Clean s)
    {events : List Nat} (hv : Valid g events) (m : ObsInt) (f : Nat) :
    decode64 g bnd (negEvents g) m g.negSum f s events = none ∨
    (∃ s' x, decode64 g bnd (negEvents g) m g.negSum f s events = some (.ok (s', x.mask ^^^ m, x.weight + g.negSum)) ∧ Clean s' ∧
      Answer g (symmDiff (counted bnd events) g.negDets) x) ∨
    (∃ s', decode64 g bnd (negEvents g) m g.negSum f s events = some (.throws s') ∧ Clean s' ∧
      ∀ ws, ¬ Spec.Corrects g (symmDiff (counted bnd events) g.negDets) ws) := by
  rw [← started_eq]
  rcases matching_spec hg hs bnd hv.range hv.nodup (fun d hd => hb d (((neg_sort g).2 d).1 hd)) (neg_sort g).1 f with e | ⟨s', x, e, h1, h2⟩ | ⟨s', e, h1, h2⟩
  · left; rw [decode64, e]
  · right; left; exact ⟨s', x, by rw [decode64, e], h1, h2⟩
  · right; right; exact ⟨s', by rw [decode64, e], h1, h2⟩

/-- Without negative weights no detector is pre-flipped. -/
theorem no_negatives {numNodes numObs : Nat} {ops : List EdgeIns} {g : MGraph} (h : run (MGraph.empty numNodes numObs) ops = some g) (hn : g.negSum = 0) :
    g.negDets = ∅ := by
  obtain ⟨h1, -, h3⟩ := C15_negative_bookkeeping numNodes numObs ops g h
  rw [hn] at h3
  have key : ∀ l : List EdgeIns, 0 = ((l.filter (·.w < 0)).map EdgeIns.w).sum → l.filter (·.w < 0) = [] := by
    intro l hl
    by_contra hne
    have hlt : ∀ l' : List EdgeIns, (∀ o ∈ l', o.w < 0) → l' ≠ [] → (l'.map EdgeIns.w).sum < 0 := by
      intro l'
      induction l' with
      | nil => intro _ h; exact absurd rfl h
      | cons o l' ih =>
        intro ho _
        have h1 := ho o (by simp)
        rw [List.map_cons, List.sum_cons]
        by_cases hl' : l' = []
        · subst hl'; simpa using h1
        · have := ih (fun x hx => ho x (by simp [hx])) hl'
          omega
    have := hlt _ (fun o ho => by simpa using (List.mem_filter.1 ho).2) hne
    omega
  ext x
  rw [h1, key ops h3]
  simp

theorem decodePairs_cases {g : MGraph} (hg : Spec.Proper g) (hn : g.negSum = 0 → g.negDets = ∅) (bnd : List Bool) {s : MS} (hs : Clean s)
    {events : List Nat} (hv : Valid g events) (f : Nat) :
    (g.negSum ≠ 0 ∧ decodePairs g bnd (negEvents g) g.negSum f s events = some (.throws s)) ∨
    g.negSum = 0 ∧ (decodePairs g bnd (negEvents g) g.negSum f s events = none ∨
    (∃ s' x, decodePairs g bnd (negEvents g) g.negSum f s events = some (.ok (s', x.edges)) ∧ Clean s' ∧ Answer g (counted bnd events) x) ∨
    (∃ s', decodePairs g bnd (negEvents g) g.negSum f s events = some (.throws s') ∧ Clean s' ∧ ∀ ws, ¬ Spec.Corrects g (counted bnd events) ws)) := by
  by_cases hsum : g.negSum ≠ 0
  · left; exact ⟨hsum, by rw [decodePairs, if_pos hsum]⟩
  · right
    have hsum' : g.negSum = 0 := by simpa using hsum
    have hnil : negEvents g = [] := by
      rw [List.eq_nil_iff_forall_not_mem]
      intro d hd
      rw [(neg_sort g).2, hn hsum'] at hd
      simp at hd
    have hst : startedOf bnd [] events = counted bnd events := by
      have := started_eq g bnd events
      rw [hnil, hn hsum', ← Finset.bot_eq_empty, symmDiff_bot] at this
      exact this
    rw [hnil]
    refine ⟨hsum', ?_⟩
    have := matching_spec hg hs bnd (neg := []) hv.range hv.nodup (by simp) (by simp) f
    rw [hst] at this
    rw [decodePairs, if_neg hsum]
    rcases this with e | ⟨s', x, e, h1, h2⟩ | ⟨s', e, h1, h2⟩
    · left
      rw [matching] at e
      cases ht : timeline g bnd [] f s events with
      | none => rfl
      | some o =>
        rw [ht] at e
        cases o with
        | ub => cases e
        | throws => cases e
        | ok s1 =>
          simp only at e
          split at e
          · cases e
          · cases e
          · cases e
    · right; left
      refine ⟨s', x, ?_, h1, h2⟩
      rw [matching] at e
      cases ht : timeline g bnd [] f s events with
      | none => rw [ht] at e; cases e
      | some o =>
        rw [ht] at e
        cases o with
        | ub => cases e
        | throws => cases e
        | ok s1 =>
          simp only at e ⊢
          cases hx : extractAll s1 events Extract.zero with
          | ub => rw [hx] at e; cases e
          | throws => rw [hx] at e; cases e
          | ok p => rw [hx] at e; cases e; rfl
    · right; right
      refine ⟨s', ?_, h1, h2⟩
      rw [matching] at e
      cases ht : timeline g bnd [] f s events with
      | none => rw [ht] at e; cases e
      | some o =>
        rw [ht] at e
        cases o with
        | ub => cases e
        | throws => cases e; rfl
        | ok s1 =>
          simp only at e ⊢
          cases hx : extractAll s1 events Extract.zero with
          | ub => rw [hx] at e; cases e
          | throws => rw [hx] at e; cases e; rfl
          | ok p => rw [hx] at e; cases e

theorem used_clean {g : MGraph} (hg : Spec.Proper g) (hn : g.negSum = 0 → g.negDets = ∅) {bnd : List Bool}
    (hb : ∀ d ∈ g.negDets, TL.notBoundary bnd d = true) {s : MS} (h : Used g bnd s) : Clean s := by
  induction h with
  | fresh => exact Clean.init
  | decoded h hv hd ih =>
    rcases decode64_cases hg hb ih hv _ _ with e | ⟨s', x, e, h1, -⟩ | ⟨s', e, h1, -⟩
    · rw [e] at hd; cases hd
    · rw [e] at hd; cases hd; exact h1
    · rw [e] at hd; cases hd
  | failed h hv hd ih =>
    rcases decode64_cases hg hb ih hv _ _ with e | ⟨s', x, e, h1, -⟩ | ⟨s', e, h1, -⟩
    · rw [e] at hd; cases hd
    · rw [e] at hd; cases hd
    · rw [e] at hd; cases hd; exact h1
  | paired h hv hd ih =>
    rcases decodePairs_cases hg hn bnd ih hv _ with ⟨-, e⟩ | ⟨-, e | ⟨s', x, e, h1, -⟩ | ⟨s', e, h1, -⟩⟩
    · rw [e] at hd; cases hd
    · rw [e] at hd; cases hd
    · rw [e] at hd; cases hd; exact h1
    · rw [e] at hd; cases hd
  | unpaired h hv hd ih =>
    rcases decodePairs_cases hg hn bnd ih hv _ with ⟨-, e⟩ | ⟨-, e | ⟨s', x, e, h1, -⟩ | ⟨s', e, h1, -⟩⟩
    · rw [e] at hd; cases hd; exact ih
    · rw [e] at hd; cases hd
    · rw [e] at hd; cases hd
    · rw [e] at hd; cases hd; exact h1

/-! ## Theorems -/

/-- Decoding from any state at rest. -/
theorem decode64_correct {numNodes numObs : Nat} {ops : List EdgeIns} {g : MGraph}
    (h : run (MGraph.empty numNodes numObs) ops = some g) (he : Edges ops) (hobs : numObs ≤ 64) {m : ObsInt} (hm : negMaskOf g = some m)
    {bnd : List Bool} (hb : ∀ d ∈ g.negDets, TL.notBoundary bnd d = true) {s : MS} (hs : Clean s) {events : List Nat} (hv : Valid g events)
    {f : Nat} {out : Outcome (MS × ObsInt × Int)} (hrun : decode64 g bnd (negEvents g) m g.negSum f s events = some out) :
    Correct ops bnd events out := by
  have hg := proper_of_run h he.pairs he.even he.small
  have hnm : ∀ k, k < 64 → (m.getLsbD k = true ↔ k ∈ g.negObs) := by
    intro k hk
    have hno : g.numObs = numObs := (built_run (built_empty numNodes numObs) h).nobs
    have hrep := (obsMask_rep hm none 0).2.2.1 (by rw [hno]; exact hobs) k hk
    simp only at hrep
    rw [hrep]
    have hnd : (g.negObs.sort (· ≤ ·)).Nodup := Finset.sort_nodup _ _
    rw [List.Nodup.count hnd]
    by_cases hk2 : k ∈ g.negObs <;> simp [hk2]
  rcases decode64_cases hg hb hs hv m f with e | ⟨s', x, e, -, h2⟩ | ⟨s', e, -, h2⟩
  · rw [e] at hrun; cases hrun
  · left
    rw [e, Option.some.injEq] at hrun
    refine ⟨s', _, _, hrun.symm, ?_⟩
    obtain ⟨ws, k1, k2, k3⟩ := h2.attained
    obtain ⟨c, c1, c2, c3⟩ := correction_of_slots h k1
    have hopt : Optimal absWeight c (symmDiff (counted bnd events) g.negDets) := by
      refine ⟨c1, fun c' hc' => ?_⟩
      obtain ⟨ws', l1, l2⟩ := slots_of_correction h hc'
      have := h2.least ws' l1
      omega
    have hw : absWeight c = x.weight := by
      obtain ⟨ws', l1, l2⟩ := slots_of_correction h c1
      have := h2.least ws' l1
      omega
    obtain ⟨o1, o2, o3⟩ := C14_negative_weights_optimal numNodes numObs ops g h (counted bnd events) c hopt
    refine ⟨symmDiff c (negatives ops), o1, by rw [o2, hw], ?_⟩
    intro k hk
    rw [o3 k, ← c3 hobs k hk, ← hnm k hk, k2, BitVec.getLsbD_xor]
    cases x.mask.getLsbD k <;> cases m.getLsbD k <;> simp
  · right
    rw [e, Option.some.injEq] at hrun
    refine ⟨s', hrun.symm, fun c hc => ?_⟩
    have h3 := (C14_translation numNodes numObs ops g h (counted bnd events) (symmDiff c (negatives ops))).1
    rw [symmDiff_symmDiff_cancel_right] at h3
    obtain ⟨ws', l1, -⟩ := slots_of_correction h (h3.1 hc)
    exact h2 ws' l1

/-! A graph for the examples: two detectors joined by an edge of weight -4 that crosses the observable, and a boundary edge of weight 6. -/

/-- The insertions. -/
def twoOps : List EdgeIns := [.edge 0 1 (-4) [0], .bdry 1 6 []]

/-- The resulting graph. -/
def twoNodes : MGraph := ⟨[[⟨some 1, 4, 1⟩], [⟨none, 6, 0⟩, ⟨some 0, 4, 1⟩]], 1, {0, 1}, {0}, -4⟩

theorem two_run : run (MGraph.empty 2 1) twoOps = some twoNodes := by
  have : ∃ g, run (MGraph.empty 2 1) twoOps = some g ∧ g.nodes = twoNodes.nodes ∧ g.numObs = 1 ∧ g.negDets = {0, 1} ∧ g.negObs = {0} ∧ g.negSum = -4 :=
    ⟨_, rfl, by decide, by decide, by decide, by decide, by decide⟩
  obtain ⟨⟨_, _, _, _, _⟩, h, h1, h2, h3, h4, h5⟩ := this
  cases h1; cases h2; cases h3; cases h4; cases h5
  exact h

theorem two_edges : Edges twoOps := ⟨by decide, by decide, by decide⟩

theorem two_neg : negEvents twoNodes = [0, 1] := by
  have : ({0, 1} : Finset Nat) = [0, 1].toFinset := by decide
  rw [negEvents, show twoNodes.negDets = [0, 1].toFinset from this]
  exact (List.toFinset_sort (l := [0, 1]) (· ≤ ·) (by decide)).2 (by decide)

theorem two_mask : negMaskOf twoNodes = some 1 := by
  have : twoNodes.negObs.sort (· ≤ ·) = [0] := (List.toFinset_sort (l := [0]) (· ≤ ·) (by decide)).2 (by decide)
  rw [negMaskOf, this]; rfl

/-- Result of a call, without the state. -/
def view (r : Option (Outcome (MS × ObsInt × Int))) : Option (Option (Nat × Int)) :=
  match r with
  | some (.ok (_, m, w)) => some (some (m.toNat, w))
  | some (.throws _) => some none
  | _ => none

/-- Result of a second call, with the state that the first call left. -/
def viewNext (g : MGraph) (neg : List Nat) (m : ObsInt) (w : Int) (f : Nat) (first second : List Nat) : Option (Option (Nat × Int)) :=
  match decode64 g [] neg m w f MS.init first with
  | some (.ok (s, _, _)) => view (decode64 g [] neg m w f s second)
  | some (.throws s) => view (decode64 g [] neg m w f s second)
  | _ => none

/-! ## The theorems -/

/-- C46, C14 (decoding is minimum-weight perfect matching).  Build any graph from edges of any sign, use the decoder for any number of
shots, and decode any events.  The call has no undefined behaviour, and when it completes, either it returns observables and a weight,
and these are the observables and the weight of an explanation of the syndrome that has minimum weight among all explanations by
inserted edges; or it raises an exception, and no explanation exists. -/
theorem C46_decode_is_minimum_weight (numNodes numObs : Nat) (ops : List EdgeIns) (g : MGraph)
    (h : run (MGraph.empty numNodes numObs) ops = some g) (he : Edges ops) (hobs : numObs ≤ 64) (m : ObsInt) (hm : negMaskOf g = some m)
    (bnd : List Bool) (hb : ∀ d ∈ g.negDets, TL.notBoundary bnd d = true) (s : MS) (hs : Used g bnd s) (events : List Nat) (hv : Valid g events)
    (f : Nat) (out : Outcome (MS × ObsInt × Int)) (hrun : decode64 g bnd (negEvents g) m g.negSum f s events = some out) :
    Correct ops bnd events out :=
  have hg := proper_of_run h he.pairs he.even he.small
  decode64_correct h he hobs hm hb (used_clean hg (no_negatives h) hb hs) hv hrun

/-- The hypotheses hold for the graph above, and the call completes: the event of detector 0 is explained with both edges. -/
example : run (MGraph.empty 2 1) twoOps = some twoNodes ∧ Edges twoOps ∧ negMaskOf twoNodes = some 1 ∧
    (∀ d ∈ twoNodes.negDets, TL.notBoundary [] d = true) ∧ Used twoNodes [] MS.init ∧ Valid twoNodes [0] ∧
    view (decode64 twoNodes [] (negEvents twoNodes) 1 twoNodes.negSum 8 MS.init [0]) = some (some (1, 2)) :=
  ⟨two_run, two_edges, two_mask, by decide, .fresh, ⟨by decide, by decide⟩, by rw [two_neg]; decide +kernel⟩

/-- C50, C46 (decoding always ends, with the right answer).  Build any graph from edges of any sign, use the decoder for any number of
shots, and decode any events: the loop ends after finitely many rounds, and the call returns the observables and the weight of an
explanation of minimum weight, or raises an exception, and no explanation exists. -/
theorem C50_decode_terminates (numNodes numObs : Nat) (ops : List EdgeIns) (g : MGraph)
    (h : run (MGraph.empty numNodes numObs) ops = some g) (he : Edges ops) (hobs : numObs ≤ 64) (m : ObsInt) (hm : negMaskOf g = some m)
    (bnd : List Bool) (hb : ∀ d ∈ g.negDets, TL.notBoundary bnd d = true) (s : MS) (hs : Used g bnd s) (events : List Nat) (hv : Valid g events) :
    ∃ f0 out, (∀ f, f0 ≤ f → decode64 g bnd (negEvents g) m g.negSum f s events = some out) ∧ Correct ops bnd events out := by
  have hg := proper_of_run h he.pairs he.even he.small
  have hc := used_clean hg (no_negatives h) hb hs
  obtain ⟨f0, o, ho⟩ := matching_ends hg hc bnd hv.range hv.nodup (fun d hd => hb d (((neg_sort g).2 d).1 hd)) (neg_sort g).1
  have hconst : ∀ f, f0 ≤ f → decode64 g bnd (negEvents g) m g.negSum f s events = decode64 g bnd (negEvents g) m g.negSum f0 s events := by
    intro f hf
    simp only [decode64, ho f hf, ho f0 (le_refl _)]
  cases hd : decode64 g bnd (negEvents g) m g.negSum f0 s events with
  | some out => exact ⟨f0, out, fun f hf => (hconst f hf).trans hd, decode64_correct h he hobs hm hb hc hv hd⟩
  | none =>
    simp only [decode64, ho f0 (le_refl _)] at hd
    cases o <;> cases hd

/-- The hypotheses hold for the graph above; here 8 rounds suffice. -/
example : (∃ f0 out, (∀ f, f0 ≤ f → decode64 twoNodes [] (negEvents twoNodes) 1 twoNodes.negSum f MS.init [0] = some out) ∧ Correct twoOps [] [0] out) ∧
    (decode64 twoNodes [] (negEvents twoNodes) 1 twoNodes.negSum 2 MS.init [0]).isNone ∧
    (decode64 twoNodes [] (negEvents twoNodes) 1 twoNodes.negSum 8 MS.init [0]).isSome :=
  ⟨C50_decode_terminates 2 1 twoOps twoNodes two_run two_edges (by decide) 1 two_mask [] (by decide) MS.init .fresh [0] ⟨by decide, by decide⟩,
    by rw [two_neg]; decide +kernel, by rw [two_neg]; decide +kernel⟩

/-- The exceptional case occurs: without the boundary edge a single event has no explanation. -/
example : view (decode64 ⟨[[⟨some 1, 4, 1⟩], [⟨some 0, 4, 1⟩]], 1, ∅, ∅, 0⟩ [] [] 0 0 8 MS.init [0]) = some none := by decide +kernel

/-- Two shots one after the other: the second completes with the same result as on a fresh decoder. -/
example : viewNext twoNodes [0, 1] 1 (-4) 8 [0] [1] = some (some (0, 6)) ∧ view (decode64 twoNodes [] [0, 1] 1 (-4) 8 MS.init [1]) = some (some (0, 6)) := by
  decide +kernel

/-! ## Invalid detection events -/

/-- C33, as stated, for the decoding graph `g` and its call: an exception for an invalid event changes nothing for later calls. -/
def C33_statement : Prop := ∀ (ops : List EdgeIns) (numNodes numObs : Nat) (g : MGraph) (m : ObsInt),
  run (MGraph.empty numNodes numObs) ops = some g → Edges ops → negMaskOf g = some m →
  ∀ (bad good : List Nat) (f f' : Nat) (s1 : MS) (r : MS × ObsInt × Int), Valid g good →
    decode64 g [] (negEvents g) m g.negSum f MS.init bad = some (.throws s1) →
    decode64 g [] (negEvents g) m g.negSum f' MS.init good = some (.ok r) →
    ∃ s', decode64 g [] (negEvents g) m g.negSum f' s1 good = some (.ok (s', r.2))

/-- The graph of the counterexample: one detector with a boundary edge of weight 2. -/
def oneNode : MGraph := ⟨[[⟨none, 2, 1⟩]], 1, ∅, ∅, 0⟩

/-- C33 is false: after an exception for the list `[0, 7]` (node 7 does not exist), decoding `[0]` raises an exception, since the
first event was started already and its wake-up call is left in the queue. -/
theorem C33_statement_false : ¬ C33_statement := by
  intro h
  have hneg : negEvents oneNode = [] := by simp [negEvents, oneNode]
  have hmask : negMaskOf oneNode = some 0 := by simp [negMaskOf, oneNode, obsMask]
  have hbad : view (decode64 oneNode [] [] 0 0 5 MS.init [0, 7]) = some none := by decide +kernel
  have hgood : view (decode64 oneNode [] [] 0 0 5 MS.init [0]) = some (some (1, 2)) := by decide +kernel
  have hafter : ∀ s1, decode64 oneNode [] [] 0 0 5 MS.init [0, 7] = some (.throws s1) → view (decode64 oneNode [] [] 0 0 5 s1 [0]) = some none := by
    have : (match decode64 oneNode [] [] 0 0 5 MS.init [0, 7] with
      | some (.throws s1) => view (decode64 oneNode [] [] 0 0 5 s1 [0]) | _ => none) = some none := by decide +kernel
    intro s1 h1
    rw [h1] at this
    exact this
  have hedges : Edges [.bdry 0 2 [0]] := ⟨by decide, by decide, by decide⟩
  have hrun : run (MGraph.empty 1 1) [.bdry 0 2 [0]] = some oneNode := by rfl
  cases h1 : decode64 oneNode [] [] 0 0 5 MS.init [0, 7] with
  | none => rw [h1] at hbad; cases hbad
  | some o =>
    cases o with
    | ok r => rw [h1] at hbad; cases hbad
    | ub => rw [h1] at hbad; cases hbad
    | throws s1 =>
      cases h2 : decode64 oneNode [] [] 0 0 5 MS.init [0] with
      | none => rw [h2] at hgood; cases hgood
      | some o =>
        cases o with
        | throws _ => rw [h2] at hgood; cases hgood
        | ub => rw [h2] at hgood; cases hgood
        | ok r =>
          obtain ⟨s', h3⟩ := h [.bdry 0 2 [0]] 1 1 oneNode 0 hrun hedges hmask [0, 7] [0] 5 5 s1 r ⟨by simp, by simp [oneNode]⟩
            (by rw [hneg]; exact h1) (by rw [hneg]; exact h2)
          rw [hneg] at h3
          have := hafter s1 h1
          have h3 : decode64 oneNode [] [] 0 0 5 s1 [0] = some (.ok (s', r.2)) := h3
          rw [h3] at this
          cases this

/-- C33, the part that holds: if no detector comes before the first invalid event (only boundary nodes), and no weight is negative, the
exception leaves the decoder as good as before: later calls are correct. -/
theorem C33_invalid_event_partial (numNodes numObs : Nat) (ops : List EdgeIns) (g : MGraph)
    (h : run (MGraph.empty numNodes numObs) ops = some g) (he : Edges ops) (hobs : numObs ≤ 64) (m : ObsInt) (hm : negMaskOf g = some m)
    (hneg : g.negSum = 0) (bnd : List Bool) (s : MS) (hs : Used g bnd s) (pre rest : List Nat) (d : Nat)
    (hpre : ∀ x ∈ pre, x < g.nodes.length ∧ TL.notBoundary bnd x = false) (hd : g.nodes.length ≤ d) (f : Nat) :
    ∃ s', decode64 g bnd (negEvents g) m g.negSum f s (pre ++ d :: rest) = some (.throws s') ∧
      ∀ (events : List Nat) (f' : Nat) (out : Outcome (MS × ObsInt × Int)), Valid g events →
        decode64 g bnd (negEvents g) m g.negSum f' s' events = some out → Correct ops bnd events out := by
  have hg := proper_of_run h he.pairs he.even he.small
  have hno := no_negatives h hneg
  have hb : ∀ d ∈ g.negDets, TL.notBoundary bnd d = true := by rw [hno]; simp
  have hc := used_clean hg (no_negatives h) hb hs
  have hnil : negEvents g = [] := by simp [negEvents, hno]
  have hplain : ∀ (pre : List Nat) (st : TL.Start), (∀ x ∈ pre, x < g.nodes.length ∧ TL.notBoundary bnd x = false) →
      TL.plainLoop g.nodes.length bnd st (pre ++ d :: rest) = (st, false) := by
    intro pre
    induction pre with
    | nil => intro st _; simp [TL.plainLoop, hd]
    | cons x pre ih =>
      intro st hp
      obtain ⟨h1, h2⟩ := hp x (by simp)
      rw [List.cons_append, TL.plainLoop, if_neg (by omega), h2]
      exact ih st (fun y hy => hp y (by simp [hy]))
  have hst : TL.start g.nodes.length bnd [] (pre ++ d :: rest) = (⟨[], ∅⟩, false) := by
    rw [TL.start]; exact hplain pre _ hpre
  have hnum : ¬ (s.fl.w.q.num ≠ 0) := by rw [hc.quiet.num]; simp
  have hmark : (s.begin.mark ∅) = s.begin := by simp [MS.mark]
  refine ⟨s.begin, ?_, ?_⟩
  · rw [hnil]
    simp only [decode64, matching, timeline, hc.unmark, hnum, hst, launch, if_false, hmark, Bool.false_eq_true]
  · intro events f' out hv hrun
    have hc' : Clean s.begin := ⟨hc.nodes, hc.regs, hc.alts, hc.quiet.atTime 0⟩
    exact decode64_correct h he hobs hm hb hc' hv hrun

/-- The hypotheses can be met with an invalid event behind a boundary node, and the later call completes. -/
example : view (decode64 oneNode [false, true] [] 0 0 5 MS.init [7, 0]) = some none ∧ viewNext oneNode [] 0 0 5 [7, 0] [0] = some (some (1, 2)) := by
  decide +kernel

/-! ## Matched pairs -/

/-- The detection events named in a row of the array of matched pairs. -/
def rowEvents (r : Int × Int) : List Int := if r.2 = -1 then [r.1] else [r.1, r.2]

theorem matchedArray_spec (es : List CompressedEdge) (h : ∀ e ∈ es, e.locFrom.isSome) :
    ∃ arr, matchedArray es = some arr ∧ arr.flatMap rowEvents = (es.flatMap edgeEnds).map (fun n : Nat => (n : Int)) ∧
      ∀ (a : Nat), (((a : Int), -1) ∈ arr ↔ ∃ e ∈ es, e.locFrom = some a ∧ e.locTo = none) ∧
        ∀ b : Nat, (((a : Int), (b : Int)) ∈ arr ↔ ∃ e ∈ es, e.locFrom = some a ∧ e.locTo = some b) := by
  induction es with
  | nil => exact ⟨[], rfl, rfl, by simp⟩
  | cons e es ih =>
    obtain ⟨arr, h1, h2, h3⟩ := ih (fun x hx => h x (by simp [hx]))
    obtain ⟨a, ha⟩ := Option.isSome_iff_exists.1 (h e (by simp))
    cases hb : e.locTo with
    | none =>
      refine ⟨((a : Int), -1) :: arr, by simp [matchedArray, ha, hb, h1], ?_, ?_⟩
      · simp [List.flatMap_cons, h2, rowEvents, edgeEnds, ha, hb]
      · intro a'
        constructor
        · simp [(h3 a').1, ha, hb, eq_comm]
        · intro b'
          have : ¬ ((b' : Int) = -1) := by omega
          simp [(h3 a').2, ha, hb, this]
    | some b =>
      have hne : ¬ ((b : Int) = -1) := by omega
      have hne' : ¬ (-1 = (b : Int)) := by omega
      refine ⟨((a : Int), (b : Int)) :: arr, by simp [matchedArray, ha, hb, h1], ?_, ?_⟩
      · simp [List.flatMap_cons, h2, rowEvents, edgeEnds, ha, hb, hne]
      · intro a'
        constructor
        · simp [(h3 a').1, ha, hb, hne']
        · intro b'
          simp [(h3 a').2, ha, hb, eq_comm]

theorem matchedDict_spec (es : List CompressedEdge) : ∀ (d0 : Nat → Option (Option Nat)), (∀ e ∈ es, e.locFrom.isSome) → (es.flatMap edgeEnds).Nodup →
    (∀ a ∈ es.flatMap edgeEnds, d0 a = none) → ∃ d, matchedDict d0 es = some d ∧
      (∀ a, a ∉ es.flatMap edgeEnds → d a = d0 a) ∧ (∀ a ∈ es.flatMap edgeEnds, (d a).isSome) ∧
      (∀ a ∈ es.flatMap edgeEnds, (d a = some none ↔ ∃ e ∈ es, e.locFrom = some a ∧ e.locTo = none)) ∧
      ∀ a ∈ es.flatMap edgeEnds, ∀ b, (d a = some (some b) ↔ ∃ e ∈ es, (e.locFrom = some a ∧ e.locTo = some b) ∨ (e.locFrom = some b ∧ e.locTo = some a)) := by
  induction es with
  | nil => intro d0 _ _ _; exact ⟨d0, rfl, by simp, by simp, by simp, by simp⟩
  | cons e es ih =>
    intro d0 hsome hnd hd0
    obtain ⟨a, ha⟩ := Option.isSome_iff_exists.1 (hsome e (by simp))
    rw [List.flatMap_cons, List.nodup_append] at hnd
    obtain ⟨hnd1, hnd2, hnd3⟩ := hnd
    have hmem : ∀ x, ∀ e' ∈ es, (e'.locFrom = some x ∨ e'.locTo = some x) → x ∈ es.flatMap edgeEnds := by
      intro x e' he' hx
      rw [List.mem_flatMap]
      refine ⟨e', he', ?_⟩
      unfold edgeEnds
      rcases hx with hx | hx <;> simp [hx]
    cases hb : e.locTo with
    | none =>
      have hends : edgeEnds e = [a] := by simp [edgeEnds, ha, hb]
      rw [hends] at hnd3
      have hna : a ∉ es.flatMap edgeEnds := fun hx => hnd3 a (by simp) a hx rfl
      obtain ⟨d, k1, k2, k3, k4, k5⟩ := ih (Function.update d0 a (some none)) (fun x hx => hsome x (by simp [hx])) hnd2 (by
        intro x hx
        rw [Function.update_of_ne (show x ≠ a from fun h => hna (h ▸ hx))]
        exact hd0 x (by rw [List.flatMap_cons]; simp [hx]))
      have hda : d a = some none := by rw [k2 a hna, Function.update_self]
      refine ⟨d, by simp only [matchedDict, ha, hb, k1], ?_, ?_, ?_, ?_⟩
      · intro x hx
        rw [List.flatMap_cons, hends] at hx
        simp only [List.mem_append, List.mem_singleton, not_or] at hx
        rw [k2 x hx.2, Function.update_of_ne hx.1]
      · intro x hx
        rw [List.flatMap_cons, hends, List.mem_append, List.mem_singleton] at hx
        rcases hx with rfl | hx
        · rw [hda]; rfl
        · exact k3 x hx
      · intro x hx
        rw [List.flatMap_cons, hends, List.mem_append, List.mem_singleton] at hx
        rcases hx with rfl | hx
        · rw [hda]; simp [ha, hb]
        · rw [k4 x hx]
          have hxa : ¬ a = x := fun h => hna (h ▸ hx)
          simp [ha, hxa]
      · intro x hx y
        rw [List.flatMap_cons, hends, List.mem_append, List.mem_singleton] at hx
        rcases hx with rfl | hx
        · rw [hda]
          constructor
          · intro h; cases h
          · rintro ⟨e', he', h⟩
            rcases List.mem_cons.1 he' with rfl | he'
            · rw [hb] at h; rcases h with ⟨-, h⟩ | ⟨-, h⟩ <;> cases h
            · exact absurd (hmem x e' he' (by rcases h with ⟨h, -⟩ | ⟨-, h⟩; exacts [.inl h, .inr h])) hna
        · rw [k5 x hx y]
          have hxa : ¬ a = x := fun h => hna (h ▸ hx)
          simp [hb]
    | some b =>
      have hends : edgeEnds e = [a, b] := by simp [edgeEnds, ha, hb]
      rw [hends] at hnd1 hnd3
      have hab : a ≠ b := by simpa using hnd1
      have hna : a ∉ es.flatMap edgeEnds := fun hx => hnd3 a (by simp) a hx rfl
      have hnb : b ∉ es.flatMap edgeEnds := fun hx => hnd3 b (by simp) b hx rfl
      obtain ⟨d, k1, k2, k3, k4, k5⟩ := ih (Function.update (Function.update d0 a (some (some b))) b (some (some a))) (fun x hx => hsome x (by simp [hx])) hnd2 (by
        intro x hx
        rw [Function.update_of_ne (show x ≠ b from fun h => hnb (h ▸ hx)), Function.update_of_ne (show x ≠ a from fun h => hna (h ▸ hx))]
        exact hd0 x (by rw [List.flatMap_cons]; simp [hx]))
      have hda : d a = some (some b) := by rw [k2 a hna, Function.update_of_ne hab, Function.update_self]
      have hdb : d b = some (some a) := by rw [k2 b hnb, Function.update_self]
      refine ⟨d, by simp only [matchedDict, ha, hb, k1], ?_, ?_, ?_, ?_⟩
      · intro x hx
        rw [List.flatMap_cons, hends] at hx
        simp only [List.mem_append, List.mem_cons, List.not_mem_nil, or_false, not_or] at hx
        rw [k2 x hx.2, Function.update_of_ne hx.1.2, Function.update_of_ne hx.1.1]
      · intro x hx
        rw [List.flatMap_cons, hends] at hx
        simp only [List.mem_append, List.mem_cons, List.not_mem_nil, or_false] at hx
        rcases hx with (rfl | rfl) | hx
        · rw [hda]; rfl
        · rw [hdb]; rfl
        · exact k3 x hx
      · intro x hx
        rw [List.flatMap_cons, hends] at hx
        simp only [List.mem_append, List.mem_cons, List.not_mem_nil, or_false] at hx
        have hno : x = a ∨ x = b → ¬ ∃ e' ∈ e :: es, e'.locFrom = some x ∧ e'.locTo = none := by
          rintro hx ⟨e', he', h1, h2⟩
          rcases List.mem_cons.1 he' with rfl | he'
          · rw [hb] at h2; cases h2
          · rcases hx with rfl | rfl
            · exact hna (hmem _ e' he' (.inl h1))
            · exact hnb (hmem _ e' he' (.inl h1))
        rcases hx with (rfl | rfl) | hx
        · rw [hda]; exact ⟨fun h => (by cases h), fun h => absurd h (hno (.inl rfl))⟩
        · rw [hdb]; exact ⟨fun h => (by cases h), fun h => absurd h (hno (.inr rfl))⟩
        · rw [k4 x hx]
          simp [hb]
      · intro x hx y
        rw [List.flatMap_cons, hends] at hx
        simp only [List.mem_append, List.mem_cons, List.not_mem_nil, or_false] at hx
        rcases hx with (rfl | rfl) | hx
        · rw [hda]
          constructor
          · intro h; cases h; exact ⟨e, by simp, .inl ⟨ha, hb⟩⟩
          · rintro ⟨e', he', h⟩
            rcases List.mem_cons.1 he' with rfl | he'
            · rw [ha, hb] at h
              rcases h with ⟨-, h⟩ | ⟨-, h⟩
              · rw [h]
              · cases h; exact absurd rfl hab
            · exact absurd (hmem x e' he' (by rcases h with ⟨h, -⟩ | ⟨-, h⟩; exacts [.inl h, .inr h])) hna
        · rw [hdb]
          constructor
          · intro h; cases h; exact ⟨e, by simp, .inr ⟨ha, hb⟩⟩
          · rintro ⟨e', he', h⟩
            rcases List.mem_cons.1 he' with rfl | he'
            · rw [ha, hb] at h
              rcases h with ⟨h, -⟩ | ⟨h, -⟩
              · cases h; exact absurd rfl hab
              · rw [h]
            · exact absurd (hmem x e' he' (by rcases h with ⟨h, -⟩ | ⟨-, h⟩; exacts [.inl h, .inr h])) hnb
        · rw [k5 x hx y]
          have hxa : ¬ a = x := fun h => hna (h ▸ hx)
          have hxb : ¬ b = x := fun h => hnb (h ▸ hx)
          simp [ha, hb, hxa, hxb]

/-- C38.  When decoding to matched detection events returns, the rows of the array name every detection event exactly once; an event is
matched to another one or to the boundary (second entry -1).  The dictionary has the detection events as keys, maps `a` to `b` iff it maps
`b` to `a` iff one of the rows `(a, b)`, `(b, a)` is in the array, and maps `a` to `None` iff the row `(a, -1)` is.  The pairs are those of
a minimum-weight matching: connecting each pair by a path of weight `d` gives total weight equal to the minimum weight of an
explanation of the events. -/
theorem C38_matched_pairs (numNodes numObs : Nat) (ops : List EdgeIns) (g : MGraph)
    (h : run (MGraph.empty numNodes numObs) ops = some g) (he : Edges ops)
    (bnd : List Bool) (hb : ∀ d ∈ g.negDets, TL.notBoundary bnd d = true) (s : MS) (hs : Used g bnd s) (events : List Nat) (hv : Valid g events)
    (f : Nat) (s' : MS) (es : List CompressedEdge) (hrun : decodePairs g bnd (negEvents g) g.negSum f s events = some (.ok (s', es))) :
    ∃ arr dict, matchedArray es = some arr ∧ matchedDict (fun _ => none) es = some dict ∧
      (arr.flatMap rowEvents).Nodup ∧ (∀ x : Int, x ∈ arr.flatMap rowEvents ↔ ∃ d ∈ counted bnd events, (d : Int) = x) ∧
      (∀ a, (dict a).isSome ↔ a ∈ counted bnd events) ∧
      (∀ a, dict a = some none ↔ ((a : Int), -1) ∈ arr) ∧
      (∀ a b, dict a = some (some b) ↔ ((a : Int), (b : Int)) ∈ arr ∨ ((b : Int), (a : Int)) ∈ arr) ∧
      (∀ a b, dict a = some (some b) → dict b = some (some a) ∧ a ≠ b) ∧
      ∃ d : CompressedEdge → Int, (∀ e ∈ es, PathOf g e (d e)) ∧
        ∃ c : Correction ops, Optimal weight c (counted bnd events) ∧ weight c = (es.map d).sum := by
  have hg := proper_of_run h he.pairs he.even he.small
  rcases decodePairs_cases hg (no_negatives h) bnd (used_clean hg (no_negatives h) hb hs) hv f with ⟨-, e⟩ | ⟨hsum, e | ⟨s'', x, e, -, hx⟩ | ⟨s'', e, -⟩⟩
  · rw [e] at hrun; cases hrun
  · rw [e] at hrun; cases hrun
  · rw [e] at hrun
    cases hrun
    obtain ⟨d, hd1, hd2⟩ := hx.paths
    have hsome : ∀ e ∈ x.edges, e.locFrom.isSome := by
      intro e he
      obtain ⟨a, vs, h1, -⟩ := hd1 e he
      rw [h1]; rfl
    obtain ⟨arr, a1, a2, a3⟩ := matchedArray_spec x.edges hsome
    obtain ⟨dict, d1, d2, d3, d4, d5⟩ := matchedDict_spec x.edges (fun _ => none) hsome hx.once (fun _ _ => rfl)
    have hin : ∀ e ∈ x.edges, ∀ v, (e.locFrom = some v ∨ e.locTo = some v) → v ∈ x.edges.flatMap edgeEnds := by
      intro e he v hv
      rw [List.mem_flatMap]
      refine ⟨e, he, ?_⟩
      unfold edgeEnds
      rcases hv with hv | hv <;> simp [hv]
    have hnone : ∀ a, dict a = some none ↔ ∃ e ∈ x.edges, e.locFrom = some a ∧ e.locTo = none := by
      intro a
      by_cases ha : a ∈ x.edges.flatMap edgeEnds
      · exact d4 a ha
      · rw [d2 a ha]
        exact ⟨fun h => (by cases h), fun ⟨e, he, h1, _⟩ => absurd (hin e he a (.inl h1)) ha⟩
    have hpair : ∀ a b, dict a = some (some b) ↔ ∃ e ∈ x.edges, (e.locFrom = some a ∧ e.locTo = some b) ∨ (e.locFrom = some b ∧ e.locTo = some a) := by
      intro a b
      by_cases ha : a ∈ x.edges.flatMap edgeEnds
      · exact d5 a ha b
      · rw [d2 a ha]
        refine ⟨fun h => (by cases h), fun ⟨e, he, h1⟩ => absurd (hin e he a ?_) ha⟩
        rcases h1 with ⟨h1, -⟩ | ⟨-, h1⟩
        exacts [.inl h1, .inr h1]
    refine ⟨arr, dict, a1, d1, ?_, ?_, ?_, ?_, ?_, ?_, d, hd1, ?_⟩
    · rw [a2]
      exact hx.once.map (fun a b h => by simpa using h)
    · intro y
      rw [a2, List.mem_map]
      constructor
      · rintro ⟨n, h1, h2⟩; exact ⟨n, (hx.covers n).1 h1, h2⟩
      · rintro ⟨n, h1, h2⟩; exact ⟨n, (hx.covers n).2 h1, h2⟩
    · intro a
      rw [← hx.covers a]
      refine ⟨fun h => ?_, fun h => d3 a h⟩
      by_contra ha
      rw [d2 a ha] at h
      cases h
    · intro a; rw [hnone, (a3 a).1]
    · intro a b
      rw [hpair, (a3 a).2, (a3 b).2]
      constructor
      · rintro ⟨e, he, h1 | h1⟩
        · exact .inl ⟨e, he, h1⟩
        · exact .inr ⟨e, he, h1⟩
      · rintro (⟨e, he, h1⟩ | ⟨e, he, h1⟩)
        · exact ⟨e, he, .inl h1⟩
        · exact ⟨e, he, .inr h1⟩
    · intro a b hab
      have h1 := (hpair a b).1 hab
      refine ⟨(hpair b a).2 ?_, ?_⟩
      · obtain ⟨e, he, h1⟩ := h1
        exact ⟨e, he, h1.symm⟩
      · rintro rfl
        obtain ⟨e, he, h1⟩ := h1
        have h1 : e.locFrom = some a ∧ e.locTo = some a := by tauto
        have hnd : (edgeEnds e).Nodup := List.Nodup.sublist (List.sublist_flatten_of_mem (List.mem_map_of_mem he)) hx.once
        simp [edgeEnds, h1.1, h1.2] at hnd
    · obtain ⟨ws, k1, k2, k3⟩ := hx.attained
      obtain ⟨c, c1, c2, -⟩ := correction_of_slots h k1
      have habs : ∀ c : Correction ops, weight c = absWeight c := by
        intro c
        have h3 := (C15_negative_bookkeeping numNodes numObs ops g h).2.2
        have := C14_translation numNodes numObs ops g h (counted bnd events) c
        have hneg : negatives ops = ∅ := by
          rw [Finset.eq_empty_iff_forall_notMem]
          intro i hi
          have hi : (ops[i]).w < 0 := by simpa [negatives] using hi
          have hs := sum_negatives ops EdgeIns.w
          rw [← h3, hsum] at hs
          have : ∑ j ∈ negatives ops, (ops[j]).w < 0 := by
            refine Finset.sum_neg (fun j hj => by simpa [negatives] using hj) ⟨i, by simpa [negatives] using hi⟩
          omega
        have h4 := this.2.1
        rw [hneg, ← Finset.bot_eq_empty, symmDiff_bot, hsum] at h4
        omega
      refine ⟨c, ⟨c1, fun c' hc' => ?_⟩, ?_⟩
      · obtain ⟨ws', l1, l2⟩ := slots_of_correction h hc'
        have := hx.least ws' l1
        rw [habs, habs]
        omega
      · obtain ⟨ws', l1, l2⟩ := slots_of_correction h c1
        have := hx.least ws' l1
        rw [habs, hd2]
        omega
  · rw [e] at hrun; cases hrun

/-- C50 (decoding to matched pairs always ends): the call returns pairs, or it raises an exception, and then some weight is negative or no
explanation exists. -/
theorem C50_pairs_terminate (numNodes numObs : Nat) (ops : List EdgeIns) (g : MGraph)
    (h : run (MGraph.empty numNodes numObs) ops = some g) (he : Edges ops)
    (bnd : List Bool) (hb : ∀ d ∈ g.negDets, TL.notBoundary bnd d = true) (s : MS) (hs : Used g bnd s) (events : List Nat) (hv : Valid g events) :
    ∃ f0 out, (∀ f, f0 ≤ f → decodePairs g bnd (negEvents g) g.negSum f s events = some out) ∧
      ((∃ s' es, out = .ok (s', es)) ∨
       ∃ s', out = .throws s' ∧ ((∃ op ∈ ops, op.w < 0) ∨ ∀ c : Correction ops, ¬ Explains c (counted bnd events))) := by
  have hg := proper_of_run h he.pairs he.even he.small
  have hc := used_clean hg (no_negatives h) hb hs
  by_cases hsum : g.negSum ≠ 0
  · refine ⟨0, .throws s, fun f _ => by rw [decodePairs, if_pos hsum], .inr ⟨s, rfl, .inl ?_⟩⟩
    by_contra hno
    refine hsum ?_
    rw [(C15_negative_bookkeeping numNodes numObs ops g h).2.2]
    have : ops.filter (·.w < 0) = [] := by
      rw [List.filter_eq_nil_iff]
      intro o ho hw
      exact hno ⟨o, ho, by simpa using hw⟩
    rw [this]; rfl
  · obtain ⟨f0, o, ho⟩ := timeline_ends hg hc bnd hv.range hv.nodup (fun d hd => hb d (((neg_sort g).2 d).1 hd)) (neg_sort g).1
    have hconst : ∀ f, f0 ≤ f → decodePairs g bnd (negEvents g) g.negSum f s events = decodePairs g bnd (negEvents g) g.negSum f0 s events := by
      intro f hf
      simp only [decodePairs, ho f hf, ho f0 (le_refl _)]
    rcases decodePairs_cases hg (no_negatives h) bnd hc hv f0 with ⟨e, -⟩ | ⟨hs0, e | ⟨s', x, e, -⟩ | ⟨s', e, -, hno⟩⟩
    · exact absurd e hsum
    · simp only [decodePairs, ho f0 (le_refl _), if_neg hsum] at e
      cases o with
      | ub => cases e
      | throws => cases e
      | ok s1 => simp only at e; split at e <;> cases e
    · exact ⟨f0, _, fun f hf => (hconst f hf).trans e, .inl ⟨s', _, rfl⟩⟩
    · refine ⟨f0, _, fun f hf => (hconst f hf).trans e, .inr ⟨s', rfl, .inr fun c hx => ?_⟩⟩
      have hd := no_negatives h hs0
      have h3 := (C14_translation numNodes numObs ops g h (counted bnd events) (symmDiff c (negatives ops))).1
      rw [symmDiff_symmDiff_cancel_right, hd, ← Finset.bot_eq_empty, symmDiff_bot] at h3
      obtain ⟨ws', l1, -⟩ := slots_of_correction h (h3.1 hx)
      exact hno ws' l1

/-- Result of a call, as pairs. -/
def viewPairs (r : Option (Outcome (MS × List CompressedEdge))) : Option (Option (List (Int × Int))) :=
  match r with
  | some (.ok (_, es)) => matchedArray es
  | _ => none

/-- A call that completes: two events matched to each other, and one matched to the boundary. -/
example : viewPairs (decodePairs ⟨[[⟨some 1, 4, 1⟩], [⟨none, 6, 0⟩, ⟨some 0, 4, 1⟩]], 1, ∅, ∅, 0⟩ [] [] 0 8 MS.init [0, 1]) = some (some [(0, 1)]) ∧
    viewPairs (decodePairs ⟨[[⟨some 1, 4, 1⟩], [⟨none, 6, 0⟩, ⟨some 0, 4, 1⟩]], 1, ∅, ∅, 0⟩ [] [] 0 8 MS.init [0]) = some (some [(0, -1)]) := by
  decide +kernel

end Verif.Props.Decode
