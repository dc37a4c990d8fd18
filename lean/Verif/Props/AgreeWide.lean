import Verif.Props.Shots

/-!
# C89: with more than 64 observables, predictions and edges are those of one correction
-/

namespace Verif.Props.Agree

open Verif Verif.Graph Verif.CE Verif.SB Verif.Props.Graph Verif.Props.NegWeights Verif.Props.Decode Verif.Props.Edges Verif.Props.Convert
open Verif.Props.Correlated Verif.Props.Shots Verif.UG Verif.Conv
open Verif.Sch (Fresh)

/-! ## Specification -/

/-- The replies to a request for predictions (into zeroed bytes, and a zeroed weight) and a request for edges are two views of one optimal correction, or both are exceptions because
there is none. -/
def OneCorrection (numObs : Nat) (ops : List EdgeIns) (bnd : List Bool) (events : List Nat) (r r' : Reply) : Prop :=
  (∃ (c : Correction ops) (buf : List (BitVec 8)) (es : List (Nat × Option Nat)), r = .predictions buf (weight c) ∧ r' = .edges es ∧ Optimal weight c (counted bnd events) ∧ Lists es c ∧
    buf.length = numObs ∧ ∀ k, k < numObs → buf[k]? = some (if crossed c k % 2 = 1 then 1#8 else 0#8)) ∨
  (r = .exception ∧ r' = .exception ∧ ∀ c : Correction ops, ¬ Explains c (counted bnd events))

/-! ## Lemmas -/

variable {numNodes numObs : Nat} {ops : List EdgeIns} {g : MGraph} {sg : SGraph} {m : ObsInt} {bnd : List Bool} {C : Corr}

/-- Both ways to decode, from a decoder at rest. -/
theorem both_spec (hB : Built numNodes numObs ops g sg m) (hbig : numObs > 64) (hb : ∀ d ∈ g.negDets, TL.notBoundary bnd d = true) {F : Full} (hF : Idle F)
    {events : List Nat} (hv : Valid g events) {buf : List (BitVec 8)} (hl : buf.length = numObs) (w0 : Int) :
    (∃ F1 F2 buf' es, ∃ c : Correction ops, Completes (fun f => decodeObs g sg bnd m f F events buf w0) (.ok (F1, buf', w0 + weight c)) ∧
      Completes (fun f => decodeEdges g sg bnd f F events) (.ok (F2, es)) ∧ buf'.length = numObs ∧ Optimal weight c (counted bnd events) ∧ Lists es c ∧
        ∀ k, buf'[k]? = (buf[k]?).map (· ^^^ parity (crossed c k))) ∨
    (∃ F1 F2, Completes (fun f => decodeObs g sg bnd m f F events buf w0) (.throws F1) ∧ Completes (fun f => decodeEdges g sg bnd f F events) (.throws F2) ∧
      ∀ c : Correction ops, ¬ Explains c (counted bnd events)) := by
  have hg := proper_of_run hB.matching hB.edges.pairs hB.edges.even hB.edges.small
  have hno : g.numObs = numObs := (built_run (built_empty numNodes numObs) hB.matching).nobs
  have hbig' : g.numObs > 64 := by rw [hno]; exact hbig
  have ht := twin_of_runs hB.matching hB.search
  have hlen : ¬ g.nodes.length ≠ sg.nodes.length := by
    rw [(C13_adjacency numNodes numObs ops g hB.matching).1, ht.len]; simp
  rcases matching_cases hB hb hF.ms hv with ⟨s', x, ⟨f0, hf0⟩, h1, h2⟩ | ⟨s', ⟨f0, hf0⟩, h1, h2⟩
  · left
    obtain ⟨N, ss', ps, I, k1, k2, k3, k4, k5, k6⟩ := collect hB.matching ht hg hB.edges.pairs h2 (started_range hB hv) F.ss hF.ss
    obtain ⟨b1, l1, l2, l3⟩ := takeEdges_spec k3 buf w0 (by rw [hl]; exact hB.obs)
    obtain ⟨b2, n1, n2, n3⟩ := flipBytes_spec (negObservables g) b1 (by
      intro o ho
      rw [l2, hl]
      exact negObs_range hB.matching hB.obs o ((Finset.mem_sort _).1 ho))
    obtain ⟨out, q1, q2⟩ := toEdges_spec hB.matching ht hg hB.edges.pairs k3
    obtain ⟨o1, o2, o3⟩ := C14_negative_weights_optimal numNodes numObs ops g hB.matching (counted bnd events) (oddOf I) k4
    have ew : w0 + weight (symmDiff (oddOf I) (negatives ops)) = w0 + x.weight + g.negSum := by rw [o2, k5, add_assoc]
    refine ⟨{ F with ms := s', ss := ss' }, ⟨s', ss', fun _ _ => false⟩, b2, out, symmDiff (oddOf I) (negatives ops), ⟨max f0 N, ?_⟩, ⟨max f0 N, ?_⟩, by rw [n2, l2, hl], o1, q2, ?_⟩
    · intro f hf
      have hf1 : f0 ≤ f := le_trans (le_max_left _ _) hf
      have hf2 : N ≤ f := le_trans (le_max_right _ _) hf
      rw [ew]
      simp only [decodeObs, hf0 f hf1, hbig', if_true, k2 f hf2, l1, k6, Sch.Res.bind, n1]
    · intro f hf
      have hf1 : f0 ≤ f := le_trans (le_max_left _ _) hf
      have hf2 : N ≤ f := le_trans (le_max_right _ _) hf
      simp only [decodeEdges, hlen, if_false, hf0 f hf1, k2 f hf2, hF.marks, q1]
    · intro k
      rw [n3 k, l3 k, Option.map_map]
      congr 1
      funext b
      have hpar : parity ((I.map fun i => (ops[i]).obs.count k).sum) = parity (crossed (oddOf I) k) := by
        unfold parity crossed
        rw [oddOf_sum (fun i => (ops[i]).obs.count k)]
      have hcnt : parity ((negObservables g).count k) = if k ∈ g.negObs then 1#8 else 0#8 := by
        rw [negObservables, List.Nodup.count (Finset.sort_nodup _ _)]
        simp only [Finset.mem_sort]
        by_cases hk : k ∈ g.negObs <;> simp [hk, parity]
      rw [parity_iff (o3 k)]
      simp only [Function.comp, hpar, hcnt, BitVec.xor_assoc]
  · right
    refine ⟨{ F with ms := s' }, { F with ms := s' }, ⟨f0, fun f hf => ?_⟩, ⟨f0, fun f hf => ?_⟩, h2⟩
    · simp only [decodeObs, hf0 f hf]
    · simp only [decodeEdges, hlen, if_false, hf0 f hf]

/-- The reply of a session with one call. -/
theorem alone_of {c : Call} {r r0 : Reply} {st : CState} (h : Alone g sg bnd m C c r) (h0 : Completes (fun f => respond g sg bnd m C f (CState.init g sg) c) (.ok (r0, st))) : r = r0 := by
  obtain ⟨st1, h⟩ := h
  obtain ⟨f0, h0⟩ := h0
  have : Completes (fun f => session g sg bnd m C f (CState.init g sg) [c]) (.ok ([r0], st)) := by
    refine ⟨f0, fun f hf => ?_⟩
    have := h0 f hf
    simp only at this
    simp only [session, this, Sch.Res.bind]
  have := completes_unique h this
  cases this
  rfl

theorem tell_ok {α : Type} {v : α → Reply} {call : Nat → Option (EndedC (CState × α))} {st : CState} {a : α} (h : Completes call (.ok (st, a))) :
    Completes (fun f => tell v (call f)) (.ok (v a, st)) := by
  obtain ⟨f0, h⟩ := h
  exact ⟨f0, fun f hf => by simp only [h f hf, tell]⟩

theorem tell_throws {α : Type} {v : α → Reply} {call : Nat → Option (EndedC (CState × α))} {st : CState} (h : Completes call (.throws st)) :
    Completes (fun f => tell v (call f)) (.ok (.exception, st)) := by
  obtain ⟨f0, h⟩ := h
  exact ⟨f0, fun f hf => by simp only [h f hf, tell]⟩

theorem alone_both (hB : Built numNodes numObs ops g sg m) (hbig : numObs > 64) (hb : ∀ d ∈ g.negDets, TL.notBoundary bnd d = true) {events : List Nat} (hv : Valid g events)
    {r r' : Reply} (h : Alone g sg bnd m C (.obs false events (List.replicate numObs 0#8) 0) r) (h' : Alone g sg bnd m C (.edges false events) r') : OneCorrection numObs ops bnd events r r' := by
  have e1 : withM g (CState.init g sg).wg.mem = g := withM_mem g
  have e2 : withS sg (CState.init g sg).ws.mem = sg := withS_mem sg
  rcases both_spec (bnd := bnd) hB hbig hb idle_init hv (List.length_replicate (n := numObs) (a := 0#8)) 0 with ⟨F1, F2, buf, es, c, h1, h2, h3, h4, h5, h6⟩ | ⟨F1, F2, h1, h2, h3⟩
  · left
    have a1 := alone_of h (tell_ok (plain_ok (g := g) (sg := sg) (st := CState.init g sg) (call := fun f g sg F => decodeObs g sg bnd m f F events (List.replicate numObs 0#8) 0) (by rw [e1, e2]; exact h1)))
    have a2 := alone_of h' (tell_ok (plain_ok (g := g) (sg := sg) (st := CState.init g sg) (call := fun f g sg F => decodeEdges g sg bnd f F events) (by rw [e1, e2]; exact h2)))
    refine ⟨c, buf, es, by rw [a1, zero_add], a2, h4, h5, h3, fun k hk => ?_⟩
    rw [h6 k, List.getElem?_replicate, if_pos hk, Option.map_some]
    simp [parity]
  · right
    have a1 := alone_of h (tell_throws (plain_throws (g := g) (sg := sg) (st := CState.init g sg) (call := fun f g sg F => decodeObs g sg bnd m f F events (List.replicate numObs 0#8) 0) (by rw [e1, e2]; exact h1)))
    have a2 := alone_of h' (tell_throws (plain_throws (g := g) (sg := sg) (st := CState.init g sg) (call := fun f g sg F => decodeEdges g sg bnd f F events) (by rw [e1, e2]; exact h2)))
    exact ⟨a1, a2, h3⟩

/-! ## C89 -/

/-- C89 with more than 64 observables: wherever the two calls are in a session, they describe one correction, also if there are several that are optimal.
Missing: up to 64 observables, where it is false (`C89_statement_false`). -/
theorem C89_wide_partial (numNodes numObs : Nat) (hbig : numObs > 64) (ops : List EdgeIns) (g : MGraph) (sg : SGraph) (m : ObsInt) (hB : Built numNodes numObs ops g sg m)
    (bnd : List Bool) (hb : ∀ d ∈ g.negDets, TL.notBoundary bnd d = true) (C : Corr) (calls : List Call) (hc : ∀ c ∈ calls, c.Acceptable g ∧ asksCorr c = false) :
    ∃ replies st, Completes (fun f => session g sg bnd m C f (CState.init g sg) calls) (.ok (replies, st)) ∧ replies.length = calls.length ∧
      ∀ (i j : Nat) (events : List Nat) (r r' : Reply), calls[i]? = some (.obs false events (List.replicate numObs 0#8) 0) → calls[j]? = some (.edges false events) →
        replies[i]? = some r → replies[j]? = some r' → OneCorrection numObs ops bnd events r r' := by
  obtain ⟨rs, st, h1, h2, -⟩ := C32_shots_independent numNodes numObs ops g sg m hB bnd hb C calls hc
  refine ⟨rs, st, h2, h1.length_eq.symm, fun i j events r r' hi hj ri rj => ?_⟩
  have key : ∀ (n : Nat) (c : Call) (r : Reply), calls[n]? = some c → rs[n]? = some r → Alone g sg bnd m C c r := by
    intro n c r hm hr
    obtain ⟨n1, rfl⟩ := List.getElem?_eq_some_iff.1 hm
    obtain ⟨n2, rfl⟩ := List.getElem?_eq_some_iff.1 hr
    exact h1.get n1 n2
  exact alone_both hB hbig hb (hc _ (List.mem_of_getElem? hj)).1 (key i _ _ hi ri) (key j _ _ hj rj)

/-! ## Example -/

/-- The square of `C89_statement_false` with 65 observables. -/
def circle : List EdgeIns := [.edge 0 1 2 [0], .edge 1 2 2 [], .edge 2 3 2 [64], .edge 3 0 2 []]

def circleGraph : MGraph := ⟨[[⟨some 1, 2, 0⟩, ⟨some 3, 2, 0⟩], [⟨some 0, 2, 0⟩, ⟨some 2, 2, 0⟩], [⟨some 1, 2, 0⟩, ⟨some 3, 2, 0⟩], [⟨some 2, 2, 0⟩, ⟨some 0, 2, 0⟩]], 65, ∅, ∅, 0⟩

def circleSearch : SGraph := ⟨[[⟨some 1, 2, [0], false⟩, ⟨some 3, 2, [], false⟩], [⟨some 0, 2, [0], false⟩, ⟨some 2, 2, [], false⟩], [⟨some 1, 2, [], false⟩, ⟨some 3, 2, [64], false⟩],
  [⟨some 2, 2, [64], false⟩, ⟨some 0, 2, [], false⟩]], []⟩

theorem circle_run : run (MGraph.empty 4 65) circle = some circleGraph := by
  have : ∃ g, run (MGraph.empty 4 65) circle = some g ∧ g.nodes = circleGraph.nodes ∧ g.numObs = 65 ∧ g.negDets = ∅ ∧ g.negObs = ∅ ∧ g.negSum = 0 :=
    ⟨_, rfl, by decide, by decide, by decide, by decide, by decide⟩
  obtain ⟨⟨_, _, _, _, _⟩, h, h1, h2, h3, h4, h5⟩ := this
  cases h1; cases h2; cases h3; cases h4; cases h5
  exact h

theorem circle_built : Built 4 65 circle circleGraph circleSearch 0 :=
  ⟨circle_run, rfl, by decide, ⟨by decide, by decide, by decide⟩, by decide⟩

theorem circle_neg : negEvents circleGraph = [] := (List.toFinset_sort (l := []) (· ≤ ·) (by decide)).2 (by decide)

theorem circle_negObs : negObservables circleGraph = [] := (List.toFinset_sort (l := []) (· ≤ ·) (by decide)).2 (by decide)

/-- The hypotheses hold, for events at two opposite corners: there are two optimal corrections, and both calls describe the one with observable 64. -/
example : Built 4 65 circle circleGraph circleSearch 0 ∧ (∀ d ∈ circleGraph.negDets, TL.notBoundary [] d = true) ∧ Valid circleGraph [0, 2] ∧
    viewObs (decodeObs circleGraph circleSearch [] 0 20 Full.init [0, 2] (List.replicate 65 0#8) 0) = some (some ((List.replicate 65 0).set 64 1, 4)) ∧
    viewEdges (decodeEdges circleGraph circleSearch [] 20 Full.init [0, 2]) = some (some [(3, some 0), (3, some 2)]) :=
  ⟨circle_built, by decide, ⟨by decide, by decide⟩, by simp only [decodeObs, circle_neg, circle_negObs]; decide +kernel, by simp only [decodeEdges, circle_neg]; decide +kernel⟩

end Verif.Props.Agree
