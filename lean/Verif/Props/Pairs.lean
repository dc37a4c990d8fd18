import Verif.Props.Answers

/-!
# C59: matched pairs are joined by best explanations

What `decode_to_matched_detection_events_array` returns, in terms of the edges of the user's graph, at any time in the history of an object.
-/

namespace Verif.Props.Pairs

open Verif Verif.Graph Verif.CE Verif.SB Verif.UG Verif.Conv Verif.Obj
open Verif.Props.Correlated Verif.Props.Shots Verif.Props.Edges Verif.Props.EndToEnd Verif.Props.UserEdges Verif.Props.UserGraph Verif.Props.Decode
open Verif.Props.Object Verif.Props.Answers
open Verif.Sch (Res)

variable {K : Type} [Field K] [LinearOrder K] [IsStrictOrderedRing K] [FloorRing K]

/-! ## Specification -/

/-- The one or two detection events of a row. -/
def partners (e : CompressedEdge) : List Nat := e.locFrom.toList ++ e.locTo.toList

/-- The rows name every detection event once, apart from those at boundary nodes.  Every row is joined by a best explanation of this row alone, and the
weights of these explanations add up to that of a best explanation of all events. -/
structure Matched (g : UGraph K) (scale : K) (events : List Nat) (ps : List CompressedEdge) : Prop where
  once : (ps.flatMap partners).Nodup
  all : ∀ x, x ∈ ps.flatMap partners ↔ x ∈ events ∧ x ∉ g.boundary
  first : ∀ e ∈ ps, e.locFrom.isSome
  each : ∃ D : CompressedEdge → Choice g, (∀ e ∈ ps, Best scale (D e) (partners e)) ∧
    ∃ C : Choice g, Best scale C events ∧ total scale C = (ps.map fun e => total scale (D e)).sum

/-- What the answer means; an exception: some weight is negative, or nothing explains the events. -/
def MeansPairs (g : UGraph K) (scale : K) (events : List Nat) (a : Answer K) : Prop :=
  (∃ ps, a = .pairs ps ∧ Matched g scale events ps) ∨
  (a = .exception ∧ ((∃ e ∈ g.edges, e.weight < 0) ∨ ∀ C : Choice g, ¬ EndToEnd.Explains C events))

/-! ## Lemmas -/

open Verif.Spec (Corrects entry totalEnds totalWeight Slot)

section
variable {numNodes numObs : Nat} {ops : List Props.Graph.EdgeIns} {g : MGraph}

theorem weight_abs (h : Props.Graph.run (MGraph.empty numNodes numObs) ops = some g) (hsum : g.negSum = 0) :
    (∀ op ∈ ops, 0 ≤ op.w) ∧ ∀ c : NegWeights.Correction ops, NegWeights.weight c = NegWeights.absWeight c := by
  have h3 := (Props.Graph.C15_negative_bookkeeping numNodes numObs ops g h).2.2
  have hpos : ∀ i : Fin ops.length, 0 ≤ (ops[i]).w := by
    intro i
    by_contra hi
    have hi : (ops[i]).w < 0 := by omega
    have hs := NegWeights.sum_negatives ops Props.Graph.EdgeIns.w
    rw [← h3, hsum] at hs
    have : ∑ j ∈ NegWeights.negatives ops, (ops[j]).w < 0 :=
      Finset.sum_neg (fun j hj => by simpa [NegWeights.negatives] using hj) ⟨i, by simpa [NegWeights.negatives] using hi⟩
    omega
  refine ⟨fun op hop => ?_, fun c => ?_⟩
  · obtain ⟨i, hi, rfl⟩ := List.getElem_of_mem hop
    exact hpos ⟨i, hi⟩
  · unfold NegWeights.weight NegWeights.absWeight
    exact Finset.sum_congr rfl fun i _ => (abs_of_nonneg (hpos i)).symm

/-- The walks of all rows but one, and something else in place of that one. -/
theorem replace {es : List CompressedEdge} {vs : CompressedEdge → List Slot} (hvs : ∀ e ∈ es, (∀ s ∈ vs e, (entry g s).isSome) ∧
      ∀ x, totalEnds g x (vs e) % 2 = (edgeEnds e).count x % 2) {T : Finset Nat} (hnd : (es.flatMap edgeEnds).Nodup)
    (hT : ∀ x, x ∈ es.flatMap edgeEnds ↔ x ∈ T) : Corrects g T (es.flatMap vs) := by
  refine ⟨?_, fun x => ?_⟩
  · intro s hs
    obtain ⟨e, he, hs⟩ := List.mem_flatMap.1 hs
    exact (hvs e he).1 s hs
  · have key : ∀ es : List CompressedEdge, (∀ e ∈ es, totalEnds g x (vs e) % 2 = (edgeEnds e).count x % 2) →
        totalEnds g x (es.flatMap vs) % 2 = (es.flatMap edgeEnds).count x % 2 := by
      intro es
      induction es with
      | nil => intro _; simp [totalEnds]
      | cons e es ih =>
        intro h
        have h1 := h e (by simp)
        have h2 := ih fun e he => h e (by simp [he])
        rw [List.flatMap_cons, List.flatMap_cons, totalEnds_append, List.count_append]
        omega
    rw [key es fun e he => (hvs e he).2 x, ← hT]
    by_cases hx : x ∈ es.flatMap edgeEnds
    · rw [List.count_eq_one_of_mem hnd hx]; simp [hx]
    · rw [List.count_eq_zero_of_not_mem hx]; simp [hx]

omit [Field K] [LinearOrder K] [IsStrictOrderedRing K] [FloorRing K] in
theorem total_flatMap (g : MGraph) (vs : CompressedEdge → List Slot) (es : List CompressedEdge) :
    totalWeight g (es.flatMap vs) = (es.map fun e => totalWeight g (vs e)).sum := by
  induction es with
  | nil => rfl
  | cons e es ih => rw [List.flatMap_cons, totalWeight_append, ih, List.map_cons, List.sum_cons]

theorem rows_nodup {es : List CompressedEdge} (hf : ∀ e ∈ es, e.locFrom.isSome) (hnd : (es.flatMap edgeEnds).Nodup) : es.Nodup := by
  induction es with
  | nil => exact List.nodup_nil
  | cons e es ih =>
    rw [List.flatMap_cons, List.nodup_append'] at hnd
    refine List.nodup_cons.2 ⟨fun he => ?_, ih (fun e he => hf e (by simp [he])) hnd.2.1⟩
    obtain ⟨a, ha⟩ := Option.isSome_iff_exists.1 (hf e (by simp))
    have h1 : a ∈ edgeEnds e := by simp [edgeEnds, ha]
    exact hnd.2.2 h1 (List.mem_flatMap.2 ⟨e, he, h1⟩)

/-- Every pair is joined by a best explanation of this pair. -/
theorem pairs_best (h : Props.Graph.run (MGraph.empty numNodes numObs) ops = some g) (hsum : g.negSum = 0) {T : Finset Nat} {x : Extract} (hx : SB.Answer g T x) :
    (∀ e ∈ x.edges, e.locFrom.isSome) ∧ ∃ D : CompressedEdge → NegWeights.Correction ops,
      (∀ e ∈ x.edges, NegWeights.Optimal NegWeights.weight (D e) (edgeEnds e).toFinset) ∧
      ∃ c : NegWeights.Correction ops, NegWeights.Optimal NegWeights.weight c T ∧ NegWeights.weight c = (x.edges.map fun e => NegWeights.weight (D e)).sum := by
  classical
  obtain ⟨-, habs⟩ := weight_abs h hsum
  obtain ⟨d, hd1, hd2⟩ := hx.paths
  have hf : ∀ e ∈ x.edges, e.locFrom.isSome := by
    intro e he
    obtain ⟨a, vs, h1, -⟩ := hd1 e he
    rw [h1]; rfl
  have hcnt : ∀ e a, e.locFrom = some a → ∀ y, (edgeEnds e).count y = (if a = y then 1 else 0) + (if e.locTo = some y then 1 else 0) := by
    intro e a ha y
    unfold edgeEnds
    rw [ha, List.count_append]
    congr 1
    · simp [List.count_singleton]
    · cases e.locTo with
      | none => simp
      | some b => simp [List.count_singleton]
  -- the walks
  have hw : ∀ e : CompressedEdge, ∃ vs : List Slot, e ∈ x.edges → (∀ s ∈ vs, (entry g s).isSome) ∧
      (∀ y, totalEnds g y vs % 2 = (edgeEnds e).count y % 2) ∧ totalWeight g vs = d e := by
    intro e
    by_cases he : e ∈ x.edges
    · obtain ⟨a, vs, h1, h2, h3, -⟩ := hd1 e he
      refine ⟨vs, fun _ => ⟨walk_slots h2, fun y => ?_, h3⟩⟩
      rw [walk_ends h2 y, hcnt e a h1]
    · exact ⟨[], fun h => absurd h he⟩
  choose vs hvs using hw
  have hone : ∀ e ∈ x.edges, (edgeEnds e).Nodup := fun e he => List.Nodup.sublist (List.sublist_flatten_of_mem (List.mem_map_of_mem he)) hx.once
  have hT1 : ∀ e ∈ x.edges, Corrects g (edgeEnds e).toFinset (vs e) := by
    intro e he
    refine ⟨(hvs e he).1, fun y => ?_⟩
    rw [(hvs e he).2.1, List.mem_toFinset]
    by_cases hy : y ∈ edgeEnds e
    · rw [List.count_eq_one_of_mem (hone e he) hy]; simp [hy]
    · rw [List.count_eq_zero_of_not_mem hy]; simp [hy]
  -- no explanation of one pair is lighter
  have hleast : ∀ e ∈ x.edges, ∀ ws, Corrects g (edgeEnds e).toFinset ws → d e ≤ totalWeight g ws := by
    intro e he ws hws
    have hnd := rows_nodup hf hx.once
    have hc := replace (g := g) (es := x.edges) (vs := Function.update vs e ws) (T := T) (fun e' he' => ?_) hx.once hx.covers
    · have h1 := hx.least _ hc
      rw [total_flatMap, ← hd2] at h1
      have h2 : (x.edges.map fun e' => totalWeight g (Function.update vs e ws e')).sum - (x.edges.map d).sum = totalWeight g ws - d e := by
        rw [← List.sum_toFinset _ hnd, ← List.sum_toFinset _ hnd, ← Finset.sum_sub_distrib]
        rw [Finset.sum_eq_single_of_mem e (List.mem_toFinset.2 he)]
        · rw [Function.update_self]
        · intro b hb hbe
          rw [Function.update_of_ne hbe, (hvs b (List.mem_toFinset.1 hb)).2.2]
          omega
      omega
    · by_cases hee : e' = e
      · subst hee
        rw [Function.update_self]
        refine ⟨hws.1, fun y => ?_⟩
        have := hws.2 y
        rw [List.mem_toFinset] at this
        by_cases hy : y ∈ edgeEnds e'
        · rw [List.count_eq_one_of_mem (hone e' he') hy]
          exact this.1 hy
        · rw [List.count_eq_zero_of_not_mem hy]
          have : ¬ _ := fun k => hy (this.2 k)
          omega
      · rw [Function.update_of_ne hee]
        exact ⟨(hvs e' he').1, (hvs e' he').2.1⟩
  refine ⟨hf, ?_⟩
  have hD : ∀ e : CompressedEdge, ∃ c : NegWeights.Correction ops, e ∈ x.edges →
      NegWeights.Optimal NegWeights.weight c (edgeEnds e).toFinset ∧ NegWeights.weight c = d e := by
    intro e
    by_cases he : e ∈ x.edges
    · obtain ⟨c, c1, c2, -⟩ := correction_of_slots h (hT1 e he)
      rw [(hvs e he).2.2] at c2
      have hlow : ∀ c' : NegWeights.Correction ops, NegWeights.Explains c' (edgeEnds e).toFinset → d e ≤ NegWeights.weight c' := by
        intro c' hc'
        obtain ⟨ws', l1, l2⟩ := slots_of_correction h hc'
        have := hleast e he ws' l1
        rw [habs]
        omega
      have heq : NegWeights.weight c = d e := by
        have := hlow c c1
        rw [← habs] at c2
        omega
      exact ⟨c, fun _ => ⟨⟨c1, fun c' hc' => by rw [heq]; exact hlow c' hc'⟩, heq⟩⟩
    · exact ⟨∅, fun h => absurd h he⟩
  choose D hD using hD
  refine ⟨D, fun e he => (hD e he).1, ?_⟩
  obtain ⟨ws, k1, -, k3⟩ := hx.attained
  obtain ⟨c, c1, c2, -⟩ := correction_of_slots h k1
  have hlow : ∀ c' : NegWeights.Correction ops, NegWeights.Explains c' T → x.weight ≤ NegWeights.weight c' := by
    intro c' hc'
    obtain ⟨ws', l1, l2⟩ := slots_of_correction h hc'
    have := hx.least ws' l1
    rw [habs]
    omega
  have heq : NegWeights.weight c = x.weight := by
    have := hlow c c1
    rw [← habs] at c2
    omega
  refine ⟨c, ⟨c1, fun c' hc' => by rw [heq]; exact hlow c' hc'⟩, ?_⟩
  rw [heq, ← hd2]
  congr 1
  exact List.map_congr_left fun e he => (hD e he).2.symm

end

/-- The reply to a call for pairs. -/
theorem pairs_told {numNodes numObs : Nat} {ops : List Props.Graph.EdgeIns} {g : MGraph} {sg : SGraph} {m : ObsInt} {bnd : List Bool} {C : Corr} {st : CState}
    (hB : Built numNodes numObs ops g sg m) (hb : ∀ d ∈ g.negDets, TL.notBoundary bnd d = true) (hst : Rest g sg st) {events : List Nat} (hv : Valid g events) :
    ∃ r st', Completes (fun f => respond g sg bnd m C f st (.pairs events)) (.ok (r, st')) ∧ Rest g sg st' ∧
      ((r = .exception ∧ ((∃ op ∈ ops, op.w < 0) ∨ ∀ c : NegWeights.Correction ops, ¬ NegWeights.Explains c (counted bnd events))) ∨
       ∃ x, r = .pairs x.edges ∧ g.negSum = 0 ∧ SB.Answer g (counted bnd events) x) := by
  have hg := proper_of_run hB.matching hB.edges.pairs hB.edges.even hB.edges.small
  have hc := hst.full.ms
  have e1 : withM g st.wg.mem = g := by rw [hst.matching]; exact withM_mem g
  have key : ∀ {out : Outcome (MS × List CompressedEdge)} {f0 : Nat}, (∀ f, f0 ≤ f → decodePairs g bnd (negEvents g) g.negSum f st.full.ms events = some out) →
      (∀ s', out = .throws s' → Completes (fun f => respond g sg bnd m C f st (.pairs events)) (.ok (.exception, { st with full := { st.full with ms := s' } }))) ∧
      (∀ s' es, out = .ok (s', es) → Completes (fun f => respond g sg bnd m C f st (.pairs events)) (.ok (.pairs es, { st with full := { st.full with ms := s' } }))) := by
    intro out f0 h
    constructor
    · rintro s' rfl
      refine ⟨f0, fun f hf => ?_⟩
      simp only [respond, plain, e1, callPairs, h f hf, tell]
    · rintro s' es rfl
      refine ⟨f0, fun f hf => ?_⟩
      simp only [respond, plain, e1, callPairs, h f hf, tell]
  by_cases hsum : g.negSum ≠ 0
  · refine ⟨.exception, _, (key (f0 := 0) (fun f _ => by rw [decodePairs, if_pos hsum])).1 st.full.ms rfl, ?_, .inl ⟨rfl, .inl ?_⟩⟩
    · exact hst
    · by_contra hno
      refine hsum ?_
      rw [(Props.Graph.C15_negative_bookkeeping numNodes numObs ops g hB.matching).2.2]
      have : ops.filter (·.w < 0) = [] := by
        rw [List.filter_eq_nil_iff]
        intro o ho hw
        exact hno ⟨o, ho, by simpa using hw⟩
      rw [this]; rfl
  · obtain ⟨f0, o, ho⟩ := timeline_ends hg hc bnd hv.range hv.nodup (fun d hd => hb d (((neg_sort g).2 d).1 hd)) (neg_sort g).1
    have hconst : ∀ f, f0 ≤ f → decodePairs g bnd (negEvents g) g.negSum f st.full.ms events = decodePairs g bnd (negEvents g) g.negSum f0 st.full.ms events := by
      intro f hf
      simp only [decodePairs, ho f hf, ho f0 (le_refl _)]
    rcases decodePairs_cases hg (no_negatives hB.matching) bnd hc hv f0 with ⟨e, -⟩ | ⟨hs0, e | ⟨s', x, e, h1, hx⟩ | ⟨s', e, h1, hno⟩⟩
    · exact absurd e hsum
    · simp only [decodePairs, ho f0 (le_refl _), if_neg hsum] at e
      cases o with
      | ub => cases e
      | throws => cases e
      | ok s1 => simp only at e; split at e <;> cases e
    · exact ⟨_, _, (key fun f hf => (hconst f hf).trans e).2 s' _ rfl, ⟨⟨h1, hst.full.ss, hst.full.marks⟩, hst.matching, hst.search⟩, .inr ⟨x, rfl, hs0, hx⟩⟩
    · refine ⟨_, _, (key fun f hf => (hconst f hf).trans e).1 s' rfl, ⟨⟨h1, hst.full.ss, hst.full.marks⟩, hst.matching, hst.search⟩, .inl ⟨rfl, .inr fun c hx => ?_⟩⟩
      obtain ⟨ws', l1, -⟩ := slots_of_correction hB.matching hx
      exact hno ws' l1

theorem pairs_means {g : UGraph K} (hw : WF g) (hB : Props.Convert.BndOk g) {without : Bool} {d1 : Decoder K} (h1 : toMwpm g without true = some d1)
    (hs : Solid g d1) (hN : NoGain g) (hcov : Covered g) {events : List Nat} (hev : EventsOk g events) :
    ∃ a scale, Scale g scale ∧ Fresh1 g without (.pairs events) a ∧ MeansPairs g scale events a := by
  obtain ⟨ins, c, φ, hW⟩ := whole hw hB hcov h1
  obtain ⟨p, d, s, e, hh, -⟩ := decoderFor_held hw hB h1 hs (inv_of g without) false
  obtain ⟨-, -, st1, r1, k1⟩ := stand_in h1 hs hh.ready
  have hT := counted_iff hB rfl hev.2
  rw [← hW.flags] at hT
  obtain ⟨r, st', e1, e2, e3⟩ := pairs_told (C := d1.C) hW.built hs.quiet r1 (events := events) ⟨hev.1, by rw [hs.len]; exact hev.2⟩
  obtain ⟨st, ⟨f0, e4⟩, -⟩ := k1 (.pairs events) r st' (fun h => (by cases h)) e2 e1
  rcases e3 with ⟨rfl, h⟩ | ⟨x, rfl, hsum, hx⟩
  · refine ⟨.exception, d1.P.scale, ⟨c, hW.norm, hW.twice⟩, ⟨{ p with cache := some { d with st := st } }, f0, fun f hf => by
      have := e4 f hf
      simp only at this
      simp only [Object.ask, e, Object.call, this]⟩, .inr ⟨rfl, h.imp ?_ fun h C hC => h _ (lower_explains hW.origin C events _ hT hC)⟩⟩
    rintro ⟨op, hop, hneg⟩
    obtain ⟨i, hi, rfl⟩ := List.getElem_of_mem hop
    refine ⟨_, List.getElem_mem (φ ⟨i, hi⟩).2, ?_⟩
    by_contra hge
    have := (Discretise.C19_monotone_odd _ hW.pos 0 _).2.2 (not_lt.1 hge)
    have hwt := hW.origin.w ⟨i, hi⟩
    simp only [Fin.getElem_fin] at hwt
    rw [← hwt] at this
    omega
  · obtain ⟨hf, D, hD, cc, hc1, hc2⟩ := pairs_best hW.built.matching hsum hx
    refine ⟨.pairs x.edges, d1.P.scale, ⟨c, hW.norm, hW.twice⟩, ⟨{ p with cache := some { d with st := st } }, f0, fun f hf => by
      have := e4 f hf
      simp only at this
      simp only [Object.ask, e, Object.call, this]⟩, .inl ⟨_, rfl, hx.once, fun y => ?_, hf,
      fun e => lift hW.origin.inj (D e), fun e he => ?_, lift hW.origin.inj cc, best_lift hW.origin hW.pos hW.half hN hT hc1, ?_⟩⟩
    · rw [← hT y]
      exact hx.covers y
    · refine best_lift hW.origin hW.pos hW.half hN (T := (edgeEnds e).toFinset) (fun y => ?_) (hD e he)
      rw [List.mem_toFinset]
      refine ⟨fun hy => ⟨hy, ?_⟩, fun hy => hy.1⟩
      exact ((hT y).1 ((hx.covers y).1 (List.mem_flatMap.2 ⟨e, he, hy⟩))).2
    · rw [lift_total hW.origin hW.half, hc2]
      congr 1
      exact List.map_congr_left fun e _ => (lift_total hW.origin hW.half _).symm

/-! ## Theorems -/

/-- C59.  In any history of modifications and questions on one object, every question for matched detection events ends.  If it returns pairs, every event
is in one row, every row is joined by a best explanation of its events alone, and together these have the weight of a best explanation of all events, in the
graph of that moment.  If it raises an exception, some weight is negative or nothing explains the events. -/
theorem C59_any_time (mergeW : K → K → K) (without : Bool) (g0 : UGraph K) (hw : WF g0) (hB : Props.Convert.BndOk g0) (ops : List (Op K))
    (hp : Proper mergeW without g0 False ops) :
    ∃ as o, Completes (fun f => (Object.of g0 without).history mergeW f ops) (.ok (as, o)) ∧
      List.Forall₂ (fun (p : UGraph K × Query) a => ∀ events, p.2 = .pairs events → NoGain p.1 → ∃ scale, Scale p.1 scale ∧ MeansPairs p.1 scale events a)
        (questions mergeW g0 ops) as := by
  obtain ⟨as, o, h1, h2⟩ := C54_as_new mergeW without g0 hw hB ops hp
  refine ⟨as, o, h1, ?_⟩
  rw [List.forall₂_iff_get] at h2 ⊢
  refine ⟨h2.1, fun i hi hi' events he hN => ?_⟩
  obtain ⟨k1, k2, ⟨d1, hd⟩, k4, k5, -⟩ := asked ops g0 False hw hB hp _ (List.get_mem _ ⟨i, hi⟩)
  have h3 := h2.2 i hi hi'
  rw [he] at h3 k5
  obtain ⟨b, scale, hsc, hf, hm⟩ := pairs_means k1 k2 hd (solid k1 k2 k4 hd) hN k4 k5
  rw [fresh1_unique h3 hf]
  exact ⟨scale, hsc, hm⟩

/-- The history of C54 asks for pairs, and the graph of that time meets the condition. -/
example : (sample2, Query.pairs [1]) ∈ questions (fun a _ => a) (UGraph.new 0 1) sampleOps ∧ NoGain sample2 := by
  refine ⟨?_, ?_⟩
  · show _ ∈ [(sample1, Query.decode false [0]), (sample2, .edges true [0, 1]), (sample2, .batch false true true 2 [[1, 1], [0, 1]]),
      (sample2, .pairs [1]), (sample2, .path (some 0) (some 1))]
    simp
  · have h : ∀ e ∈ sample2.edges, 0 ≤ e.weight := by decide +kernel
    exact ⟨fun i j _ _ _ _ => add_nonneg (h _ (List.getElem_mem i.2)) (h _ (List.getElem_mem j.2)), fun i _ => h _ (List.getElem_mem i.2)⟩

end Verif.Props.Pairs
