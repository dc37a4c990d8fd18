import Verif.Props.CliRun

/-!
# C58: what an object answers, at any time in its history, is a best explanation

C54 says that an object answers as a new object with the graph of that moment would; C49 says what one decoder returns for one graph.  Here both are put
together: for every question of every history, what the answer means for the graph at that time.
-/

namespace Verif.Props.Answers

open Verif Verif.Graph Verif.CE Verif.SB Verif.UG Verif.Conv Verif.Obj
open Verif.Props.Correlated Verif.Props.Shots Verif.Props.Edges Verif.Props.EndToEnd Verif.Props.UserEdges Verif.Props.UserGraph Verif.Props.Decode
open Verif.Props.Object
open Verif.Sch (Res)

variable {K : Type} [Field K] [LinearOrder K] [IsStrictOrderedRing K] [FloorRing K]

/-! ## Specification -/

/-- `scale` is the factor with which weights are multiplied before they are rounded. -/
def Scale (g : UGraph K) (scale : K) : Prop := ∃ c, normConst g numDistinctWeights = some c ∧ scale = 2 * c

/-- Which sets of edges, of which rounded weight, are a right answer to a question about detection events. -/
abbrev Solutions (g : UGraph K) := List Nat → Choice g → Int → Prop

/-- Explanations of least total rounded weight. -/
def best (g : UGraph K) (scale : K) : Solutions g := fun events C n => Best scale C events ∧ n = total scale C

/-- The row says which fault ids the set `C` crosses an odd number of times, and `w` is the weight `n`, scaled back. -/
def Row {g : UGraph K} (scale : K) (C : Choice g) (n : Int) (row : List (BitVec 8)) (w : K) : Prop :=
  row.length = g.numObs ∧ (∀ k, k < g.numObs → row[k]? = some (if EndToEnd.crossed C k % 2 = 1 then 1#8 else 0#8)) ∧ w = (n : K) / scale

/-- What the answer to a question means. -/
def Means (g : UGraph K) (scale : K) (S : Solutions g) : Query → Answer K → Prop
  | .decode _ events, a =>
    (∃ row w, a = .predictions row w ∧ ∃ C n, S events C n ∧ Row scale C n row w) ∨
    (a = .exception ∧ ∀ C : Choice g, ¬ EndToEnd.Explains C events)
  | .edges _ events, a =>
    (∃ es, a = .edges es ∧ ∃ C n, S events C n ∧ Returned es C) ∨
    (a = .exception ∧ ∀ C : Choice g, ¬ EndToEnd.Explains C events)
  | .batch ps pp _ cols rows, a =>
    (∃ raws outs weights, a = .batch outs weights ∧ List.Forall₂ (Stored pp) raws outs ∧ raws.length = rows.length ∧ weights.length = rows.length ∧
      List.Forall₂ (fun row (x : List (BitVec 8) × K) => ∃ C n, S (readRow ps row) C n ∧ Row scale C n x.1 x.2) rows (raws.zip weights)) ∨
    (a = .exception ∧ (Obs.shapeOk ps cols g.numDetectors g.nodes.length = false ∨ ∃ row ∈ rows, ∀ C : Choice g, ¬ EndToEnd.Explains C (readRow ps row)))
  | _, _ => True

/-- The question is for predictions, a batch of predictions, or edges; with correlations if `corr`. -/
def About (corr : Bool) : Query → Prop
  | .decode c _ => c = corr
  | .batch _ _ c _ _ => c = corr
  | .edges c _ => c = corr
  | _ => False

/-! ## Lemmas -/

section
variable {numNodes numObs : Nat} {bnd : List Bool} {m : ObsInt} {ops : List Props.Graph.EdgeIns} {g : MGraph} {sg : SGraph} {st : CState}

/-- The reply to a call without correlations. -/
theorem plain_told {α : Type} {call : Nat → MGraph → SGraph → Full → Option (Ended (Full × α))} {events : List Nat}
    {P : ∀ ops : List Props.Graph.EdgeIns, NegWeights.Correction ops → α → Prop} (hB : Built numNodes numObs ops g sg m)
    (hb : ∀ d ∈ g.negDets, TL.notBoundary bnd d = true) (hst : Rest g sg st) (hv : Valid g events) (hp : Promises numNodes numObs bnd m events call P) (v : α → Reply) :
    ∃ r st', Completes (fun f => tell v (plain g sg (call f) st)) (.ok (r, st')) ∧ Rest g sg st' ∧
      ((r = .exception ∧ ∀ c : NegWeights.Correction ops, ¬ NegWeights.Explains c (counted bnd events)) ∨
       ∃ a, r = v a ∧ ∃ c : NegWeights.Correction ops, NegWeights.Optimal NegWeights.weight c (counted bnd events) ∧ P ops c a) := by
  have e1 : withM g st.wg.mem = g := by rw [hst.matching]; exact withM_mem g
  have e2 : withS sg st.ws.mem = sg := by rw [hst.search]; exact withS_mem sg
  rcases hp ops g sg hB hb hv st.full hst.full with ⟨F', a, h1, h2, c, h3, h4⟩ | ⟨F', h1, h2, h3⟩
  · obtain ⟨f0, e⟩ := plain_ok (g := g) (sg := sg) (st := st) (F := F') (a := a) (by rw [e1, e2]; exact h1)
    refine ⟨v a, { st with full := F' }, ⟨f0, fun f hf => ?_⟩, ⟨h2, hst.matching, hst.search⟩, .inr ⟨a, rfl, c, h3, h4⟩⟩
    have := e f hf
    simp only at this
    simp only [this, tell]
  · obtain ⟨f0, e⟩ := plain_throws (g := g) (sg := sg) (st := st) (F := F') (call := call) (by rw [e1, e2]; exact h1)
    refine ⟨.exception, { st with full := F' }, ⟨f0, fun f hf => ?_⟩, ⟨h2, hst.matching, hst.search⟩, .inl ⟨rfl, h3⟩⟩
    have := e f hf
    simp only at this
    simp only [this, tell]

end

/-- The decoder of a graph, and where its edges come from. -/
structure Whole (g : UGraph K) (d : Decoder K) (ins : List (Conv.Ins K)) (c : K) (φ : Fin (opsOf ins).length → Fin g.edges.length) : Prop where
  norm : normConst g numDistinctWeights = some c
  half : d.P.scale / 2 = c
  twice : d.P.scale = 2 * c
  pos : 0 < c
  built : Built g.nodes.length g.numObs (opsOf ins) d.P.mg d.sg d.P.mask
  flags : d.P.bnd = boundaryFlags g
  origin : Origin g c (opsOf ins) φ

theorem whole {g : UGraph K} (hw : WF g) (hB : Props.Convert.BndOk g) (hcov : Covered g) {without : Bool} {d : Decoder K} (h : toMwpm g without true = some d) :
    ∃ ins c φ, Whole g d ins c φ := by
  unfold toMwpm at h
  split at h
  · rename_i P ins k hP hconv
    split at h
    · rename_i rg hrg
      rw [if_pos (by simp)] at h
      split at h
      · rename_i sg hsg
        split at h
        · rename_i rs hrs
          cases h
          obtain ⟨ins', k', c, h1, h2, h3, h4, h5, h6, h7, h8, h9, h10, h11, h12, φ, hO, hF⟩ := prepared_graph hw hB hP
          rw [hconv] at h1
          cases h1
          refine ⟨ins, c, φ, h2, h3, h5, h6, ⟨h7, hsg, fun _ => h9, h8, ?_⟩, h10, hO⟩
          intro op hop o ho
          obtain ⟨i, hi, rfl⟩ := List.getElem_of_mem hop
          have := hO.obs ⟨i, hi⟩
          exact hcov _ (List.getElem_mem (φ ⟨i, hi⟩).2) o (by rw [← Fin.getElem_fin, ← this]; exact ho)
        · cases h
      · cases h
    · cases h
  · cases h

/-- What the decoder finds is a right answer. -/
def Finds (g : UGraph K) (d1 : Decoder K) (S : Solutions g) : Prop :=
  ∀ ins c φ (hW : Whole g d1 ins c φ) (events : List Nat) (T : Finset Nat), (∀ x, x ∈ T ↔ x ∈ events ∧ x ∉ g.boundary) → ∀ x : NegWeights.Correction (opsOf ins),
    NegWeights.Optimal NegWeights.weight x T → S events (lift hW.origin.inj x) (total d1.P.scale (lift hW.origin.inj x))

section
variable {g : UGraph K} (hw : WF g) (hB : Props.Convert.BndOk g) {without : Bool} {d1 : Decoder K} (h1 : toMwpm g without true = some d1) (hs : Solid g d1)
  {S : Solutions g} (hS : Finds g d1 S)
include hw hB h1 hs hS

theorem decode_means (hcov : Covered g) {events : List Nat} (hev : EventsOk g events) :
    ∃ a, Scale g d1.P.scale ∧ Fresh1 g without (.decode false events) a ∧ Means g d1.P.scale S (.decode false events) a := by
  obtain ⟨ins, c, φ, hW⟩ := whole hw hB hcov h1
  obtain ⟨d0, h0, hP, -⟩ := toMwpm_false h1
  obtain ⟨-, -, st1, r1, k1⟩ := stand_in h1 hs (ready_new h0)
  have hT := counted_iff hB rfl hev.2
  rw [← hW.flags] at hT
  obtain ⟨r, st', e1, e2, e3⟩ := plain_told hW.built hs.quiet r1 ⟨hev.1, by rw [hs.len]; exact hev.2⟩
    (promise_obs _ _ d1.P.bnd d1.P.mask events (buf := List.replicate g.numObs 0#8) (by simp) 0) (fun a => Reply.predictions a.1 a.2)
  obtain ⟨st, e4, -⟩ := k1 (.obs false events (List.replicate g.numObs 0#8) 0) r st' (fun h => (by cases h)) e2 e1
  have hf := CliRun.fresh_of hw hB h1 hs (ready_new h0) (corr := false) (fun h => (by cases h)) (fun h => (by cases h)) hev e4
  refine ⟨_, ⟨c, hW.norm, hW.twice⟩, hf, ?_⟩
  rcases e3 with ⟨rfl, h⟩ | ⟨a, rfl, x, h2, h3, h4, h5⟩
  · exact .inr ⟨rfl, fun C hC => h _ (lower_explains hW.origin C events _ hT hC)⟩
  · refine .inl ⟨a.1, (a.2 : K) / d1.P.scale, rfl, lift hW.origin.inj x, _, hS _ _ _ hW _ _ hT _ h2, h3, fun k hk => ?_, ?_⟩
    · rw [h5, lift_crossed hW.origin, List.getElem?_replicate, if_pos hk]
      simp [parity]
    · rw [lift_total hW.origin hW.half, h4]
      simp

theorem edges_means (hcov : Covered g) {events : List Nat} (hev : EventsOk g events) :
    ∃ a, Scale g d1.P.scale ∧ Fresh1 g without (.edges false events) a ∧ Means g d1.P.scale S (.edges false events) a := by
  obtain ⟨ins, c, φ, hW⟩ := whole hw hB hcov h1
  obtain ⟨p, d, s, e, hh, hsr⟩ := decoderFor_held hw hB h1 hs (inv_of g without) true
  obtain ⟨-, -, st1, r1, k1⟩ := stand_in h1 hs hh.ready
  have hT := counted_iff hB rfl hev.2
  rw [← hW.flags] at hT
  obtain ⟨r, st', e1, e2, e3⟩ := plain_told hW.built hs.quiet r1 ⟨hev.1, by rw [hs.len]; exact hev.2⟩
    (promise_edges _ _ d1.P.bnd d1.P.mask events) Reply.edges
  obtain ⟨st, ⟨f0, e4⟩, -⟩ := k1 (.edges false events) r st' (fun _ => hsr rfl) e2 e1
  rcases e3 with ⟨rfl, h⟩ | ⟨a, rfl, x, h2, h3⟩
  · refine ⟨.exception, ⟨c, hW.norm, hW.twice⟩, ⟨{ p with cache := some { d with st := st } }, f0, fun f hf => ?_⟩, .inr ⟨rfl, fun C hC => h _ (lower_explains hW.origin C events _ hT hC)⟩⟩
    have := e4 f hf
    simp only at this
    simp only [Object.ask, e, Object.call, this]
  · refine ⟨.edges a, ⟨c, hW.norm, hW.twice⟩, ⟨{ p with cache := some { d with st := st } }, f0, fun f hf => ?_⟩,
      .inl ⟨a, rfl, lift hW.origin.inj x, _, hS _ _ _ hW _ _ hT _ h2, returned_lift hW.origin h3⟩⟩
    have := e4 f hf
    simp only at this
    simp only [Object.ask, e, Object.call, this]

end

theorem scale_unique {g : UGraph K} {a b : K} (ha : Scale g a) (hb : Scale g b) : a = b := by
  obtain ⟨c, h1, rfl⟩ := ha
  obtain ⟨c', h2, rfl⟩ := hb
  rw [h1] at h2
  cases h2
  rfl

/-- From one shot to a batch. -/
theorem batch_means {g : UGraph K} (hw : WF g) (hB : Props.Convert.BndOk g) {without ps pp corr : Bool} {cols : Nat} {rows : List (List (BitVec 8))}
    (hq : Askable g without (.batch ps pp corr cols rows)) {scale : K} {S : Solutions g}
    (each : ∀ events, EventsOk g events → ∃ a, Fresh1 g without (.decode corr events) a ∧ Means g scale S (.decode corr events) a)
    {a : Answer K} (h : Fresh1 g without (.batch ps pp corr cols rows) a) : Means g scale S (.batch ps pp corr cols rows) a := by
  cases hsh : Obs.shapeOk ps cols g.numDetectors g.nodes.length with
  | false =>
    have : Fresh1 g without (.batch ps pp corr cols rows) .exception := ⟨_, 0, fun f _ => C55_shape (Object.of g without) f hsh⟩
    rw [fresh1_unique h this]
    exact .inr ⟨rfl, .inl hsh⟩
  | true =>
    have each : ∀ row ∈ rows, ∀ b, Fresh1 g without (.decode corr (readRow ps row)) b → Means g scale S (.decode corr (readRow ps row)) b := by
      intro row hr b hb
      obtain ⟨b', hf, hm⟩ := each (readRow ps row) ⟨readRow_nodup ps row, hq.fits hsh row hr⟩
      rw [fresh1_unique hb hf]
      exact hm
    rcases C55_batch hw hB hq hsh with ⟨raws, outs, weights, k1, k2, k3, k4, k5⟩ | ⟨k1, row, hr, k2⟩
    · rw [fresh1_unique h k1]
      refine .inl ⟨raws, outs, weights, rfl, k2, k4, k5, ?_⟩
      rw [List.forall₂_iff_get] at k3 ⊢
      refine ⟨k3.1, fun i hi hi' => ?_⟩
      rcases each _ (List.get_mem _ _) _ (k3.2 i hi hi') with ⟨row, w, e, C, n, k6, k7⟩ | ⟨e, -⟩
      · injection e with e1 e2
        rw [e1, e2]
        exact ⟨C, n, k6, k7⟩
      · cases e
    · rw [fresh1_unique h k1]
      rcases each row hr _ k2 with ⟨_, _, e, -⟩ | ⟨-, k3⟩
      · cases e
      · exact .inr ⟨rfl, .inr ⟨row, hr, k3⟩⟩

/-- The answer of a new object, for any kind of right answer that the decoder finds. -/
theorem answer_new {g : UGraph K} (hw : WF g) (hB : Props.Convert.BndOk g) {without : Bool} {q : Query} (hq : Askable g without q) (ha : About false q)
    (S : K → Solutions g) (hS : ∀ d1, Finds g d1 (S d1.P.scale)) {a : Answer K} (h : Fresh1 g without q a) : ∃ scale, Scale g scale ∧ Means g scale (S scale) q a := by
  obtain ⟨⟨d1, h1⟩, hcov, hfit, -⟩ := id hq
  have hs := solid hw hB hcov h1
  cases q with
  | decode corr events =>
    cases ha
    obtain ⟨b, hsc, hf, hm⟩ := decode_means hw hB h1 hs (hS d1) hcov hfit
    rw [fresh1_unique h hf]
    exact ⟨_, hsc, hm⟩
  | edges corr events =>
    cases ha
    obtain ⟨b, hsc, hf, hm⟩ := edges_means hw hB h1 hs (hS d1) hcov hfit
    rw [fresh1_unique h hf]
    exact ⟨_, hsc, hm⟩
  | batch ps pp corr cols rows =>
    cases ha
    obtain ⟨ins, c, φ, hW⟩ := whole hw hB hcov h1
    refine ⟨d1.P.scale, ⟨c, hW.norm, hW.twice⟩, batch_means hw hB hq (fun events hev => ?_) h⟩
    obtain ⟨b', -, hf, hm⟩ := decode_means hw hB h1 hs (hS d1) hcov hev
    exact ⟨b', hf, hm⟩
  | pairs events => exact ha.elim
  | path src dst => exact ha.elim

/-! ## Theorems -/

/-- C58 (first question).  The answer of a new object means what it should. -/
theorem C58_new {g : UGraph K} (hw : WF g) (hB : Props.Convert.BndOk g) {without : Bool} {q : Query} (hq : Askable g without q) (ha : About false q) (hN : NoGain g)
    {a : Answer K} (h : Fresh1 g without q a) : ∃ scale, Scale g scale ∧ Means g scale (best g scale) q a :=
  answer_new hw hB hq ha (best g) (fun _ _ _ _ hW _ _ hT _ h2 => ⟨best_lift hW.origin hW.pos hW.half hN hT h2, rfl⟩) h

theorem asked {mergeW : K → K → K} {without : Bool} : ∀ (ops : List (Op K)) (g : UGraph K) (asked : Prop), WF g → Props.Convert.BndOk g →
    Proper mergeW without g asked ops → ∀ p ∈ questions mergeW g ops, WF p.1 ∧ Props.Convert.BndOk p.1 ∧ Askable p.1 without p.2 := by
  intro ops
  induction ops with
  | nil => intro g _ _ _ _ p hp; cases hp
  | cons op ops ih =>
    intro g a hw hB hp p hm
    cases op with
    | modify c => exact ih _ _ (wf_exec mergeW hw c) (Props.Convert.bndOk_exec mergeW hB c) hp.2 p hm
    | ask q =>
      rcases List.mem_cons.1 hm with rfl | hm
      · exact ⟨hw, hB, hp.1⟩
      · exact ih _ _ hw hB hp.2 p hm

/-- C58.  In any history of modifications and questions on one object, every question ends, and every answer to a question for predictions, a batch of
predictions, or edges is a best explanation of the detection events in the graph of that moment, or an exception if nothing explains them.  (`NoGain`: see
C49.) -/
theorem C58_any_time (mergeW : K → K → K) (without : Bool) (g0 : UGraph K) (hw : WF g0) (hB : Props.Convert.BndOk g0) (ops : List (Op K))
    (hp : Proper mergeW without g0 False ops) :
    ∃ as o, Completes (fun f => (Object.of g0 without).history mergeW f ops) (.ok (as, o)) ∧
      List.Forall₂ (fun (p : UGraph K × Query) a => About false p.2 → NoGain p.1 → ∃ scale, Scale p.1 scale ∧ Means p.1 scale (best p.1 scale) p.2 a) (questions mergeW g0 ops) as := by
  obtain ⟨as, o, h1, h2⟩ := C54_as_new mergeW without g0 hw hB ops hp
  refine ⟨as, o, h1, ?_⟩
  rw [List.forall₂_iff_get] at h2 ⊢
  refine ⟨h2.1, fun i hi hi' ha hN => ?_⟩
  obtain ⟨k1, k2, k3⟩ := asked ops g0 False hw hB hp _ (List.get_mem _ ⟨i, hi⟩)
  exact C58_new k1 k2 k3 ha hN (h2.2 i hi hi')

/-! ## Detector error models -/

open Verif.Dem Verif.Cli
open Verif.MW (mergeWeights)
open Verif.Props.MergeWeights (llr)
open Verif.Props.DemCorr (TwoPass NoLoops)

/-- Explanations of least weight in the second pass (C53). -/
def twoPass (m : Model ℝ) (g : UGraph ℝ) (scale : ℝ) : Solutions g := fun events C n => ∃ ω, TwoPass m g scale events ω C ∧ n = ∑ j ∈ C, ω j

/-- What an answer means for a graph loaded from a detector error model: a best explanation, or with correlations a best explanation in the second pass. -/
def MeansFor (m : Model ℝ) (g : UGraph ℝ) (q : Query) (a : Answer ℝ) : Prop :=
  ∃ scale, Scale g scale ∧ Means g scale (if correlations q then twoPass m g scale else best g scale) q a

omit [IsStrictOrderedRing K] in
theorem corr_of {g : UGraph K} {without : Bool} {d : Decoder K} (h : toMwpm g without true = some d) :
    prepareCorr g without = some (d.P, d.sg, d.C) ∧ d.st = CState.init d.P.mg d.sg := by
  unfold toMwpm at h
  split at h
  · rename_i P ins k hP hconv
    split at h
    · rename_i rg hrg
      rw [if_pos (by simp)] at h
      split at h
      · rename_i sg hsg
        split at h
        · rename_i rs hrs
          cases h
          refine ⟨?_, rfl⟩
          have : prepareFull g = some (P, sg) := by
            unfold prepareFull
            rw [hP, hconv]
            simp only [hsg]
          unfold prepareCorr
          rw [this, hconv]
          simp only [hrg, hrs]
        · cases h
      · cases h
    · cases h
  · cases h

section
variable {m : Model ℝ} (hv : Dem.Valid m) (hn : NoLoops m) {g : UGraph ℝ} (hl : loadCorr mergeWeights llr m = some g) {d1 : Decoder ℝ}
  (h1 : toMwpm g false true = some d1) {events : List Nat} (hev : EventsOk g events)
include hv hn hl h1 hev

theorem decode_corr : ∃ a scale, Scale g scale ∧ Fresh1 g false (.decode true events) a ∧ Means g scale (twoPass m g scale) (.decode true events) a := by
  have hu := CliRun.usable hv (corr := true) (g := g) (by unfold loadFor; rw [if_pos rfl]; exact hl)
  have hs := solid hu.wf hu.bndOk hu.covered h1
  obtain ⟨ins, c, φ, hW⟩ := whole hu.wf hu.bndOk hu.covered h1
  obtain ⟨hC, hst⟩ := corr_of h1
  have hsc : Scale g d1.P.scale := ⟨c, hW.norm, hW.twice⟩
  have hev' : ∀ d ∈ events, d < m.numDets := by rw [← hu.nodes]; exact hev.2
  rcases DemCorr.C53_observables m hv hn g hl d1.P d1.sg d1.C hC d1.st (by rw [hst]; exact .fresh) events hev.1 hev' with
    ⟨st', buf, w, ⟨f0, e⟩, ω, C2, k1, k2, k3, k4⟩ | ⟨st', ⟨f0, e⟩, k1⟩
  · rw [← hu.numObs] at e k3 k4
    have hr : Completes (fun f => respond d1.P.mg d1.sg d1.P.bnd d1.P.mask d1.C f d1.st (.obs true events (List.replicate g.numObs 0#8) 0))
        (.ok (.predictions buf w, st')) := ⟨f0, fun f hf => by
      have := e f hf
      simp only at this
      simp only [respond, this, tell]⟩
    have hf := CliRun.fresh_of hu.wf hu.bndOk h1 hs (ready_new h1) hu.nonneg (fun _ => rfl) hev hr
    exact ⟨_, d1.P.scale, hsc, hf, .inl ⟨buf, _, rfl, C2, w, ⟨ω, k1, k2⟩, k3, k4, rfl⟩⟩
  · rw [← hu.numObs] at e
    have hr : Completes (fun f => respond d1.P.mg d1.sg d1.P.bnd d1.P.mask d1.C f d1.st (.obs true events (List.replicate g.numObs 0#8) 0))
        (.ok (.exception, st')) := ⟨f0, fun f hf => by
      have := e f hf
      simp only at this
      simp only [respond, this, tell]⟩
    have hf := CliRun.fresh_of hu.wf hu.bndOk h1 hs (ready_new h1) hu.nonneg (fun _ => rfl) hev hr
    exact ⟨_, d1.P.scale, hsc, hf, .inr ⟨rfl, k1⟩⟩

theorem edges_corr : ∃ a scale, Scale g scale ∧ Fresh1 g false (.edges true events) a ∧ Means g scale (twoPass m g scale) (.edges true events) a := by
  have hu := CliRun.usable hv (corr := true) (g := g) (by unfold loadFor; rw [if_pos rfl]; exact hl)
  obtain ⟨ins, c, φ, hW⟩ := whole hu.wf hu.bndOk hu.covered h1
  obtain ⟨hC, hst⟩ := corr_of h1
  have hsc : Scale g d1.P.scale := ⟨c, hW.norm, hW.twice⟩
  have hev' : ∀ d ∈ events, d < m.numDets := by rw [← hu.nodes]; exact hev.2
  have hd : (Object.of g false).decoderFor true = some ({ (Object.of g false) with graph := { g with needsUpdating := false }, cache := some d1 }, d1) := by
    have : toMwpm (Object.of g false).graph false true = some d1 :=
      (toMwpm_but (g := g) (g' := (Object.of g false).graph) ⟨true, rfl⟩ false true).trans h1
    simp only [Object.decoderFor, if_true, Object.getMwpmWithSearchGraph, Object.of, Object.rebuild] at this ⊢
    rw [this]
  rcases DemCorr.C53_edges m hv hn g hl d1.P d1.sg d1.C hC d1.st (by rw [hst]; exact .fresh) events hev.1 hev' with
    ⟨st', es, ⟨f0, e⟩, ω, C2, k1, k2⟩ | ⟨st', ⟨f0, e⟩, k1⟩
  · refine ⟨.edges es, d1.P.scale, hsc, ⟨{ (Object.of g false) with graph := { g with needsUpdating := false }, cache := some { d1 with st := st' } }, f0, fun f hf => ?_⟩,
      .inl ⟨es, rfl, C2, _, ⟨ω, k1, rfl⟩, k2⟩⟩
    have := e f hf
    simp only at this
    simp only [Object.ask, hd, Object.call, respond, this, tell]
  · refine ⟨.exception, d1.P.scale, hsc, ⟨{ (Object.of g false) with graph := { g with needsUpdating := false }, cache := some { d1 with st := st' } }, f0, fun f hf => ?_⟩,
      .inr ⟨rfl, k1⟩⟩
    have := e f hf
    simp only at this
    simp only [Object.ask, hd, Object.call, respond, this, tell]

end

/-- C58 (first question, with correlations).  For a graph loaded with correlations, the answer is a best explanation for the weights of the second pass. -/
theorem C58_correlated (m : Model ℝ) (hv : Dem.Valid m) (hn : NoLoops m) (g : UGraph ℝ) (hl : loadCorr mergeWeights llr m = some g) {q : Query}
    (hq : Askable g false q) (ha : About true q) {a : Answer ℝ} (h : Fresh1 g false q a) : ∃ scale, Scale g scale ∧ Means g scale (twoPass m g scale) q a := by
  have hu := CliRun.usable hv (corr := true) (g := g) (by unfold loadFor; rw [if_pos rfl]; exact hl)
  obtain ⟨⟨d1, h1⟩, hcov, hfit, -⟩ := id hq
  cases q with
  | decode corr events =>
    cases ha
    obtain ⟨b, scale, hsc, hf, hm⟩ := decode_corr hv hn hl h1 hfit
    rw [fresh1_unique h hf]
    exact ⟨scale, hsc, hm⟩
  | edges corr events =>
    cases ha
    obtain ⟨b, scale, hsc, hf, hm⟩ := edges_corr hv hn hl h1 hfit
    rw [fresh1_unique h hf]
    exact ⟨scale, hsc, hm⟩
  | batch ps pp corr cols rows =>
    cases ha
    obtain ⟨ins, c, φ, hW⟩ := whole hu.wf hu.bndOk hu.covered h1
    have hsc : Scale g d1.P.scale := ⟨c, hW.norm, hW.twice⟩
    refine ⟨d1.P.scale, hsc, batch_means hu.wf hu.bndOk hq (fun events hev => ?_) h⟩
    obtain ⟨b', scale, hsc', hf, hm⟩ := decode_corr hv hn hl h1 hev
    rw [scale_unique hsc hsc']
    exact ⟨b', hf, hm⟩
  | pairs events => exact ha.elim
  | path src dst => exact ha.elim

theorem noGain {m : Model ℝ} (hv : Dem.Valid m) {corr : Bool} {g : UGraph ℝ} (hl : loadFor mergeWeights llr corr m = some g) : NoGain g := by
  cases corr with
  | false =>
    unfold loadFor at hl
    simp only [Bool.false_eq_true, if_false, Option.some.injEq] at hl
    subst hl
    exact Likelihood.noGain (Likelihood.start m hv)
  | true =>
    have h := (CliRun.usable hv hl).nonneg rfl
    exact ⟨fun i j _ _ _ _ => add_nonneg (h _ (List.getElem_mem i.2)) (h _ (List.getElem_mem j.2)), fun i _ => h _ (List.getElem_mem i.2)⟩

theorem loaded_means {m : Model ℝ} (hv : Dem.Valid m) {corr : Bool} (hn : corr = true → NoLoops m) {g : UGraph ℝ} (hl : loadFor mergeWeights llr corr m = some g)
    {q : Query} (hq : Askable g (!corr) q) (hc : correlations q = true → corr = true) (ha : ∃ c, About c q) {a : Answer ℝ} (h : Fresh1 g (!corr) q a) :
    MeansFor m g q a := by
  have hu := CliRun.usable hv hl
  obtain ⟨c, ha⟩ := ha
  have hcq : correlations q = c := by
    cases q with
    | decode => exact ha
    | edges => exact ha
    | batch => exact ha
    | pairs => exact ha.elim
    | path => exact ha.elim
  unfold MeansFor
  rw [hcq] at hc ⊢
  cases c with
  | false =>
    simp only [Bool.false_eq_true, if_false]
    exact C58_new hu.wf hu.bndOk hq ha (noGain hv hl) h
  | true =>
    have := hc rfl
    subst this
    unfold loadFor at hl
    rw [if_pos rfl] at hl
    simp only [if_true]
    exact C58_correlated m hv (hn rfl) g hl hq ha h

/-- C58 (detector error models).  Load any model, with or without correlations, and ask any questions, in any order: every question ends, and the answers
are best explanations, in the second pass for the questions with correlations. -/
theorem C58_loaded (m : Model ℝ) (hv : Dem.Valid m) (corr : Bool) (hn : corr = true → NoLoops m) (g : UGraph ℝ) (hl : loadFor mergeWeights llr corr m = some g)
    (qs : List Query) (hq : ∀ q ∈ qs, Askable g (!corr) q ∧ (correlations q = true → corr = true)) :
    ∃ as o, Completes (fun f => (Object.of g (!corr)).history mergeWeights f (qs.map .ask)) (.ok (as, o)) ∧
      List.Forall₂ (fun q a => (∃ c, About c q) → MeansFor m g q a) qs as := by
  have hu := CliRun.usable hv hl
  have hp : ∀ (qs : List Query) (asked : Prop), (∀ q ∈ qs, Askable g (!corr) q) → Proper mergeWeights (!corr) g asked (qs.map .ask) := by
    intro qs
    induction qs with
    | nil => intro _ _; trivial
    | cons q qs ih => intro _ h; exact ⟨h q (by simp), ih True fun x hx => h x (by simp [hx])⟩
  have hqs : ∀ qs : List Query, questions mergeWeights g (qs.map .ask) = qs.map fun q => (g, q) := by
    intro qs
    induction qs with
    | nil => rfl
    | cons q qs ih => simp only [List.map_cons, questions, ih]
  obtain ⟨as, o, k1, k2⟩ := C54_as_new mergeWeights (!corr) g hu.wf hu.bndOk _ (hp qs False fun q h => (hq q h).1)
  refine ⟨as, o, k1, ?_⟩
  rw [hqs, List.forall₂_map_left_iff, List.forall₂_iff_get] at k2
  rw [List.forall₂_iff_get]
  refine ⟨k2.1, fun i hi hi' ha => ?_⟩
  have hmem := hq _ (List.get_mem qs ⟨i, hi⟩)
  exact loaded_means hv hn hl hmem.1 hmem.2 ha (k2.2 i hi hi')

/-- The record shows which observables the explanation flips. -/
def Shows {g : UGraph ℝ} (C : Choice g) (record : List Bool) : Prop :=
  record.length = g.numObs ∧ ∀ k, k < g.numObs → record[k]? = some (decide (EndToEnd.crossed C k % 2 = 1))

/-- The explanations that `predict` should find. -/
def sought (m : Model ℝ) (g : UGraph ℝ) (corr : Bool) (scale : ℝ) : Solutions g := if corr then twoPass m g scale else best g scale

theorem predicted {m : Model ℝ} (hv : Dem.Valid m) {corr : Bool} (hn : corr = true → NoLoops m) {g : UGraph ℝ} (hl : loadFor mergeWeights llr corr m = some g)
    (hd : ∃ d, toMwpm g (!corr) true = some d) {scale : ℝ} (hsc : Scale g scale) {shots : List (List Nat)} {records : List (List Bool)} {ok : Bool}
    (hp : CliRun.Predicted g (!corr) corr shots records ok) (hshots : ∀ ev ∈ shots, ev.Nodup ∧ ∀ d ∈ ev, d < m.numDets) :
    List.Forall₂ (fun ev record => ∃ C n, sought m g corr scale ev C n ∧ Shows C record) (shots.take records.length) records ∧
      (ok = true → records.length = shots.length) ∧
      (ok = false → ∃ ev, shots[records.length]? = some ev ∧ ∀ C : Choice g, ¬ EndToEnd.Explains C ev) := by
  have hu := CliRun.usable hv hl
  have one : ∀ ev, (ev.Nodup ∧ ∀ d ∈ ev, d < m.numDets) → ∀ a, Fresh1 g (!corr) (.decode corr ev) a → Means g scale (sought m g corr scale) (.decode corr ev) a := by
    intro ev hev a ha
    obtain ⟨sc, h1, h2⟩ := loaded_means hv hn hl (q := .decode corr ev) ⟨hd, hu.covered, ⟨hev.1, by rw [hu.nodes]; exact hev.2⟩, hu.nonneg⟩ id ⟨corr, rfl⟩ ha
    rw [scale_unique hsc h1]
    exact h2
  induction hp with
  | done => exact ⟨.nil, fun _ => rfl, fun h => by cases h⟩
  | raised h =>
    rename_i hits shots
    refine ⟨.nil, fun h => (by cases h), fun _ => ⟨hits, rfl, ?_⟩⟩
    rcases one hits (hshots _ (by simp)) _ h with ⟨_, _, e, -⟩ | ⟨-, h⟩
    · cases e
    · exact h
  | shot h rest ih =>
    rename_i hits shots row w records ok
    obtain ⟨k1, k2, k3⟩ := ih fun ev h => hshots ev (by simp [h])
    refine ⟨?_, fun h => by simp [k2 h], fun h => by simpa using k3 h⟩
    rw [List.length_cons, List.take_succ_cons]
    refine .cons ?_ k1
    rcases one hits (hshots _ (by simp)) _ h with ⟨row', w', e, C, n, h1, h2, h3, -⟩ | ⟨e, -⟩
    · injection e with e1 e2
      subst e1
      refine ⟨C, n, h1, by simpa [CliRun.bits] using h2, fun k hk => ?_⟩
      rw [CliRun.bits, List.getElem?_map, h3 k hk]
      by_cases ho : EndToEnd.crossed C k % 2 = 1 <;> simp [ho]
    · cases e

/-- C58 (`predict`).  The tool ends; the records it writes show, shot by shot, the observables that a best explanation flips; it stops early only at a shot
that nothing explains. -/
theorem C58_predict (m : Model ℝ) (hv : Dem.Valid m) (corr : Bool) (hn : corr = true → NoLoops m) (g : UGraph ℝ) (hl : loadFor mergeWeights llr corr m = some g)
    (hd : ∃ d, toMwpm g (!corr) true = some d) (shots : List (List Nat)) (hshots : ∀ ev ∈ shots, ev.Nodup ∧ ∀ d ∈ ev, d < m.numDets) :
    ∃ records ok scale, Completes (fun f => runPredict mergeWeights llr corr m shots f) (.ok (records, ok)) ∧ Scale g scale ∧
      List.Forall₂ (fun ev record => ∃ C n, sought m g corr scale ev C n ∧ Shows C record) (shots.take records.length) records ∧
      (ok = true → records.length = shots.length) ∧
      (ok = false → ∃ ev, shots[records.length]? = some ev ∧ ∀ C : Choice g, ¬ EndToEnd.Explains C ev) := by
  have hu := CliRun.usable hv hl
  obtain ⟨d1, h1⟩ := id hd
  obtain ⟨ins, c, φ, hW⟩ := whole hu.wf hu.bndOk hu.covered h1
  obtain ⟨records, ok, k1, k2⟩ := CliRun.C57_predict m hv corr g hl hd shots hshots
  have hsc : Scale g d1.P.scale := ⟨c, hW.norm, hW.twice⟩
  exact ⟨records, ok, d1.P.scale, k1, hsc, predicted hv hn hl hd hsc k2 hshots⟩

/-! ## Examples -/

/-- The history of C54: its first question is about a best explanation, and the graph allows it. -/
example : (WF (UGraph.new 0 1 : UGraph ℚ) ∧ Props.Convert.BndOk (UGraph.new 0 1 : UGraph ℚ)) ∧ About false (.decode false [0]) ∧
    NoGain sample1 ∧ (sample1, Query.decode false [0]) ∈ questions (fun a _ => a) (UGraph.new 0 1) sampleOps := by
  refine ⟨⟨wf_new 0 1, Props.Convert.bndOk_new 0 1⟩, rfl, ?_, ?_⟩
  · have h : ∀ e ∈ sample1.edges, 0 ≤ e.weight := by decide +kernel
    exact ⟨fun i j _ _ _ _ => add_nonneg (h _ (List.getElem_mem i.2)) (h _ (List.getElem_mem j.2)), fun i _ => h _ (List.getElem_mem i.2)⟩
  · exact List.mem_cons_self

/-- Loading with correlations: the model of C53 and questions of both kinds. -/
example : Dem.Valid DemCorr.sample ∧ NoLoops DemCorr.sample ∧ ∃ g, loadFor mergeWeights llr true DemCorr.sample = some g ∧
    ∀ q ∈ [Query.decode true [0], .edges false [0, 1]], Askable g (!true) q ∧ (correlations q = true → true = true) := by
  obtain ⟨g, hg⟩ := DemCorr.sample_loads
  obtain ⟨P, sg, C, h⟩ := DemCorr.sample_ready hg
  have hu := CliRun.usable DemCorr.sample_valid (corr := true) (g := g) hg
  refine ⟨DemCorr.sample_valid, DemCorr.sample_noloops, g, hg, fun q hq => ⟨⟨CliRun.builds_corr h, hu.covered, ?_, fun _ => hu.nonneg rfl⟩, fun _ => rfl⟩⟩
  simp only [List.mem_cons, List.not_mem_nil, or_false] at hq
  rcases hq with rfl | rfl
  · exact ⟨by decide, by rw [hu.nodes]; decide⟩
  · exact ⟨by decide, by rw [hu.nodes]; decide⟩

end Verif.Props.Answers
