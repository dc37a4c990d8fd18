import Verif.Blossom.NarrowUsed
import Verif.Blossom.FewObject
import Verif.Props.Likelihood
import Verif.Props.DemCorr

/-!
# The properties of decoding, with the wrapped radius as it is stored

`int32_t wrapped_radius_cached` (detector_node.h:54).  In this file every function that has a width is the one with 32 bits (`Verif.SB.int32`): the
statements look like those of the theorems they are named after, but are about the decoder as it is, on short graphs (`Verif.Spec.Short`: any two detectors that
are connected are connected by a walk of weight below `2^31`).  Without this condition they are false: see C61.
-/

namespace Verif.Props.Width32

attribute [local instance 2000] Verif.SB.int32

open Verif Verif.SB Verif.UG Verif.Conv
open Verif.Spec (Short)
open Verif.Sch (Res)

variable {K : Type} [Field K] [LinearOrder K] [IsStrictOrderedRing K] [FloorRing K]

/-! ## Lemmas -/

section
open Verif.Graph Verif.CE Verif.Props.Graph Verif.Props.Decode Verif.Props.Dynamics

/-- A round with the 32-bit wrapped radius. -/
theorem during_round {g : MGraph} {bnd : List Bool} (hp : Problem g bnd) (hsh : Short g) {T : Finset Nat} {s s' : MS} (h : During (W := unbounded) g bnd T s)
    (e : round (W := unbounded) g s = .ok (some s')) : round g s = .ok (some s') := by
  have hg := hp.proper.1
  obtain ⟨L, ch, t, A, ach, hs⟩ := during_ok hp h
  rcases round_spec hg hs with ⟨e', -, hd⟩ | ⟨s1, t', L', ch', A', ach', e', -, h', -⟩
  · rw [e'] at e; cases e
  · rw [e'] at e
    cases e
    exact round_int32 (hs.fits hg hsh) e' (h'.fits hg hsh)

/-- A wrapped radius that fits is recomputed. -/
theorem computed {s : FS} (hs : FitsAll s) {n : Nat} (e : computeWrapped (W := unbounded) s n = .ok (s.node n).wrapped) :
    computeWrapped s n = .ok (s.node n).wrapped := by
  have := computeWrapped_trunc s n
  rw [trunc_of_fits hs, e] at this
  rw [this]
  simp only [Res.bind, keep_of_fits (hs n)]

end

section
open Verif.Graph Verif.CE Verif.Props.Correlated Verif.Props.Shots Verif.Props.Decode Verif.Props.Edges

variable {g : MGraph} {sg : SGraph} {bnd : List Bool} {m : ObsInt} {C : Corr}

/-- A session with the 32-bit wrapped radius. -/
theorem session_int32 {P : Call → Prop} (hP : ∀ c, P c → ∀ st, Rest g sg st → SameReply g sg bnd m C (CState.init g sg) st c)
    (hA : ∀ c, P c → ∀ st, Rest g sg st → Agree (fun f => respond g sg bnd m C f st c) (fun f => respond (W := unbounded) g sg bnd m C f st c))
    {calls : List Call} (hc : ∀ c ∈ calls, P c) :
    ∃ replies st, List.Forall₂ (Alone g sg bnd m C) calls replies ∧
      Completes (fun f => session g sg bnd m C f (CState.init g sg) calls) (.ok (replies, st)) ∧ AtRest g sg st := by
  have one : ∀ c, P c → ∀ st, Rest g sg st → ∃ r st', Completes (fun f => respond g sg bnd m C f st c) (.ok (r, st')) ∧ Rest g sg st' ∧ Alone g sg bnd m C c r := by
    intro c hc st h
    obtain ⟨r, st0', st', e0, e, k⟩ := hP c hc st h
    obtain ⟨f0, e0⟩ := (hA c hc _ (rest_init g sg)).completes e0
    refine ⟨r, st', (hA c hc st h).completes e, k, st0', f0, fun f hf => ?_⟩
    have := e0 f hf
    simp only at this
    simp only [session, this, Res.bind]
  have main : ∀ (calls : List Call), (∀ c ∈ calls, P c) → ∀ st, Rest g sg st → ∃ rs st', List.Forall₂ (Alone g sg bnd m C) calls rs ∧
      Completes (fun f => session g sg bnd m C f st calls) (.ok (rs, st')) ∧ Rest g sg st' := by
    intro calls
    induction calls with
    | nil => intro _ st h; exact ⟨[], st, .nil, ⟨0, fun f _ => rfl⟩, h⟩
    | cons c cs ih =>
      intro hc st h
      obtain ⟨r, st1, ⟨f1, e1⟩, h1, ha⟩ := one c (hc c (by simp)) st h
      obtain ⟨rs, st', h2, ⟨f2, e2⟩, h3⟩ := ih (fun c' hc' => hc c' (by simp [hc'])) st1 h1
      refine ⟨r :: rs, st', .cons ha h2, ⟨max f1 f2, fun f hf => ?_⟩, h3⟩
      have l1 := e1 f (le_trans (le_max_left _ _) hf)
      have l2 := e2 f (le_trans (le_max_right _ _) hf)
      simp only at l1 l2
      simp only [session, l1, l2, Res.bind]
  obtain ⟨rs, st, h1, h2, h3⟩ := main calls hc _ (rest_init g sg)
  exact ⟨rs, st, h1, h2, rest_atRest h3⟩

end

/-! ## Decoding -/

section
open Verif.Graph Verif.CE Verif.Props.Graph Verif.Props.NegWeights Verif.Props.Decode

/-- `C46_decode_is_minimum_weight`, with the 32-bit wrapped radius, on a short graph. -/
theorem C46_decode_is_minimum_weight_int32 (numNodes numObs : Nat) (ops : List EdgeIns) (g : MGraph)
    (h : run (MGraph.empty numNodes numObs) ops = some g) (hsh : Short g) (he : Edges ops) (hobs : numObs ≤ 64) (m : ObsInt) (hm : negMaskOf g = some m)
    (bnd : List Bool) (hb : ∀ d ∈ g.negDets, TL.notBoundary bnd d = true) (s : MS) (hs : Used g bnd s) (events : List Nat) (hv : Valid g events)
    (f : Nat) (out : Outcome (MS × ObsInt × Int)) (hrun : decode64 g bnd (negEvents g) m g.negSum f s events = some out) :
    Correct ops bnd events out := by
  have hg := proper_of_run h he.pairs he.even he.small
  have hs := used_int32 hg hsh (no_negatives h) hb hs
  rw [decode64_int32 hg hsh (used_clean hg (no_negatives h) hb hs) (takes hb hv)] at hrun
  exact C46_decode_is_minimum_weight numNodes numObs ops g h he hobs m hm bnd hb s hs events hv f out hrun

/-- `C50_decode_terminates`, with the 32-bit wrapped radius, on a short graph. -/
theorem C50_decode_terminates_int32 (numNodes numObs : Nat) (ops : List EdgeIns) (g : MGraph)
    (h : run (MGraph.empty numNodes numObs) ops = some g) (hsh : Short g) (he : Edges ops) (hobs : numObs ≤ 64) (m : ObsInt) (hm : negMaskOf g = some m)
    (bnd : List Bool) (hb : ∀ d ∈ g.negDets, TL.notBoundary bnd d = true) (s : MS) (hs : Used g bnd s) (events : List Nat) (hv : Valid g events) :
    ∃ f0 out, (∀ f, f0 ≤ f → decode64 g bnd (negEvents g) m g.negSum f s events = some out) ∧ Correct ops bnd events out := by
  have hg := proper_of_run h he.pairs he.even he.small
  have hs := used_int32 hg hsh (no_negatives h) hb hs
  obtain ⟨f0, out, e, k⟩ := C50_decode_terminates numNodes numObs ops g h he hobs m hm bnd hb s hs events hv
  refine ⟨f0, out, fun f hf => ?_, k⟩
  rw [decode64_int32 hg hsh (used_clean hg (no_negatives h) hb hs) (takes hb hv)]
  exact e f hf

/-- `C38_matched_pairs`, with the 32-bit wrapped radius, on a short graph. -/
theorem C38_matched_pairs_int32 (numNodes numObs : Nat) (ops : List EdgeIns) (g : MGraph)
    (h : run (MGraph.empty numNodes numObs) ops = some g) (hsh : Short g) (he : Edges ops)
    (bnd : List Bool) (hb : ∀ d ∈ g.negDets, TL.notBoundary bnd d = true) (s : MS) (hs : Used g bnd s) (events : List Nat) (hv : Valid g events)
    (f : Nat) (s' : MS) (es : List CompressedEdge) (hrun : decodePairs g bnd (negEvents g) g.negSum f s events = some (.ok (s', es))) :
    ∃ arr dict, matchedArray es = some arr ∧ matchedDict (fun _ => none) es = some dict ∧
      (arr.flatMap rowEvents).Nodup ∧ (∀ x : Int, x ∈ arr.flatMap rowEvents ↔ ∃ d ∈ counted bnd events, (d : Int) = x) ∧
      (∀ a, (dict a).isSome ↔ a ∈ counted bnd events) ∧
      (∀ a, dict a = some none ↔ ((a : Int), -1) ∈ arr) ∧
      (∀ a b, dict a = some (some b) ↔ ((a : Int), (b : Int)) ∈ arr ∨ ((b : Int), (a : Int)) ∈ arr) ∧
      (∀ a b, dict a = some (some b) → dict b = some (some a) ∧ a ≠ b) ∧
      ∃ d : CompressedEdge → Int, (∀ e ∈ es, PathOf g e (d e)) ∧
        ∃ c : Correction ops, Optimal weight c (counted bnd events) ∧ weight c = (es.map d).sum := by
  have hg := proper_of_run h he.pairs he.even he.small
  have hs := used_int32 hg hsh (no_negatives h) hb hs
  rw [decodePairs_int32 hg hsh (used_clean hg (no_negatives h) hb hs) (takes hb hv)] at hrun
  exact C38_matched_pairs numNodes numObs ops g h he bnd hb s hs events hv f s' es hrun

/-- `C50_pairs_terminate`, with the 32-bit wrapped radius, on a short graph. -/
theorem C50_pairs_terminate_int32 (numNodes numObs : Nat) (ops : List EdgeIns) (g : MGraph)
    (h : run (MGraph.empty numNodes numObs) ops = some g) (hsh : Short g) (he : Edges ops)
    (bnd : List Bool) (hb : ∀ d ∈ g.negDets, TL.notBoundary bnd d = true) (s : MS) (hs : Used g bnd s) (events : List Nat) (hv : Valid g events) :
    ∃ f0 out, (∀ f, f0 ≤ f → decodePairs g bnd (negEvents g) g.negSum f s events = some out) ∧
      ((∃ s' es, out = .ok (s', es)) ∨
       ∃ s', out = .throws s' ∧ ((∃ op ∈ ops, op.w < 0) ∨ ∀ c : Correction ops, ¬ Explains c (counted bnd events))) := by
  have hg := proper_of_run h he.pairs he.even he.small
  have hs := used_int32 hg hsh (no_negatives h) hb hs
  obtain ⟨f0, out, e, k⟩ := C50_pairs_terminate numNodes numObs ops g h he bnd hb s hs events hv
  refine ⟨f0, out, fun f hf => ?_, k⟩
  rw [decodePairs_int32 hg hsh (used_clean hg (no_negatives h) hb hs) (takes hb hv)]
  exact e f hf

end

/-! ## Any number of observables, and edges -/

section
open Verif.Graph Verif.CE Verif.Props.Graph Verif.Props.NegWeights Verif.Props.Decode Verif.Props.Edges

/-- `C46_any_number_of_observables`, with the 32-bit wrapped radius, on a short graph. -/
theorem C46_any_number_of_observables_int32 (numNodes numObs : Nat) (ops : List EdgeIns) (g : MGraph) (sg : SGraph) (m : ObsInt)
    (hB : Built numNodes numObs ops g sg m) (hsh : Short g) (bnd : List Bool) (hb : ∀ d ∈ g.negDets, TL.notBoundary bnd d = true) (F : Full)
    (hF : UsedFull g sg bnd m F) (events : List Nat) (hv : Valid g events) :
    (∃ F' buf w, Completes (fun f => decodeObs g sg bnd m f F events (List.replicate numObs 0#8) 0) (.ok (F', buf, w)) ∧
      ∃ c : Correction ops, Optimal weight c (counted bnd events) ∧ weight c = w ∧ buf.length = numObs ∧
        ∀ k, k < numObs → buf[k]? = some (if crossed c k % 2 = 1 then 1#8 else 0#8)) ∨
    (∃ F', Completes (fun f => decodeObs g sg bnd m f F events (List.replicate numObs 0#8) 0) (.throws F') ∧
      ∀ c : Correction ops, ¬ Explains c (counted bnd events)) := by
  have hg := proper_of_run hB.matching hB.edges.pairs hB.edges.even hB.edges.small
  have hF := usedFull_int32 hB hsh hb hF
  rcases C46_any_number_of_observables numNodes numObs ops g sg m hB bnd hb F hF events hv with ⟨F', buf, w, e, k⟩ | ⟨F', e, k⟩
  · exact .inl ⟨F', buf, w, Agree.completes (.of_eq fun f => decodeObs_int32 hg hsh (used_idle hB hb hF).ms (takes hb hv) sg m f _ _) e, k⟩
  · exact .inr ⟨F', Agree.completes (.of_eq fun f => decodeObs_int32 hg hsh (used_idle hB hb hF).ms (takes hb hv) sg m f _ _) e, k⟩

/-- `C24_decode_to_edges`, with the 32-bit wrapped radius, on a short graph. -/
theorem C24_decode_to_edges_int32 (numNodes numObs : Nat) (ops : List EdgeIns) (g : MGraph) (sg : SGraph) (m : ObsInt)
    (hB : Built numNodes numObs ops g sg m) (hsh : Short g) (bnd : List Bool) (hb : ∀ d ∈ g.negDets, TL.notBoundary bnd d = true) (F : Full)
    (hF : UsedFull g sg bnd m F) (events : List Nat) (hv : Valid g events) :
    (∃ F' es, Completes (fun f => decodeEdges g sg bnd f F events) (.ok (F', es)) ∧ (F'.marks = fun _ _ => false) ∧
      ∃ c : Correction ops, Optimal weight c (counted bnd events) ∧ Lists es c) ∨
    (∃ F', Completes (fun f => decodeEdges g sg bnd f F events) (.throws F') ∧ (F'.marks = fun _ _ => false) ∧
      ∀ c : Correction ops, ¬ Explains c (counted bnd events)) := by
  have hg := proper_of_run hB.matching hB.edges.pairs hB.edges.even hB.edges.small
  have hF := usedFull_int32 hB hsh hb hF
  rcases C24_decode_to_edges numNodes numObs ops g sg m hB bnd hb F hF events hv with ⟨F', es, e, k⟩ | ⟨F', e, k⟩
  · exact .inl ⟨F', es, Agree.completes (.of_eq fun f => decodeEdges_int32 hg hsh (used_idle hB hb hF).ms (takes hb hv) sg f) e, k⟩
  · exact .inr ⟨F', Agree.completes (.of_eq fun f => decodeEdges_int32 hg hsh (used_idle hB hb hF).ms (takes hb hv) sg f) e, k⟩

/-- `C41_weight_of_edges`, with the 32-bit wrapped radius, on a short graph. -/
theorem C41_weight_of_edges_int32 (numNodes numObs : Nat) (ops : List EdgeIns) (g : MGraph) (sg : SGraph) (m : ObsInt)
    (hB : Built numNodes numObs ops g sg m) (hsh : Short g) (bnd : List Bool) (hb : ∀ d ∈ g.negDets, TL.notBoundary bnd d = true) (F G : Full)
    (hF : UsedFull g sg bnd m F) (hG : UsedFull g sg bnd m G) (events : List Nat) (hv : Valid g events) :
    (∃ F' G' buf es, Completes (fun f => decodeObs g sg bnd m f F events (List.replicate numObs 0#8) 0)
        (.ok (F', buf, (es.map (weightOf ops)).sum + negativeLoops ops)) ∧
      Completes (fun f => decodeEdges g sg bnd f G events) (.ok (G', es))) ∨
    (∃ F' G', Completes (fun f => decodeObs g sg bnd m f F events (List.replicate numObs 0#8) 0) (.throws F') ∧
      Completes (fun f => decodeEdges g sg bnd f G events) (.throws G')) := by
  have hg := proper_of_run hB.matching hB.edges.pairs hB.edges.even hB.edges.small
  have hF := usedFull_int32 hB hsh hb hF
  have hG := usedFull_int32 hB hsh hb hG
  rcases C41_weight_of_edges numNodes numObs ops g sg m hB bnd hb F G hF hG events hv with ⟨F', G', buf, es, e, k⟩ | ⟨F', G', e, k⟩
  · exact .inl ⟨F', G', buf, es, Agree.completes (.of_eq fun f => decodeObs_int32 hg hsh (used_idle hB hb hF).ms (takes hb hv) sg m f _ _) e,
      Agree.completes (.of_eq fun f => decodeEdges_int32 hg hsh (used_idle hB hb hG).ms (takes hb hv) sg f) k⟩
  · exact .inr ⟨F', G', Agree.completes (.of_eq fun f => decodeObs_int32 hg hsh (used_idle hB hb hF).ms (takes hb hv) sg m f _ _) e,
      Agree.completes (.of_eq fun f => decodeEdges_int32 hg hsh (used_idle hB hb hG).ms (takes hb hv) sg f) k⟩

/-- `C41_weight_of_edges_partial`, with the 32-bit wrapped radius, on a short graph. -/
theorem C41_weight_of_edges_int32_partial (numNodes numObs : Nat) (ops : List EdgeIns) (g : MGraph) (sg : SGraph) (m : ObsInt)
    (hB : Built numNodes numObs ops g sg m) (hsh : Short g) (hl : ∀ u w o, .edge u u w o ∈ ops → 0 ≤ w) (bnd : List Bool)
    (hb : ∀ d ∈ g.negDets, TL.notBoundary bnd d = true) (F G : Full) (hF : UsedFull g sg bnd m F) (hG : UsedFull g sg bnd m G) (events : List Nat)
    (hv : Valid g events) (F' G' : Full) (buf : List (BitVec 8)) (w : Int) (es : List (Nat × Option Nat))
    (h1 : Completes (fun f => decodeObs g sg bnd m f F events (List.replicate numObs 0#8) 0) (.ok (F', buf, w)))
    (h2 : Completes (fun f => decodeEdges g sg bnd f G events) (.ok (G', es))) : w = (es.map (weightOf ops)).sum := by
  have hg := proper_of_run hB.matching hB.edges.pairs hB.edges.even hB.edges.small
  have hF := usedFull_int32 hB hsh hb hF
  have hG := usedFull_int32 hB hsh hb hG
  exact C41_weight_of_edges_partial numNodes numObs ops g sg m hB hl bnd hb F G hF hG events hv F' G' buf w es
    ((Agree.of_eq fun f => decodeObs_int32 hg hsh (used_idle hB hb hF).ms (takes hb hv) sg m f _ _).symm.completes h1)
    ((Agree.of_eq fun f => decodeEdges_int32 hg hsh (used_idle hB hb hG).ms (takes hb hv) sg f).symm.completes h2)

end

/-! ## During a decode -/

section
open Verif.Graph Verif.CE Verif.Track Verif.Mem Verif.Spec Verif.Props.Graph Verif.Props.Decode Verif.Props.Dynamics

/-- `C39_cached_radii`, with the 32-bit wrapped radius, on a short graph. -/
theorem C39_cached_radii_int32 {g : MGraph} {bnd : List Bool} (hp : Problem g bnd) (hsh : Short g) {T : Finset Nat} {s : MS} (h : During g bnd T s) :
    (∀ n r, (s.fl.node n).arr = some r → ∃ l, Nest s.fl r l ∧ (s.fl.node n).top = l.getLast? ∧ computeWrapped s.fl n = .ok (s.fl.node n).wrapped ∧
      (s.fl.node n).wrapped = (l.dropLast.map fun q => (s.fl.reg q).radius.distanceAt s.fl.now).sum - (s.fl.node n).rho) ∧
    ∀ n τ, Reach s.fl n τ ((localRadius s.fl n).distanceAt τ) := by
  have h := during_int32 hp hsh h
  obtain ⟨k1, k2⟩ := C39_cached_radii hp h
  refine ⟨fun n r ha => ?_, k2⟩
  obtain ⟨l, e1, e2, e3, e4⟩ := k1 n r ha
  obtain ⟨L, ch, t, A, ach, hs⟩ := during_ok hp h
  exact ⟨l, e1, e2, computed (hs.fits hp.proper.1 hsh) e3, e4⟩

/-- `C40_next_event`, with the 32-bit wrapped radius, on a short graph. -/
theorem C40_next_event_int32 {g : MGraph} {bnd : List Bool} (hp : Problem g bnd) (hsh : Short g) {T : Finset Nat} {s : MS} (h : During g bnd T s) (u : Nat)
    (hu : (localRadius s.fl u).slope ≠ -1) :
    (findNext g s.fl u = .ok none ∧ ∀ i nb τ, entry g (u, i) = some nb → ¬ Meets s.fl u nb τ) ∨
    ∃ i nb τ, findNext g s.fl u = .ok (some (i, τ)) ∧ entry g (u, i) = some nb ∧ Meets s.fl u nb τ ∧ s.fl.now ≤ τ ∧
      ∀ i' nb' τ', entry g (u, i') = some nb' → Meets s.fl u nb' τ' → τ ≤ τ' :=
  C40_next_event hp (during_int32 hp hsh h) u hu

/-- `C40_nothing_missed`, with the 32-bit wrapped radius, on a short graph. -/
theorem C40_nothing_missed_int32 {g : MGraph} {bnd : List Bool} (hp : Problem g bnd) (hsh : Short g) {T : Finset Nat} {s : MS} (h : During g bnd T s) :
    (∀ u i nb τ, entry g (u, i) = some nb → Meets s.fl u nb τ → s.fl.now ≤ τ ∧
      ∃ τ', τ' ≤ τ ∧ (want s.fl (.inl u) = some τ' ∨ ∃ v, nb.target = some v ∧ want s.fl (.inl v) = some τ')) ∧
    ∀ r τ, want s.fl (.inr r) = some τ ↔ Top s.fl r ∧ (s.fl.reg r).radius.slope = -1 ∧ Empties s.fl r τ :=
  C40_nothing_missed hp (during_int32 hp hsh h)

/-- `C30_alternating`, with the 32-bit wrapped radius, on a short graph. -/
theorem C30_alternating_int32 {g : MGraph} {bnd : List Bool} (hp : Problem g bnd) (hsh : Short g) {T : Finset Nat} {s : MS} (h : During g bnd T s) : Alternating g T s :=
  C30_alternating hp (during_int32 hp hsh h)

/-- `C30_reopened`, with the 32-bit wrapped radius, on a short graph. -/
theorem C30_reopened_int32 {g : MGraph} {bnd : List Bool} (hp : Problem g bnd) (hsh : Short g) {T : Finset Nat} {s : MS} (h : During g bnd T s) {B : Nat} {τ : Int}
    {w : World Owner} (hw : s.fl.w.step .deliver = some (.ring (.inr B) τ, w)) (he : (s.fl.reg B).shell = []) :
    ∃ s' ba p e r1 r2 n1 n2 pth prs, round g s = .ok (some s') ∧ ba ∈ live s.alts ∧ (s.alt ba).inner = some B ∧
      (s.alt ba).parent = some (p, e.reversed) ∧ e.locTo = some n1 ∧ Within s.fl r1 n1 ∧ (s.alt ba).i2o.locFrom = some n2 ∧ Within s.fl r2 n2 ∧
      Rethreaded (live s.alts) (live s'.alts) s s' (s.fl.reg B).children ba p e r1 r2 pth prs ∧ Alternating g T s' ∧
      live s'.fl.regs = (live s.fl.regs).erase B := by
  have h := during_int32 hp hsh h
  obtain ⟨s', ba, p, e, r1, r2, n1, n2, pth, prs, k, r⟩ := C30_reopened hp h hw he
  exact ⟨s', ba, p, e, r1, r2, n1, n2, pth, prs, during_round hp hsh h k, r⟩

/-- `C31_certified`, with the 32-bit wrapped radius, on a short graph. -/
theorem C31_certified_int32 {g : MGraph} {bnd : List Bool} (hp : Problem g bnd) (hsh : Short g) {T : Finset Nat} {s : MS} (h : Finished g bnd T s) :
    (∀ R ∈ live s.fl.regs, (s.fl.reg R).radius.slope = 0 ∧ 0 ≤ (s.fl.reg R).radius.distanceAt s.fl.now ∧
      ∀ S : Finset Nat, (∀ a, a ∈ S ↔ a ∈ T ∧ Within s.fl R a) → S.card % 2 = 1) ∧
    (∀ a ∈ T, ∀ b, (∀ v, b = some v → v ∈ T) → ∀ es, Spec.Walk g a b es → between s.fl a b ≤ totalWeight g es) ∧
    ∀ ns, (∀ a ∈ T, a ∈ ns) → ∃ s' x, extractAll s ns Extract.zero = .ok (s', x) ∧ (∀ e ∈ x.edges, TightEdge g T s.fl e) ∧
      (ends x.edges).Nodup ∧ (∀ v, v ∈ ends x.edges ↔ v ∈ T) ∧ x.mask = xorMasks x.edges ∧
      x.weight = ∑ R ∈ live s.fl.regs, (s.fl.reg R).radius.distanceAt s.fl.now ∧
      ∀ ws, Corrects g T ws → x.weight ≤ totalWeight g ws :=
  C31_certified hp (finished_int32 hp hsh h)

/-- `C29_dissolved`, with the 32-bit wrapped radius, on a short graph. -/
theorem C29_dissolved_int32 {g : MGraph} {bnd : List Bool} (hp : Problem g bnd) (hsh : Short g) {T : Finset Nat} {s : MS} (h : Finished g bnd T s) {r : Nat}
    (hr : Top s.fl r) :
    ∃ s' z es, extract s.extractDepth s r = .ok (s', z) ∧ z.edges.Perm ((s.mate r).edge :: es) ∧ (ends z.edges).Nodup ∧
      (∀ v, v ∈ ends z.edges ↔ v ∈ T ∧ (Within s.fl r v ∨ ∃ m, (s.mate r).region = some m ∧ Within s.fl m v)) ∧
      (∀ e ∈ z.edges, TightEdge g T s.fl e) ∧
      (∀ e ∈ es, ∃ B ∈ live s.fl.regs, (Inside s.fl B r ∨ ∃ m, (s.mate r).region = some m ∧ Inside s.fl B m) ∧
        ∃ c c', Adjacent (s.fl.reg B).children e c c' ∧ Joins g T s.fl e c c') ∧
      z.mask = xorMasks z.edges ∧
      ∀ D : Finset Nat, (∀ B, B ∈ D ↔ B ∈ live s.fl.regs ∧ (Inside s.fl B r ∨ ∃ m, (s.mate r).region = some m ∧ Inside s.fl B m)) →
        z.weight = ∑ B ∈ D, (s.fl.reg B).radius.distanceAt s.fl.now :=
  C29_dissolved hp (finished_int32 hp hsh h) hr

end

/-! ## Correlations -/

section
open Verif.Graph Verif.CE Verif.Props.Graph Verif.Props.NegWeights Verif.Props.Convert Verif.Props.Decode Verif.Props.Edges Verif.Props.Correlated

/-- `C51_correlated_observables`, with the 32-bit wrapped radius, on a short graph. -/
theorem C51_correlated_observables_int32 (numNodes numObs : Nat) (ins : List (Conv.Ins K)) (k : K) (g : MGraph) (sg : SGraph) (m : ObsInt) (C : Corr)
    (hB : BuiltCorr numNodes numObs ins k g sg m C) (hsh : Short g) (bnd : List Bool) (hb : ∀ d ∈ g.negDets, TL.notBoundary bnd d = true) (st : CState)
    (hst : UsedCorr g sg bnd m C st) (events : List Nat) (hv : Valid g events) :
    (∃ st' buf w, Completes (fun f => decodeObsCorr g sg bnd m C f st events (List.replicate numObs 0#8) 0) (.ok (st', buf, w)) ∧ Rest g sg st' ∧
      ∃ c1 : Correction (opsOf ins), Optimal weight c1 (counted bnd events) ∧ ∃ ω, Conditional ins k c1 ω ∧
        ∃ c2 : Correction (opsOf ins), Optimal (totalOf ω) c2 (counted bnd events) ∧ w = totalOf ω c2 ∧ buf.length = numObs ∧
          ∀ o, o < numObs → buf[o]? = some (if crossed c2 o % 2 = 1 then 1#8 else 0#8)) ∨
    (∃ st', Completes (fun f => decodeObsCorr g sg bnd m C f st events (List.replicate numObs 0#8) 0) (.throws st') ∧ Rest g sg st' ∧
      (C.without = true ∨ ∀ c : Correction (opsOf ins), ¬ Explains c (counted bnd events))) := by
  have hst := usedCorr_int32 hB hb hsh hst
  have hr := used_rest hB hb hst
  rcases C51_correlated_observables numNodes numObs ins k g sg m C hB bnd hb st hst events hv with ⟨st', buf, w, e, r⟩ | ⟨st', e, r⟩
  · exact .inl ⟨st', buf, w, (correlated_agree hB hb hr hv hsh (narrows_obs _ _)).completes e, r⟩
  · exact .inr ⟨st', (correlated_agree hB hb hr hv hsh (narrows_obs _ _)).completes e, r⟩

/-- `C51_correlated_edges`, with the 32-bit wrapped radius, on a short graph. -/
theorem C51_correlated_edges_int32 (numNodes numObs : Nat) (ins : List (Conv.Ins K)) (k : K) (g : MGraph) (sg : SGraph) (m : ObsInt) (C : Corr)
    (hB : BuiltCorr numNodes numObs ins k g sg m C) (hsh : Short g) (bnd : List Bool) (hb : ∀ d ∈ g.negDets, TL.notBoundary bnd d = true) (st : CState)
    (hst : UsedCorr g sg bnd m C st) (events : List Nat) (hv : Valid g events) :
    (∃ st' es, Completes (fun f => decodeEdgesCorr g sg bnd C f st events) (.ok (st', es)) ∧ Rest g sg st' ∧
      ∃ c1 : Correction (opsOf ins), Optimal weight c1 (counted bnd events) ∧ ∃ ω, Conditional ins k c1 ω ∧
        ∃ c2 : Correction (opsOf ins), Optimal (totalOf ω) c2 (counted bnd events) ∧ Lists es c2) ∨
    (∃ st', Completes (fun f => decodeEdgesCorr g sg bnd C f st events) (.throws st') ∧ Rest g sg st' ∧
      (C.without = true ∨ ∀ c : Correction (opsOf ins), ¬ Explains c (counted bnd events))) := by
  have hst := usedCorr_int32 hB hb hsh hst
  have hr := used_rest hB hb hst
  rcases C51_correlated_edges numNodes numObs ins k g sg m C hB bnd hb st hst events hv with ⟨st', es, e, r⟩ | ⟨st', e, r⟩
  · exact .inl ⟨st', es, (correlated_agree hB hb hr hv hsh narrows_edges).completes e, r⟩
  · exact .inr ⟨st', (correlated_agree hB hb hr hv hsh narrows_edges).completes e, r⟩

/-- `C51_correlated_mask`, with the 32-bit wrapped radius, on a short graph. -/
theorem C51_correlated_mask_int32 (numNodes numObs : Nat) (hobs : numObs ≤ 64) (ins : List (Conv.Ins K)) (k : K) (g : MGraph) (sg : SGraph) (m : ObsInt)
    (C : Corr) (hB : BuiltCorr numNodes numObs ins k g sg m C) (hsh : Short g) (bnd : List Bool) (hb : ∀ d ∈ g.negDets, TL.notBoundary bnd d = true) (st : CState)
    (hst : UsedCorr g sg bnd m C st) (events : List Nat) (hv : Valid g events) :
    (∃ st' mask w, Completes (fun f => decode64Corr g sg bnd m C f st events) (.ok (st', mask, w)) ∧ Rest g sg st' ∧
      ∃ c1 : Correction (opsOf ins), Optimal weight c1 (counted bnd events) ∧ ∃ ω, Conditional ins k c1 ω ∧
        ∃ c2 : Correction (opsOf ins), Optimal (totalOf ω) c2 (counted bnd events) ∧ w = totalOf ω c2 ∧
          ∀ o, o < 64 → (mask.getLsbD o = true ↔ crossed c2 o % 2 = 1)) ∨
    (∃ st', Completes (fun f => decode64Corr g sg bnd m C f st events) (.throws st') ∧ Rest g sg st' ∧
      (C.without = true ∨ ∀ c : Correction (opsOf ins), ¬ Explains c (counted bnd events))) := by
  have hst := usedCorr_int32 hB hb hsh hst
  have hr := used_rest hB hb hst
  rcases C51_correlated_mask numNodes numObs hobs ins k g sg m C hB bnd hb st hst events hv with ⟨st', mask, w, e, r⟩ | ⟨st', e, r⟩
  · exact .inl ⟨st', mask, w, (correlated_agree hB hb hr hv hsh narrows_mask).completes e, r⟩
  · exact .inr ⟨st', (correlated_agree hB hb hr hv hsh narrows_mask).completes e, r⟩

/-- `C51_no_trace`, with the 32-bit wrapped radius, on a short graph. -/
theorem C51_no_trace_int32 (numNodes numObs : Nat) (ins : List (Conv.Ins K)) (k : K) (g : MGraph) (sg : SGraph) (m : ObsInt) (C : Corr)
    (hB : BuiltCorr numNodes numObs ins k g sg m C) (hsh : Short g) (bnd : List Bool) (hb : ∀ d ∈ g.negDets, TL.notBoundary bnd d = true) (st : CState)
    (hst : UsedCorr g sg bnd m C st) :
    withM g st.wg.mem = g ∧ withS sg st.ws.mem = sg ∧ ∀ events, Valid g events →
    ((∃ st' buf w, Completes (fun f => plain g sg (fun g sg F => decodeObs g sg bnd m f F events (List.replicate numObs 0#8) 0) st) (.ok (st', buf, w)) ∧
      Rest g sg st' ∧ ∃ c : Correction (opsOf ins), Optimal weight c (counted bnd events) ∧ w = weight c ∧ buf.length = numObs ∧
          ∀ o, o < numObs → buf[o]? = some (if crossed c o % 2 = 1 then 1#8 else 0#8)) ∨
    (∃ st', Completes (fun f => plain g sg (fun g sg F => decodeObs g sg bnd m f F events (List.replicate numObs 0#8) 0) st) (.throws st') ∧
      Rest g sg st' ∧ ∀ c : Correction (opsOf ins), ¬ Explains c (counted bnd events))) := by
  have hst := usedCorr_int32 hB hb hsh hst
  have hr := used_rest hB hb hst
  have hg := proper_of_run hB.built.matching hB.built.edges.pairs hB.built.edges.even hB.built.edges.small
  obtain ⟨k1, k2, k3⟩ := C51_no_trace numNodes numObs ins k g sg m C hB bnd hb st hst
  refine ⟨k1, k2, fun events hv => ?_⟩
  rcases k3 events hv with ⟨st', buf, w, e, r⟩ | ⟨st', e, r⟩
  · exact .inl ⟨st', buf, w, (Agree.of_eq (plain_narrows (narrows_obs _ _) hg hb hv hsh hr)).completes e, r⟩
  · exact .inr ⟨st', (Agree.of_eq (plain_narrows (narrows_obs _ _) hg hb hv hsh hr)).completes e, r⟩

/-- `C52_weight_partial`, with the 32-bit wrapped radius, on a short graph. -/
theorem C52_weight_int32_partial (numNodes numObs : Nat) (hobs : numObs ≤ 64) (ins : List (Conv.Ins K)) (k : K) (g : MGraph) (sg : SGraph) (m : ObsInt)
    (C : Corr) (hB : BuiltCorr numNodes numObs ins k g sg m C) (hsh : Short g) (bnd : List Bool) (hb : ∀ d ∈ g.negDets, TL.notBoundary bnd d = true) (st : CState)
    (hst : UsedCorr g sg bnd m C st) (events : List Nat) (hv : Valid g events) (st' : CState) (mask : ObsInt) (w : Int)
    (hd : Completes (fun f => decode64Corr g sg bnd m C f st events) (.ok (st', mask, w))) :
    ∃ (c1 c2 : Correction (opsOf ins)) (ω : Fin (opsOf ins).length → Int), Explains c1 (counted bnd events) ∧ (∀ j, ω j ∈ offers ins k c1 j) ∧
      Explains c2 (counted bnd events) ∧ w = totalOf ω c2 := by
  have hst := usedCorr_int32 hB hb hsh hst
  have hr := used_rest hB hb hst
  exact C52_weight_partial numNodes numObs hobs ins k g sg m C hB bnd hb st hst events hv st' mask w
    ((correlated_agree hB hb hr hv hsh narrows_mask).symm.completes hd)

end

/-! ## Sequences of calls -/

section
open Verif.Graph Verif.CE Verif.Props.Graph Verif.Props.NegWeights Verif.Props.Convert Verif.Props.Decode Verif.Props.Edges Verif.Props.Correlated Verif.Props.Shots

/-- `C32_shots_independent`, with the 32-bit wrapped radius, on a short graph. -/
theorem C32_shots_independent_int32 (numNodes numObs : Nat) (ops : List EdgeIns) (g : MGraph) (sg : SGraph) (m : ObsInt) (hB : Built numNodes numObs ops g sg m) (hsh : Short g)
    (bnd : List Bool) (hb : ∀ d ∈ g.negDets, TL.notBoundary bnd d = true) (C : Corr) (calls : List Call)
    (hc : ∀ c ∈ calls, c.Acceptable g ∧ asksCorr c = false) :
    ∃ replies st, List.Forall₂ (Alone g sg bnd m C) calls replies ∧
      Completes (fun f => session g sg bnd m C f (CState.init g sg) calls) (.ok (replies, st)) ∧ AtRest g sg st := by
  have hg := proper_of_run hB.matching hB.edges.pairs hB.edges.even hB.edges.small
  refine session_int32 (P := fun c => c.Acceptable g ∧ asksCorr c = false) (fun c hc st h => plain_reply hB hb (rest_init g sg) h hc.1 hc.2 C)
    (fun c hc st h => .of_eq (respond_plain hg hb h hsh hc.1 hc.2 C)) hc

/-- `C32_shots_independent_correlated`, with the 32-bit wrapped radius, on a short graph. -/
theorem C32_shots_independent_correlated_int32 (numNodes numObs : Nat) (ins : List (Conv.Ins K)) (k : K) (g : MGraph) (sg : SGraph) (m : ObsInt) (C : Corr)
    (hB : BuiltCorr numNodes numObs ins k g sg m C) (hsh : Short g) (bnd : List Bool) (hb : ∀ d ∈ g.negDets, TL.notBoundary bnd d = true) (calls : List Call)
    (hc : ∀ c ∈ calls, c.Acceptable g) :
    ∃ replies st, List.Forall₂ (Alone g sg bnd m C) calls replies ∧
      Completes (fun f => session g sg bnd m C f (CState.init g sg) calls) (.ok (replies, st)) ∧ AtRest g sg st := by
  have hg := proper_of_run hB.built.matching hB.built.edges.pairs hB.built.edges.even hB.built.edges.small
  refine session_int32 (P := fun c => c.Acceptable g) (fun c hc st h => any_reply hB hb (rest_init g sg) h hc)
    (fun c hc st h => respond_agree hg (fun _ => hB) hb h hsh hc) hc

end

/-! ## The graph as entered -/

section
open Verif.Props.Decode Verif.Props.Edges Verif.Props.EndToEnd Verif.Props.UserEdges

/-- `C49_decode_user_graph_partial`, with the 32-bit wrapped radius, on a short graph. -/
theorem C49_decode_user_graph_int32_partial (mergeW : K → K → K) (n m : Nat) (cs : List (UserGraph.Call K)) (P : Prepared K)
    (hP : prepare (UserGraph.run mergeW (UGraph.new n m) cs) = some P) (hsh : Short P.mg) (hobs : (UserGraph.run mergeW (UGraph.new n m) cs).numObs ≤ 64)
    (hN : NoGain (UserGraph.run mergeW (UGraph.new n m) cs))
    (s : MS) (hs : Decode.Used P.mg P.bnd s) (events : List Nat) (hnd : events.Nodup)
    (hev : ∀ d ∈ events, d < (UserGraph.run mergeW (UGraph.new n m) cs).nodes.length)
    (f : Nat) (out : Outcome (MS × CE.ObsInt × Int)) (hrun : decode64 P.mg P.bnd (negEvents P.mg) P.mask P.mg.negSum f s events = some out) :
    Correct (UserGraph.run mergeW (UGraph.new n m) cs) P.scale events out := by
  obtain ⟨ops, c, -, -, -, -, h1, h2, -, -, h5, h6, -⟩ := prepared mergeW n m cs hP
  have hg := proper_of_run h1 h2.pairs h2.even h2.small
  have hs := used_int32 hg hsh (no_negatives h1) h5 hs
  have hv : Decode.Valid P.mg events := ⟨hnd, by rw [h6]; exact hev⟩
  rw [decode64_int32 hg hsh (used_clean hg (no_negatives h1) h5 hs) (takes h5 hv)] at hrun
  exact C49_decode_user_graph_partial mergeW n m cs P hP hobs hN s hs events hnd hev f out hrun

/-- `C50_user_graph_terminates`, with the 32-bit wrapped radius, on a short graph. -/
theorem C50_user_graph_terminates_int32 (mergeW : K → K → K) (n m : Nat) (cs : List (UserGraph.Call K)) (P : Prepared K)
    (hP : prepare (UserGraph.run mergeW (UGraph.new n m) cs) = some P) (hsh : Short P.mg) (hobs : (UserGraph.run mergeW (UGraph.new n m) cs).numObs ≤ 64)
    (s : MS) (hs : Decode.Used P.mg P.bnd s) (events : List Nat) (hnd : events.Nodup)
    (hev : ∀ d ∈ events, d < (UserGraph.run mergeW (UGraph.new n m) cs).nodes.length) :
    ∃ f0 out, (∀ f, f0 ≤ f → decode64 P.mg P.bnd (negEvents P.mg) P.mask P.mg.negSum f s events = some out) ∧ out ≠ .ub ∧
      (NoGain (UserGraph.run mergeW (UGraph.new n m) cs) → Correct (UserGraph.run mergeW (UGraph.new n m) cs) P.scale events out) := by
  obtain ⟨ops, c, -, -, -, -, h1, h2, -, -, h5, h6, -⟩ := prepared mergeW n m cs hP
  have hg := proper_of_run h1 h2.pairs h2.even h2.small
  have hs := used_int32 hg hsh (no_negatives h1) h5 hs
  have hv : Decode.Valid P.mg events := ⟨hnd, by rw [h6]; exact hev⟩
  obtain ⟨f0, out, e, k⟩ := C50_user_graph_terminates mergeW n m cs P hP hobs s hs events hnd hev
  refine ⟨f0, out, fun f hf => ?_, k⟩
  rw [decode64_int32 hg hsh (used_clean hg (no_negatives h1) h5 hs) (takes h5 hv)]
  exact e f hf

/-- `C49_any_number_of_fault_ids_partial`, with the 32-bit wrapped radius, on a short graph. -/
theorem C49_any_number_of_fault_ids_int32_partial (mergeW : K → K → K) (n m : Nat) (cs : List (UserGraph.Call K)) (P : Prepared K) (sg : Graph.SGraph)
    (hP : prepareFull (UserGraph.run mergeW (UGraph.new n m) cs) = some (P, sg)) (hsh : Short P.mg) (hcov : Covered (UserGraph.run mergeW (UGraph.new n m) cs))
    (F : Full) (hF : UsedFull P.mg sg P.bnd P.mask F) (events : List Nat) (hnd : events.Nodup)
    (hev : ∀ d ∈ events, d < (UserGraph.run mergeW (UGraph.new n m) cs).nodes.length) :
    (∃ F' buf w, Completes (fun f => decodeObs P.mg sg P.bnd P.mask f F events
        (List.replicate (UserGraph.run mergeW (UGraph.new n m) cs).numObs 0#8) 0) (.ok (F', buf, w)) ∧
      (NoGain (UserGraph.run mergeW (UGraph.new n m) cs) → ∃ C : Choice (UserGraph.run mergeW (UGraph.new n m) cs),
        Best P.scale C events ∧ total P.scale C = w ∧ buf.length = (UserGraph.run mergeW (UGraph.new n m) cs).numObs ∧
        ∀ k, k < (UserGraph.run mergeW (UGraph.new n m) cs).numObs → buf[k]? = some (if crossed C k % 2 = 1 then 1#8 else 0#8))) ∨
    (∃ F', Completes (fun f => decodeObs P.mg sg P.bnd P.mask f F events
        (List.replicate (UserGraph.run mergeW (UGraph.new n m) cs).numObs 0#8) 0) (.throws F') ∧
      ∀ C : Choice (UserGraph.run mergeW (UGraph.new n m) cs), ¬ Explains C events) := by
  obtain ⟨ops, c, -, -, hB, -, h5, h6, -⟩ := prepared_full mergeW n m cs hP hcov
  have hg := proper_of_run hB.matching hB.edges.pairs hB.edges.even hB.edges.small
  have hF := usedFull_int32 hB hsh h5 hF
  have hv : Decode.Valid P.mg events := ⟨hnd, by rw [h6]; exact hev⟩
  rcases C49_any_number_of_fault_ids_partial mergeW n m cs P sg hP hcov F hF events hnd hev with ⟨F', buf, w, e, k⟩ | ⟨F', e, k⟩
  · exact .inl ⟨F', buf, w, Agree.completes (.of_eq fun f => decodeObs_int32 hg hsh (used_idle hB h5 hF).ms (takes h5 hv) sg P.mask f _ _) e, k⟩
  · exact .inr ⟨F', Agree.completes (.of_eq fun f => decodeObs_int32 hg hsh (used_idle hB h5 hF).ms (takes h5 hv) sg P.mask f _ _) e, k⟩

/-- `C49_edges_partial`, with the 32-bit wrapped radius, on a short graph. -/
theorem C49_edges_int32_partial (mergeW : K → K → K) (n m : Nat) (cs : List (UserGraph.Call K)) (P : Prepared K) (sg : Graph.SGraph)
    (hP : prepareFull (UserGraph.run mergeW (UGraph.new n m) cs) = some (P, sg)) (hsh : Short P.mg) (hcov : Covered (UserGraph.run mergeW (UGraph.new n m) cs))
    (F : Full) (hF : UsedFull P.mg sg P.bnd P.mask F) (events : List Nat) (hnd : events.Nodup)
    (hev : ∀ d ∈ events, d < (UserGraph.run mergeW (UGraph.new n m) cs).nodes.length) :
    (∃ F' es, Completes (fun f => decodeEdges P.mg sg P.bnd f F events) (.ok (F', es)) ∧
      (NoGain (UserGraph.run mergeW (UGraph.new n m) cs) → ∃ C : Choice (UserGraph.run mergeW (UGraph.new n m) cs),
        Best P.scale C events ∧ Returned es C)) ∨
    (∃ F', Completes (fun f => decodeEdges P.mg sg P.bnd f F events) (.throws F') ∧
      ∀ C : Choice (UserGraph.run mergeW (UGraph.new n m) cs), ¬ Explains C events) := by
  obtain ⟨ops, c, -, -, hB, -, h5, h6, -⟩ := prepared_full mergeW n m cs hP hcov
  have hg := proper_of_run hB.matching hB.edges.pairs hB.edges.even hB.edges.small
  have hF := usedFull_int32 hB hsh h5 hF
  have hv : Decode.Valid P.mg events := ⟨hnd, by rw [h6]; exact hev⟩
  rcases C49_edges_partial mergeW n m cs P sg hP hcov F hF events hnd hev with ⟨F', es, e, k⟩ | ⟨F', e, k⟩
  · exact .inl ⟨F', es, Agree.completes (.of_eq fun f => decodeEdges_int32 hg hsh (used_idle hB h5 hF).ms (takes h5 hv) sg f) e, k⟩
  · exact .inr ⟨F', Agree.completes (.of_eq fun f => decodeEdges_int32 hg hsh (used_idle hB h5 hF).ms (takes h5 hv) sg f) e, k⟩

end

/-! ## Detector error models -/

section
open Verif.Dem Verif.Props.Dem Verif.Props.EndToEnd Verif.Props.UserEdges Verif.Props.Correlated Verif.Props.DemCorr Verif.Props.Likelihood
open Verif.Props.Edges (Completes UsedFull used_idle)
open Verif.Props.MergeWeights (llr)
open Verif.MW (mergeWeights)

/-- `C53_observables`, with the 32-bit wrapped radius, on a short graph. -/
theorem C53_observables_int32 (m : Model ℝ) (hv : Valid m) (hn : NoLoops m) (g : UGraph ℝ) (hl : loadCorr mergeWeights llr m = some g) (P : Prepared ℝ)
    (sg : Graph.SGraph) (C : Corr) (hC : prepareCorr g false = some (P, sg, C)) (hsh : Short P.mg) (st : CState) (hst : UsedCorr P.mg sg P.bnd P.mask C st)
    (events : List Nat) (hnd : events.Nodup) (hev : ∀ d ∈ events, d < m.numDets) :
    (∃ st' buf w, Completes (fun f => decodeObsCorr P.mg sg P.bnd P.mask C f st events (List.replicate m.numObs 0#8) 0) (.ok (st', buf, w)) ∧
      ∃ ω C2, TwoPass m g P.scale events ω C2 ∧ w = ∑ j ∈ C2, ω j ∧ buf.length = m.numObs ∧
        ∀ o, o < m.numObs → buf[o]? = some (if EndToEnd.crossed C2 o % 2 = 1 then 1#8 else 0#8)) ∨
    (∃ st', Completes (fun f => decodeObsCorr P.mg sg P.bnd P.mask C f st events (List.replicate m.numObs 0#8) 0) (.throws st') ∧
      ∀ C' : Choice g, ¬ EndToEnd.Explains C' events) := by
  have h := DemCorr.loaded m hv g hl
  have hP := DemCorr.full_of_corr hC
  obtain ⟨ins, φ, hR⟩ := DemCorr.ready h hv hP
  obtain ⟨hB, hw⟩ := hR.loadedCorr h hP hC
  have hval : Decode.Valid P.mg events := ⟨hnd, by rw [hR.len, h.nodes]; exact hev⟩
  have hst := usedCorr_int32 hB hR.quiet hsh hst
  have hr := used_rest hB hR.quiet hst
  rcases DemCorr.C53_observables m hv hn g hl P sg C hC st hst events hnd hev with ⟨st', buf, w, e, r⟩ | ⟨st', e, r⟩
  · exact .inl ⟨st', buf, w, (correlated_agree hB hR.quiet hr hval hsh (narrows_obs _ _)).completes e, r⟩
  · exact .inr ⟨st', (correlated_agree hB hR.quiet hr hval hsh (narrows_obs _ _)).completes e, r⟩

/-- `C53_edges`, with the 32-bit wrapped radius, on a short graph. -/
theorem C53_edges_int32 (m : Model ℝ) (hv : Valid m) (hn : NoLoops m) (g : UGraph ℝ) (hl : loadCorr mergeWeights llr m = some g) (P : Prepared ℝ)
    (sg : Graph.SGraph) (C : Corr) (hC : prepareCorr g false = some (P, sg, C)) (hsh : Short P.mg) (st : CState) (hst : UsedCorr P.mg sg P.bnd P.mask C st)
    (events : List Nat) (hnd : events.Nodup) (hev : ∀ d ∈ events, d < m.numDets) :
    (∃ st' es, Completes (fun f => decodeEdgesCorr P.mg sg P.bnd C f st events) (.ok (st', es)) ∧
      ∃ ω C2, TwoPass m g P.scale events ω C2 ∧ Returned es C2) ∨
    (∃ st', Completes (fun f => decodeEdgesCorr P.mg sg P.bnd C f st events) (.throws st') ∧
      ∀ C' : Choice g, ¬ EndToEnd.Explains C' events) := by
  have h := DemCorr.loaded m hv g hl
  have hP := DemCorr.full_of_corr hC
  obtain ⟨ins, φ, hR⟩ := DemCorr.ready h hv hP
  obtain ⟨hB, hw⟩ := hR.loadedCorr h hP hC
  have hval : Decode.Valid P.mg events := ⟨hnd, by rw [hR.len, h.nodes]; exact hev⟩
  have hst := usedCorr_int32 hB hR.quiet hsh hst
  have hr := used_rest hB hR.quiet hst
  rcases DemCorr.C53_edges m hv hn g hl P sg C hC st hst events hnd hev with ⟨st', es, e, r⟩ | ⟨st', e, r⟩
  · exact .inl ⟨st', es, (correlated_agree hB hR.quiet hr hval hsh narrows_edges).completes e, r⟩
  · exact .inr ⟨st', (correlated_agree hB hR.quiet hr hval hsh narrows_edges).completes e, r⟩

/-- `C53_mask`, with the 32-bit wrapped radius, on a short graph. -/
theorem C53_mask_int32 (m : Model ℝ) (hv : Valid m) (hn : NoLoops m) (hobs : m.numObs ≤ 64) (g : UGraph ℝ) (hl : loadCorr mergeWeights llr m = some g)
    (P : Prepared ℝ) (sg : Graph.SGraph) (C : Corr) (hC : prepareCorr g false = some (P, sg, C)) (hsh : Short P.mg) (st : CState)
    (hst : UsedCorr P.mg sg P.bnd P.mask C st) (events : List Nat) (hnd : events.Nodup) (hev : ∀ d ∈ events, d < m.numDets) :
    (∃ st' mask w, Completes (fun f => decode64Corr P.mg sg P.bnd P.mask C f st events) (.ok (st', mask, w)) ∧
      ∃ ω C2, TwoPass m g P.scale events ω C2 ∧ w = ∑ j ∈ C2, ω j ∧ ∀ o, o < 64 → (mask.getLsbD o = true ↔ EndToEnd.crossed C2 o % 2 = 1)) ∨
    (∃ st', Completes (fun f => decode64Corr P.mg sg P.bnd P.mask C f st events) (.throws st') ∧
      ∀ C' : Choice g, ¬ EndToEnd.Explains C' events) := by
  have h := DemCorr.loaded m hv g hl
  have hP := DemCorr.full_of_corr hC
  obtain ⟨ins, φ, hR⟩ := DemCorr.ready h hv hP
  obtain ⟨hB, hw⟩ := hR.loadedCorr h hP hC
  have hval : Decode.Valid P.mg events := ⟨hnd, by rw [hR.len, h.nodes]; exact hev⟩
  have hst := usedCorr_int32 hB hR.quiet hsh hst
  have hr := used_rest hB hR.quiet hst
  rcases DemCorr.C53_mask m hv hn hobs g hl P sg C hC st hst events hnd hev with ⟨st', mask, w, e, r⟩ | ⟨st', e, r⟩
  · exact .inl ⟨st', mask, w, (correlated_agree hB hR.quiet hr hval hsh narrows_mask).completes e, r⟩
  · exact .inr ⟨st', (correlated_agree hB hR.quiet hr hval hsh narrows_mask).completes e, r⟩

/-- `C56_most_likely`, with the 32-bit wrapped radius, on a short graph. -/
theorem C56_most_likely_int32 (m : Model ℝ) (hv : Valid m) (hgl : Graphlike m) (P : Prepared ℝ) (sg : Graph.SGraph)
    (hP : prepareFull (load mergeWeights llr m) = some (P, sg)) (hsh : Short P.mg) (S : Full) (hS : UsedFull P.mg sg P.bnd P.mask S) (events : List Nat)
    (hnd : events.Nodup) (hev : ∀ d ∈ events, d < m.numDets) :
    (∃ S' buf w, Completes (fun f => decodeObs P.mg sg P.bnd P.mask f S events (List.replicate m.numObs 0#8) 0) (.ok (S', buf, w)) ∧
      ∃ F : Happened m, 0 < chance m F ∧ (∀ d, d ∈ events ↔ flips m F d % 2 = 1) ∧
        (∀ F' : Happened m, 0 < chance m F' → (∀ d, d ∈ events ↔ flips m F' d % 2 = 1) →
          likelihood m (pattern (load mergeWeights llr m) F') ≤ likelihood m (pattern (load mergeWeights llr m) F) *
            Real.exp (((pattern (load mergeWeights llr m) F).card + (pattern (load mergeWeights llr m) F').card : Nat) / P.scale)) ∧
        Predicts m.numObs buf (crossed (pattern (load mergeWeights llr m) F)) ∧ (Consistent m → Predicts m.numObs buf (flipsObs m F)) ∧
        |(w : ℝ) / P.scale - Real.log (likelihood m (∅ : Choice (load mergeWeights llr m)) / likelihood m (pattern (load mergeWeights llr m) F))| ≤
          (pattern (load mergeWeights llr m) F).card / P.scale) ∨
    (∃ S', Completes (fun f => decodeObs P.mg sg P.bnd P.mask f S events (List.replicate m.numObs 0#8) 0) (.throws S') ∧
      ∀ F : Happened m, 0 < chance m F → ¬ ∀ d, d ∈ events ↔ flips m F d % 2 = 1) := by
  have e := Props.Dem.load_eq m (fun e he => (hv e he).1.1)
  have hs := Likelihood.start m hv
  have hcov := Likelihood.covered hs hv
  have hP' := hP
  rw [e] at hP' hcov
  obtain ⟨ops, c, -, -, hB, -, h5, h6, -⟩ := prepared_full mergeWeights _ _ _ hP' hcov
  rw [← e, hs.nodes] at h6
  have hg := proper_of_run hB.matching hB.edges.pairs hB.edges.even hB.edges.small
  have hS := usedFull_int32 hB hsh h5 hS
  have hval : Decode.Valid P.mg events := ⟨hnd, by rw [h6]; exact hev⟩
  rcases Likelihood.C56_most_likely m hv hgl P sg hP S hS events hnd hev with ⟨S', buf, w, e, k⟩ | ⟨S', e, k⟩
  · exact .inl ⟨S', buf, w, Agree.completes (.of_eq fun f => decodeObs_int32 hg hsh (used_idle hB h5 hS).ms (takes h5 hval) sg P.mask f _ _) e, k⟩
  · exact .inr ⟨S', Agree.completes (.of_eq fun f => decodeObs_int32 hg hsh (used_idle hB h5 hS).ms (takes h5 hval) sg P.mask f _ _) e, k⟩

end

/-! ## Examples -/

/-- The graphs with which the hypotheses of the theorems without `_int32` are met are short. -/
example : Short Decode.twoNodes ∧ Short Dynamics.tri ∧ Short Edges.wideGraph ∧ Short Correlated.corrGraph ∧ Short EndToEnd.sampleDecoder.mg := by
  refine ⟨?_, ?_, ?_, ?_, ?_⟩
  · exact short_of_few (proper_of_run Decode.two_run Decode.two_edges.pairs Decode.two_edges.even Decode.two_edges.small) (light_of_all (by decide)) (by decide)
  · exact short_of_few Dynamics.tri_problem.proper.1 (light_of_all (by decide)) (by decide)
  · have hB := Edges.wide_built
    exact short_of_few (proper_of_run hB.matching hB.edges.pairs hB.edges.even hB.edges.small) (light_of_all (by decide)) (by decide)
  · have hB := Correlated.corr_built.built
    exact short_of_few (proper_of_run hB.matching hB.edges.pairs hB.edges.even hB.edges.small) (light_of_all (by decide)) (by decide)
  · obtain ⟨ops, c, -, -, hB, -⟩ := UserEdges.prepared_full (fun a b => min a b) 0 0 EndToEnd.sample UserEdges.sample_full
      (by unfold UserEdges.Covered; decide +kernel)
    exact short_of_few (proper_of_run hB.matching hB.edges.pairs hB.edges.even hB.edges.small) (light_of_all (by decide)) (by decide)

/-- The graphs of the models of C56 and C53. -/
example : (∃ P sg, prepareFull (Dem.load MW.mergeWeights MergeWeights.llr Likelihood.sample) = some (P, sg) ∧ Short P.mg) ∧
    ∃ g, Dem.loadCorr MW.mergeWeights MergeWeights.llr DemCorr.sample = some g ∧ ∃ P sg C, prepareCorr g false = some (P, sg, C) ∧ Short P.mg := by
  refine ⟨?_, ?_⟩
  · obtain ⟨P, sg, h⟩ := Likelihood.C56_decoder_exists Likelihood.sample Likelihood.sample_valid Likelihood.sample_weights
    have hs := Likelihood.start Likelihood.sample Likelihood.sample_valid
    obtain ⟨d, hd⟩ := CliRun.builds_plain hs.wf hs.bndOk hs.plain h true
    have hu := CliRun.usable Likelihood.sample_valid (corr := false) (g := Dem.load MW.mergeWeights MergeWeights.llr Likelihood.sample) rfl
    obtain ⟨ins, c, φ, hW⟩ := Answers.whole hu.wf hu.bndOk hu.covered hd
    have e := (Answers.corr_of hd).1
    unfold prepareCorr at e
    rw [h] at e
    have e' : d.P = P := by
      split at e
      · rename_i hq _
        injection hq with hq
        injection hq with hq _
        split at e
        · injection e with e
          injection e with e _
          exact e.symm.trans hq.symm
        · cases e
      · cases e
    exact ⟨P, sg, h, e' ▸ Narrow.short_of_near hu.wf hW (Narrow.near_of_few hu.wf (by rw [hu.nodes]; decide))⟩
  · obtain ⟨g, hg⟩ := DemCorr.sample_loads
    obtain ⟨P, sg, C, h⟩ := DemCorr.sample_ready hg
    have hu := CliRun.usable DemCorr.sample_valid (corr := true) (g := g) hg
    obtain ⟨d, hd⟩ := CliRun.builds_corr h
    obtain ⟨ins, c, φ, hW⟩ := Answers.whole hu.wf hu.bndOk hu.covered hd
    have e := (Answers.corr_of hd).1
    exact ⟨g, hg, d.P, d.sg, d.C, e, Narrow.short_of_near hu.wf hW (Narrow.near_of_few hu.wf (by rw [hu.nodes]; decide))⟩

end Verif.Props.Width32
