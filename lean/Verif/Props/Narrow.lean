import Verif.Blossom.NarrowObject
import Verif.Blossom.FewObject
import Verif.Blossom.Hang
import Verif.Props.CliRun
import Verif.Props.Pairs

/-!
# C61: the library as compiled, with its 32-bit wrapped radius

`DetectorNode::wrapped_radius_cached` and `compute_wrapped_radius` (detector_node.h:54, 98; detector_node.cc:23-34) are of type `int32_t`.  On a long chain
a call never ends (`C61_hangs`).  On a graph in which any two connected detectors are joined by a path of rounded weight below `2^31` (`Near`; it suffices
that they are joined by at most 64 edges, `near_of_hops`, or that the graph has at most 65 nodes, `near_of_few`), the properties of objects and of the
command line tools hold for the library as compiled.
-/

namespace Verif.Props.Narrow

open Verif Verif.Graph Verif.SB Verif.UG Verif.Conv Verif.Obj
open Verif.Props.Correlated Verif.Props.Shots Verif.Props.Edges Verif.Props.EndToEnd Verif.Props.UserEdges Verif.Props.UserGraph Verif.Props.Decode
open Verif.Props.Object Verif.Props.Answers Verif.Props.Paths
open Verif.Sch (Res SS Fresh nbr)
open Verif.Spec (Route Short Walk)

variable {K : Type} [Field K] [LinearOrder K] [IsStrictOrderedRing K] [FloorRing K]

omit [IsStrictOrderedRing K] in
/-- A new object builds its decoder when it is asked. -/
theorem decoderFor_of {g : UGraph K} {without search : Bool} {d : Decoder K} (h : toMwpm g without search = some d) :
    ∃ o, (Object.of g without).decoderFor search = some (o, d) := by
  have m : toMwpm (Object.of g without).graph (Object.of g without).without search = some d := (toMwpm_congr rfl rfl rfl rfl _ _).trans h
  cases search with
  | false =>
    have e : (Object.of g without).graph.needsUpdating = true := rfl
    simp only [Object.decoderFor, Object.getMwpm, Bool.false_eq_true, if_false, e, if_true, Object.rebuild, m]
    exact ⟨_, rfl⟩
  | true =>
    have e : (Object.of g without).cache = none := rfl
    simp only [Object.decoderFor, Object.getMwpmWithSearchGraph, if_true, e, Object.rebuild, m]
    exact ⟨_, rfl⟩

/-! ## The chain -/

/-- A chain of 66 detectors, with a boundary edge at its end; all edges have weight 1/2. -/
def links : List (UserGraph.Call ℚ) :=
  ((List.range 65).map fun i => UserGraph.Call.add i (some (i + 1)) [] (1 / 2) 0 .disallow) ++ [.add 65 none [0] (1 / 2) 0 .disallow]

/-- The graph with these edges. -/
def chain : UGraph ℚ := run (fun a _ => a) (UGraph.new 0 1) links

theorem chain_ok : WF chain ∧ Props.Convert.BndOk chain :=
  ⟨wf_run _ (wf_new 0 1) _, Props.Convert.bndOk_run _ (Props.Convert.bndOk_new 0 1) _⟩

theorem chain_built (ensure : Bool) : ∃ d, toMwpm chain false ensure = some d ∧ (∀ k ≤ 65, adj d.P.mg k = Hang.row k) ∧ d.P.mg.nodes.length = 66 ∧
    TL.notBoundary d.P.bnd 0 = true ∧ d.P.mg.negDets = ∅ ∧ d.P.mg.negSum = 0 ∧ (ensure = true → d.sg.nodes.length = 66) := by
  have key : ((toMwpm chain false ensure).map fun d => (d.P.mg.nodes, TL.notBoundary d.P.bnd 0, d.P.mg.negDets, d.P.mg.negSum, d.sg.nodes.length)) =
      some ((List.range 66).map Hang.row, true, ∅, 0, if ensure then 66 else 0) := by
    cases ensure <;> decide +kernel
  obtain ⟨d, hd⟩ : ∃ d, toMwpm chain false ensure = some d := by
    cases h : toMwpm chain false ensure with
    | none => rw [h] at key; cases key
    | some d => exact ⟨d, rfl⟩
  rw [hd] at key
  simp only [Option.map_some, Option.some.injEq, Prod.mk.injEq] at key
  obtain ⟨h1, h2, h3, h4, h5⟩ := key
  refine ⟨d, hd, fun k hk => ?_, by rw [h1]; simp, h2, h3, h4, fun h => by rw [h5, if_pos h]⟩
  rw [adj, h1, List.getElem?_map, List.getElem?_range (show k < 66 by omega)]
  rfl

/-- A decoder for the chain that was just built does not answer a question about a single detection event at the start. -/
theorem chain_none {d : Decoder ℚ} (hrow : ∀ k ≤ 65, adj d.P.mg k = Hang.row k) (hlen : d.P.mg.nodes.length = 66) (hb : TL.notBoundary d.P.bnd 0 = true)
    (hneg : d.P.mg.negDets = ∅) (hsum : d.P.mg.negSum = 0) (hst : d.st = CState.init d.P.mg d.sg) (f : Nat) :
    (∀ corr buf w, (corr = true → d.sg.nodes.length = 66) →
      respond (W := int32) d.P.mg d.sg d.P.bnd d.P.mask d.C f d.st (.obs corr [0] buf w) = none) ∧
    (∀ corr, d.sg.nodes.length = 66 → respond (W := int32) d.P.mg d.sg d.P.bnd d.P.mask d.C f d.st (.edges corr [0]) = none) ∧
    respond (W := int32) d.P.mg d.sg d.P.bnd d.P.mask d.C f d.st (.pairs [0]) = none := by
  have e0 : negEvents d.P.mg = [] := by rw [negEvents, hneg]; exact Finset.sort_empty _
  have e1 : timeline (W := int32) d.P.mg d.P.bnd (negEvents d.P.mg) f MS.init [0] = none := by rw [e0]; exact Hang.timeline_hangs hrow hlen _ hb f
  have e2 : matching (W := int32) d.P.mg d.P.bnd (negEvents d.P.mg) f MS.init [0] = none := by simp only [matching, e1]
  have h1 : withM d.P.mg d.st.wg.mem = d.P.mg := by rw [hst]; exact withM_mem _
  have h2 : withS d.sg d.st.ws.mem = d.sg := by rw [hst]; exact withS_mem _
  have h3 : d.st.full.ms = MS.init := by rw [hst]; rfl
  have first : d.sg.nodes.length = 66 → firstPass (W := int32) d.P.mg d.sg d.P.bnd d.C f d.st [0] = none := by
    intro hs
    simp only [firstPass, plain, h1, h2, decodeEdges, hlen, hs, ne_eq, not_true_eq_false, if_false, h3, e2]
  refine ⟨fun corr buf w hs => ?_, fun corr hs => ?_, ?_⟩
  · cases corr with
    | false => simp only [respond, plain, h1, decodeObs, h3, e2, tell]
    | true => simp only [respond, decodeObsCorr, correlated, first (hs rfl), tell]
  · cases corr with
    | false => simp only [respond, plain, h1, h2, decodeEdges, hlen, hs, ne_eq, not_true_eq_false, if_false, h3, e2, tell]
    | true => simp only [respond, decodeEdgesCorr, correlated, first hs, tell]
  · simp only [respond, plain, h1, callPairs, decodePairs, hsum, ne_eq, not_true_eq_false, if_false, h3, e1, tell]

/-! ## Theorems: the 32-bit wrapped radius -/

/-- **C61**, the negation.  A chain of 66 detectors with edges of equal weight and a boundary edge at its end, and a single detection event at its start.
Everything that the decoder asks of its caller holds, and `decode`, `decode_to_edges_array` and `decode_to_matched_dets_array` do not return, however long
they run; with an unbounded wrapped radius, all three return. -/
theorem C61_hangs : WF chain ∧ Props.Convert.BndOk chain ∧ ∀ q : Query,
    ((∃ corr, q = .decode corr [0]) ∨ (∃ corr, q = .edges corr [0]) ∨ q = .pairs [0]) → Askable chain false q ∧
      (∀ f, (Object.of chain false).ask (W := int32) f q = none) ∧ ∃ a o, Completes (fun f => (Object.of chain false).ask f q) (.ok (a, o)) := by
  refine ⟨chain_ok.1, chain_ok.2, fun q hq => ?_⟩
  obtain ⟨d0, b0, r0, l0, n0, g0, s0, -⟩ := chain_built false
  obtain ⟨d1, b1, r1, l1, n1, g1, s1, t1⟩ := chain_built true
  have st0 : d0.st = CState.init d0.P.mg d0.sg := by
    have := (ready_new b0).built
    rw [b0, Option.some.injEq] at this
    exact congrArg Decoder.st this
  have st1 : d1.st = CState.init d1.P.mg d1.sg := by
    have := (ready_new b1).built
    rw [b1, Option.some.injEq] at this
    exact congrArg Decoder.st this
  have c1 : Covered chain := by unfold Covered; decide +kernel
  have hev : EventsOk chain [0] := by unfold EventsOk; decide +kernel
  have hnn : NonNeg chain := by unfold NonNeg; decide +kernel
  have ha : Askable chain false q := by
    rcases hq with ⟨corr, rfl⟩ | ⟨corr, rfl⟩ | rfl
    · exact ⟨⟨d1, b1⟩, c1, hev, fun _ => hnn⟩
    · exact ⟨⟨d1, b1⟩, c1, hev, fun _ => hnn⟩
    · exact ⟨⟨d1, b1⟩, c1, hev, fun h => (by cases h)⟩
  have F0 := decoderFor_of b0
  have F1 := decoderFor_of b1
  refine ⟨ha, fun f => ?_, ?_⟩
  · obtain ⟨o0, F0⟩ := F0
    obtain ⟨o1, F1⟩ := F1
    obtain ⟨x1, x2, x3⟩ := chain_none r0 l0 n0 g0 s0 st0 f
    obtain ⟨y1, y2, y3⟩ := chain_none r1 l1 n1 g1 s1 st1 f
    rcases hq with ⟨corr, rfl⟩ | ⟨corr, rfl⟩ | rfl
    · cases corr with
      | false => simp only [Object.ask, F0, Object.decodeRow, Object.call, x1 false _ _ (fun h => (by cases h))]
      | true => simp only [Object.ask, F1, Object.decodeRow, Object.call, y1 true _ _ t1]
    · simp only [Object.ask, F1, Object.call, y2 corr (t1 rfl)]
    · simp only [Object.ask, F0, Object.call, x3]
  · obtain ⟨a, o1, c, -⟩ := ask_one chain_ok.1 chain_ok.2 ha (inv_of chain false)
    exact ⟨a, o1, c⟩

/-! ## Objects on graphs that are near -/

/-- The answer of a new object. -/
theorem fresh1_int32 {g : UGraph K} (hw : WF g) (hB : Props.Convert.BndOk g) (hn : Near g) {without : Bool} {q : Query} (hq : Askable g without q) (a : Answer K) :
    Fresh1 (W := int32) g without q a ↔ Fresh1 g without q a := by
  have h := ask_agree hw hB hn hq (inv_of g without)
  exact ⟨fun ⟨o, c⟩ => ⟨o, h.symm.completes c⟩, fun ⟨o, c⟩ => ⟨o, h.completes c⟩⟩

/-- **C61**, full statement: whatever the history of an object, each of its calls ends, and gives the answer that it would give if the wrapped radius were not
cut off to 32 bits. -/
def C61_statement (K : Type) [Field K] [LinearOrder K] [IsStrictOrderedRing K] [FloorRing K] : Prop :=
  ∀ (mergeW : K → K → K) (without : Bool) (g0 : UGraph K), WF g0 → Props.Convert.BndOk g0 → ∀ ops : List (Op K), Object.Proper mergeW without g0 False ops →
    ∃ as o, Completes (fun f => (Object.of g0 without).history (W := int32) mergeW f ops) (.ok (as, o)) ∧
      Completes (fun f => (Object.of g0 without).history mergeW f ops) (.ok (as, o))

/-- The statement is false. -/
theorem C61_statement_false : ¬ C61_statement ℚ := by
  intro h
  obtain ⟨hw, hB, hq⟩ := C61_hangs
  obtain ⟨ha, hnone, -⟩ := hq (.decode false [0]) (.inl ⟨false, rfl⟩)
  obtain ⟨as, o, ⟨f, hf⟩, -⟩ := h (fun a _ => a) false chain hw hB [.ask (.decode false [0])] ⟨ha, trivial⟩
  have := hf f le_rfl
  simp only [Object.history, hnone f] at this
  cases this

/-- **C61**, what holds: if at the time of each question the graph is near.  Missing: other graphs, on which the statement is false. -/
theorem C61_same_partial (mergeW : K → K → K) (without : Bool) (g0 : UGraph K) (hw : WF g0) (hB : Props.Convert.BndOk g0) (ops : List (Op K))
    (hp : Object.Proper mergeW without g0 False ops) (hn : ∀ p ∈ questions mergeW g0 ops, Near p.1) :
    ∃ as o, Completes (fun f => (Object.of g0 without).history (W := int32) mergeW f ops) (.ok (as, o)) ∧
      Completes (fun f => (Object.of g0 without).history mergeW f ops) (.ok (as, o)) := by
  obtain ⟨as, o, c, -⟩ := C54_as_new mergeW without g0 hw hB ops hp
  exact ⟨as, o, (history_agree mergeW without ops g0 False _ hw hB (inv_of g0 without) (fun h => (by cases h)) hp hn).completes c, c⟩

/-- **C61**, in terms of edges and nodes: graphs in which any two connected detectors are joined by at most 64 edges, among them all graphs with at most 65
nodes, are near. -/
theorem C61_near (g : UGraph K) : (Hops g → Near g) ∧ (WF g → g.nodes.length ≤ 65 → Near g) := ⟨near_of_hops, near_of_few⟩

/-- **C61**, for integer weights: a graph is near if the largest absolute weight times its number of nodes is at most `2^30`.  In particular a graph without given
weights (all are 1) is near if it has at most `2^30` nodes. -/
theorem C61_near_integers {g : UGraph K} (hw : WF g) (hi : ∀ w ∈ Discretise.allWeights g, Discretise.IsInt w) (M : Nat) (hM : ∀ e ∈ g.edges, |e.weight| ≤ M)
    (h : M * g.nodes.length ≤ 2 ^ 30) : Near g := near_of_integers hw hi M hM h

section
variable (mergeW : K → K → K) (without : Bool) (g0 : UGraph K) (hw : WF g0) (hB : Props.Convert.BndOk g0) (ops : List (Op K))
  (hp : Object.Proper mergeW without g0 False ops) (hn : ∀ p ∈ questions mergeW g0 ops, Near p.1)
include hw hB hp hn

/-- C54 with a 32-bit wrapped radius. -/
theorem C54_as_new_int32 :
    ∃ as o, Completes (fun f => (Object.of g0 without).history (W := int32) mergeW f ops) (.ok (as, o)) ∧
      List.Forall₂ (fun (p : UGraph K × Query) a => Fresh1 (W := int32) p.1 without p.2 a) (questions mergeW g0 ops) as := by
  obtain ⟨as, o, c, h2⟩ := C54_as_new mergeW without g0 hw hB ops hp
  refine ⟨as, o, (history_agree mergeW without ops g0 False _ hw hB (inv_of g0 without) (fun h => (by cases h)) hp hn).completes c, ?_⟩
  rw [List.forall₂_iff_get] at h2 ⊢
  refine ⟨h2.1, fun i hi hi' => ?_⟩
  have hm := List.get_mem (questions mergeW g0 ops) ⟨i, hi⟩
  obtain ⟨k1, k2, k3⟩ := asked ops g0 False hw hB hp _ hm
  exact (fresh1_int32 k1 k2 (hn _ hm) k3 _).2 (h2.2 i hi hi')

/-- C58 with a 32-bit wrapped radius. -/
theorem C58_any_time_int32 :
    ∃ as o, Completes (fun f => (Object.of g0 without).history (W := int32) mergeW f ops) (.ok (as, o)) ∧
      List.Forall₂ (fun (p : UGraph K × Query) a => About false p.2 → NoGain p.1 → ∃ scale, Scale p.1 scale ∧ Means p.1 scale (best p.1 scale) p.2 a)
        (questions mergeW g0 ops) as := by
  obtain ⟨as, o, c, h⟩ := C58_any_time mergeW without g0 hw hB ops hp
  exact ⟨as, o, (history_agree mergeW without ops g0 False _ hw hB (inv_of g0 without) (fun h => (by cases h)) hp hn).completes c, h⟩

/-- C59 with a 32-bit wrapped radius. -/
theorem C59_any_time_int32 :
    ∃ as o, Completes (fun f => (Object.of g0 without).history (W := int32) mergeW f ops) (.ok (as, o)) ∧
      List.Forall₂ (fun (p : UGraph K × Query) a => ∀ events, p.2 = .pairs events → NoGain p.1 → ∃ scale, Scale p.1 scale ∧
        Pairs.MeansPairs p.1 scale events a) (questions mergeW g0 ops) as := by
  obtain ⟨as, o, c, h⟩ := Pairs.C59_any_time mergeW without g0 hw hB ops hp
  exact ⟨as, o, (history_agree mergeW without ops g0 False _ hw hB (inv_of g0 without) (fun h => (by cases h)) hp hn).completes c, h⟩

/-- C60 with a 32-bit wrapped radius. -/
theorem C60_any_time_int32 :
    ∃ as o, Completes (fun f => (Object.of g0 without).history (W := int32) mergeW f ops) (.ok (as, o)) ∧
      List.Forall₂ (fun (p : UGraph K × Query) a => ∀ src dst, p.2 = .path src dst → (AtBoundary p.1 src ∨ AtBoundary p.1 dst → NoGain p.1) →
        ∃ scale, Scale p.1 scale ∧ MeansPath p.1 scale src dst a) (questions mergeW g0 ops) as := by
  obtain ⟨as, o, c, h⟩ := C60_any_time mergeW without g0 hw hB ops hp
  exact ⟨as, o, (history_agree mergeW without ops g0 False _ hw hB (inv_of g0 without) (fun h => (by cases h)) hp hn).completes c, h⟩

end

/-- C55 with a 32-bit wrapped radius. -/
theorem C55_batch_int32 {g : UGraph K} (hw : WF g) (hB : Props.Convert.BndOk g) (hn : Near g) {without ps pp corr : Bool} {cols : Nat}
    {rows : List (List (BitVec 8))} (hq : Askable g without (.batch ps pp corr cols rows)) (hsh : Obs.shapeOk ps cols g.numDetectors g.nodes.length = true) :
    (∃ (raws outs : List (List (BitVec 8))) (weights : List K),
      Fresh1 (W := int32) g without (.batch ps pp corr cols rows) (.batch outs weights) ∧ List.Forall₂ (Object.Stored pp) raws outs ∧
      List.Forall₂ (fun row (a : List (BitVec 8) × K) => Fresh1 (W := int32) g without (.decode corr (readRow ps row)) (.predictions a.1 a.2)) rows
        (raws.zip weights) ∧ raws.length = rows.length ∧ weights.length = rows.length) ∨
    (Fresh1 (W := int32) g without (.batch ps pp corr cols rows) .exception ∧
      ∃ row ∈ rows, Fresh1 (W := int32) g without (.decode corr (readRow ps row)) .exception) := by
  have one : ∀ row ∈ rows, ∀ a, Fresh1 g without (.decode corr (readRow ps row)) a → Fresh1 (W := int32) g without (.decode corr (readRow ps row)) a := by
    intro row hr a
    obtain ⟨h1, hcov, hfit, hcorr⟩ := hq
    exact (fresh1_int32 hw hB hn (q := .decode corr (readRow ps row)) ⟨h1, hcov, ⟨readRow_nodup ps row, hfit hsh row hr⟩, hcorr⟩ a).2
  rcases C55_batch hw hB hq hsh with ⟨raws, outs, weights, h1, h2, h3, h4, h5⟩ | ⟨h1, row, hr, h2⟩
  · refine .inl ⟨raws, outs, weights, (fresh1_int32 hw hB hn hq _).2 h1, h2, ?_, h4, h5⟩
    rw [List.forall₂_iff_get] at h3 ⊢
    exact ⟨h3.1, fun i hi hi' => one _ (List.get_mem _ ⟨i, hi⟩) _ (h3.2 i hi hi')⟩
  · exact .inr ⟨(fresh1_int32 hw hB hn hq _).2 h1, row, hr, one row hr _ h2⟩

/-- C58 with a 32-bit wrapped radius, for a new object. -/
theorem C58_new_int32 {g : UGraph K} (hw : WF g) (hB : Props.Convert.BndOk g) (hn : Near g) {without : Bool} {q : Query} (hq : Askable g without q)
    (ha : About false q) (hN : NoGain g) {a : Answer K} (h : Fresh1 (W := int32) g without q a) :
    ∃ scale, Scale g scale ∧ Means g scale (best g scale) q a :=
  C58_new hw hB hq ha hN ((fresh1_int32 hw hB hn hq a).1 h)

/-! ## Detector error models on graphs that are near -/

theorem predicted_int32 {g : UGraph K} {without corr : Bool} {shots : List (List Nat)}
    (one : ∀ ev ∈ shots, ∀ a, Fresh1 g without (.decode corr ev) a → Fresh1 (W := int32) g without (.decode corr ev) a) {records : List (List Bool)} {ok : Bool}
    (h : CliRun.Predicted g without corr shots records ok) : CliRun.Predicted (W := int32) g without corr shots records ok := by
  induction h with
  | done => exact @CliRun.Predicted.done K _ _ _ int32 g without corr
  | raised h => exact @CliRun.Predicted.raised K _ _ _ int32 g without corr _ _ (one _ (by simp) _ h)
  | shot h _ ih => exact @CliRun.Predicted.shot K _ _ _ int32 g without corr _ _ _ _ _ _ (one _ (by simp) _ h) (ih fun ev h => one ev (by simp [h]))

theorem counted_int32 {g : UGraph K} {without corr : Bool} {l : List (List Nat × List Bool)}
    (one : ∀ y ∈ l, ∀ a, Fresh1 g without (.decode corr y.1) a → Fresh1 (W := int32) g without (.decode corr y.1) a) {n : Nat}
    (h : CliRun.Counted g without corr l n) : CliRun.Counted (W := int32) g without corr l n := by
  induction h with
  | done => exact @CliRun.Counted.done K _ _ _ int32 g without corr
  | right h he _ ih =>
    exact @CliRun.Counted.right K _ _ _ int32 g without corr _ _ _ _ _ _ (one _ List.mem_cons_self _ h) he (ih fun y hy => one y (by simp [hy]))
  | wrong h he _ ih =>
    exact @CliRun.Counted.wrong K _ _ _ int32 g without corr _ _ _ _ _ _ (one _ List.mem_cons_self _ h) he (ih fun y hy => one y (by simp [hy]))

section
open Verif.Dem Verif.Cli Verif.Props.Dem Verif.Props.DemCorr Verif.Props.CliRun
open Verif.MW (mergeWeights)
open Verif.Props.MergeWeights (llr)

variable (m : Model ℝ) (hv : Dem.Valid m) (corr : Bool) (g : UGraph ℝ) (hl : loadFor mergeWeights llr corr m = some g) (hn : Near g)
include hv hl hn

/-- C58 with a 32-bit wrapped radius, for objects loaded from a detector error model. -/
theorem C58_loaded_int32 (hloops : corr = true → NoLoops m) (qs : List Query) (hq : ∀ q ∈ qs, Askable g (!corr) q ∧ (correlations q = true → corr = true)) :
    ∃ as o, Completes (fun f => (Object.of g (!corr)).history (W := int32) mergeWeights f (qs.map .ask)) (.ok (as, o)) ∧
      List.Forall₂ (fun q a => (∃ c, About c q) → MeansFor m g q a) qs as := by
  obtain ⟨as, o, c, h⟩ := C58_loaded m hv corr hloops g hl qs hq
  have hu := usable hv hl
  have hp : ∀ (qs : List Query) (asked : Prop), (∀ q ∈ qs, Askable g (!corr) q) → Object.Proper mergeWeights (!corr) g asked (qs.map .ask) := by
    intro qs
    induction qs with
    | nil => intro _ _; trivial
    | cons q qs ih => intro _ h; exact ⟨h q (by simp), ih True fun x hx => h x (by simp [hx])⟩
  have hqs : ∀ qs : List Query, questions mergeWeights g (qs.map .ask) = qs.map fun q => (g, q) := by
    intro qs
    induction qs with
    | nil => rfl
    | cons q qs ih => simp only [List.map_cons, questions, ih]
  refine ⟨as, o, (history_agree mergeWeights (!corr) _ g False _ hu.wf hu.bndOk (inv_of g _) (fun h => (by cases h))
    (hp qs False fun q h => (hq q h).1) fun p hm => ?_).completes c, h⟩
  rw [hqs] at hm
  obtain ⟨q, -, rfl⟩ := List.mem_map.1 hm
  exact hn

variable (hd : ∃ d, toMwpm g (!corr) true = some d)
include hd

/-- The command line tool `predict` does the same with both widths. -/
theorem runPredict_agree (shots : List (List Nat)) (hshots : ∀ ev ∈ shots, ev.Nodup ∧ ∀ d ∈ ev, d < m.numDets) :
    Agree (fun f => runPredict (W := int32) mergeWeights llr corr m shots f) (fun f => runPredict mergeWeights llr corr m shots f) := by
  have hu := usable hv hl
  obtain ⟨d1, h1⟩ := hd
  have hs := solid hu.wf hu.bndOk hu.covered h1
  obtain ⟨d0, h0, -, -⟩ := toMwpm_false h1
  have hev : ∀ ev ∈ shots, EventsOk g ev := fun ev h => ⟨(hshots ev h).1, fun d hd => by rw [hu.nodes]; exact (hshots ev h).2 d hd⟩
  have main : ∀ d, toMwpm g (!corr) corr = some d →
      Agree (fun f => runPredict (W := int32) mergeWeights llr corr m shots f) (fun f => runPredict mergeWeights llr corr m shots f) := by
    intro d hd
    obtain ⟨f0, e⟩ := predict_agree hu.wf hu.bndOk hu.covered hn h1 hu.nonneg (s := corr) id shots hev (ready_new hd) d rfl rfl rfl
    refine ⟨f0, fun f hf => ?_⟩
    have := e f hf
    have hno : d.P.mg.numObs = g.numObs := by rw [(stand_in h1 hs (ready_new hd)).1]; exact hs.nobs
    simp only at this
    simp only [runPredict, hl, hd, hno, ← hu.numObs, this]
  cases corr with
  | false => exact main d0 h0
  | true => exact main d1 h1

/-- C57 (`predict`) with a 32-bit wrapped radius. -/
theorem C57_predict_int32 (shots : List (List Nat)) (hshots : ∀ ev ∈ shots, ev.Nodup ∧ ∀ d ∈ ev, d < m.numDets) :
    ∃ records ok, Completes (fun f => runPredict (W := int32) mergeWeights llr corr m shots f) (.ok (records, ok)) ∧
      Predicted (W := int32) g (!corr) corr shots records ok := by
  have hu := usable hv hl
  obtain ⟨records, ok, c, h⟩ := C57_predict m hv corr g hl hd shots hshots
  refine ⟨records, ok, (runPredict_agree m hv corr g hl hn hd shots hshots).completes c, ?_⟩
  have one : ∀ ev ∈ shots, ∀ a, Fresh1 g (!corr) (.decode corr ev) a → Fresh1 (W := int32) g (!corr) (.decode corr ev) a := fun ev h a =>
    (fresh1_int32 hu.wf hu.bndOk hn (q := .decode corr ev) ⟨hd, hu.covered,
      ⟨(hshots ev h).1, fun d hd => by rw [hu.nodes]; exact (hshots ev h).2 d hd⟩, hu.nonneg⟩ a).2
  exact predicted_int32 one h

/-- C58 (`predict`) with a 32-bit wrapped radius. -/
theorem C58_predict_int32 (hloops : corr = true → NoLoops m) (shots : List (List Nat)) (hshots : ∀ ev ∈ shots, ev.Nodup ∧ ∀ d ∈ ev, d < m.numDets) :
    ∃ records ok scale, Completes (fun f => runPredict (W := int32) mergeWeights llr corr m shots f) (.ok (records, ok)) ∧ Scale g scale ∧
      List.Forall₂ (fun ev record => ∃ C n, sought m g corr scale ev C n ∧ Shows C record) (shots.take records.length) records ∧
      (ok = true → records.length = shots.length) ∧
      (ok = false → ∃ ev, shots[records.length]? = some ev ∧ ∀ C : Choice g, ¬ EndToEnd.Explains C ev) := by
  obtain ⟨records, ok, scale, c, h⟩ := C58_predict m hv corr hloops g hl hd shots hshots
  exact ⟨records, ok, scale, (runPredict_agree m hv corr g hl hn hd shots hshots).completes c, h⟩

/-- C57 (`count_mistakes`) with a 32-bit wrapped radius. -/
theorem C57_count_int32 (hobs : m.numObs ≤ 64) (shots : List Shot) (hshots : ∀ x ∈ shots, x.hits.Nodup ∧ ∀ d ∈ x.hits, d < m.numDets)
    (obsIn : Option (List (List Bool))) (hrec : ∀ r ∈ Props.Cli.recorded shots obsIn, r.length = m.numObs) :
    ∃ out, Completes (fun f => runCount (W := int32) mergeWeights llr corr m shots obsIn f) (.ok out) ∧
      ((∃ n, out = some (n, shots.length) ∧ shots.length ≤ (Props.Cli.recorded shots obsIn).length ∧
          Counted (W := int32) g (!corr) corr ((shots.map (·.hits)).zip (Props.Cli.recorded shots obsIn)) n) ∨
       (out = none ∧ ((Props.Cli.recorded shots obsIn).length < shots.length ∨
          ∃ x ∈ shots, Fresh1 (W := int32) g (!corr) (.decode corr x.hits) .exception))) := by
  have hu := usable hv hl
  obtain ⟨out, c, h⟩ := C57_count m hv hobs corr g hl hd shots hshots obsIn hrec
  have one : ∀ x ∈ shots, ∀ a, Fresh1 g (!corr) (.decode corr x.hits) a → Fresh1 (W := int32) g (!corr) (.decode corr x.hits) a := fun x h a =>
    (fresh1_int32 hu.wf hu.bndOk hn (q := .decode corr x.hits) ⟨hd, hu.covered,
      ⟨(hshots x h).1, fun d hd => by rw [hu.nodes]; exact (hshots x h).2 d hd⟩, hu.nonneg⟩ a).2
  refine ⟨out, ?_, ?_⟩
  · obtain ⟨d1, h1⟩ := hd
    have hs := solid hu.wf hu.bndOk hu.covered h1
    obtain ⟨d0, h0, -, -⟩ := toMwpm_false h1
    have hev : ∀ x ∈ shots, EventsOk g x.hits := fun ev h => ⟨(hshots ev h).1, fun d hd => by rw [hu.nodes]; exact (hshots ev h).2 d hd⟩
    refine Agree.completes ?_ c
    have main : ∀ d, toMwpm g (!corr) corr = some d →
        Agree (fun f => runCount (W := int32) mergeWeights llr corr m shots obsIn f) (fun f => runCount mergeWeights llr corr m shots obsIn f) := by
      intro d hd
      obtain ⟨f0, e⟩ := count_agree hu.wf hu.bndOk hu.covered hn h1 (by rw [hu.numObs]; exact hobs) hu.nonneg (s := corr) id shots hev obsIn (ready_new hd)
        d rfl rfl rfl 0 0
      refine ⟨f0, fun f hf => ?_⟩
      have := e f hf
      simp only at this
      simp only [runCount, hl, hd, this]
    cases corr with
    | false => exact main d0 h0
    | true => exact main d1 h1
  · rcases h with ⟨n, h1, h2, h3⟩ | ⟨h1, h2 | ⟨x, hx, h2⟩⟩
    · refine .inl ⟨n, h1, h2, ?_⟩
      have mem : ∀ y ∈ (shots.map (·.hits)).zip (Props.Cli.recorded shots obsIn), ∀ a, Fresh1 g (!corr) (.decode corr y.1) a →
          Fresh1 (W := int32) g (!corr) (.decode corr y.1) a := by
        intro y hy
        obtain ⟨x, hx, e⟩ := List.mem_map.1 (List.of_mem_zip hy).1
        rw [← e]
        exact one x hx
      exact counted_int32 mem h3
    · exact .inr ⟨h1, .inl h2⟩
    · exact .inr ⟨h1, .inr ⟨x, hx, one x hx _ h2⟩⟩

end

/-! ## Examples -/

omit [IsStrictOrderedRing K] [FloorRing K] in
theorem questions_wf {mergeW : K → K → K} : ∀ (ops : List (Op K)) {g : UGraph K}, WF g → ∀ p ∈ questions mergeW g ops, WF p.1 := by
  intro ops
  induction ops with
  | nil => intro g _ p hp; cases hp
  | cons op ops ih =>
    intro g hw p hp
    cases op with
    | modify c => exact ih (wf_exec mergeW hw c) p hp
    | ask q =>
      rcases List.mem_cons.1 hp with rfl | hp
      · exact hw
      · exact ih hw p hp

/-- The history of C54: at each of its questions the graph is near. -/
example : ∀ p ∈ questions (fun a _ => a) (UGraph.new 0 1 : UGraph ℚ) sampleOps, Near p.1 := by
  intro p hp
  refine near_of_few (questions_wf _ (wf_new 0 1) p hp) ?_
  revert p
  decide +kernel

/-- A graph with integer weights; see `MatrixDecode` for a large one. -/
example : Near Object.sample2 := by
  refine C61_near_integers (wf_exec _ (wf_exec _ (wf_exec _ (wf_new 0 1) _) _) _) (fun w hw => ?_) 4 (by decide +kernel) (by decide +kernel)
  have h : Discretise.allWeights Object.sample2 = [3, 4, 1] := by decide +kernel
  rw [h] at hw
  simp only [List.mem_cons, List.not_mem_nil, or_false] at hw
  rcases hw with rfl | rfl | rfl
  · exact ⟨3, by norm_num⟩
  · exact ⟨4, by norm_num⟩
  · exact ⟨1, by norm_num⟩

/-- The hypotheses for a model loaded without correlations (C56) and with correlations (C53). -/
example : Near (Dem.load MW.mergeWeights MergeWeights.llr Likelihood.sample) ∧
    ∃ g, Cli.loadFor MW.mergeWeights MergeWeights.llr true DemCorr.sample = some g ∧ Near g := by
  have h1 := CliRun.usable Likelihood.sample_valid (corr := false) (g := Dem.load MW.mergeWeights MergeWeights.llr Likelihood.sample) rfl
  obtain ⟨g, hg⟩ := DemCorr.sample_loads
  have h2 := CliRun.usable DemCorr.sample_valid (corr := true) (g := g) hg
  exact ⟨near_of_few h1.wf (by rw [h1.nodes]; decide), g, hg, near_of_few h2.wf (by rw [h2.nodes]; decide)⟩

end Verif.Props.Narrow
