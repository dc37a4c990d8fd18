import Verif.Blossom.NarrowRun
import Verif.Props.Shots

/-!
# Calls of a decoder with a 32-bit wrapped radius

If the graph is short, every call on a decoder at rest ends with a cached wrapped radius of 32 bits as with an unbounded one.
-/

namespace Verif.SB

open Verif Verif.Graph Verif.CE Verif.Spec Verif.Props.Graph Verif.Props.NegWeights Verif.Props.Decode Verif.Props.Edges Verif.Props.Convert
open Verif.Props.Correlated Verif.Props.Shots Verif.UG Verif.Conv
open Verif.Sch (Res)

variable {K : Type} [Field K] [LinearOrder K] [FloorRing K]

/-- Two calls that are the same if they run long enough. -/
def Agree {α : Type} (a b : Nat → Option α) : Prop := ∃ f0, ∀ f, f0 ≤ f → a f = b f

theorem Agree.of_eq {α : Type} {a b : Nat → Option α} (h : ∀ f, a f = b f) : Agree a b := ⟨0, fun f _ => h f⟩

theorem Agree.completes {α : Type} {a b : Nat → Option α} (h : Agree a b) {x : α} (hb : Completes b x) : Completes a x := by
  obtain ⟨f0, h⟩ := h
  obtain ⟨f1, hb⟩ := hb
  exact ⟨max f0 f1, fun f hf => (h f (le_trans (le_max_left _ _) hf)).trans (hb f (le_trans (le_max_right _ _) hf))⟩

theorem Agree.symm {α : Type} {a b : Nat → Option α} (h : Agree a b) : Agree b a := by
  obtain ⟨f0, h⟩ := h
  exact ⟨f0, fun f hf => (h f hf).symm⟩

theorem Agree.trans {α : Type} {a b c : Nat → Option α} (h : Agree a b) (h' : Agree b c) : Agree a c := by
  obtain ⟨f0, h⟩ := h
  obtain ⟨f1, h'⟩ := h'
  exact ⟨max f0 f1, fun f hf => (h f (le_trans (le_max_left _ _) hf)).trans (h' f (le_trans (le_max_right _ _) hf))⟩

theorem Agree.map {α β : Type} {a b : Nat → Option α} (h : Agree a b) (φ : Option α → Option β) : Agree (fun f => φ (a f)) fun f => φ (b f) := by
  obtain ⟨f0, h⟩ := h
  exact ⟨f0, fun f hf => congrArg φ (h f hf)⟩

/-- A call that does the same with both widths, on any short graph. -/
def Narrows {α : Type} (bnd : List Bool) (events : List Nat) (call32 call : Nat → MGraph → SGraph → Full → Option (Ended (Full × α))) : Prop :=
  ∀ (g : MGraph) (sg : SGraph), Proper g → (∀ d ∈ g.negDets, TL.notBoundary bnd d = true) → Valid g events → Short g → ∀ F, Idle F →
    ∀ f, call32 f g sg F = call f g sg F

theorem takes {g : MGraph} {bnd : List Bool} {events : List Nat} (hb : ∀ d ∈ g.negDets, TL.notBoundary bnd d = true) (hv : Valid g events) :
    Takes g bnd events := ⟨hv.range, hv.nodup, fun d hd => hb d (((neg_sort g).2 d).1 hd)⟩

section

variable {bnd : List Bool} {m : ObsInt} {events : List Nat}

theorem narrows_obs (buf : List (BitVec 8)) (w0 : Int) : Narrows bnd events
    (fun f g sg F => decodeObs (W := int32) g sg bnd m f F events buf w0) (fun f g sg F => decodeObs g sg bnd m f F events buf w0) :=
  fun _ sg hg hb hv hs _ hF f => decodeObs_int32 hg hs hF.ms (takes hb hv) sg m f buf w0

theorem narrows_edges : Narrows bnd events
    (fun f g sg F => decodeEdges (W := int32) g sg bnd f F events) (fun f g sg F => decodeEdges g sg bnd f F events) :=
  fun _ sg hg hb hv hs _ hF f => decodeEdges_int32 hg hs hF.ms (takes hb hv) sg f

theorem narrows_mask : Narrows bnd events (fun f => call64 (W := int32) bnd m f events) (fun f => call64 bnd m f events) :=
  fun _ sg hg hb hv hs _ hF f => call64_int32 hg hs hF.ms (takes hb hv) sg m f

theorem narrows_pairs : Narrows bnd events (fun f => callPairs (W := int32) bnd f events) (fun f => callPairs bnd f events) :=
  fun _ sg hg hb hv hs _ hF f => callPairs_int32 hg hs hF.ms (takes hb hv) sg f

end

section

variable {numNodes numObs : Nat} {ins : List (Conv.Ins K)} {k : K} {g : MGraph} {sg : SGraph} {m : ObsInt} {C : Corr} {bnd : List Bool}

theorem plain_narrows {α : Type} {events : List Nat} {call32 call : Nat → MGraph → SGraph → Full → Option (Ended (Full × α))}
    (hn : Narrows bnd events call32 call) (hg : Proper g) (hb : ∀ d ∈ g.negDets, TL.notBoundary bnd d = true)
    (hv : Valid g events) (hs : Short g) {st : CState} (h : Rest g sg st) (f : Nat) : plain g sg (call32 f) st = plain g sg (call f) st := by
  have e1 : withM g st.wg.mem = g := by rw [h.matching]; exact withM_mem g
  have e2 : withS sg st.ws.mem = sg := by rw [h.search]; exact withS_mem sg
  simp only [plain, e1, e2, hn g sg hg hb hv hs st.full h.full f]

theorem firstPass_int32 (hg : Proper g) (hb : ∀ d ∈ g.negDets, TL.notBoundary bnd d = true) {events : List Nat}
    (hv : Valid g events) (hs : Short g) {st : CState} (h : Rest g sg st) (f : Nat) :
    firstPass (W := int32) g sg bnd C f st events = firstPass g sg bnd C f st events := by
  have := plain_narrows narrows_edges hg hb hv hs h f
  simp only [firstPass, this]

theorem correlated_agree {α : Type} (hB : BuiltCorr numNodes numObs ins k g sg m C) (hb : ∀ d ∈ g.negDets, TL.notBoundary bnd d = true) {st : CState}
    (h : Rest g sg st) {events : List Nat} (hv : Valid g events) (hs : Short g) {call32 call : Nat → MGraph → SGraph → Full → Option (Ended (Full × α))}
    (hn : Narrows bnd events call32 call) :
    Agree (fun f => correlated (W := int32) g sg bnd C f (call32 f) st events) (fun f => correlated g sg bnd C f (call f) st events) := by
  have hg := proper_of_run hB.built.matching hB.built.edges.pairs hB.built.edges.even hB.built.edges.small
  have ht := twin_of_runs hB.built.matching hB.built.search
  rcases firstPass_spec hB hb h hv with ⟨F, rs, ⟨f0, h1⟩, -, h2, c, -, es, -, h5⟩ | ⟨st', ⟨f0, h1⟩, -⟩
  · have hB' := change_built hB h5
    have hM : withM g ((⟨memM g, []⟩ : RW.State).apply rs).mem = mapM (changeOf rs) g := by
      refine withM_eq g _ _ fun u i n hn => ?_
      rw [apply_change hg h5 (at_entry.2 ⟨n, hn, rfl⟩), memM_entry hn]
    have hS : withS sg ((⟨memS sg, []⟩ : RW.State).apply rs).mem = mapS (changeOf rs) sg := by
      refine withS_eq sg _ _ fun u i n hn => ?_
      obtain ⟨n', op, k1, k2, k3, -⟩ := twin_slot hB.built.matching ht hn
      rw [mem_same hB.built, apply_change hg h5 (at_entry.2 ⟨n', k1, rfl⟩), memM_entry k1, k2, k3]
    have hv' : Valid (mapM (changeOf rs) g) events := ⟨hv.nodup, by
      have : (mapM (changeOf rs) g).nodes.length = g.nodes.length := by simp [mapM]
      rw [this]; exact hv.range⟩
    have hs' : Short (mapM (changeOf rs) g) := Short.lower hs fun z w => (foldl_min _ w).1
    have hg' := proper_of_run hB'.matching hB'.edges.pairs hB'.edges.even hB'.edges.small
    refine ⟨f0, fun f hf => ?_⟩
    have e1 := h1 f hf
    simp only at e1
    have e2 := e1
    rw [← firstPass_int32 hg hb hv hs h f] at e2
    simp only [correlated, e1, e2, plain, hM, hS, hn _ _ hg' hb hv' hs' F h2 f]
  · refine ⟨f0, fun f hf => ?_⟩
    have e1 := h1 f hf
    simp only at e1
    have e2 := e1
    rw [← firstPass_int32 hg hb hv hs h f] at e2
    simp only [correlated, e1, e2]

theorem respond_plain (hg : Proper g) (hb : ∀ d ∈ g.negDets, TL.notBoundary bnd d = true) {st : CState} (h : Rest g sg st)
    (hs : Short g) {c : Call} (ha : c.Acceptable g) (hc : asksCorr c = false) (C : Corr) (f : Nat) :
    respond (W := int32) g sg bnd m C f st c = respond g sg bnd m C f st c := by
  cases c with
  | obs corr events buf w =>
    cases corr
    · exact congrArg (tell _) (plain_narrows (narrows_obs buf w) hg hb ha.1 hs h f)
    · cases hc
  | edges corr events =>
    cases corr
    · exact congrArg (tell _) (plain_narrows narrows_edges hg hb ha hs h f)
    · cases hc
  | mask corr events =>
    cases corr
    · exact congrArg (tell _) (plain_narrows narrows_mask hg hb ha hs h f)
    · cases hc
  | pairs events => exact congrArg (tell _) (plain_narrows narrows_pairs hg hb ha hs h f)

theorem respond_agree {c : Call} (hg : Proper g) (hC : asksCorr c = true → BuiltCorr numNodes numObs ins k g sg m C)
    (hb : ∀ d ∈ g.negDets, TL.notBoundary bnd d = true) {st : CState} (h : Rest g sg st) (hs : Short g) (ha : c.Acceptable g) :
    Agree (fun f => respond (W := int32) g sg bnd m C f st c) (fun f => respond g sg bnd m C f st c) := by
  cases hc : asksCorr c with
  | false => exact .of_eq (respond_plain hg hb h hs ha hc C)
  | true =>
    cases c with
    | obs corr events buf w =>
      cases hc
      exact (correlated_agree (hC rfl) hb h ha.1 hs (narrows_obs buf w)).map (tell _)
    | edges corr events =>
      cases hc
      exact (correlated_agree (hC rfl) hb h ha hs narrows_edges).map (tell _)
    | mask corr events =>
      cases hc
      exact (correlated_agree (hC rfl) hb h ha hs narrows_mask).map (tell _)
    | pairs events => cases hc

end

end Verif.SB
