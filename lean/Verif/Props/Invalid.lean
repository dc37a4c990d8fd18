import Verif.Blossom.Invalid
import Verif.Props.Object

/-!
# After an invalid detection event (C33)
-/

namespace Verif.Props.Invalid

open Verif Verif.Graph Verif.CE Verif.SB Verif.UG Verif.Conv Verif.Obj
open Verif.Props.Correlated Verif.Props.Shots Verif.Props.Edges Verif.Props.EndToEnd Verif.Props.UserEdges Verif.Props.UserGraph Verif.Props.Decode
open Verif.Props.Object
open Verif.Sch (Res Fresh SS)
open Verif.Spec (entry)

variable {K : Type} [Field K] [LinearOrder K] [IsStrictOrderedRing K] [FloorRing K]

/-! ## Specification -/

/-- `pre` are the events in front of an event that is not a node of the graph. -/
def Behind (g : UGraph K) (pre events : List Nat) : Prop :=
  ∃ d rest, events = pre ++ d :: rest ∧ g.nodes.length ≤ d ∧ EventsOk g pre

/-- The question has an event that is not a node of the graph, and the events in front of it satisfy `Front`; the rows in front of that row satisfy `Good`. -/
def Invalid (g : UGraph K) (Front : List Nat → Prop) (Good : List (BitVec 8) → Prop) : Query → Prop
  | .decode _ events => ∃ pre, Behind g pre events ∧ Front pre
  | .batch ps _ _ cols rows => Obs.shapeOk ps cols g.numDetectors g.nodes.length = true ∧ ∃ good row rest pre, rows = good ++ row :: rest ∧
      (∀ r ∈ good, (∀ x ∈ readRow ps r, x < g.nodes.length) ∧ Good r) ∧ Behind g pre (readRow ps row) ∧ Front pre
  | .edges _ events => ∃ pre, Behind g pre events ∧ Front pre
  | .pairs events => ∃ pre, Behind g pre events ∧ Front pre
  | .path _ _ => False

/-- A question with an invalid event; all events in front of it are boundary nodes. -/
structure Harmless (g : UGraph K) (without : Bool) (q : Query) : Prop where
  builds : ∃ d, toMwpm g without true = some d
  covered : Covered g
  invalid : Invalid g (fun pre => ∀ x ∈ pre, x ∈ g.boundary) (fun _ => True) q
  corr : correlations q = true → NonNeg g

/-- The condition on a history (as `Proper` for C54), with harmless questions besides those that may be asked. -/
def Tolerable (mergeW : K → K → K) (without : Bool) : UGraph K → Prop → List (Op K) → Prop
  | _, _, [] => True
  | g, asked, .modify c :: ops =>
    (asked → ∀ n, c = .setMinNumObs n → n ≤ g.numObs) ∧
    Tolerable mergeW without (exec mergeW g c).1
      (asked ∧ (exec mergeW g c).1.nodes = g.nodes ∧ (exec mergeW g c).1.edges = g.edges ∧ (exec mergeW g c).1.boundary = g.boundary) ops
  | g, _, .ask q :: ops => (Askable g without q ∨ Harmless g without q) ∧ Tolerable mergeW without g True ops

/-- The answer that is expected. -/
def Expected (without : Bool) (p : UGraph K × Query) (a : Answer K) : Prop :=
  (Askable p.1 without p.2 ∧ Fresh1 p.1 without p.2 a) ∨ (Harmless p.1 without p.2 ∧ a = .exception)

/-- The graph after a history. -/
def graphAfter (mergeW : K → K → K) : UGraph K → List (Op K) → UGraph K
  | g, [] => g
  | g, .modify c :: ops => graphAfter mergeW (exec mergeW g c).1 ops
  | g, .ask _ :: ops => graphAfter mergeW g ops

/-- A detector with an edge, and none of negative weight. -/
structure Live (g : UGraph K) (x : Nat) : Prop where
  inner : x ∉ g.boundary
  edge : ∃ e ∈ g.edges, endsAt e x = 1
  pos : ∀ e ∈ g.edges, endsAt e x ≠ 0 → 0 ≤ e.weight

/-- The question uses the graph for shortest paths. -/
def search : Query → Bool
  | .decode corr _ => corr
  | .batch _ _ corr _ _ => corr
  | .edges _ _ => true
  | .pairs _ => false
  | .path _ _ => true

/-- A question with an invalid event and, in front of it, a detector with an edge.  The rows of a batch in front of it have corrections. -/
structure Harmful (g : UGraph K) (without : Bool) (q : Query) : Prop where
  builds : ∃ d, toMwpm g without true = some d
  covered : Covered g
  invalid : Invalid g (fun pre => ∃ x ∈ pre, Live g x)
    (fun row => ∀ ps pp corr cols rows, q = .batch ps pp corr cols rows → ∃ r w, Fresh1 g without (.decode corr (readRow ps row)) (.predictions r w)) q
  corr : correlations q = true → NonNeg g
  pairs : ∀ events, q = .pairs events → NonNeg g

/-- A question that uses the same decoder again after question `bad`. -/
def Again (g : UGraph K) (bad q : Query) : Prop :=
  (∀ a b, q ≠ .path a b) ∧ (∀ ps pp corr cols, q ≠ .batch ps pp corr cols []) ∧ (search q = true → search bad = true ∨ 64 < g.numObs)

/-- The modification changes the graph, or sets the boundary. -/
def Changes (mergeW : K → K → K) (g : UGraph K) (c : Call K) : Prop :=
  (∃ b, c = .setBoundary b) ∨ (exec mergeW g c).1.nodes ≠ g.nodes ∨ (exec mergeW g c).1.edges ≠ g.edges ∨ (exec mergeW g c).1.boundary ≠ g.boundary

/-! ## Lemmas: calls -/

/-- The events of a call. -/
def eventsOf : Correlated.Call → List Nat
  | .obs _ events _ _ => events
  | .edges _ events => events
  | .mask _ events => events
  | .pairs events => events

/-- Marks in the nodes. -/
def markC (st : CState) (M : Finset Nat) : CState := { st with full := { st.full with ms := st.full.ms.mark M } }

section
variable [W : Width] {g : MGraph} {sg : SGraph} {bnd : List Bool} {m : ObsInt} {C : Corr}

/-- The weights are as they were built. -/
structure Plainly (g : MGraph) (sg : SGraph) (st : CState) : Prop where
  m : withM g st.wg.mem = g
  s : withS sg st.ws.mem = sg

theorem plainly {st : CState} (hR : Rest g sg st) : Plainly g sg st := ⟨by rw [hR.matching, withM_mem], by rw [hR.search, withS_mem]⟩

/-- The call raises an exception before it looks at the events: there is no search graph, or there are negative weights. -/
def Early (g : MGraph) (sg : SGraph) : Correlated.Call → Prop
  | .obs corr _ _ _ => corr = true ∧ g.nodes.length ≠ sg.nodes.length
  | .edges _ _ => g.nodes.length ≠ sg.nodes.length
  | .mask corr _ => corr = true ∧ g.nodes.length ≠ sg.nodes.length
  | .pairs _ => g.negSum ≠ 0

theorem respond_early {st : CState} (hp : Plainly g sg st) {c : Correlated.Call} (h : Early g sg c) (f : Nat) :
    respond g sg bnd m C f st c = some (.ok (.exception, st)) := by
  have hE : g.nodes.length ≠ sg.nodes.length → ∀ events, plain g sg (fun g sg F => decodeEdges g sg bnd f F events) st = some (.throws st) := by
    intro hl events
    simp only [plain, decodeEdges, hp.m, hp.s, if_pos hl]
  cases c with
  | obs corr events buf w =>
    obtain ⟨rfl, hl⟩ := h
    simp only [respond, decodeObsCorr, correlated, firstPass]; rw [hE hl]; rfl
  | edges corr events =>
    cases corr
    · simp only [respond]; rw [hE h]; rfl
    · simp only [respond, decodeEdgesCorr, correlated, firstPass]; rw [hE h]; rfl
  | mask corr events =>
    obtain ⟨rfl, hl⟩ := h
    simp only [respond, decode64Corr, correlated, firstPass]; rw [hE hl]; rfl
  | pairs events =>
    have h : g.negSum ≠ 0 := h
    simp only [respond, plain, callPairs, decodePairs, hp.m, if_pos h, tell]

theorem matching_two {s s' : MS} {f : Nat} {events : List Nat} (h : timeline g bnd (negEvents g) f s' events = timeline g bnd (negEvents g) f s events) :
    matching g bnd (negEvents g) f s' events = matching g bnd (negEvents g) f s events := by
  simp only [matching, h]

/-- Marks that the starting phase overwrites do not change what a call does. -/
theorem respond_mark {st : CState} (hp : Plainly g sg st) {c : Correlated.Call} (hc : ¬ Early g sg c) {M : Finset Nat} {f : Nat}
    (h : timeline g bnd (negEvents g) f (st.full.ms.mark M) (eventsOf c) = timeline g bnd (negEvents g) f st.full.ms (eventsOf c)) :
    respond g sg bnd m C f (markC st M) c = respond g sg bnd m C f st c := by
  have hM : Plainly g sg (markC st M) := ⟨hp.m, hp.s⟩
  have hm : matching g bnd (negEvents g) f (markC st M).full.ms (eventsOf c) = matching g bnd (negEvents g) f st.full.ms (eventsOf c) := matching_two h
  have hE : ¬ g.nodes.length ≠ sg.nodes.length → plain g sg (fun g sg F => decodeEdges g sg bnd f F (eventsOf c)) (markC st M) =
      plain g sg (fun g sg F => decodeEdges g sg bnd f F (eventsOf c)) st := by
    intro hl
    simp only [plain, decodeEdges, hp.m, hp.s, hM.m, hM.s, if_neg hl, hm]
    rfl
  cases c with
  | obs corr events buf w =>
    cases corr
    · have hm : matching g bnd (negEvents g) f (markC st M).full.ms events = matching g bnd (negEvents g) f st.full.ms events := hm
      simp only [respond, plain, decodeObs, hp.m, hp.s, hM.m, hM.s, hm]
      rfl
    · have := hE (fun hl => hc ⟨rfl, hl⟩)
      simp only [eventsOf] at this
      simp only [respond, decodeObsCorr, correlated, firstPass]; rw [this]
  | edges corr events =>
    have := hE hc
    simp only [eventsOf] at this
    cases corr
    · simp only [respond]; rw [this]
    · simp only [respond, decodeEdgesCorr, correlated, firstPass]; rw [this]
  | mask corr events =>
    cases corr
    · have hm : matching g bnd (negEvents g) f (markC st M).full.ms events = matching g bnd (negEvents g) f st.full.ms events := hm
      simp only [respond, plain, call64, decode64, hp.m, hM.m, hm]
      rfl
    · have := hE (fun hl => hc ⟨rfl, hl⟩)
      simp only [eventsOf] at this
      simp only [respond, decode64Corr, correlated, firstPass]; rw [this]
  | pairs events =>
    have hn : ¬ g.negSum ≠ 0 := hc
    have h : timeline g bnd (negEvents g) f (markC st M).full.ms events = timeline g bnd (negEvents g) f st.full.ms events := h
    simp only [respond, plain, callPairs, decodePairs, hp.m, hM.m, if_neg hn, h]
    rfl

/-- With an event left in the queue, every call raises an exception and changes nothing. -/
theorem respond_jammed {st : CState} (hs : st.full.ms.fl.w.q.num ≠ 0) (c : Correlated.Call) (f : Nat) :
    respond g sg bnd m C f st c = some (.ok (.exception, st)) := by
  have hm : ∀ (g : MGraph) events, matching g bnd (negEvents g) f st.full.ms events = some (.throws st.full.ms) := by
    intro g events
    simp only [matching, timeline_jammed hs]
  have hE : ∀ events, plain g sg (fun g sg F => decodeEdges g sg bnd f F events) st = some (.throws st) := by
    intro events
    unfold plain decodeEdges
    simp only [hm]
    split <;> rename_i h <;> split_ifs at h <;> cases h <;> rfl
  have hcorr : ∀ {α : Type} (v : α → Reply) (second : MGraph → SGraph → Full → Option (Ended (Full × α))) (events : List Nat),
      tell v (correlated g sg bnd C f second st events) = some (.ok (.exception, st)) := by
    intro α v second events
    unfold correlated firstPass
    rw [hE]
    rfl
  cases c with
  | obs corr events buf w =>
    cases corr
    · simp only [respond, plain, decodeObs, hm, tell]
    · exact hcorr _ _ events
  | edges corr events =>
    cases corr
    · simp only [respond]
      rw [hE]
      rfl
    · exact hcorr _ _ events
  | mask corr events =>
    cases corr
    · simp only [respond, plain, call64, decode64, hm, tell]
    · exact hcorr _ _ events
  | pairs events =>
    simp only [respond, plain, callPairs, decodePairs, timeline_jammed hs]
    by_cases hn : (withM g st.wg.mem).negSum ≠ 0
    · simp only [if_pos hn, tell]
    · simp only [if_neg hn, tell]

/-- A call with an invalid event. -/
theorem respond_invalid {st : CState} (hp : Plainly g sg st) {c : Correlated.Call} (hc : ¬ Early g sg c) {s' : MS} {f : Nat}
    (h : timeline g bnd (negEvents g) f st.full.ms (eventsOf c) = some (.throws s')) :
    respond g sg bnd m C f st c = some (.ok (.exception, { st with full := { st.full with ms := s' } })) := by
  have hm : matching g bnd (negEvents g) f st.full.ms (eventsOf c) = some (.throws s') := by simp only [matching, h]
  have hE : ¬ g.nodes.length ≠ sg.nodes.length → plain g sg (fun g sg F => decodeEdges g sg bnd f F (eventsOf c)) st =
      some (.throws { st with full := { st.full with ms := s' } }) := by
    intro hl
    simp only [plain, decodeEdges, hp.m, hp.s, if_neg hl, hm]
  cases c with
  | obs corr events buf w =>
    cases corr
    · have hm : matching g bnd (negEvents g) f st.full.ms events = some (.throws s') := hm
      simp only [respond, plain, decodeObs, hp.m, hp.s, hm, tell]
    · have := hE (fun hl => hc ⟨rfl, hl⟩)
      simp only [eventsOf] at this
      simp only [respond, decodeObsCorr, correlated, firstPass]; rw [this]; rfl
  | edges corr events =>
    have := hE hc
    simp only [eventsOf] at this
    cases corr
    · simp only [respond]; rw [this]; rfl
    · simp only [respond, decodeEdgesCorr, correlated, firstPass]; rw [this]; rfl
  | mask corr events =>
    cases corr
    · have hm : matching g bnd (negEvents g) f st.full.ms events = some (.throws s') := hm
      simp only [respond, plain, call64, decode64, hp.m, hm, tell]
    · have := hE (fun hl => hc ⟨rfl, hl⟩)
      simp only [eventsOf] at this
      simp only [respond, decode64Corr, correlated, firstPass]; rw [this]; rfl
  | pairs events =>
    have hn : ¬ g.negSum ≠ 0 := hc
    have h : timeline g bnd (negEvents g) f st.full.ms events = some (.throws s') := h
    simp only [respond, plain, callPairs, decodePairs, hp.m, if_neg hn, h, tell]

end

/-! ## Lemmas: objects with marks -/

/-- The decoder with marks in its nodes. -/
def scarD (M : Finset Nat) (d : Decoder K) : Decoder K := { d with st := markC d.st M }

/-- The object whose decoder has marks in its nodes. -/
def scarO (M : Finset Nat) (o : Object K) : Object K := { o with cache := o.cache.map (scarD M) }

/-- The marks are at nodes where the starting phase sets them again. -/
def Fit (M : Finset Nat) (o : Object K) : Prop := ∀ d, o.cache = some d → M ⊆ (negEvents d.P.mg).toFinset

omit [IsStrictOrderedRing K] [FloorRing K] [Field K] [LinearOrder K] in
theorem scarD_empty (d : Decoder K) : scarD ∅ d = d := by simp [scarD, markC, mark_empty]

omit [IsStrictOrderedRing K] [FloorRing K] [Field K] [LinearOrder K] in
theorem scarO_empty (o : Object K) : scarO ∅ o = o := by
  obtain ⟨g, c, w⟩ := o
  cases c <;> simp [scarO, scarD_empty]

omit [IsStrictOrderedRing K] [FloorRing K] [Field K] [LinearOrder K] in
theorem fit_empty (o : Object K) : Fit ∅ o := fun _ _ => Finset.empty_subset _

omit [IsStrictOrderedRing K] in
/-- The same decoder, perhaps with the marks. -/
theorem decoderFor_scar {M : Finset Nat} {o p : Object K} {d : Decoder K} (hM : Fit M o) {b : Bool} (h : o.decoderFor b = some (p, d)) :
    ∃ M', M' ⊆ (negEvents d.P.mg).toFinset ∧ (scarO M o).decoderFor b = some (scarO M' p, scarD M' d) := by
  have hre : ∀ b, o.rebuild b = some (p, d) → (scarO M o).rebuild b = some (scarO ∅ p, scarD ∅ d) := by
    intro b hb
    rw [scarO_empty, scarD_empty]
    unfold Object.rebuild at hb ⊢
    have : toMwpm (scarO M o).graph (scarO M o).without b = toMwpm o.graph o.without b := rfl
    rw [this]
    cases e : toMwpm o.graph o.without b with
    | none => rw [e] at hb; cases hb
    | some d' =>
      rw [e] at hb
      cases hb
      rfl
  have hg : (scarO M o).graph = o.graph := rfl
  cases b with
  | false =>
    simp only [Object.decoderFor, Bool.false_eq_true, if_false, Object.getMwpm, hg] at h ⊢
    split_ifs at h ⊢ with hf
    · exact ⟨∅, Finset.empty_subset _, hre _ h⟩
    · cases hc : o.cache with
      | none => rw [hc] at h; cases h
      | some d' =>
        rw [hc] at h
        cases h
        have hc' : (scarO M o).cache = some (scarD M d) := by simp [scarO, hc]
        exact ⟨M, hM _ hc, by rw [hc']⟩
  | true =>
    simp only [Object.decoderFor, if_true, Object.getMwpmWithSearchGraph, hg] at h ⊢
    cases hc : o.cache with
    | none =>
      have hc' : (scarO M o).cache = none := by simp [scarO, hc]
      rw [hc] at h
      rw [hc']
      exact ⟨∅, Finset.empty_subset _, hre _ h⟩
    | some d' =>
      have hc' : (scarO M o).cache = some (scarD M d') := by simp [scarO, hc]
      rw [hc] at h
      rw [hc']
      simp only at h ⊢
      have e1 : (scarD M d').P = d'.P := rfl
      have e2 : (scarD M d').sg = d'.sg := rfl
      rw [e1, e2]
      split_ifs at h ⊢ with hf
      · cases h
        exact ⟨M, hM _ hc, rfl⟩
      · exact ⟨∅, Finset.empty_subset _, hre _ h⟩

/-- Results with marks. -/
def scarR {α : Type} (M : Finset Nat) : Option (Res (α × Object K × Decoder K)) → Option (Res (α × Object K × Decoder K))
  | some (.ok (a, o, d)) => some (.ok (a, scarO M o, scarD M d))
  | x => x

/-- Results with marks. -/
def scarA {α : Type} (M : Finset Nat) : Option (Res (α × Object K)) → Option (Res (α × Object K))
  | some (.ok (a, o)) => some (.ok (a, scarO M o))
  | x => x

omit [IsStrictOrderedRing K] [FloorRing K] [Field K] [LinearOrder K] in
theorem scarR_empty {α : Type} (x : Option (Res (α × Object K × Decoder K))) : scarR ∅ x = x := by
  unfold scarR; split <;> simp only [scarO_empty, scarD_empty]

omit [IsStrictOrderedRing K] [FloorRing K] [Field K] [LinearOrder K] in
theorem scarA_empty {α : Type} (x : Option (Res (α × Object K))) : scarA ∅ x = x := by
  unfold scarA; split <;> simp only [scarO_empty]

section
variable {g : UGraph K} {without : Bool} {d1 : Decoder K} (h1 : toMwpm g without true = some d1) (hs : Solid g d1)

include h1 hs in
theorem proper_graph {d : Decoder K} {s : Bool} (hd : Ready g without d s) : Spec.Proper d.P.mg ∧ d.P.mg.nodes.length = g.nodes.length ∧
    ∀ x ∈ negEvents d.P.mg, TL.notBoundary d.P.bnd x = true := by
  have hP := (stand_in h1 hs hd).1
  obtain ⟨ins, hB, -⟩ := hs.ex
  rw [hP]
  exact ⟨proper_of_run hB.matching hB.edges.pairs hB.edges.even hB.edges.small, hs.len, fun x hx => hs.quiet x (by simpa [negEvents] using hx)⟩

theorem held_plainly {p : Object K} {d : Decoder K} {s : Bool} (hh : Held g without p d s) (M : Finset Nat) : Plainly d.P.mg d.sg (scarD M d).st :=
  ⟨(Invalid.plainly hh.ready.rest).m, (Invalid.plainly hh.ready.rest).s⟩

theorem held_scar {p : Object K} {d : Decoder K} {s : Bool} (hh : Held g without p d s) (M : Finset Nat) : (scarO M p).cache = some (scarD M d) := by
  simp [scarO, hh.cache]

theorem call_early {p : Object K} {d : Decoder K} {s : Bool} (hh : Held g without p d s) (M : Finset Nat) {c : Correlated.Call} (hE : Early d.P.mg d.sg c)
    (f : Nat) : (scarO M p).call (scarD M d) f c = some (.ok (.exception, scarO M p, scarD M d)) := by
  have := respond_early (bnd := d.P.bnd) (m := d.P.mask) (C := d.C) (held_plainly hh M) hE f
  have e : respond (scarD M d).P.mg (scarD M d).sg (scarD M d).P.bnd (scarD M d).P.mask (scarD M d).C f (scarD M d).st c =
    some (.ok (.exception, (scarD M d).st)) := this
  unfold Object.call
  rw [e]
  simp only
  rw [← held_scar hh M]

include h1 hs in
theorem call_same {p : Object K} {d : Decoder K} {s : Bool} (hh : Held g without p d s) {M : Finset Nat} (hM : M ⊆ (negEvents d.P.mg).toFinset)
    {c : Correlated.Call} (hE : ¬ Early d.P.mg d.sg c) (hev : EventsOk g (eventsOf c)) (f : Nat) :
    (scarO M p).call (scarD M d) f c = p.call d f c := by
  obtain ⟨hg, hl, hq⟩ := proper_graph h1 hs hh.ready
  have ht := timeline_mark_valid hg hh.ready.rest.full.ms hM (events := eventsOf c) (fun x hx => by rw [hl]; exact hev.2 x hx) hev.1 hq
    (Finset.sort_nodup _ _) f
  have e : respond (scarD M d).P.mg (scarD M d).sg (scarD M d).P.bnd (scarD M d).P.mask (scarD M d).C f (scarD M d).st c =
    respond d.P.mg d.sg d.P.bnd d.P.mask d.C f d.st c := respond_mark (Invalid.plainly hh.ready.rest) hE ht
  unfold Object.call
  rw [e]
  rfl

include h1 hs in
/-- A call with an invalid event. -/
theorem call_invalid {p : Object K} {d : Decoder K} {s : Bool} (hh : Held g without p d s) {M : Finset Nat} (hM : M ⊆ (negEvents d.P.mg).toFinset)
    {c : Correlated.Call} (hE : ¬ Early d.P.mg d.sg c) {pre : List Nat} (hb : Behind g pre (eventsOf c)) :
    ∃ s1 L ch A, (∀ f, (scarO M p).call (scarD M d) f c = some (.ok (.exception,
        { p with cache := some { d with st := { d.st with full := { d.st.full with ms := s1.mark ((negEvents d.P.mg).toFinset \ pre.toFinset) } } } },
        { d with st := { d.st with full := { d.st.full with ms := s1.mark ((negEvents d.P.mg).toFinset \ pre.toFinset) } } }))) ∧
      Launched d.P.mg (grown d.P.bnd (negEvents d.P.mg) pre).toFinset L ch s1 A ∧
      (grown d.P.bnd (negEvents d.P.mg) pre = [] → s1 = d.st.full.ms.begin) := by
  obtain ⟨hg, hl, hq⟩ := proper_graph h1 hs hh.ready
  obtain ⟨x, rest, e, hx, hpre⟩ := hb
  have hpre' : ∀ y ∈ pre, y < d.P.mg.nodes.length := fun y hy => by rw [hl]; exact hpre.2 y hy
  obtain ⟨s1, L, ch, A, ht, hla, h0⟩ := timeline_invalid hg hh.ready.rest.full.ms (bnd := d.P.bnd) (neg := negEvents d.P.mg) (d := x) (by rw [hl]; exact hx) rest hpre' hpre.1
  refine ⟨s1, L, ch, A, fun f => ?_, hla, h0⟩
  have hm := timeline_mark_invalid hg hh.ready.rest.full.ms (bnd := d.P.bnd) (d := x) hM (by rw [hl]; exact hx) rest hpre' hpre.1 f
  rw [ht f, ← e] at hm
  have e : respond (scarD M d).P.mg (scarD M d).sg (scarD M d).P.bnd (scarD M d).P.mask (scarD M d).C f (scarD M d).st c =
    some (.ok (.exception, { (scarD M d).st with full := { (scarD M d).st.full with ms := s1.mark ((negEvents d.P.mg).toFinset \ pre.toFinset) } })) :=
    respond_invalid (held_plainly hh M) hE hm
  unfold Object.call
  rw [e]
  rfl

include h1 hs in
/-- A call with an invalid event behind boundary nodes. -/
theorem call_harmless (hB : Props.Convert.BndOk g) {p : Object K} {d : Decoder K} {s : Bool} (hh : Held g without p d s) (hbnd : d.P.bnd = boundaryFlags g) {M : Finset Nat}
    (hM : M ⊆ (negEvents d.P.mg).toFinset) {c : Correlated.Call} {pre : List Nat} (hb : Behind g pre (eventsOf c)) (hq : ∀ x ∈ pre, x ∈ g.boundary) :
    ∃ M' p' d', (∀ f, (scarO M p).call (scarD M d) f c = some (.ok (.exception, scarO M' p', scarD M' d'))) ∧ Held g without p' d' s ∧
      M' ⊆ (negEvents d'.P.mg).toFinset := by
  by_cases hE : Early d.P.mg d.sg c
  · exact ⟨M, p, d, call_early hh M hE, hh, hM⟩
  · obtain ⟨s1, L, ch, A, hc, -, h0⟩ := call_invalid h1 hs hh hM hE hb
    obtain ⟨x, rest, e, hx, hpre⟩ := hb
    have hg : grown d.P.bnd (negEvents d.P.mg) pre = [] := by
      unfold grown
      rw [List.filter_eq_nil_iff]
      intro y hy hc
      simp only [Bool.and_eq_true] at hc
      rw [hbnd, flags hB y (hpre.2 y hy)] at hc
      exact hc.1 (hq y hy)
    rw [h0 hg] at hc
    refine ⟨(negEvents d.P.mg).toFinset \ pre.toFinset, { p with cache := some { d with st := { d.st with full := { d.st.full with ms := d.st.full.ms.begin } } } },
      { d with st := { d.st with full := { d.st.full with ms := d.st.full.ms.begin } } }, hc, ⟨hh.same, hh.wo, rfl, hh.ready.built, ?_⟩, Finset.sdiff_subset⟩
    exact ⟨⟨hh.ready.rest.full.ms.begin, hh.ready.rest.full.ss, hh.ready.rest.full.marks⟩, hh.ready.rest.matching, hh.ready.rest.search⟩

omit [IsStrictOrderedRing K] in
theorem row_exception {o o' : Object K} {d d' : Decoder K} {f : Nat} {corr packed : Bool} {events : List Nat}
    (h : o.call d f (.obs corr events (List.replicate o.graph.numObs 0#8) 0) = some (.ok (.exception, o', d'))) :
    o.decodeRow d f corr packed events = some (.ok (none, o', d')) := by
  unfold Object.decodeRow
  rw [h]

omit [IsStrictOrderedRing K] in
theorem row_congr {o o' : Object K} {d d' : Decoder K} {f : Nat} {corr packed : Bool} {events : List Nat} (hn : o.graph.numObs = o'.graph.numObs)
    (hP : d.P = d'.P)
    (h : o.call d f (.obs corr events (List.replicate o.graph.numObs 0#8) 0) = o'.call d' f (.obs corr events (List.replicate o'.graph.numObs 0#8) 0)) :
    o.decodeRow d f corr packed events = o'.decodeRow d' f corr packed events := by
  unfold Object.decodeRow
  rw [h, hP]

include h1 hs in
/-- A row with valid events. -/
theorem row_scar {p : Object K} {d : Decoder K} {s : Bool} (hh : Held g without p d s) {M : Finset Nat} (hM : M ⊆ (negEvents d.P.mg).toFinset)
    {events : List Nat} (hev : EventsOk g events) (corr : Bool) :
    (∀ f packed, (scarO M p).decodeRow (scarD M d) f corr packed events = some (.ok (none, scarO M p, scarD M d)) ∧
      p.decodeRow d f corr packed events = some (.ok (none, p, d))) ∨
    (∀ f packed, (scarO M p).decodeRow (scarD M d) f corr packed events = p.decodeRow d f corr packed events) := by
  by_cases hE : Early d.P.mg d.sg (.obs corr events (List.replicate p.graph.numObs 0#8) 0)
  · refine .inl fun f packed => ⟨row_exception (call_early hh M hE f), ?_⟩
    have := call_early hh ∅ hE f
    rw [scarO_empty, scarD_empty] at this
    exact row_exception this
  · exact .inr fun f packed => row_congr rfl rfl (call_same h1 hs hh hM hE hev f)

include h1 hs in
/-- A question that may be asked: the object with marks answers in the same way. -/
theorem ask_scar (hw : WF g) (hB : Props.Convert.BndOk g) {q : Query} (hfit : Fits g without q) {o : Object K} (hi : Inv g without o) {M : Finset Nat}
    (hM : Fit M o) : ∃ M', (∀ f, (scarO M o).ask f q = scarA M' (o.ask f q)) ∧ ∀ f a o', o.ask f q = some (.ok (a, o')) → Fit M' o' := by
  cases q with
  | decode corr events =>
    obtain ⟨p, d, s, e, hh, hsr⟩ := decoderFor_held hw hB h1 hs hi corr
    obtain ⟨M1, hM1, e1⟩ := decoderFor_scar hM e
    rcases row_scar h1 hs hh hM1 hfit corr with h | h
    · refine ⟨M1, fun f => ?_, fun f a o' ha => ?_⟩
      · simp only [Object.ask, e, e1, (h f false).1, (h f false).2]; rfl
      · simp only [Object.ask, e, (h f false).2] at ha
        cases ha
        intro d' hd'
        rw [hh.cache] at hd'; cases hd'; exact hM1
    · exact ⟨∅, fun f => by simp only [Object.ask, e, e1, h f false, scarA_empty], fun f a o' _ => fit_empty o'⟩
  | batch ps pp corr cols rows =>
    have hg : (scarO M o).graph = o.graph := rfl
    obtain ⟨b, hg'⟩ := id hi.same
    by_cases hsh : Obs.shapeOk ps cols o.graph.numDetectors o.graph.nodes.length = true
    · have sh : Obs.shapeOk ps cols o.graph.numDetectors o.graph.nodes.length = Obs.shapeOk ps cols g.numDetectors g.nodes.length := by rw [hg']; rfl
      obtain ⟨p, d, s, e, hh, hsr⟩ := decoderFor_held hw hB h1 hs hi corr
      obtain ⟨M1, hM1, e1⟩ := decoderFor_scar hM e
      have keep : Fit M1 p := by
        intro d' hd'
        rw [hh.cache] at hd'; cases hd'; exact hM1
      cases rows with
      | nil =>
        refine ⟨M1, fun f => ?_, fun f a o' ha => ?_⟩
        · simp only [Object.ask, hg, if_pos hsh, e, e1, Object.batchLoop]; rfl
        · simp only [Object.ask, if_pos hsh, e, Object.batchLoop] at ha
          cases ha
          exact keep
      | cons row rows =>
        have hev : EventsOk g (readRow ps row) := ⟨readRow_nodup ps row, hfit (sh ▸ hsh) row (by simp)⟩
        rcases row_scar h1 hs hh hM1 hev corr with h | h
        · refine ⟨M1, fun f => ?_, fun f a o' ha => ?_⟩
          · simp only [Object.ask, hg, if_pos hsh, e, e1, Object.batchLoop, (h f pp).1, (h f pp).2]; rfl
          · simp only [Object.ask, if_pos hsh, e, Object.batchLoop, (h f pp).2] at ha
            cases ha
            exact keep
        · exact ⟨∅, fun f => by simp only [Object.ask, hg, if_pos hsh, e, e1, Object.batchLoop, h f pp, scarA_empty], fun f a o' _ => fit_empty o'⟩
    · refine ⟨M, fun f => ?_, fun f a o' ha => ?_⟩
      · simp only [Object.ask, hg, if_neg hsh]; rfl
      · simp only [Object.ask, if_neg hsh] at ha
        cases ha
        exact hM
  | edges corr events =>
    obtain ⟨p, d, s, e, hh, hsr⟩ := decoderFor_held hw hB h1 hs hi true
    obtain ⟨M1, hM1, e1⟩ := decoderFor_scar hM e
    by_cases hE : Early d.P.mg d.sg (.edges corr events)
    · have h := fun f => call_early hh M1 hE f
      have h' := fun f => call_early hh ∅ hE f
      simp only [scarO_empty, scarD_empty] at h'
      refine ⟨M1, fun f => ?_, fun f a o' ha => ?_⟩
      · simp only [Object.ask, e, e1, h, h']; rfl
      · simp only [Object.ask, e, h'] at ha
        cases ha
        intro d' hd'
        rw [hh.cache] at hd'; cases hd'; exact hM1
    · have h := fun f => call_same h1 hs hh hM1 hE hfit f
      exact ⟨∅, fun f => by simp only [Object.ask, e, e1, h, scarA_empty], fun f a o' _ => fit_empty o'⟩
  | pairs events =>
    obtain ⟨p, d, s, e, hh, hsr⟩ := decoderFor_held hw hB h1 hs hi false
    obtain ⟨M1, hM1, e1⟩ := decoderFor_scar hM e
    by_cases hE : Early d.P.mg d.sg (.pairs events)
    · have h := fun f => call_early hh M1 hE f
      have h' := fun f => call_early hh ∅ hE f
      simp only [scarO_empty, scarD_empty] at h'
      refine ⟨M1, fun f => ?_, fun f a o' ha => ?_⟩
      · simp only [Object.ask, e, e1, h, h']; rfl
      · simp only [Object.ask, e, h'] at ha
        cases ha
        intro d' hd'
        rw [hh.cache] at hd'; cases hd'; exact hM1
    · have h := fun f => call_same h1 hs hh hM1 hE hfit f
      exact ⟨∅, fun f => by simp only [Object.ask, e, e1, h, scarA_empty], fun f a o' _ => fit_empty o'⟩
  | path src dst =>
    obtain ⟨p, d, s, e, hh, hsr⟩ := decoderFor_held hw hB h1 hs hi true
    obtain ⟨M1, hM1, e1⟩ := decoderFor_scar hM e
    have same : ∀ f, Sch.nodesOnPath (withS (scarD M1 d).sg (scarD M1 d).st.ws.mem) f (scarD M1 d).st.full.ss
        ((scarO M1 p).graph.nodes.map (·.isBoundary)) src dst =
        Sch.nodesOnPath (withS d.sg d.st.ws.mem) f d.st.full.ss (p.graph.nodes.map (·.isBoundary)) src dst := fun _ => rfl
    refine ⟨M1, fun f => ?_, fun f a o' ha => ?_⟩
    · simp only [Object.ask, e, e1, same]
      cases hn : Sch.nodesOnPath (withS d.sg d.st.ws.mem) f d.st.full.ss (p.graph.nodes.map (·.isBoundary)) src dst with
      | none => rfl
      | some r => cases r <;> rfl
    · simp only [Object.ask, e] at ha
      cases hn : Sch.nodesOnPath (withS d.sg d.st.ws.mem) f d.st.full.ss (p.graph.nodes.map (·.isBoundary)) src dst with
      | none => rw [hn] at ha; cases ha
      | some r =>
        rw [hn] at ha
        cases r with
        | ub => cases ha
        | throws =>
          cases ha
          intro d' hd'
          rw [hh.cache] at hd'; cases hd'; exact hM1
        | ok r =>
          cases ha
          intro d' hd'
          cases hd'
          exact hM1

include h1 hs in
/-- The loop over rows with an invalid event behind boundary nodes in some row. -/
theorem batch_harmless (hw : WF g) (hB : Props.Convert.BndOk g) (hbnd : d1.P.bnd = boundaryFlags g) {corr : Bool} (hcorr : corr = true → NonNeg g) (ps pp : Bool)
    {row : List (BitVec 8)} (rest : List (List (BitVec 8))) {pre : List Nat} (hb : Behind g pre (readRow ps row)) (hq : ∀ x ∈ pre, x ∈ g.boundary) :
    ∀ (good : List (List (BitVec 8))), (∀ r ∈ good, EventsOk g (readRow ps r)) → ∀ {p : Object K} {d : Decoder K} {s : Bool} {M : Finset Nat},
      Held g without p d s → (corr = true → s = true) → M ⊆ (negEvents d.P.mg).toFinset →
      ∃ M' p', Completes (fun f => (scarO M p).batchLoop (scarD M d) f ps pp corr (good ++ row :: rest)) (.ok (none, scarO M' p')) ∧ Inv g without p' ∧ Fit M' p' := by
  intro good
  induction good with
  | nil =>
    intro _ p d s M hh hsr hM
    have hP := (stand_in h1 hs hh.ready).1
    obtain ⟨M', p', d', hc, hh', hM'⟩ := call_harmless (c := .obs corr (readRow ps row) (List.replicate p.graph.numObs 0#8) 0) h1 hs hB hh
      (by rw [hP, hbnd]) hM hb hq
    refine ⟨M', p', ⟨0, fun f _ => ?_⟩, hh'.inv, ?_⟩
    · have := row_exception (o := scarO M p) (packed := pp) (hc f)
      simp only [List.nil_append, Object.batchLoop, this]
    · intro d'' hd''
      rw [hh'.cache] at hd''; cases hd''; exact hM'
  | cons r good ih =>
    intro hgood p d s M hh hsr hM
    obtain ⟨x, p1, q1, ⟨f0, c0⟩, hh1, -⟩ := row_two hw hB h1 hs hh hsr hcorr (hgood r (by simp)) pp
    rcases row_scar h1 hs hh hM (hgood r (by simp)) corr with h | h
    · refine ⟨M, p, ⟨0, fun f _ => ?_⟩, hh.inv, ?_⟩
      · simp only [List.cons_append, Object.batchLoop, (h f pp).1]
      · intro d'' hd''
        rw [hh.cache] at hd''; cases hd''; exact hM
    · obtain ⟨M', p', ⟨f1, c1⟩, hi', hM'⟩ := ih (fun r' h => hgood r' (by simp [h])) (M := ∅) hh1 hsr (Finset.empty_subset _)
      rw [scarO_empty, scarD_empty] at c1
      cases hx : rowAns pp d1.P.scale x with
      | none =>
        refine ⟨∅, p1, ⟨f0, fun f hf => ?_⟩, hh1.inv, fit_empty _⟩
        have := c0 f hf
        simp only [hx] at this
        simp only [List.cons_append, Object.batchLoop, h f pp, this, scarO_empty]
      | some y =>
        obtain ⟨y1, y2⟩ := y
        refine ⟨M', p', ⟨max f0 f1, fun f hf => ?_⟩, hi', hM'⟩
        have h2 := c0 f (le_trans (le_max_left _ _) hf)
        have h3 := c1 f (le_trans (le_max_right _ _) hf)
        simp only [hx] at h2 h3
        simp only [List.cons_append, Object.batchLoop, h f pp, h2, h3]

include h1 in
theorem bnd_of (hw : WF g) (hB : Props.Convert.BndOk g) : d1.P.bnd = boundaryFlags g := by
  unfold toMwpm at h1
  split at h1
  · rename_i P ins k hP hconv
    have : d1.P = P := by
      split at h1
      · rw [if_pos (by simp)] at h1
        split at h1
        · split at h1
          · cases h1; rfl
          · cases h1
        · cases h1
      · cases h1
    rw [this]
    obtain ⟨-, -, -, -, -, -, -, -, -, -, -, -, h, -⟩ := prepared_graph hw hB hP
    exact h
  · cases h1

end

/-- A harmless question: an exception, and only marks are left. -/
theorem ask_harmless {g : UGraph K} {without : Bool} (hw : WF g) (hB : Props.Convert.BndOk g) {q : Query} (hq : Harmless g without q) {o : Object K}
    (hi : Inv g without o) {M : Finset Nat} (hM : Fit M o) :
    ∃ M' o', Completes (fun f => (scarO M o).ask f q) (.ok (.exception, scarO M' o')) ∧ Inv g without o' ∧ Fit M' o' := by
  obtain ⟨⟨d1, h1⟩, hcov, hinv, hcorr⟩ := hq
  have hs := solid hw hB hcov h1
  have hbnd := bnd_of h1 hw hB
  have fit : ∀ {p : Object K} {d : Decoder K} {s : Bool} {M : Finset Nat}, Held g without p d s → M ⊆ (negEvents d.P.mg).toFinset → Fit M p := by
    intro p d s M hh hM d' hd'
    rw [hh.cache] at hd'; cases hd'; exact hM
  cases q with
  | decode corr events =>
    obtain ⟨pre, hb, hq⟩ := hinv
    obtain ⟨p, d, s, e, hh, hsr⟩ := decoderFor_held hw hB h1 hs hi corr
    obtain ⟨M1, hM1, e1⟩ := decoderFor_scar hM e
    have hP := (stand_in h1 hs hh.ready).1
    obtain ⟨M', p', d', hc, hh', hM'⟩ := call_harmless (c := .obs corr events (List.replicate p.graph.numObs 0#8) 0) h1 hs hB hh (by rw [hP, hbnd]) hM1 hb hq
    refine ⟨M', p', ⟨0, fun f _ => ?_⟩, hh'.inv, fit hh' hM'⟩
    have := row_exception (o := scarO M1 p) (packed := false) (hc f)
    simp only [Object.ask, e1, this]
  | batch ps pp corr cols rows =>
    obtain ⟨hsh, good, row, rest, pre, rfl, hgood, hb, hq⟩ := hinv
    obtain ⟨b, hg⟩ := id hi.same
    have sh : Obs.shapeOk ps cols (scarO M o).graph.numDetectors (scarO M o).graph.nodes.length = true := by
      have : (scarO M o).graph = o.graph := rfl
      rw [this, hg]; exact hsh
    obtain ⟨p, d, s, e, hh, hsr⟩ := decoderFor_held hw hB h1 hs hi corr
    obtain ⟨M1, hM1, e1⟩ := decoderFor_scar hM e
    obtain ⟨M', p', hc, hi', hM'⟩ := batch_harmless h1 hs hw hB hbnd hcorr ps pp rest hb hq good (fun r hr => ⟨readRow_nodup ps r, (hgood r hr).1⟩) hh hsr hM1
    exact ⟨M', p', ask_batch sh e1 hc, hi', hM'⟩
  | edges corr events =>
    obtain ⟨pre, hb, hq⟩ := hinv
    obtain ⟨p, d, s, e, hh, hsr⟩ := decoderFor_held hw hB h1 hs hi true
    obtain ⟨M1, hM1, e1⟩ := decoderFor_scar hM e
    have hP := (stand_in h1 hs hh.ready).1
    obtain ⟨M', p', d', hc, hh', hM'⟩ := call_harmless (c := .edges corr events) h1 hs hB hh (by rw [hP, hbnd]) hM1 hb hq
    refine ⟨M', p', ⟨0, fun f _ => ?_⟩, hh'.inv, fit hh' hM'⟩
    simp only [Object.ask, e1, hc f]
  | pairs events =>
    obtain ⟨pre, hb, hq⟩ := hinv
    obtain ⟨p, d, s, e, hh, hsr⟩ := decoderFor_held hw hB h1 hs hi false
    obtain ⟨M1, hM1, e1⟩ := decoderFor_scar hM e
    have hP := (stand_in h1 hs hh.ready).1
    obtain ⟨M', p', d', hc, hh', hM'⟩ := call_harmless (c := .pairs events) h1 hs hB hh (by rw [hP, hbnd]) hM1 hb hq
    refine ⟨M', p', ⟨0, fun f _ => ?_⟩, hh'.inv, fit hh' hM'⟩
    simp only [Object.ask, e1, hc f]
  | path src dst => exact hinv.elim

/-! ## Lemmas: histories -/

theorem history_scar (mergeW : K → K → K) (without : Bool) : ∀ (ops : List (Op K)) (g : UGraph K) (asked : Prop) (o : Object K) (M : Finset Nat), WF g →
    Props.Convert.BndOk g → Inv g without o → Fit M o → (o.graph.needsUpdating = false → asked) → Tolerable mergeW without g asked ops →
    ∃ as M' o', Completes (fun f => (scarO M o).history mergeW f ops) (.ok (as, scarO M' o')) ∧ Inv (graphAfter mergeW g ops) without o' ∧ Fit M' o' ∧
      List.Forall₂ (Expected without) (questions mergeW g ops) as := by
  intro ops
  induction ops with
  | nil => intro g asked o M _ _ hi hM _ _; exact ⟨[], M, o, ⟨0, fun f _ => rfl⟩, hi, hM, .nil⟩
  | cons op ops ih =>
    intro g asked o M hw hB hi hM hf hp
    cases op with
    | modify c =>
      obtain ⟨h1, h2⟩ := modify_inv mergeW hw hi hf hp.1
      exact ih _ _ (o.modify mergeW c) M (wf_exec mergeW hw c) (Props.Convert.bndOk_exec mergeW hB c) h1 hM h2 hp.2
    | ask q =>
      obtain ⟨hq, hp2⟩ := hp
      have one : ∃ a M1 o1, Completes (fun f => (scarO M o).ask f q) (.ok (a, scarO M1 o1)) ∧ Inv g without o1 ∧ Fit M1 o1 ∧ Expected without (g, q) a := by
        rcases hq with hq | hq
        · obtain ⟨a, o1, ⟨f1, c1⟩, hi1, hfr⟩ := ask_one hw hB hq hi
          obtain ⟨d1, h1⟩ := hq.builds
          obtain ⟨M1, e1, hM1⟩ := ask_scar h1 (solid hw hB hq.covered h1) hw hB hq.fits hi hM
          refine ⟨a, M1, o1, ⟨f1, fun f hf => ?_⟩, hi1, hM1 f1 a o1 (c1 f1 le_rfl), .inl ⟨hq, hfr⟩⟩
          have := c1 f hf
          simp only at this
          simp only [e1 f, this, scarA]
        · obtain ⟨M1, o1, c1, hi1, hM1⟩ := ask_harmless hw hB hq hi hM
          exact ⟨.exception, M1, o1, c1, hi1, hM1, .inr ⟨hq, rfl⟩⟩
      obtain ⟨a, M1, o1, ⟨f1, c1⟩, hi1, hM1, ha⟩ := one
      obtain ⟨as, M2, o2, ⟨f2, c2⟩, hi2, hM2, hall⟩ := ih g True o1 M1 hw hB hi1 hM1 (fun _ => trivial) hp2
      refine ⟨a :: as, M2, o2, ⟨max f1 f2, fun f hf => ?_⟩, hi2, hM2, .cons ha hall⟩
      have h1 := c1 f (le_trans (le_max_left _ _) hf)
      have h2 := c2 f (le_trans (le_max_right _ _) hf)
      simp only at h1 h2
      simp only [Object.history, h1, h2, Res.bind]

/-! ## Lemmas: questions that leave something in the queue -/

/-- The insertions behind a decoder. -/
theorem origin_of {g : UGraph K} {without : Bool} {d1 : Decoder K} (hw : WF g) (hB : Props.Convert.BndOk g) (h1 : toMwpm g without true = some d1) :
    ∃ (ops : List Props.Graph.EdgeIns) (c : K), 0 < c ∧ Props.Graph.run (Graph.MGraph.empty g.nodes.length g.numObs) ops = some d1.P.mg ∧ ∃ φ, Origin g c ops φ := by
  unfold toMwpm at h1
  split at h1
  · rename_i P ins k hP hconv
    have : d1.P = P := by
      split at h1
      · rw [if_pos (by simp)] at h1
        split at h1
        · split at h1
          · cases h1; rfl
          · cases h1
        · cases h1
      · cases h1
    rw [this]
    obtain ⟨ins', k', c, -, -, -, -, -, hc, hr, -, -, -, -, -, φ, hO, -⟩ := prepared_graph hw hB hP
    exact ⟨_, c, hc, hr, φ, hO⟩
  · cases h1

theorem live_entry {g : UGraph K} {without : Bool} {d1 : Decoder K} (hw : WF g) (hB : Props.Convert.BndOk g) (h1 : toMwpm g without true = some d1)
    {x : Nat} (hx : x < g.nodes.length) (hl : Live g x) : (∃ n, entry d1.P.mg (x, 0) = some n) ∧ x ∉ d1.P.mg.negDets := by
  obtain ⟨ops, c, hc, hr, φ, hO⟩ := origin_of hw hB h1
  have hb := Props.Graph.built_run (Props.Graph.built_empty _ _) hr
  rw [List.nil_append] at hb
  constructor
  · have one : ∃ i : Fin ops.length, ops[i].incidence x = 1 := by
      obtain ⟨e, he, h1⟩ := hl.edge
      obtain ⟨j, hj, rfl⟩ := List.getElem_of_mem he
      have out : ∀ {e : UEdge K}, Leaves g x e → endsAt e x = 1 := by
        rintro e ⟨hx, ⟨h1, h2 | ⟨v, h2, h3⟩⟩ | ⟨h1, h2⟩⟩
        · simp [endsAt, h1, h2]
        · have : v ≠ x := fun h => hx (h ▸ h3)
          simp [endsAt, h1, h2, this]
        · have : e.node1 ≠ x := fun h => hx (h ▸ h2)
          simp [endsAt, h1, this]
      have leave : Leaves g x g.edges[j] → ∃ i : Fin ops.length, ops[i].incidence x = 1 := by
        intro h
        obtain ⟨i, hi, -⟩ := hO.least ⟨j, hj⟩ x h
        exact ⟨i, by rw [hO.inc i x hl.inner]; exact out hi⟩
      have between : Between g g.edges[j] → ∃ i : Fin ops.length, ops[i].incidence x = 1 := by
        intro h
        obtain ⟨i, hi⟩ := hO.hit ⟨j, hj⟩ h
        exact ⟨i, by rw [hO.inc i x hl.inner]; simp only [hi]; exact h1⟩
      by_cases e1 : g.edges[j].node1 = x
      · cases e2 : g.edges[j].node2 with
        | none => exact leave ⟨hl.inner, .inl ⟨e1, .inl e2⟩⟩
        | some v =>
          by_cases hv : v ∈ g.boundary
          · exact leave ⟨hl.inner, .inl ⟨e1, .inr ⟨v, e2, hv⟩⟩⟩
          · exact between ⟨by rw [e1]; exact hl.inner, v, e2, hv⟩
      · have e2 : g.edges[j].node2 = some x := by
          by_contra e2
          simp [endsAt, e1, e2] at h1
        by_cases hv : g.edges[j].node1 ∈ g.boundary
        · exact leave ⟨hl.inner, .inr ⟨e2, hv⟩⟩
        · exact between ⟨hv, x, e2, hl.inner⟩
    obtain ⟨i, hi⟩ := one
    have hx' : x < d1.P.mg.nodes.length := by rw [hb.len]; exact hx
    have hadj := hb.adj x hx'
    have hmem : ops[i] ∈ ops := List.getElem_mem _
    have hne : ops.filterMap (Props.Graph.seenBdry x) ++ ops.filterMap (Props.Graph.seenFrom x) ≠ [] := by
      intro h0
      rw [List.append_eq_nil_iff, List.filterMap_eq_nil_iff, List.filterMap_eq_nil_iff] at h0
      have h1 := h0.1 _ hmem
      have h2 := h0.2 _ hmem
      cases he : ops[i] with
      | bdry u w o =>
        rw [he] at hi h1
        simp only [Props.Graph.EdgeIns.incidence] at hi
        simp only [Props.Graph.seenBdry] at h1
        split_ifs at hi h1
      | edge u v w o =>
        rw [he] at hi h2
        simp only [Props.Graph.EdgeIns.incidence] at hi
        simp only [Props.Graph.seenFrom] at h2
        split_ifs at hi h2 <;> omega
    cases hnb : d1.P.mg.nodes[x] with
    | nil =>
      rw [hnb] at hadj
      rw [List.forall₂_nil_left_iff] at hadj
      exact absurd hadj hne
    | cons n l => exact ⟨n, by simp [entry, List.getElem?_eq_getElem hx', hnb]⟩
  · rw [hb.dets x]
    have : ((ops.filter (·.w < 0)).map (Props.Graph.EdgeIns.incidence x)).sum = 0 := by
      rw [List.sum_eq_zero]
      intro y hy
      rw [List.mem_map] at hy
      obtain ⟨op, hop, rfl⟩ := hy
      rw [List.mem_filter] at hop
      obtain ⟨hop, hneg⟩ := hop
      obtain ⟨i, hi, rfl⟩ := List.getElem_of_mem hop
      have e1 := hO.inc ⟨i, hi⟩ x hl.inner
      have e2 := hO.w ⟨i, hi⟩
      simp only [Fin.getElem_fin] at e1 e2
      rw [e1]
      by_contra h0
      have := (Discretise.C19_monotone_odd c hc 0 _).2.2 (hl.pos _ (List.getElem_mem (φ ⟨i, hi⟩).2) h0)
      rw [e2] at hneg
      simp only [decide_eq_true_eq] at hneg
      exact absurd hneg (not_lt.mpr this)
    rw [this]
    omega

theorem negSum_zero {g : UGraph K} {without : Bool} {d1 : Decoder K} (hw : WF g) (hB : Props.Convert.BndOk g) (h1 : toMwpm g without true = some d1)
    (hn : NonNeg g) : d1.P.mg.negSum = 0 := by
  obtain ⟨ops, c, hc, hr, φ, hO⟩ := origin_of hw hB h1
  have hb := Props.Graph.built_run (Props.Graph.built_empty _ _) hr
  rw [List.nil_append] at hb
  rw [hb.sum]
  have : ops.filter (·.w < 0) = [] := by
    rw [List.filter_eq_nil_iff]
    intro op hop hneg
    obtain ⟨i, hi, rfl⟩ := List.getElem_of_mem hop
    have e2 := hO.w ⟨i, hi⟩
    simp only [Fin.getElem_fin] at e2
    have := (Discretise.C19_monotone_odd c hc 0 _).2.2 (hn _ (List.getElem_mem (φ ⟨i, hi⟩).2))
    rw [e2] at hneg
    simp only [decide_eq_true_eq] at hneg
    exact absurd hneg (not_lt.mpr this)
  rw [this]
  rfl

omit [IsStrictOrderedRing K] in
/-- The flag is off while a decoder is used. -/
theorem decoderFor_off {o p : Object K} {d : Decoder K} {b : Bool} (h : o.decoderFor b = some (p, d)) : p.graph.needsUpdating = false := by
  have hre : ∀ b, o.rebuild b = some (p, d) → p.graph.needsUpdating = false := by
    intro b hb
    unfold Object.rebuild at hb
    split at hb
    · cases hb
    · cases hb; rfl
  cases b with
  | false =>
    simp only [Object.decoderFor, Bool.false_eq_true, if_false, Object.getMwpm] at h
    split_ifs at h with hf
    · exact hre _ h
    · split at h
      · cases h
      · cases h; simpa using hf
  | true =>
    simp only [Object.decoderFor, if_true, Object.getMwpmWithSearchGraph] at h
    split at h
    · exact hre _ h
    · split_ifs at h with hf
      · cases h
        simp only [Bool.and_eq_true, Bool.not_eq_true', beq_iff_eq] at hf
        exact hf.1
      · exact hre _ h

/-- The decoder of the object has an event left in its queue; `b`: it has a search graph. -/
structure Jammed (o : Object K) (b : Bool) : Prop where
  off : o.graph.needsUpdating = false
  full : ∃ d, o.cache = some d ∧ d.st.full.ms.fl.w.q.num ≠ 0 ∧ (b = true → d.P.mg.nodes.length = d.sg.nodes.length)

omit [IsStrictOrderedRing K] in
/-- Every question that uses this decoder raises an exception and changes nothing. -/
theorem ask_jammed {o : Object K} {b : Bool} (hj : Jammed o b) {q : Query} (h1 : ∀ x y, q ≠ .path x y) (h2 : ∀ ps pp corr cols, q ≠ .batch ps pp corr cols [])
    (h3 : search q = true → b = true) (f : Nat) : o.ask f q = some (.ok (.exception, o)) := by
  obtain ⟨hoff, d, hc, hn, hb⟩ := hj
  have same : ({ o with cache := some d } : Object K) = o := by rw [← hc]
  have hd : ∀ k : Bool, (k = true → b = true) → o.decoderFor k = some (o, d) := by
    intro k hk
    cases k with
    | false => simp only [Object.decoderFor, Bool.false_eq_true, if_false, Object.getMwpm, hoff, hc]
    | true =>
      have := hb (hk rfl)
      simp [Object.decoderFor, Object.getMwpmWithSearchGraph, hoff, hc, this]
  have hcall : ∀ c, o.call d f c = some (.ok (.exception, o, d)) := by
    intro c
    have := respond_jammed (g := d.P.mg) (sg := d.sg) (bnd := d.P.bnd) (m := d.P.mask) (C := d.C) hn c f
    unfold Object.call
    rw [this]
    simp only [same]
  cases q with
  | decode corr events => simp only [Object.ask, hd corr h3, row_exception (hcall _)]
  | batch ps pp corr cols rows =>
    cases rows with
    | nil => exact absurd rfl (h2 ps pp corr cols)
    | cons row rows =>
      simp only [Object.ask, hd corr h3, Object.batchLoop, row_exception (hcall _)]
      split <;> rfl
  | edges corr events => simp only [Object.ask, hd true h3, hcall]
  | pairs events => simp only [Object.ask, hd false (fun h => (by cases h)), hcall]
  | path x y => exact absurd rfl (h1 x y)

section
variable {g : UGraph K} {without : Bool} {d1 : Decoder K} (h1 : toMwpm g without true = some d1) (hs : Solid g d1)

include h1 hs in
/-- A decoder has a search graph if it was asked for or if there are more than 64 observables. -/
theorem search_len {p : Object K} {d : Decoder K} {s : Bool} (hh : Held g without p d s) (h : s = true ∨ 64 < g.numObs) :
    d.P.mg.nodes.length = d.sg.nodes.length := by
  obtain ⟨hP, hsg, -⟩ := stand_in h1 hs hh.ready
  rw [hP, hs.len]
  rcases h with h | h
  · rw [hsg h, hs.slen]
  · obtain ⟨d0, h0, -, h64⟩ := toMwpm_false h1
    cases s with
    | true => rw [hsg rfl, hs.slen]
    | false =>
      have hb := hh.ready.built
      rw [h0, h64 h] at hb
      have := congrArg Decoder.sg (Option.some.inj hb)
      simp only at this
      rw [← this, hs.slen]

include h1 hs in
/-- A call with an invalid event behind a detector. -/
theorem call_harmful (hw : WF g) (hB : Props.Convert.BndOk g) {p : Object K} {d : Decoder K} {s : Bool} (hh : Held g without p d s)
    (hoff : p.graph.needsUpdating = false) {M : Finset Nat} (hM : M ⊆ (negEvents d.P.mg).toFinset) {c : Correlated.Call} (hE : ¬ Early d.P.mg d.sg c)
    {pre : List Nat} (hb : Behind g pre (eventsOf c)) (hq : ∃ x ∈ pre, Live g x) :
    ∃ p' d', (∀ f, (scarO M p).call (scarD M d) f c = some (.ok (.exception, p', d'))) ∧ Jammed p' (s || decide (64 < g.numObs)) ∧
      SameBut g p'.graph ∧ p'.without = without := by
  obtain ⟨s1, L, ch, A, hc, hla, -⟩ := call_invalid h1 hs hh hM hE hb
  obtain ⟨hg, hl, -⟩ := proper_graph h1 hs hh.ready
  obtain ⟨x, hx, hlive⟩ := hq
  obtain ⟨y, rest, e, hy, hpre⟩ := hb
  have hP := (stand_in h1 hs hh.ready).1
  obtain ⟨⟨n, hn⟩, hx2⟩ := live_entry hw hB h1 (hpre.2 x hx) hlive
  have hT : x ∈ (grown d.P.bnd (negEvents d.P.mg) pre).toFinset := by
    simp only [grown, List.mem_toFinset, List.mem_filter, Bool.and_eq_true, decide_eq_true_eq]
    refine ⟨hx, ?_, ?_⟩
    · rw [hP, bnd_of h1 hw hB, flags hB x (hpre.2 x hx)]
      exact hlive.inner
    · rw [hP]
      simpa [negEvents] using hx2
  have hnum := Launched.waits hg hla hT (n := n) (by rw [hP]; exact hn)
  have hlen : (s || decide (64 < g.numObs)) = true → d.P.mg.nodes.length = d.sg.nodes.length := fun h => search_len h1 hs hh (by simpa using h)
  exact ⟨_, _, hc, ⟨hoff, _, rfl, hnum, hlen⟩, hh.same, hh.wo⟩

end

/-- A harmful question: an exception, and the decoder is left with an event in its queue. -/
theorem ask_harmful {g : UGraph K} {without : Bool} (hw : WF g) (hB : Props.Convert.BndOk g) {q : Query} (hq : Harmful g without q) {o : Object K}
    (hi : Inv g without o) {M : Finset Nat} (hM : Fit M o) :
    ∃ o', Completes (fun f => (scarO M o).ask f q) (.ok (.exception, o')) ∧ Jammed o' (search q || decide (64 < g.numObs)) ∧ SameBut g o'.graph ∧
      o'.without = without := by
  obtain ⟨⟨d1, h1⟩, hcov, hinv, hcorr, hpairs⟩ := hq
  have hs := solid hw hB hcov h1
  have weaker : ∀ {o : Object K} {b b' : Bool}, (b' = true → b = true) → Jammed o b → Jammed o b' := by
    rintro o b b' h ⟨h1, d, h2, h3, h4⟩
    exact ⟨h1, d, h2, h3, fun hb => h4 (h hb)⟩
  have obs : ∀ {corr : Bool} {p : Object K} {d : Decoder K} {s : Bool} (events : List Nat) (buf : List (BitVec 8)), Held g without p d s → (corr = true → s = true) →
      ¬ Early d.P.mg d.sg (.obs corr events buf 0) := fun events buf hh hsr h => h.2 (search_len h1 hs hh (.inl (hsr h.1)))
  have bool : ∀ {b s : Bool}, (b = true → s = true) → (b || decide (64 < g.numObs)) = true → (s || decide (64 < g.numObs)) = true := by
    intro b s h
    cases b <;> cases s <;> simp_all
  cases q with
  | decode corr events =>
    obtain ⟨pre, hb, hx⟩ := hinv
    obtain ⟨p, d, s, e, hh, hsr⟩ := decoderFor_held hw hB h1 hs hi corr
    obtain ⟨M1, hM1, e1⟩ := decoderFor_scar hM e
    obtain ⟨p', d', hc, hj, k1, k2⟩ := call_harmful (c := .obs corr events (List.replicate p.graph.numObs 0#8) 0) h1 hs hw hB hh (decoderFor_off e) hM1
      (obs _ _ hh hsr) hb hx
    refine ⟨p', ⟨0, fun f _ => ?_⟩, weaker (bool hsr) hj, k1, k2⟩
    have := row_exception (o := scarO M1 p) (packed := false) (hc f)
    simp only [Object.ask, e1, this]
  | batch ps pp corr cols rows =>
    obtain ⟨hsh, good, row, rest, pre, rfl, hgood, hb, hx⟩ := hinv
    obtain ⟨b, hg⟩ := id hi.same
    have sh : Obs.shapeOk ps cols (scarO M o).graph.numDetectors (scarO M o).graph.nodes.length = true := by
      have : (scarO M o).graph = o.graph := rfl
      rw [this, hg]; exact hsh
    obtain ⟨p, d, s, e, hh, hsr⟩ := decoderFor_held hw hB h1 hs hi corr
    obtain ⟨M1, hM1, e1⟩ := decoderFor_scar hM e
    have loop : ∀ (good : List (List (BitVec 8))), (∀ r ∈ good, (∀ x ∈ readRow ps r, x < g.nodes.length) ∧
          ∃ u w, Fresh1 g without (.decode corr (readRow ps r)) (.predictions u w)) →
        ∀ {p : Object K} {d : Decoder K} {M : Finset Nat}, Held g without p d s → p.graph.needsUpdating = false → M ⊆ (negEvents d.P.mg).toFinset →
        ∃ p', Completes (fun f => (scarO M p).batchLoop (scarD M d) f ps pp corr (good ++ row :: rest)) (.ok (none, p')) ∧
          Jammed p' (s || decide (64 < g.numObs)) ∧ SameBut g p'.graph ∧ p'.without = without := by
      intro good
      induction good with
      | nil =>
        intro _ p d M hh hoff hM
        obtain ⟨p', d', hc, hj, k1, k2⟩ := call_harmful (c := .obs corr (readRow ps row) (List.replicate p.graph.numObs 0#8) 0) h1 hs hw hB hh hoff hM
          (obs _ _ hh hsr) hb hx
        refine ⟨p', ⟨0, fun f _ => ?_⟩, hj, k1, k2⟩
        have := row_exception (o := scarO M p) (packed := pp) (hc f)
        simp only [List.nil_append, Object.batchLoop, this]
      | cons r good ih =>
        intro hgood p d M hh hoff hM
        obtain ⟨hr1, u, w, hr2⟩ := hgood r (by simp)
        have hev : EventsOk g (readRow ps r) := ⟨readRow_nodup ps r, hr1⟩
        have hsame := fun f => call_same h1 hs hh hM (c := .obs corr (readRow ps r) (List.replicate p.graph.numObs 0#8) 0) (obs _ _ hh hsr) hev f
        obtain ⟨x, p1, q1, c1, hh1, hfr⟩ := row_two hw hB h1 hs hh hsr hcorr hev pp
        have hy := fresh1_unique hfr hr2
        have hoff1 : p1.graph.needsUpdating = false := by
          obtain ⟨f0, c0⟩ := c1
          have := c0 f0 le_rfl
          simp only [Object.decodeRow, Object.call] at this
          cases hre : respond d.P.mg d.sg d.P.bnd d.P.mask d.C f0 d.st (.obs corr (readRow ps r) (List.replicate p.graph.numObs 0#8) 0) with
          | none => rw [hre] at this; cases this
          | some z =>
            rw [hre] at this
            cases z with
            | ub => cases this
            | throws => cases this
            | ok z =>
              obtain ⟨z1, z2⟩ := z
              cases z1 with
              | predictions buf w' =>
                simp only at this
                split_ifs at this
                · split at this
                  · cases this
                  · simp only [Option.some.injEq, Res.ok.injEq, Prod.mk.injEq] at this
                    rw [← this.2.1]; exact hoff
                · simp only [Option.some.injEq, Res.ok.injEq, Prod.mk.injEq] at this
                  rw [← this.2.1]; exact hoff
              | _ =>
                simp only [Option.some.injEq, Res.ok.injEq, Prod.mk.injEq] at this
                rw [← this.2.1]; exact hoff
        obtain ⟨f0, c0⟩ := c1
        obtain ⟨p', ⟨f1, c1⟩, hj, k1, k2⟩ := ih (fun r' h => hgood r' (by simp [h])) (M := ∅) hh1 hoff1 (Finset.empty_subset _)
        rw [scarO_empty, scarD_empty] at c1
        have hrow := fun f => row_congr (packed := pp) (o := scarO M p) (o' := p) (d := scarD M d) (d' := d) rfl rfl (hsame f)
        cases x with
        | predictions buf w' =>
          refine ⟨p', ⟨max f0 f1, fun f hf => ?_⟩, hj, k1, k2⟩
          have h2 := c0 f (le_trans (le_max_left _ _) hf)
          have h3 := c1 f (le_trans (le_max_right _ _) hf)
          simp only [rowAns] at h2 h3
          simp only [List.cons_append, Object.batchLoop, hrow f, h2, h3]
        | _ => cases hy
    obtain ⟨p', hc, hj, k1, k2⟩ := loop good (fun r hr => ⟨(hgood r hr).1, (hgood r hr).2 ps pp corr cols _ rfl⟩) hh (decoderFor_off e) hM1
    exact ⟨p', ask_batch sh e1 hc, weaker (bool hsr) hj, k1, k2⟩
  | edges corr events =>
    obtain ⟨pre, hb, hx⟩ := hinv
    obtain ⟨p, d, s, e, hh, hsr⟩ := decoderFor_held hw hB h1 hs hi true
    obtain ⟨M1, hM1, e1⟩ := decoderFor_scar hM e
    obtain ⟨p', d', hc, hj, k1, k2⟩ := call_harmful (c := .edges corr events) h1 hs hw hB hh (decoderFor_off e) hM1
      (fun h => h (search_len h1 hs hh (.inl (hsr rfl)))) hb hx
    refine ⟨p', ⟨0, fun f _ => ?_⟩, weaker (bool hsr) hj, k1, k2⟩
    simp only [Object.ask, e1, hc f]
  | pairs events =>
    obtain ⟨pre, hb, hx⟩ := hinv
    obtain ⟨p, d, s, e, hh, hsr⟩ := decoderFor_held hw hB h1 hs hi false
    obtain ⟨M1, hM1, e1⟩ := decoderFor_scar hM e
    have hP := (stand_in h1 hs hh.ready).1
    obtain ⟨p', d', hc, hj, k1, k2⟩ := call_harmful (c := .pairs events) h1 hs hw hB hh (decoderFor_off e) hM1
      (fun h => h (by rw [hP]; exact negSum_zero hw hB h1 (hpairs events rfl))) hb hx
    refine ⟨p', ⟨0, fun f _ => ?_⟩, weaker (bool (fun h => (by cases h))) hj, k1, k2⟩
    simp only [Object.ask, e1, hc f]
  | path src dst => exact hinv.elim

omit [IsStrictOrderedRing K] in
theorem history_append (mergeW : K → K → K) : ∀ (ops ops' : List (Op K)) {o o1 o2 : Object K} {as bs : List (Answer K)},
    Completes (fun f => o.history mergeW f ops) (.ok (as, o1)) → Completes (fun f => o1.history mergeW f ops') (.ok (bs, o2)) →
    Completes (fun f => o.history mergeW f (ops ++ ops')) (.ok (as ++ bs, o2)) := by
  have key : ∀ (ops ops' : List (Op K)) {o o1 o2 : Object K} {as bs : List (Answer K)} (f : Nat), o.history mergeW f ops = some (.ok (as, o1)) →
      o1.history mergeW f ops' = some (.ok (bs, o2)) → o.history mergeW f (ops ++ ops') = some (.ok (as ++ bs, o2)) := by
    intro ops
    induction ops with
    | nil =>
      intro ops' o o1 o2 as bs f h1 h2
      cases h1
      exact h2
    | cons op ops ih =>
      intro ops' o o1 o2 as bs f h1 h2
      cases op with
      | modify c => exact ih ops' f h1 h2
      | ask q =>
        simp only [Object.history, List.cons_append] at h1 ⊢
        cases ha : o.ask f q with
        | none => rw [ha] at h1; cases h1
        | some r =>
          rw [ha] at h1
          cases r with
          | ub => cases h1
          | throws => cases h1
          | ok r =>
            obtain ⟨a, o'⟩ := r
            simp only at h1 ⊢
            cases hh : o'.history mergeW f ops with
            | none => rw [hh] at h1; cases h1
            | some x =>
              rw [hh] at h1
              cases x with
              | ub => cases h1
              | throws => cases h1
              | ok x =>
                obtain ⟨as', o''⟩ := x
                simp only [Res.bind, Option.some.injEq, Res.ok.injEq, Prod.mk.injEq] at h1
                obtain ⟨rfl, rfl⟩ := h1
                rw [ih ops' f hh h2]
                rfl
  rintro ops ops' o o1 o2 as bs ⟨f1, h1⟩ ⟨f2, h2⟩
  exact ⟨max f1 f2, fun f hf => key ops ops' f (h1 f (le_trans (le_max_left _ _) hf)) (h2 f (le_trans (le_max_right _ _) hf))⟩

omit [IsStrictOrderedRing K] in
theorem history_jammed (mergeW : K → K → K) {o : Object K} {b : Bool} (hj : Jammed o b) (f : Nat) : ∀ (qs : List Query),
    (∀ q ∈ qs, (∀ x y, q ≠ .path x y) ∧ (∀ ps pp corr cols, q ≠ .batch ps pp corr cols []) ∧ (search q = true → b = true)) →
    o.history mergeW f (qs.map .ask) = some (.ok (qs.map (fun _ => .exception), o)) := by
  intro qs
  induction qs with
  | nil => intro _; rfl
  | cons q qs ih =>
    intro h
    obtain ⟨h1, h2, h3⟩ := h q (by simp)
    simp only [List.map_cons, Object.history, ask_jammed hj h1 h2 h3 f, ih (fun q' hq' => h q' (by simp [hq'])), Res.bind]

omit [IsStrictOrderedRing K] [FloorRing K] in
theorem wf_after (mergeW : K → K → K) : ∀ (ops : List (Op K)) {g : UGraph K}, WF g → Props.Convert.BndOk g →
    WF (graphAfter mergeW g ops) ∧ Props.Convert.BndOk (graphAfter mergeW g ops) := by
  intro ops
  induction ops with
  | nil => exact fun hw hB => ⟨hw, hB⟩
  | cons op ops ih =>
    intro g hw hB
    cases op with
    | modify c => exact ih (wf_exec mergeW hw c) (Props.Convert.bndOk_exec mergeW hB c)
    | ask q => exact ih hw hB

omit [IsStrictOrderedRing K] [FloorRing K] in
/-- A modification that changes the graph sets the flag. -/
theorem changes_flag (mergeW : K → K → K) {g g' : UGraph K} (hw : WF g) (hs : SameBut g g') {c : Call K} (hc : Changes mergeW g c) :
    (exec mergeW g' c).1.needsUpdating = true := by
  obtain ⟨b, rfl⟩ := id hs
  have hw' : WF ({ g with needsUpdating := b } : UGraph K) := ⟨hw.fwd1, hw.fwd2, hw.back, hw.uniq⟩
  obtain ⟨b', hg'⟩ := exec_but mergeW hs c
  rcases hc with ⟨l, rfl⟩ | hc
  · rfl
  · rcases Api.exec_flag mergeW _ hw' c with h | ⟨e1, e2, e3, -, e5⟩
    · exact h
    · rw [hg'] at e1 e2 e3
      rcases hc with hc | hc | hc
      · exact absurd e1 hc
      · exact absurd e2 hc
      · exact absurd e3 hc

/-! ## C33 -/

/-- C33 (part).  In any history of modifications and questions, a question with an invalid event raises an exception, and every other question is answered
as by a new object, if the events in front of each invalid event are boundary nodes (for example if it is the first event).
Missing: other events in front of it; the next theorem shows that then it fails. -/
theorem C33_history_partial (mergeW : K → K → K) (without : Bool) (g0 : UGraph K) (hw : WF g0) (hB : Props.Convert.BndOk g0) (ops : List (Op K))
    (hp : Tolerable mergeW without g0 False ops) :
    ∃ as o, Completes (fun f => (Object.of g0 without).history mergeW f ops) (.ok (as, o)) ∧ List.Forall₂ (Expected without) (questions mergeW g0 ops) as := by
  obtain ⟨as, M, o, hc, -, -, hall⟩ := history_scar mergeW without ops g0 False (Object.of g0 without) ∅ hw hB (inv_of g0 without) (fit_empty _)
    (fun h => (by cases h)) hp
  rw [scarO_empty] at hc
  exact ⟨as, scarO M o, hc, hall⟩

/-- C33, what happens otherwise.  After a harmful question, which raises an exception, every question that uses the same decoder raises an exception,
however many are asked and whatever their events; once the graph is changed (or the boundary is set), questions are answered as by a new object again. -/
theorem C33_stuck (mergeW : K → K → K) (without : Bool) (g0 : UGraph K) (hw : WF g0) (hB : Props.Convert.BndOk g0) (ops : List (Op K))
    (hp : Tolerable mergeW without g0 False ops) {bad : Query} (hbad : Harmful (graphAfter mergeW g0 ops) without bad) (qs : List Query)
    (hqs : ∀ q ∈ qs, Again (graphAfter mergeW g0 ops) bad q) (c : Call K) (hc : Changes mergeW (graphAfter mergeW g0 ops) c) (ops' : List (Op K))
    (hp' : Tolerable mergeW without (exec mergeW (graphAfter mergeW g0 ops) c).1 False ops') :
    ∃ as bs o, Completes (fun f => (Object.of g0 without).history mergeW f (ops ++ .ask bad :: (qs.map .ask ++ .modify c :: ops')))
        (.ok (as ++ .exception :: (qs.map (fun _ => .exception) ++ bs), o)) ∧
      List.Forall₂ (Expected without) (questions mergeW g0 ops) as ∧
      List.Forall₂ (Expected without) (questions mergeW (exec mergeW (graphAfter mergeW g0 ops) c).1 ops') bs := by
  obtain ⟨as, M, o1, h1, hi, hM, hall⟩ := history_scar mergeW without ops g0 False (Object.of g0 without) ∅ hw hB (inv_of g0 without) (fit_empty _)
    (fun h => (by cases h)) hp
  rw [scarO_empty] at h1
  obtain ⟨hw1, hB1⟩ := wf_after mergeW ops hw hB
  obtain ⟨o2, ⟨f2, h2⟩, hj, k1, k2⟩ := ask_harmful hw1 hB1 hbad hi hM
  have h3 : ∀ f, o2.history mergeW f (qs.map .ask) = some (.ok (qs.map (fun _ => .exception), o2)) := fun f =>
    history_jammed mergeW hj f qs fun q hq => by
      obtain ⟨a1, a2, a3⟩ := hqs q hq
      refine ⟨a1, a2, fun h => ?_⟩
      rcases a3 h with h | h <;> simp [h]
  have hflag := changes_flag mergeW hw1 k1 hc
  have hinv : Inv (exec mergeW (graphAfter mergeW g0 ops) c).1 without (o2.modify mergeW c) :=
    ⟨exec_but mergeW k1 c, k2, fun h => by
      have h : (exec mergeW o2.graph c).1.needsUpdating = false := h
      rw [hflag] at h; cases h⟩
  obtain ⟨bs, M', o4, h4, -, -, hall'⟩ := history_scar mergeW without ops' _ False (o2.modify mergeW c) ∅ (wf_exec mergeW hw1 c)
    (Props.Convert.bndOk_exec mergeW hB1 c) hinv (fit_empty _) (fun h => by
      have h : (exec mergeW o2.graph c).1.needsUpdating = false := h
      rw [hflag] at h; cases h) hp'
  rw [scarO_empty] at h4
  have h5 : Completes (fun f => o2.history mergeW f (qs.map .ask ++ .modify c :: ops')) (.ok (qs.map (fun _ => .exception) ++ bs, scarO M' o4)) :=
    history_append mergeW _ _ ⟨0, fun f _ => h3 f⟩ h4
  refine ⟨as, bs, scarO M' o4, history_append mergeW _ _ h1 ?_, hall, hall'⟩
  obtain ⟨f5, h5⟩ := h5
  refine ⟨max f2 f5, fun f hf => ?_⟩
  have e2 := h2 f (le_trans (le_max_left _ _) hf)
  have e5 := h5 f (le_trans (le_max_right _ _) hf)
  simp only at e2 e5
  simp only [Object.history, e2, e5, Res.bind]

/-- A graph with two detectors; a bit-packed shot in which only a padding bit is set (event 7) does no harm, one in which also detector 0 is set does. -/
def invalidOps : List (Op ℚ) :=
  [.modify (.add 0 (some 1) [0] 3 0 .disallow), .modify (.add 1 none [] 4 0 .disallow), .ask (.decode false [0]), .ask (.batch true false false 1 [[1], [128]]),
   .ask (.decode false [7, 0]), .ask (.decode false [0, 1])]

/-- The hypotheses of both theorems hold. -/
example : WF (UGraph.new 0 1 : UGraph ℚ) ∧ Props.Convert.BndOk (UGraph.new 0 1 : UGraph ℚ) ∧ Tolerable (fun a _ => a) false (UGraph.new 0 1) False invalidOps ∧
    graphAfter (fun a _ => a) (UGraph.new 0 1) invalidOps = sample1 ∧ Harmful sample1 false (.batch true false false 1 [[129]]) ∧
    (∀ q ∈ [Query.decode false [0], .pairs [1], .batch false false false 2 [[0, 1]]], Again sample1 (.batch true false false 1 [[129]]) q) ∧
    Changes (fun a _ => a) sample1 (.add 0 none [] 1 0 .disallow) ∧
    Tolerable (fun a _ => a) false (exec (fun a _ => a) sample1 (.add 0 none [] 1 0 .disallow)).1 False [.ask (.decode false [0]), .ask (.edges true [0, 1])] := by
  have b1 : ∃ d, toMwpm sample1 false true = some d := Option.isSome_iff_exists.mp (by decide +kernel)
  have b2 : ∃ d, toMwpm sample2 false true = some d := Option.isSome_iff_exists.mp (by decide +kernel)
  have c1 : Covered sample1 := by unfold Covered; decide +kernel
  have c2 : Covered sample2 := by unfold Covered; decide +kernel
  have n2 : NonNeg sample2 := by unfold NonNeg; decide +kernel
  have len : sample1.nodes.length = 2 := by decide +kernel
  have nil : ∀ d rest, 2 ≤ d → Behind sample1 [] (d :: rest) := fun d rest h => ⟨d, rest, rfl, by rw [len]; exact h, by simp [EventsOk]⟩
  refine ⟨wf_new 0 1, Props.Convert.bndOk_new 0 1, ⟨fun h => h.elim, fun h => h.1.elim, .inl ?_, .inr ?_, .inr ?_, .inl ?_, trivial⟩, rfl, ?_, ?_, ?_, ⟨.inl ?_, .inl ?_, trivial⟩⟩
  · exact ⟨b1, c1, by show EventsOk sample1 [0]; unfold EventsOk; decide +kernel, fun h => (by cases h)⟩
  · refine ⟨b1, c1, ⟨by decide +kernel, [[1]], [128], [], [], rfl, ?_, nil 7 [] (by omega), by simp⟩, fun h => (by cases h)⟩
    intro r hr
    simp only [List.mem_singleton] at hr
    subst hr
    exact ⟨by decide +kernel, trivial⟩
  · exact ⟨b1, c1, ⟨[], nil 7 [0] (by omega), by simp⟩, fun h => (by cases h)⟩
  · exact ⟨b1, c1, by show EventsOk sample1 [0, 1]; unfold EventsOk; decide +kernel, fun h => (by cases h)⟩
  · refine ⟨b1, c1, ⟨by decide +kernel, [], [129], [], [0], rfl, by simp, ⟨7, [], by decide, by rw [len]; omega, by unfold EventsOk; decide +kernel⟩, 0, by simp,
      ⟨by decide +kernel, by decide +kernel, by decide +kernel⟩⟩, fun h => (by cases h), fun ev h => (by cases h)⟩
  · intro q hq
    simp only [List.mem_cons, List.not_mem_nil, or_false] at hq
    rcases hq with rfl | rfl | rfl <;> refine ⟨fun _ _ h => (by cases h), fun _ _ _ _ h => (by cases h), fun h => (by cases h)⟩
  · exact .inr (.inr (.inl (fun h => absurd (congrArg List.length h) (by decide +kernel))))
  · exact ⟨b2, c2, by show EventsOk sample2 [0]; unfold EventsOk; decide +kernel, fun h => (by cases h)⟩
  · exact ⟨b2, c2, by show EventsOk sample2 [0, 1]; unfold EventsOk; decide +kernel, fun _ => n2⟩

end Verif.Props.Invalid
