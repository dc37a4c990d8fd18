import Verif.Props.Correlated
import Verif.Blossom.RenameRun
import Verif.SearchReuse

/-!
# Decoding one shot does not affect the next (C32)

A session is any sequence of calls of any kind on one decoder.  Every call gets the reply that it gets as the only call of a session.
-/

namespace Verif.Props.Shots

open Verif Verif.Graph Verif.CE Verif.SB Verif.Props.Graph Verif.Props.NegWeights Verif.Props.Decode Verif.Props.Edges Verif.Props.Convert
open Verif.Props.Correlated Verif.UG Verif.Conv
open Verif.Sch (Res Fresh SS)

variable {K : Type} [Field K] [LinearOrder K] [FloorRing K]

/-! ## Specification -/

/-- What the caller gets to see. -/
inductive Reply where
  | predictions (buf : List (BitVec 8)) (weight : Int)
  | edges (es : List (Nat × Option Nat))
  | mask (mask : ObsInt) (weight : Int)
  | pairs (ps : List CompressedEdge)
  | exception
deriving DecidableEq

/-- The reply to a call, and the decoder after it. -/
def tell {α : Type} (v : α → Reply) : Option (EndedC (CState × α)) → Option (Res (Reply × CState))
  | none => none
  | some .ub => some .ub
  | some (.throws st) => some (.ok (.exception, st))
  | some (.ok (st, a)) => some (.ok (v a, st))

/-- One call. -/
def respond [W : Width] (g : MGraph) (sg : SGraph) (bnd : List Bool) (m : ObsInt) (C : Corr) (f : Nat) (st : CState) : Call → Option (Res (Reply × CState))
  | .obs true events buf w => tell (fun a => .predictions a.1 a.2) (decodeObsCorr g sg bnd m C f st events buf w)
  | .obs false events buf w => tell (fun a => .predictions a.1 a.2) (plain g sg (fun g sg F => decodeObs g sg bnd m f F events buf w) st)
  | .edges true events => tell .edges (decodeEdgesCorr g sg bnd C f st events)
  | .edges false events => tell .edges (plain g sg (fun g sg F => decodeEdges g sg bnd f F events) st)
  | .mask true events => tell (fun a => .mask a.1 a.2) (decode64Corr g sg bnd m C f st events)
  | .mask false events => tell (fun a => .mask a.1 a.2) (plain g sg (call64 bnd m f events) st)
  | .pairs events => tell .pairs (plain g sg (callPairs bnd f events) st)

/-- Any sequence of calls on one decoder: the replies, and the decoder afterwards. -/
def session [W : Width] (g : MGraph) (sg : SGraph) (bnd : List Bool) (m : ObsInt) (C : Corr) (f : Nat) : CState → List Call → Option (Res (List Reply × CState))
  | st, [] => some (.ok ([], st))
  | st, c :: cs =>
    match respond g sg bnd m C f st c with
    | none => none
    | some .ub => some .ub
    | some .throws => some .throws
    | some (.ok (r, st')) =>
      match session g sg bnd m C f st' cs with
      | none => none
      | some x => some (x.bind fun (rs, st'') => .ok (r :: rs, st''))

/-- `r` is the reply to the call on a new decoder. -/
def Alone [W : Width] (g : MGraph) (sg : SGraph) (bnd : List Bool) (m : ObsInt) (C : Corr) (c : Call) (r : Reply) : Prop :=
  ∃ st, Completes (fun f => session g sg bnd m C f (CState.init g sg) [c]) (.ok ([r], st))

/-- The call asks for correlations. -/
def asksCorr : Call → Bool
  | .obs corr _ _ _ => corr
  | .edges corr _ => corr
  | .mask corr _ => corr
  | .pairs _ => false

/-- The decoder holds nothing of earlier calls: no node is occupied, no event is queued, all regions and alternating tree nodes are free, the search
has reached no node, no edge is marked, and all weights are as they were built. -/
structure AtRest (g : MGraph) (sg : SGraph) (st : CState) : Prop where
  nodes : ∀ n, st.full.ms.fl.node n = .blank
  queue : st.full.ms.fl.w.q.num = 0 ∧ ∀ b, st.full.ms.fl.w.q.buckets b = []
  regions : st.full.ms.fl.regs.available.Perm st.full.ms.fl.regs.allocated
  trees : st.full.ms.alts.available.Perm st.full.ms.alts.allocated
  reached : ∀ u, st.full.ss.reached u = none ∧ st.full.ss.pred u = none
  searchQueue : st.full.ss.w.q.num = 0 ∧ ∀ b, st.full.ss.w.q.buckets b = []
  marks : ∀ u i, st.full.marks u i = false
  weights : st.wg = ⟨memM g, []⟩ ∧ st.ws = ⟨memS sg, []⟩

/-! ## Lemmas -/

/-- Both calls end alike, and leave decoders at rest. -/
def Same {α : Type} (c0 c : Nat → Option (Ended (Full × α))) : Prop :=
  (∃ F0 F a, Completes c0 (.ok (F0, a)) ∧ Completes c (.ok (F, a)) ∧ Idle F0 ∧ Idle F) ∨
  (∃ F0 F, Completes c0 (.throws F0) ∧ Completes c (.throws F) ∧ Idle F0 ∧ Idle F)

/-- The call ends and leaves a decoder at rest. -/
def Safe {α : Type} (c : Nat → Option (Ended (Full × α))) : Prop :=
  (∃ F a, Completes c (.ok (F, a)) ∧ Idle F) ∨ (∃ F, Completes c (.throws F) ∧ Idle F)

/-- Whatever the call does on a new decoder, it does on `F`. -/
def Follows {α : Type} (call : Nat → Full → Option (Ended (Full × α))) (F : Full) : Prop :=
  ∀ f, (∀ F0 a, call f Full.init = some (.ok (F0, a)) → ∃ F', call f F = some (.ok (F', a))) ∧
    (∀ F0, call f Full.init = some (.throws F0) → ∃ F', call f F = some (.throws F'))

theorem idle_init : Idle Full.init := ⟨Clean.init, Verif.Props.Search.fresh_init, rfl⟩

theorem same_of {α : Type} {call : Nat → Full → Option (Ended (Full × α))} (hs : ∀ F, Idle F → Safe fun f => call f F) (hf : ∀ F, Idle F → Follows call F)
    {F0 F : Full} (h0 : Idle F0) (h : Idle F) : Same (fun f => call f F0) (fun f => call f F) := by
  have key : ∀ F, Idle F → (∀ I a, Completes (fun f => call f Full.init) (.ok (I, a)) → ∃ F', Completes (fun f => call f F) (.ok (F', a)) ∧ Idle F') ∧
      (∀ I, Completes (fun f => call f Full.init) (.throws I) → ∃ F', Completes (fun f => call f F) (.throws F') ∧ Idle F') := by
    intro F hF
    constructor
    · rintro I a ⟨f1, h1⟩
      rcases hs F hF with ⟨F', b, ⟨f2, h2⟩, h3⟩ | ⟨F', ⟨f2, h2⟩, h3⟩
      all_goals
        have e1 := h1 (max f1 f2) (le_max_left _ _)
        have e2 := h2 (max f1 f2) (le_max_right _ _)
        simp only at e1 e2
        obtain ⟨F1, e3⟩ := (hf F hF _).1 _ _ e1
        rw [e2] at e3
        cases e3
      exact ⟨F', ⟨f2, h2⟩, h3⟩
    · rintro I ⟨f1, h1⟩
      rcases hs F hF with ⟨F', b, ⟨f2, h2⟩, h3⟩ | ⟨F', ⟨f2, h2⟩, h3⟩
      all_goals
        have e1 := h1 (max f1 f2) (le_max_left _ _)
        have e2 := h2 (max f1 f2) (le_max_right _ _)
        simp only at e1 e2
        obtain ⟨F1, e3⟩ := (hf F hF _).2 _ e1
        rw [e2] at e3
        cases e3
      exact ⟨F', ⟨f2, h2⟩, h3⟩
  rcases hs _ idle_init with ⟨I, a, h1, -⟩ | ⟨I, h1, -⟩
  · obtain ⟨G0, k1, k2⟩ := (key F0 h0).1 _ _ h1
    obtain ⟨G, l1, l2⟩ := (key F h).1 _ _ h1
    exact .inl ⟨G0, G, a, k1, l1, k2, l2⟩
  · obtain ⟨G0, k1, k2⟩ := (key F0 h0).2 _ h1
    obtain ⟨G, l1, l2⟩ := (key F h).2 _ h1
    exact .inr ⟨G0, G, k1, l1, k2, l2⟩

theorem searchAll_sim (sg : SGraph) (f : Nat) (es : List CompressedEdge) : ∀ {a b : SS}, Sch.Alike a b →
    Sch.DOpt (fun x y => y.2 = x.2 ∧ Sch.Alike x.1 y.1) (searchAll sg f a es) (searchAll sg f b es) := by
  induction es with
  | nil => intro a b h; exact .some (.ok ⟨rfl, h⟩)
  | cons e es ih =>
    intro a b h
    simp only [searchAll]
    cases e.locFrom with
    | none => exact .some .ub
    | some u =>
      simp only
      have hp := Sch.pathFromMiddle_sim (g := sg) h f u e.locTo
      revert hp
      generalize Sch.pathFromMiddle sg f a u e.locTo = x
      generalize Sch.pathFromMiddle sg f b u e.locTo = y
      intro hp
      cases hp with
      | none => exact .none
      | some hp =>
        cases hp with
        | ub => exact .some .ub
        | throws => exact .some .throws
        | ok hp =>
          rename_i p q
          obtain ⟨p, s⟩ := p
          obtain ⟨q, s'⟩ := q
          obtain ⟨h1, h2⟩ := hp
          simp only at h1 h2
          subst h1
          have hr := ih h2
          simp only
          revert hr
          generalize searchAll sg f s es = x
          generalize searchAll sg f s' es = y
          intro hr
          cases hr with
          | none => exact .none
          | some hr =>
            cases hr with
            | ub => exact .some .ub
            | throws => exact .some .throws
            | ok hr =>
              rename_i p q
              obtain ⟨p, s⟩ := p
              obtain ⟨q, s'⟩ := q
              obtain ⟨h1, h2⟩ := hr
              simp only at h1 h2
              subst h1
              exact .some (.ok ⟨rfl, h2⟩)

section

variable {numNodes numObs : Nat} {ops : List EdgeIns} {ins : List (Conv.Ins K)} {k : K} {g : MGraph} {sg : SGraph} {m : ObsInt} {C : Corr}
  {bnd : List Bool}

theorem matching_follows (hB : Built numNodes numObs ops g sg m) (hb : ∀ d ∈ g.negDets, TL.notBoundary bnd d = true) {s : MS} (hs : Clean s)
    {events : List Nat} (hv : Valid g events) (f : Nat) :
    (∀ a x, matching g bnd (negEvents g) f MS.init events = some (.ok (a, x)) → ∃ b, matching g bnd (negEvents g) f s events = some (.ok (b, x))) ∧
    (∀ a, matching g bnd (negEvents g) f MS.init events = some (.throws a) → ∃ b, matching g bnd (negEvents g) f s events = some (.throws b)) :=
  matching_sim (proper_of_run hB.matching hB.edges.pairs hB.edges.even hB.edges.small) hs bnd hv.range hv.nodup
    (fun d hd => hb d (((neg_sort g).2 d).1 hd)) (neg_sort g).1 f

theorem obs_follows (hB : Built numNodes numObs ops g sg m) (hb : ∀ d ∈ g.negDets, TL.notBoundary bnd d = true) {events : List Nat} (hv : Valid g events)
    (buf : List (BitVec 8)) (w0 : Int) {F : Full} (hF : Idle F) : Follows (fun f F => decodeObs g sg bnd m f F events buf w0) F := by
  intro f
  obtain ⟨h1, h2⟩ := matching_follows hB hb hF.ms hv f
  have hi : Full.init.ms = MS.init := rfl
  simp only [decodeObs, hi]
  cases hm : matching g bnd (negEvents g) f MS.init events with
  | none => exact ⟨fun _ _ h => (by cases h), fun _ h => (by cases h)⟩
  | some o =>
    cases o with
    | ub => exact ⟨fun _ _ h => (by cases h), fun _ h => (by cases h)⟩
    | throws a =>
      obtain ⟨b, hb⟩ := h2 _ hm
      rw [hb]
      exact ⟨fun _ _ h => (by cases h), fun _ _ => ⟨_, rfl⟩⟩
    | ok r =>
      obtain ⟨a, x⟩ := r
      obtain ⟨b, hb⟩ := h1 _ _ hm
      rw [hb]
      simp only
      by_cases hbig : g.numObs > 64
      · simp only [hbig, if_true]
        have hs := searchAll_sim sg f x.edges (Sch.fresh_alike idle_init.ss hF.ss)
        revert hs
        generalize searchAll sg f Full.init.ss x.edges = y
        generalize searchAll sg f F.ss x.edges = z
        intro hs
        cases hs with
        | none => exact ⟨fun _ _ h => (by cases h), fun _ h => (by cases h)⟩
        | some hs =>
          cases hs with
          | ub => exact ⟨fun _ _ h => (by cases h), fun _ h => (by cases h)⟩
          | throws => exact ⟨fun _ _ h => (by cases h), fun _ _ => ⟨_, rfl⟩⟩
          | ok hs =>
            rename_i p q
            obtain ⟨s, p⟩ := p
            obtain ⟨s', q⟩ := q
            obtain ⟨k1, k2⟩ := hs
            simp only at k1 k2
            subst k1
            simp only
            cases (takeEdges sg buf w0 q).bind fun (buf', w) => (flipBytes buf' (negObservables g)).bind fun buf'' => .ok (buf'', w + g.negSum) with
            | ub => exact ⟨fun _ _ h => (by cases h), fun _ h => (by cases h)⟩
            | throws => exact ⟨fun _ _ h => (by cases h), fun _ _ => ⟨_, rfl⟩⟩
            | ok r => exact ⟨fun _ _ h => (by cases h; exact ⟨_, rfl⟩), fun _ h => (by cases h)⟩
      · simp only [hbig, if_false]
        cases Obs.fillBitVector (x.mask ^^^ m) buf g.numObs with
        | ub => exact ⟨fun _ _ h => (by cases h), fun _ h => (by cases h)⟩
        | throws => exact ⟨fun _ _ h => (by cases h), fun _ _ => ⟨_, rfl⟩⟩
        | ok r => exact ⟨fun _ _ h => (by cases h; exact ⟨_, rfl⟩), fun _ h => (by cases h)⟩

theorem edges_follows (hB : Built numNodes numObs ops g sg m) (hb : ∀ d ∈ g.negDets, TL.notBoundary bnd d = true) {events : List Nat} (hv : Valid g events)
    {F : Full} (hF : Idle F) : Follows (fun f F => decodeEdges g sg bnd f F events) F := by
  intro f
  obtain ⟨h1, h2⟩ := matching_follows hB hb hF.ms hv f
  have hi : Full.init.ms = MS.init := rfl
  have hmk : F.marks = Full.init.marks := hF.marks
  simp only [decodeEdges, hi, hmk]
  split
  · exact ⟨fun _ _ h => (by cases h), fun _ _ => ⟨_, rfl⟩⟩
  cases hm : matching g bnd (negEvents g) f MS.init events with
  | none => exact ⟨fun _ _ h => (by cases h), fun _ h => (by cases h)⟩
  | some o =>
    cases o with
    | ub => exact ⟨fun _ _ h => (by cases h), fun _ h => (by cases h)⟩
    | throws a =>
      obtain ⟨b, hb⟩ := h2 _ hm
      rw [hb]
      exact ⟨fun _ _ h => (by cases h), fun _ _ => ⟨_, rfl⟩⟩
    | ok r =>
      obtain ⟨a, x⟩ := r
      obtain ⟨b, hb⟩ := h1 _ _ hm
      rw [hb]
      simp only
      have hs := searchAll_sim sg f x.edges (Sch.fresh_alike idle_init.ss hF.ss)
      revert hs
      generalize searchAll sg f Full.init.ss x.edges = y
      generalize searchAll sg f F.ss x.edges = z
      intro hs
      cases hs with
      | none => exact ⟨fun _ _ h => (by cases h), fun _ h => (by cases h)⟩
      | some hs =>
        cases hs with
        | ub => exact ⟨fun _ _ h => (by cases h), fun _ h => (by cases h)⟩
        | throws => exact ⟨fun _ _ h => (by cases h), fun _ _ => ⟨_, rfl⟩⟩
        | ok hs =>
          rename_i p q
          obtain ⟨s, p⟩ := p
          obtain ⟨s', q⟩ := q
          obtain ⟨k1, k2⟩ := hs
          simp only at k1 k2
          subst k1
          simp only
          cases Sch.toEdges sg Full.init.marks sg.negEdges q with
          | ub => exact ⟨fun _ _ h => (by cases h), fun _ h => (by cases h)⟩
          | throws => exact ⟨fun _ _ h => (by cases h), fun _ _ => ⟨_, rfl⟩⟩
          | ok r => exact ⟨fun _ _ h => (by cases h; exact ⟨_, rfl⟩), fun _ h => (by cases h)⟩

theorem mask_follows (hB : Built numNodes numObs ops g sg m) (hb : ∀ d ∈ g.negDets, TL.notBoundary bnd d = true) {events : List Nat} (hv : Valid g events)
    {F : Full} (hF : Idle F) : Follows (fun f F => call64 bnd m f events g sg F) F := by
  intro f
  obtain ⟨h1, h2⟩ := matching_follows hB hb hF.ms hv f
  have hi : Full.init.ms = MS.init := rfl
  simp only [call64, decode64, hi]
  cases hm : matching g bnd (negEvents g) f MS.init events with
  | none => exact ⟨fun _ _ h => (by cases h), fun _ h => (by cases h)⟩
  | some o =>
    cases o with
    | ub => exact ⟨fun _ _ h => (by cases h), fun _ h => (by cases h)⟩
    | throws a =>
      obtain ⟨b, hb⟩ := h2 _ hm
      rw [hb]
      exact ⟨fun _ _ h => (by cases h), fun _ _ => ⟨_, rfl⟩⟩
    | ok r =>
      obtain ⟨a, x⟩ := r
      obtain ⟨b, hb⟩ := h1 _ _ hm
      rw [hb]
      exact ⟨fun _ _ h => (by cases h; exact ⟨_, rfl⟩), fun _ h => (by cases h)⟩

theorem pairs_follows (hB : Built numNodes numObs ops g sg m) (hb : ∀ d ∈ g.negDets, TL.notBoundary bnd d = true) {events : List Nat} (hv : Valid g events)
    {F : Full} (hF : Idle F) : Follows (fun f F => callPairs bnd f events g sg F) F := by
  intro f
  have hg := proper_of_run hB.matching hB.edges.pairs hB.edges.even hB.edges.small
  obtain ⟨h1, h2⟩ := timeline_sim hg hF.ms bnd hv.range hv.nodup (fun d hd => hb d (((neg_sort g).2 d).1 hd)) (neg_sort g).1 f
  have hi : Full.init.ms = MS.init := rfl
  simp only [callPairs, decodePairs, hi]
  by_cases hsum : g.negSum ≠ 0
  · simp only [if_pos hsum]
    exact ⟨fun _ _ h => (by cases h), fun _ _ => ⟨_, rfl⟩⟩
  simp only [if_neg hsum]
  have hnil : negEvents g = [] := by
    rw [List.eq_nil_iff_forall_not_mem]
    intro d hd
    rw [(neg_sort g).2, no_negatives hB.matching (by simpa using hsum)] at hd
    simp at hd
  rw [hnil] at h1 h2 ⊢
  rcases timeline_spec hg Clean.init bnd hv.range hv.nodup (neg := []) (by simp) (by simp) f with e | ⟨s1, t, L, ch, e, hd, ha⟩ | ⟨s1, e, -, -⟩
  · rw [e]
    exact ⟨fun _ _ h => (by cases h), fun _ h => (by cases h)⟩
  · obtain ⟨b, R, B, eb, hr⟩ := h1 _ e
    obtain ⟨s', x, e1, -⟩ := extractAll_spec hd ha (ns := events) (by
      intro a ha
      rw [mem_startedOf] at ha
      by_contra hc
      exact ha ⟨fun h => absurd h.1 hc, fun h => by simp at h⟩)
    obtain ⟨⟨q, y⟩, k1, k2, k3⟩ := extractAll_sim events Extract.zero hr _ e1
    simp only at k2 k3
    subst k3
    rw [e, eb]
    simp only [e1, k1]
    exact ⟨fun _ _ h => (by cases h; exact ⟨_, rfl⟩), fun _ h => (by cases h)⟩
  · obtain ⟨b, eb⟩ := h2 _ e
    rw [e, eb]
    exact ⟨fun _ _ h => (by cases h), fun _ _ => ⟨_, rfl⟩⟩

theorem safe_of {α : Type} {call : Nat → MGraph → SGraph → Full → Option (Ended (Full × α))} {events : List Nat}
    {P : ∀ ops : List EdgeIns, Correction ops → α → Prop} (hp : Promises numNodes numObs bnd m events call P) (hB : Built numNodes numObs ops g sg m)
    (hb : ∀ d ∈ g.negDets, TL.notBoundary bnd d = true) (hv : Valid g events) {F : Full} (hF : Idle F) : Safe fun f => call f g sg F := by
  rcases hp ops g sg hB hb hv F hF with ⟨F', a, h1, h2, -⟩ | ⟨F', h1, h2, -⟩
  · exact .inl ⟨F', a, h1, h2⟩
  · exact .inr ⟨F', h1, h2⟩

theorem pairs_safe (hB : Built numNodes numObs ops g sg m) (hb : ∀ d ∈ g.negDets, TL.notBoundary bnd d = true) {events : List Nat} (hv : Valid g events)
    {F : Full} (hF : Idle F) : Safe fun f => callPairs bnd f events g sg F := by
  have hg := proper_of_run hB.matching hB.edges.pairs hB.edges.even hB.edges.small
  obtain ⟨f0, o, ho⟩ := timeline_ends hg hF.ms bnd hv.range hv.nodup (fun d hd => hb d (((neg_sort g).2 d).1 hd)) (neg_sort g).1
  have hconst : ∀ f, f0 ≤ f → callPairs bnd f events g sg F = callPairs bnd f0 events g sg F := by
    intro f hf
    simp only [callPairs, decodePairs, ho f hf, ho f0 (le_refl _)]
  have hn : decodePairs g bnd (negEvents g) g.negSum f0 F.ms events ≠ none := by
    simp only [decodePairs, ho f0 (le_refl _)]
    split
    · simp
    · cases o with
      | ub => simp
      | throws s => simp
      | ok s =>
        simp only
        cases extractAll s events Extract.zero <;> simp
  rcases decodePairs_cases hg (no_negatives hB.matching) bnd hF.ms hv f0 with ⟨-, e⟩ | ⟨-, e | ⟨s', x, e, h1, -⟩ | ⟨s', e, h1, -⟩⟩
  · exact .inr ⟨F, ⟨f0, fun f hf => (hconst f hf).trans (by rw [callPairs, e])⟩, hF⟩
  · exact absurd e hn
  · exact .inl ⟨{ F with ms := s' }, x.edges, ⟨f0, fun f hf => (hconst f hf).trans (by rw [callPairs, e])⟩, ⟨h1, hF.ss, hF.marks⟩⟩
  · exact .inr ⟨{ F with ms := s' }, ⟨f0, fun f hf => (hconst f hf).trans (by rw [callPairs, e])⟩, ⟨h1, hF.ss, hF.marks⟩⟩

/-- The same for calls on decoders with correlations. -/
def SameC {α : Type} (g : MGraph) (sg : SGraph) (c0 c : Nat → Option (EndedC (CState × α))) : Prop :=
  (∃ st0 st a, Completes c0 (.ok (st0, a)) ∧ Completes c (.ok (st, a)) ∧ Rest g sg st) ∨
  (∃ st0 st, Completes c0 (.throws st0) ∧ Completes c (.throws st) ∧ Rest g sg st)

theorem plain_same {α : Type} {call : Nat → MGraph → SGraph → Full → Option (Ended (Full × α))} {st0 st : CState} (h0 : Rest g sg st0) (h : Rest g sg st)
    (hs : Same (fun f => call f g sg st0.full) (fun f => call f g sg st.full)) : SameC g sg (fun f => plain g sg (call f) st0) (fun f => plain g sg (call f) st) := by
  have e0 : withM g st0.wg.mem = g := by rw [h0.matching]; exact withM_mem g
  have e0' : withS sg st0.ws.mem = sg := by rw [h0.search]; exact withS_mem sg
  have e1 : withM g st.wg.mem = g := by rw [h.matching]; exact withM_mem g
  have e1' : withS sg st.ws.mem = sg := by rw [h.search]; exact withS_mem sg
  rcases hs with ⟨F0, F, a, h1, h2, -, h4⟩ | ⟨F0, F, h1, h2, -, h4⟩
  · exact .inl ⟨_, _, a, plain_ok (F := F0) (by rw [e0, e0']; exact h1), plain_ok (F := F) (by rw [e1, e1']; exact h2), ⟨h4, h.matching, h.search⟩⟩
  · exact .inr ⟨_, _, plain_throws (F := F0) (by rw [e0, e0']; exact h1), plain_throws (F := F) (by rw [e1, e1']; exact h2), ⟨h4, h.matching, h.search⟩⟩

theorem edges_same (hB : Built numNodes numObs ops g sg m) (hb : ∀ d ∈ g.negDets, TL.notBoundary bnd d = true) {events : List Nat} (hv : Valid g events)
    {F0 F : Full} (h0 : Idle F0) (h : Idle F) : Same (fun f => decodeEdges g sg bnd f F0 events) (fun f => decodeEdges g sg bnd f F events) :=
  same_of (call := fun f F => decodeEdges g sg bnd f F events) (fun _ hF => safe_of (promise_edges numNodes numObs bnd m events) hB hb hv hF)
    (fun _ hF => edges_follows hB hb hv hF) h0 h

theorem firstPass_same (hB : BuiltCorr numNodes numObs ins k g sg m C) (hb : ∀ d ∈ g.negDets, TL.notBoundary bnd d = true) {st0 st : CState}
    (h0 : Rest g sg st0) (h : Rest g sg st) {events : List Nat} (hv : Valid g events) :
    (∃ F0 F es rs, Completes (fun f => firstPass g sg bnd C f st0 events)
        (.ok ⟨F0, (⟨memM g, []⟩ : RW.State).apply rs, (⟨memS sg, []⟩ : RW.State).apply rs⟩) ∧
      Completes (fun f => firstPass g sg bnd C f st events) (.ok ⟨F, (⟨memM g, []⟩ : RW.State).apply rs, (⟨memS sg, []⟩ : RW.State).apply rs⟩) ∧
      Idle F0 ∧ Idle F ∧ RulesFor (adjM g) k ins es rs) ∨
    (∃ st0' st', Completes (fun f => firstPass g sg bnd C f st0 events) (.throws st0') ∧ Completes (fun f => firstPass g sg bnd C f st events) (.throws st') ∧
      Rest g sg st') := by
  have hg := proper_of_run hB.built.matching hB.built.edges.pairs hB.built.edges.even hB.built.edges.small
  obtain ⟨G0, wg0, ws0⟩ := st0
  obtain ⟨hG0, h1, h2⟩ := h0
  simp only at h1 h2 hG0
  subst h1 h2
  obtain ⟨G, wg, ws⟩ := st
  obtain ⟨hG, h1, h2⟩ := h
  simp only at h1 h2 hG
  subst h1 h2
  have hM : withM g (memM g) = g := withM_mem g
  have hS : withS sg (memS sg) = sg := withS_mem sg
  rcases edges_same hB.built hb hv hG0 hG with ⟨F0, F, es, ⟨f0, e0⟩, ⟨f1, e1⟩, i0, i1⟩ | ⟨F0, F, ⟨f0, e0⟩, ⟨f1, e1⟩, i0, i1⟩
  · cases hw : C.without with
    | true =>
      right
      refine ⟨⟨F0, ⟨memM g, []⟩, ⟨memS sg, []⟩⟩, ⟨F, ⟨memM g, []⟩, ⟨memS sg, []⟩⟩, ⟨f0, fun f hf => ?_⟩, ⟨f1, fun f hf => ?_⟩, ⟨i1, rfl, rfl⟩⟩
      · have := e0 f hf
        simp only at this
        simp only [firstPass, plain, hM, hS, this, hw, if_true]
      · have := e1 f hf
        simp only at this
        simp only [firstPass, plain, hM, hS, this, hw, if_true]
    | false =>
      left
      have hat : ∀ e ∈ es, ∃ z, At (adjM g) e.1 z e.2 := by
        rcases decodeEdges_spec hB.built hb hG hv with ⟨F', es', h1, -, c, -, -, h5⟩ | ⟨F', h1, -⟩
        · have := completes_unique ⟨f1, e1⟩ h1
          cases this
          exact listed_at hB.built h5
        · have := completes_unique ⟨f1, e1⟩ h1
          cases this
      obtain ⟨rs, k1, k2⟩ := reweightFor_spec (linked_run hB.built.matching) (fair_of_proper hg) hB.rulesM es ⟨memM g, []⟩ hat
      have k3 := k1
      rw [← mem_same hB.built] at k3
      refine ⟨F0, F, es, rs, ⟨f0, fun f hf => ?_⟩, ⟨f1, fun f hf => ?_⟩, i0, i1, k2⟩
      · have := e0 f hf
        simp only at this
        simp only [firstPass, plain, hM, hS, this, hw, Bool.false_eq_true, if_false, k1, adj_same hB.built, rules_same hB, k3]
      · have := e1 f hf
        simp only at this
        simp only [firstPass, plain, hM, hS, this, hw, Bool.false_eq_true, if_false, k1, adj_same hB.built, rules_same hB, k3]
  · right
    refine ⟨⟨F0, ⟨memM g, []⟩, ⟨memS sg, []⟩⟩, ⟨F, ⟨memM g, []⟩, ⟨memS sg, []⟩⟩, ⟨f0, fun f hf => ?_⟩, ⟨f1, fun f hf => ?_⟩, ⟨i1, rfl, rfl⟩⟩
    · have := e0 f hf
      simp only at this
      simp only [firstPass, plain, hM, hS, this]
    · have := e1 f hf
      simp only at this
      simp only [firstPass, plain, hM, hS, this]

/-- A kind of call that does the same on all decoders at rest. -/
def Steady {α : Type} (numNodes numObs : Nat) (bnd : List Bool) (m : ObsInt) (events : List Nat)
    (call : Nat → MGraph → SGraph → Full → Option (Ended (Full × α))) : Prop :=
  ∀ (ops : List EdgeIns) (g : MGraph) (sg : SGraph), Built numNodes numObs ops g sg m → (∀ d ∈ g.negDets, TL.notBoundary bnd d = true) → Valid g events →
    ∀ F0 F, Idle F0 → Idle F → Same (fun f => call f g sg F0) (fun f => call f g sg F)

theorem correlated_same {α : Type} (hB : BuiltCorr numNodes numObs ins k g sg m C) (hb : ∀ d ∈ g.negDets, TL.notBoundary bnd d = true) {st0 st : CState}
    (h0 : Rest g sg st0) (h : Rest g sg st) {events : List Nat} (hv : Valid g events) {second : Nat → MGraph → SGraph → Full → Option (Ended (Full × α))}
    {P : ∀ ops : List EdgeIns, Correction ops → α → Prop} (hp : Promises numNodes numObs bnd m events second P) (hs : Steady numNodes numObs bnd m events second) :
    SameC g sg (fun f => correlated g sg bnd C f (second f) st0 events) (fun f => correlated g sg bnd C f (second f) st events) := by
  have hrest : ∀ st', (∃ a, Completes (fun f => correlated g sg bnd C f (second f) st events) (.ok (st', a))) ∨
      Completes (fun f => correlated g sg bnd C f (second f) st events) (.throws st') → Rest g sg st' := by
    intro st' hc
    rcases correlated_spec hB hb h hv hp with ⟨st1, a, e, -, h2, -⟩ | ⟨st1, e, h2, -⟩
    · rcases hc with ⟨b, hc⟩ | hc
      · have := completes_unique hc e; cases this; exact h2
      · have := completes_unique hc e; cases this
    · rcases hc with ⟨b, hc⟩ | hc
      · have := completes_unique hc e; cases this
      · have := completes_unique hc e; cases this; exact h2
  suffices hx : (∃ st1 st2 a, Completes (fun f => correlated g sg bnd C f (second f) st0 events) (.ok (st1, a)) ∧
      Completes (fun f => correlated g sg bnd C f (second f) st events) (.ok (st2, a))) ∨
      (∃ st1 st2, Completes (fun f => correlated g sg bnd C f (second f) st0 events) (.throws st1) ∧
      Completes (fun f => correlated g sg bnd C f (second f) st events) (.throws st2)) by
    rcases hx with ⟨st1, st2, a, h1, h2⟩ | ⟨st1, st2, h1, h2⟩
    · exact .inl ⟨st1, st2, a, h1, h2, hrest _ (.inl ⟨a, h2⟩)⟩
    · exact .inr ⟨st1, st2, h1, h2, hrest _ (.inr h2)⟩
  have hg := proper_of_run hB.built.matching hB.built.edges.pairs hB.built.edges.even hB.built.edges.small
  have ht := twin_of_runs hB.built.matching hB.built.search
  rcases firstPass_same hB hb h0 h hv with ⟨F0, F, es, rs, ⟨f0, e0⟩, ⟨f1, e1⟩, i0, i1, h5⟩ | ⟨st0', st', ⟨f0, e0⟩, ⟨f1, e1⟩, -⟩
  · have hB' := change_built hB h5
    have hM : withM g ((⟨memM g, []⟩ : RW.State).apply rs).mem = mapM (changeOf rs) g := by
      refine withM_eq g _ _ fun u i n hn => ?_
      rw [apply_change hg h5 (at_entry.2 ⟨n, hn, rfl⟩), memM_entry hn]
    have hS : withS sg ((⟨memS sg, []⟩ : RW.State).apply rs).mem = mapS (changeOf rs) sg := by
      refine withS_eq sg _ _ fun u i n hn => ?_
      obtain ⟨n', op, k1, k2, k3, -⟩ := twin_slot hB.built.matching ht hn
      rw [mem_same hB.built, apply_change hg h5 (at_entry.2 ⟨n', k1, rfl⟩), memM_entry k1, k2, k3]
    have hv' : Valid (mapM (changeOf rs) g) events := ⟨hv.nodup, by
      have : (mapM (changeOf rs) g).nodes.length = g.nodes.length := by simp [mapM]
      rw [this]; exact hv.range⟩
    rcases hs _ _ _ hB' hb hv' F0 F i0 i1 with ⟨G0, G, a, ⟨f2, k0⟩, ⟨f3, k1⟩, -, -⟩ | ⟨G0, G, ⟨f2, k0⟩, ⟨f3, k1⟩, -, -⟩
    · refine .inl ⟨⟨G0, ((⟨memM g, []⟩ : RW.State).apply rs).undo, ((⟨memS sg, []⟩ : RW.State).apply rs).undo⟩,
        ⟨G, ((⟨memM g, []⟩ : RW.State).apply rs).undo, ((⟨memS sg, []⟩ : RW.State).apply rs).undo⟩, a, ⟨max f0 f2, fun f hf => ?_⟩, ⟨max f1 f3, fun f hf => ?_⟩⟩
      · have l1 := e0 f (le_trans (le_max_left _ _) hf)
        have l2 := k0 f (le_trans (le_max_right _ _) hf)
        simp only at l1 l2
        simp only [correlated, l1, plain, hM, hS, l2]
      · have l1 := e1 f (le_trans (le_max_left _ _) hf)
        have l2 := k1 f (le_trans (le_max_right _ _) hf)
        simp only at l1 l2
        simp only [correlated, l1, plain, hM, hS, l2]
    · refine .inr ⟨⟨G0, (⟨memM g, []⟩ : RW.State).apply rs, (⟨memS sg, []⟩ : RW.State).apply rs⟩,
        ⟨G, (⟨memM g, []⟩ : RW.State).apply rs, (⟨memS sg, []⟩ : RW.State).apply rs⟩, ⟨max f0 f2, fun f hf => ?_⟩, ⟨max f1 f3, fun f hf => ?_⟩⟩
      · have l1 := e0 f (le_trans (le_max_left _ _) hf)
        have l2 := k0 f (le_trans (le_max_right _ _) hf)
        simp only at l1 l2
        simp only [correlated, l1, plain, hM, hS, l2]
      · have l1 := e1 f (le_trans (le_max_left _ _) hf)
        have l2 := k1 f (le_trans (le_max_right _ _) hf)
        simp only at l1 l2
        simp only [correlated, l1, plain, hM, hS, l2]
  · refine .inr ⟨st0', st', ⟨f0, fun f hf => ?_⟩, ⟨f1, fun f hf => ?_⟩⟩
    · have := e0 f hf
      simp only at this
      simp only [correlated, this]
    · have := e1 f hf
      simp only at this
      simp only [correlated, this]

theorem steady_obs (numNodes numObs : Nat) (bnd : List Bool) (m : ObsInt) (events : List Nat) {buf : List (BitVec 8)} (hl : buf.length = numObs) (w0 : Int) :
    Steady numNodes numObs bnd m events (fun f g sg F => decodeObs g sg bnd m f F events buf w0) := by
  intro ops g sg hB hb hv F0 F h0 h
  exact same_of (call := fun f F => decodeObs g sg bnd m f F events buf w0) (fun _ hF => safe_of (promise_obs numNodes numObs bnd m events hl w0) hB hb hv hF)
    (fun _ hF => obs_follows hB hb hv buf w0 hF) h0 h

theorem steady_edges (numNodes numObs : Nat) (bnd : List Bool) (m : ObsInt) (events : List Nat) :
    Steady numNodes numObs bnd m events (fun f g sg F => decodeEdges g sg bnd f F events) :=
  fun _ _ _ hB hb hv _ _ h0 h => edges_same hB hb hv h0 h

theorem steady_mask (numNodes numObs : Nat) (bnd : List Bool) (m : ObsInt) (events : List Nat) :
    Steady numNodes numObs bnd m events (fun f => call64 bnd m f events) := by
  intro ops g sg hB hb hv F0 F h0 h
  exact same_of (call := fun f F => call64 bnd m f events g sg F) (fun _ hF => safe_of (promise_mask numNodes numObs bnd m events) hB hb hv hF)
    (fun _ hF => mask_follows hB hb hv hF) h0 h

theorem steady_pairs (numNodes numObs : Nat) (bnd : List Bool) (m : ObsInt) (events : List Nat) :
    Steady numNodes numObs bnd m events (fun f => callPairs bnd f events) := by
  intro ops g sg hB hb hv F0 F h0 h
  exact same_of (call := fun f F => callPairs bnd f events g sg F) (fun _ hF => pairs_safe hB hb hv hF) (fun _ hF => pairs_follows hB hb hv hF) h0 h

/-- The call gets the same reply from two decoders. -/
def SameReply (g : MGraph) (sg : SGraph) (bnd : List Bool) (m : ObsInt) (C : Corr) (st0 st : CState) (c : Call) : Prop :=
  ∃ r st0' st', Completes (fun f => respond g sg bnd m C f st0 c) (.ok (r, st0')) ∧ Completes (fun f => respond g sg bnd m C f st c) (.ok (r, st')) ∧ Rest g sg st'

theorem tell_same {α : Type} (v : α → Reply) {c0 c : Nat → Option (EndedC (CState × α))} (h : SameC g sg c0 c) :
    ∃ r st0' st', Completes (fun f => tell v (c0 f)) (.ok (r, st0')) ∧ Completes (fun f => tell v (c f)) (.ok (r, st')) ∧ Rest g sg st' := by
  rcases h with ⟨st0, st, a, ⟨f0, h1⟩, ⟨f1, h2⟩, h3⟩ | ⟨st0, st, ⟨f0, h1⟩, ⟨f1, h2⟩, h3⟩
  · exact ⟨v a, st0, st, ⟨f0, fun f hf => by simp only [h1 f hf, tell]⟩, ⟨f1, fun f hf => by simp only [h2 f hf, tell]⟩, h3⟩
  · exact ⟨.exception, st0, st, ⟨f0, fun f hf => by simp only [h1 f hf, tell]⟩, ⟨f1, fun f hf => by simp only [h2 f hf, tell]⟩, h3⟩

theorem plain_reply (hB : Built numNodes numObs ops g sg m) (hb : ∀ d ∈ g.negDets, TL.notBoundary bnd d = true) {st0 st : CState} (h0 : Rest g sg st0)
    (h : Rest g sg st) {c : Call} (ha : c.Acceptable g) (hc : asksCorr c = false) (C : Corr) : SameReply g sg bnd m C st0 st c := by
  have hno : g.numObs = numObs := (built_run (built_empty numNodes numObs) hB.matching).nobs
  cases c with
  | obs corr events buf w =>
    cases corr
    · exact tell_same _ (plain_same h0 h (steady_obs numNodes numObs bnd m events (ha.2.trans hno) w _ _ _ hB hb ha.1 _ _ h0.full h.full))
    · cases hc
  | edges corr events =>
    cases corr
    · exact tell_same _ (plain_same h0 h (steady_edges numNodes numObs bnd m events _ _ _ hB hb ha _ _ h0.full h.full))
    · cases hc
  | mask corr events =>
    cases corr
    · exact tell_same _ (plain_same h0 h (steady_mask numNodes numObs bnd m events _ _ _ hB hb ha _ _ h0.full h.full))
    · cases hc
  | pairs events => exact tell_same _ (plain_same h0 h (steady_pairs numNodes numObs bnd m events _ _ _ hB hb ha _ _ h0.full h.full))

theorem any_reply (hB : BuiltCorr numNodes numObs ins k g sg m C) (hb : ∀ d ∈ g.negDets, TL.notBoundary bnd d = true) {st0 st : CState} (h0 : Rest g sg st0)
    (h : Rest g sg st) {c : Call} (ha : c.Acceptable g) : SameReply g sg bnd m C st0 st c := by
  have hno : g.numObs = numObs := (built_run (built_empty numNodes numObs) hB.built.matching).nobs
  cases hc : asksCorr c with
  | false => exact plain_reply hB.built hb h0 h ha hc C
  | true =>
    cases c with
    | obs corr events buf w =>
      cases hc
      exact tell_same _ (correlated_same hB hb h0 h ha.1 (promise_obs numNodes numObs bnd m events (ha.2.trans hno) w)
        (steady_obs numNodes numObs bnd m events (ha.2.trans hno) w))
    | edges corr events =>
      cases hc
      exact tell_same _ (correlated_same hB hb h0 h ha (promise_edges numNodes numObs bnd m events) (steady_edges numNodes numObs bnd m events))
    | mask corr events =>
      cases hc
      exact tell_same _ (correlated_same hB hb h0 h ha (promise_mask numNodes numObs bnd m events) (steady_mask numNodes numObs bnd m events))
    | pairs events => cases hc

theorem rest_atRest {st : CState} (h : Rest g sg st) : AtRest g sg st where
  nodes := h.full.ms.nodes
  queue := ⟨h.full.ms.quiet.num, fun b => by
    rw [List.eq_nil_iff_forall_not_mem]
    intro e he
    have := RadixHeap.mem_content.2 ⟨b, he⟩
    rw [h.full.ms.quiet.none] at this
    simp at this⟩
  regions := by
    have := h.full.ms.regs.inv.split
    simp only [Finset.empty_val, zero_add, Multiset.coe_eq_coe] at this
    exact this.symm
  trees := by
    have := h.full.ms.alts.inv.split
    simp only [Finset.empty_val, zero_add, Multiset.coe_eq_coe] at this
    exact this.symm
  reached := fun u => ⟨h.full.ss.reached u, h.full.ss.pred u⟩
  searchQueue := by rw [h.full.ss.w]; exact ⟨rfl, fun _ => rfl⟩
  marks := fun u i => by rw [h.full.marks]
  weights := ⟨h.matching, h.search⟩

theorem session_core (P : Call → Prop) (hP : ∀ c, P c → ∀ st, Rest g sg st → SameReply g sg bnd m C (CState.init g sg) st c) :
    ∀ (calls : List Call), (∀ c ∈ calls, P c) → ∀ st, Rest g sg st → ∃ rs st', List.Forall₂ (Alone g sg bnd m C) calls rs ∧
      Completes (fun f => session g sg bnd m C f st calls) (.ok (rs, st')) ∧ Rest g sg st' := by
  intro calls
  induction calls with
  | nil => intro _ st h; exact ⟨[], st, .nil, ⟨0, fun f _ => rfl⟩, h⟩
  | cons c cs ih =>
    intro hc st h
    obtain ⟨r, st0', st1, ⟨f0, e0⟩, ⟨f1, e1⟩, h1⟩ := hP c (hc c (by simp)) st h
    obtain ⟨rs, st', h2, ⟨f2, e2⟩, h3⟩ := ih (fun c' hc' => hc c' (by simp [hc'])) st1 h1
    refine ⟨r :: rs, st', .cons ⟨st0', f0, fun f hf => ?_⟩ h2, ⟨max f1 f2, fun f hf => ?_⟩, h3⟩
    · have := e0 f hf
      simp only at this
      simp only [session, this, Res.bind]
    · have l1 := e1 f (le_trans (le_max_left _ _) hf)
      have l2 := e2 f (le_trans (le_max_right _ _) hf)
      simp only at l1 l2
      simp only [session, l1, l2, Res.bind]

end

/-! ## Theorems -/

/-- C32 (without correlations).  Build any graph from edges of any sign, and make any calls on the decoder, with any valid events, one after the other:
they all end, without undefined behaviour, and the reply to each call -- predictions and weight, edges, mask and weight, matched pairs, or an
exception -- is the one that this call alone gets from a new decoder.  Afterwards the decoder holds nothing of these calls. -/
theorem C32_shots_independent (numNodes numObs : Nat) (ops : List EdgeIns) (g : MGraph) (sg : SGraph) (m : ObsInt) (hB : Built numNodes numObs ops g sg m)
    (bnd : List Bool) (hb : ∀ d ∈ g.negDets, TL.notBoundary bnd d = true) (C : Corr) (calls : List Call)
    (hc : ∀ c ∈ calls, c.Acceptable g ∧ asksCorr c = false) :
    ∃ replies st, List.Forall₂ (Alone g sg bnd m C) calls replies ∧
      Completes (fun f => session g sg bnd m C f (CState.init g sg) calls) (.ok (replies, st)) ∧ AtRest g sg st := by
  obtain ⟨rs, st, h1, h2, h3⟩ := session_core (bnd := bnd) (m := m) (C := C) (fun c => c.Acceptable g ∧ asksCorr c = false)
    (fun c hc st h => plain_reply hB hb (rest_init g sg) h hc.1 hc.2 C) calls hc _ (rest_init g sg)
  exact ⟨rs, st, h1, h2, rest_atRest h3⟩

/-- The replies of a session. -/
def repliesOf (r : Option (Res (List Reply × CState))) : Option (List Reply) :=
  match r with
  | some (.ok (rs, _)) => some rs
  | _ => none

/-- The hypotheses hold for the graph of two detectors with boundary edges (see `Verif.Props.Correlated`), and the five calls do get replies of all kinds: the
replies in the session are those of the calls alone. -/
example : Built 2 2 (opsOf corrIns) corrGraph corrSearch 0 ∧
    (∀ c ∈ [Call.edges false [0, 1], .obs false [0] [0, 0] 0, .pairs [0, 1], .mask false [1], .edges false [0, 1]], c.Acceptable corrGraph ∧ asksCorr c = false) ∧
    repliesOf (session corrGraph corrSearch [] 0 corrData 20 (CState.init corrGraph corrSearch)
      [.edges false [0, 1], .obs false [0] [0, 0] 0, .pairs [0, 1], .mask false [1], .edges false [0, 1]]) =
      some [.edges [(0, some 1)], .predictions [1, 0] 4, .pairs [⟨some 0, some 1, 0⟩], .mask 2 8, .edges [(0, some 1)]] ∧
    repliesOf (session corrGraph corrSearch [] 0 corrData 20 (CState.init corrGraph corrSearch) [.mask false [1]]) = some [.mask 2 8] := by
  have h1 : ∀ m, negEvents (withM corrGraph m) = [] := fun m => corr_neg
  have v01 : Valid corrGraph [0, 1] := ⟨by decide, by decide⟩
  have v0 : Valid corrGraph [0] := ⟨by decide, by decide⟩
  have v1 : Valid corrGraph [1] := ⟨by decide, by decide⟩
  have hn : corrGraph.numObs = 2 := rfl
  have hc : ∀ c ∈ [Call.edges false [0, 1], .obs false [0] [0, 0] 0, .pairs [0, 1], .mask false [1], .edges false [0, 1]],
      c.Acceptable corrGraph ∧ asksCorr c = false := by simp [Call.Acceptable, asksCorr, v01, v0, v1, hn]
  refine ⟨corr_built.built, hc, ?_, ?_⟩
  · simp only [session, respond, plain, decodeEdges, decodeObs, call64, callPairs, h1]
    decide +kernel
  · simp only [session, respond, plain, call64, h1]
    decide +kernel

/-- C32 (with correlations).  The same if calls may ask for correlations, on a graph where no implied weight is for an edge of negative weight. -/
theorem C32_shots_independent_correlated (numNodes numObs : Nat) (ins : List (Conv.Ins K)) (k : K) (g : MGraph) (sg : SGraph) (m : ObsInt) (C : Corr)
    (hB : BuiltCorr numNodes numObs ins k g sg m C) (bnd : List Bool) (hb : ∀ d ∈ g.negDets, TL.notBoundary bnd d = true) (calls : List Call)
    (hc : ∀ c ∈ calls, c.Acceptable g) :
    ∃ replies st, List.Forall₂ (Alone g sg bnd m C) calls replies ∧
      Completes (fun f => session g sg bnd m C f (CState.init g sg) calls) (.ok (replies, st)) ∧ AtRest g sg st := by
  obtain ⟨rs, st, h1, h2, h3⟩ := session_core (bnd := bnd) (m := m) (C := C) (fun c => c.Acceptable g)
    (fun c hc st h => any_reply hB hb (rest_init g sg) h hc) calls hc _ (rest_init g sg)
  exact ⟨rs, st, h1, h2, rest_atRest h3⟩

/-- The hypotheses hold for the same graph; calls with and without correlations get different replies, and these do not depend on their order. -/
example : BuiltCorr 2 2 corrIns 2 corrGraph corrSearch 0 corrData ∧
    repliesOf (session corrGraph corrSearch [] 0 corrData 20 (CState.init corrGraph corrSearch) [.mask true [0], .mask false [0], .edges true [0]]) =
      some [.mask 2 2, .mask 1 4, .edges [(1, some 0), (1, none)]] ∧
    repliesOf (session corrGraph corrSearch [] 0 corrData 20 (CState.init corrGraph corrSearch) [.edges true [0], .mask false [0], .mask true [0]]) =
      some [.edges [(1, some 0), (1, none)], .mask 1 4, .mask 2 2] := by
  have h1 : ∀ m, negEvents (withM corrGraph m) = [] := fun m => corr_neg
  refine ⟨corr_built, ?_, ?_⟩
  · simp only [session, respond, plain, decodeEdgesCorr, decode64Corr, correlated, firstPass, decodeEdges, call64, h1]
    decide +kernel
  · simp only [session, respond, plain, decodeEdgesCorr, decode64Corr, correlated, firstPass, decodeEdges, call64, h1]
    decide +kernel

end Verif.Props.Shots
