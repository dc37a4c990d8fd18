import Verif.Blossom.NarrowCalls
import Verif.Props.Paths

/-!
# Objects whose decoder has a 32-bit wrapped radius

If connected detectors are near to each other, all questions to an object are answered as with an unbounded wrapped radius.
-/

namespace Verif.Props.Narrow

open Verif Verif.Graph Verif.SB Verif.UG Verif.Conv Verif.Obj
open Verif.Props.Correlated Verif.Props.Shots Verif.Props.Edges Verif.Props.EndToEnd Verif.Props.UserEdges Verif.Props.UserGraph Verif.Props.Decode
open Verif.Props.Object Verif.Props.Answers Verif.Props.Paths
open Verif.Sch (Res SS Fresh nbr)
open Verif.Spec (Route Short Walk)

variable {K : Type} [Field K] [LinearOrder K] [IsStrictOrderedRing K] [FloorRing K]

/-! ## Specification -/

/-- Any two detectors that are connected through detectors are connected by a path whose rounded weight is below `2^31`. -/
def Near (g : UGraph K) : Prop :=
  ∀ scale, Scale g scale → ∀ u v ns W, Trail g scale u (some v) ns W → ∃ ns' W', Trail g scale u (some v) ns' W' ∧ W' < 2 ^ 31

/-! ## Lemmas: from the user's graph to the matching graph -/

omit [IsStrictOrderedRing K] in
theorem route_target {g : UGraph K} {d : Decoder K} {ins : List (Conv.Ins K)} {c : K} {φ : Fin (opsOf ins).length → Fin g.edges.length}
    (hW : Whole g d ins c φ) {u : Nat} {t : Option Nat} {es : List (Nat × Nat)} {W : Nat} (r : Route d.sg u t es W) (hne : es ≠ []) :
    ∀ v, t = some v → v ∉ g.boundary := by
  have hT := twin_of_runs hW.built.matching hW.built.search
  induction r with
  | here u h => exact absurd rfl hne
  | @step u i v W n t es h hv r ih =>
    cases r with
    | here _ h' =>
      rintro _ ⟨⟩
      obtain ⟨m, op, -, -, -, hop, -, k⟩ := twin_slot hW.built.matching hT h
      obtain ⟨j, hj, rfl⟩ := List.getElem_of_mem hop
      have h1 := hW.origin.ends ⟨j, hj⟩
      have h3 := k.ends
      simp only [Fin.getElem_fin] at h1
      rw [h1, hv] at h3
      have hne : u ≠ v := by
        intro e
        subst e
        have := k.noloop
        have h5 := k.ends
        rw [hv] at h5
        cases ho : (opsOf ins)[j] with
        | edge a b w o =>
          rw [ho] at this h5
          simp only [endsOf, Sym2.eq_iff, Option.some.injEq] at h5
          rcases h5 with ⟨rfl, rfl⟩ | ⟨rfl, rfl⟩ <;> exact this rfl
        | bdry a w o =>
          rw [ho] at h5
          simp [endsOf] at h5
      exact (seen_two h3 hne).2.1
    | step h2 hv2 r2 => exact ih (by simp)
    | exit h2 hv2 => exact ih (by simp)
  | exit h hv => intro v hv'; cases hv'

/-- In a graph that is near, the matching graph is short. -/
theorem short_of_near {g : UGraph K} (hw : WF g) {d : Decoder K} {ins : List (Conv.Ins K)} {c : K} {φ : Fin (opsOf ins).length → Fin g.edges.length}
    (hW : Whole g d ins c φ) (hn : Near g) : Short d.P.mg := by
  have hT := twin_of_runs hW.built.matching hW.built.search
  intro u v es hwalk
  cases hes : es with
  | nil =>
    subst hes
    exact ⟨[], hwalk, by simp [Spec.totalWeight]⟩
  | cons e es' =>
    have hu : u < g.nodes.length := by
      rw [hes] at hwalk
      cases hwalk with
      | step h hv w =>
        obtain ⟨l, h1, -⟩ := Option.bind_eq_some_iff.1 (by rw [← entry_bind]; exact h)
        have := (List.getElem?_eq_some_iff.1 h1).1
        rwa [(Props.Graph.C13_adjacency _ _ _ _ hW.built.matching).1] at this
    obtain ⟨W, r, -⟩ := walk_route hW.built.matching hT hwalk hu
    have tr := route_trail hW r (route_target hW r (by rw [hes]; simp))
    obtain ⟨ns', W', tr', hlt⟩ := hn d.P.scale ⟨c, hW.norm, hW.twice⟩ _ _ _ _ tr
    obtain ⟨fs, W'', r', hle⟩ := trail_route hW (ends_in hw) tr'
    obtain ⟨h1, h2⟩ := route_walk hW.built.matching hT r'
    refine ⟨fs, h1, ?_⟩
    have := hle rfl (fun h => (by cases h))
    omega

/-! ## Lemmas: objects -/

section
variable {g : UGraph K} (hw : WF g) (hB : Props.Convert.BndOk g) (hcov : Covered g) (hn : Near g) {without : Bool} {d1 : Decoder K}
  (h1 : toMwpm g without true = some d1)
include hw hB hcov hn h1

/-- A call of the decoder. -/
theorem reply_agree {d : Decoder K} {s : Bool} (hd : Ready g without d s) {c : Correlated.Call} (ha : c.Acceptable d1.P.mg)
    (hcorr : asksCorr c = true → NonNeg g ∧ s = true) :
    Agree (fun f => respond (W := int32) d.P.mg d.sg d.P.bnd d.P.mask d.C f d.st c) (fun f => respond d.P.mg d.sg d.P.bnd d.P.mask d.C f d.st c) := by
  have hs := solid hw hB hcov h1
  obtain ⟨ins, c', φ, hW⟩ := whole hw hB hcov h1
  have hsh := short_of_near hw hW hn
  have hP := (stand_in h1 hs hd).1
  have hrest := hd.rest
  have hg : Spec.Proper d1.P.mg := proper_of_run hW.built.matching hW.built.edges.pairs hW.built.edges.even hW.built.edges.small
  cases hc : asksCorr c with
  | false =>
    rw [hP] at hrest ⊢
    exact .of_eq (respond_plain hg hs.quiet hrest hsh ha hc d.C)
  | true =>
    obtain ⟨hnn, rfl⟩ := hcorr hc
    have e : { d with st := CState.init d.P.mg d.sg } = d1 := by
      have := hd.built
      rw [h1] at this
      exact (Option.some.inj this).symm
    obtain ⟨ins', -, hC⟩ := hs.ex
    have hC := hC hnn
    rw [← e] at hC hg hsh ha hs
    exact respond_agree hg (fun _ => hC) hs.quiet hrest hsh ha

/-- A call. -/
theorem call_agree {o : Object K} {d : Decoder K} {s : Bool} (hh : Held g without o d s) {c : Correlated.Call} (ha : c.Acceptable d1.P.mg)
    (hcorr : asksCorr c = true → NonNeg g ∧ s = true) : Agree (fun f => o.call (W := int32) d f c) (fun f => o.call d f c) := by
  obtain ⟨f0, k⟩ := reply_agree hw hB hcov hn h1 hh.ready ha hcorr
  refine ⟨f0, fun f hf => ?_⟩
  have := k f hf
  simp only at this
  simp only [Object.call, this]

/-- A row. -/
theorem row_agree {o : Object K} {d : Decoder K} {s : Bool} (hh : Held g without o d s) {corr : Bool} (hsrch : corr = true → s = true)
    (hcorr : corr = true → NonNeg g) {events : List Nat} (hev : EventsOk g events) (packed : Bool) :
    Agree (fun f => o.decodeRow (W := int32) d f corr packed events) (fun f => o.decodeRow d f corr packed events) := by
  obtain ⟨f0, k⟩ := call_agree hw hB hcov hn h1 hh (acceptable_obs (solid hw hB hcov h1) hev hh corr 0) (fun h => ⟨hcorr h, hsrch h⟩)
  refine ⟨f0, fun f hf => ?_⟩
  have := k f hf
  simp only at this
  simp only [Object.decodeRow, this]

/-- The rows of a batch. -/
theorem batch_agree {corr : Bool} (hcorr : corr = true → NonNeg g) (ps pp : Bool) : ∀ (rows : List (List (BitVec 8))),
    (∀ row ∈ rows, EventsOk g (readRow ps row)) → ∀ {o : Object K} {d : Decoder K} {s : Bool}, Held g without o d s → (corr = true → s = true) →
    Agree (fun f => o.batchLoop (W := int32) d f ps pp corr rows) (fun f => o.batchLoop d f ps pp corr rows) := by
  intro rows
  induction rows with
  | nil => intro _ o d s _ _; exact .of_eq fun f => rfl
  | cons row rows ih =>
    intro hrows o d s hh hsrch
    obtain ⟨f0, k⟩ := row_agree hw hB hcov hn h1 hh hsrch hcorr (hrows row (by simp)) pp
    obtain ⟨r, p, q, ⟨f1, e1⟩, k1, -⟩ := row_two hw hB h1 (solid hw hB hcov h1) hh hsrch hcorr (hrows row (by simp)) pp
    obtain ⟨f2, k2⟩ := ih (fun row' h => hrows row' (by simp [h])) k1 hsrch
    refine ⟨max f0 (max f1 f2), fun f hf => ?_⟩
    have x0 := k f (by omega)
    have x1 := e1 f (by omega)
    have x2 := k2 f (by omega)
    simp only at x0 x1 x2
    simp only [Object.batchLoop, x0, x1]
    cases rowAns pp d1.P.scale r with
    | none => rfl
    | some a => simp only [x2]

/-! ## Lemmas: command line tools -/

open Verif.Cli

theorem predict_agree {corr : Bool} (hcorr : corr = true → NonNeg g) {s : Bool} (hne : corr = true → s = true) (shots : List (List Nat)) :
    (∀ ev ∈ shots, EventsOk g ev) → ∀ {d : Decoder K}, Ready g without d s → ∀ d0 : Decoder K, d0.P = d.P → d0.sg = d.sg → d0.C = d.C →
    Agree (fun f => predictWith (W := int32) d0 corr g.numObs f d.st (List.replicate g.numObs 0#8) 0 shots)
      (fun f => predictWith d0 corr g.numObs f d.st (List.replicate g.numObs 0#8) 0 shots) := by
  have hs := solid hw hB hcov h1
  induction shots with
  | nil => intro _ d _ d0 _ _ _; exact .of_eq fun f => rfl
  | cons ev shots ih =>
    intro hev d hd d0 eP eS eC
    have hev0 := hev ev (by simp)
    have ha : (Correlated.Call.obs corr ev (List.replicate g.numObs 0#8) 0).Acceptable d1.P.mg :=
      ⟨⟨hev0.1, fun x hx => by rw [hs.len]; exact hev0.2 x hx⟩, by rw [List.length_replicate, hs.nobs]⟩
    obtain ⟨f0, k0⟩ := reply_agree hw hB hcov hn h1 hd ha (fun h => ⟨hcorr h, hne h⟩)
    obtain ⟨r, st', ⟨f1, e1⟩, hd', hsh⟩ := CliRun.shape_any h1 hs hd (c := .obs corr ev (List.replicate g.numObs 0#8) 0) (fun ⟨_, _, h⟩ => by cases h)
      (.inl ⟨_, _, _, _, rfl⟩) ha hcorr hne
    obtain ⟨f2, k2⟩ := ih (fun e he => hev e (by simp [he])) hd' d0 eP eS eC
    refine ⟨max f0 (max f1 f2), fun f hf => ?_⟩
    have x0 := k0 f (by omega)
    have x1 := e1 f (by omega)
    have x2 := k2 f (by omega)
    simp only at x0 x1 x2
    simp only [predictWith, eP, eS, eC, x0, x1]
    rcases hsh with rfl | ⟨buf, w, rfl, hl⟩
    · rfl
    · simp only [hl, x2]

theorem count_agree {corr : Bool} (h64 : g.numObs ≤ 64) (hcorr : corr = true → NonNeg g) {s : Bool} (hne : corr = true → s = true) (shots : List Shot) :
    (∀ x ∈ shots, EventsOk g x.hits) → ∀ (obsIn : Option (List (List Bool))) {d : Decoder K}, Ready g without d s → ∀ d0 : Decoder K, d0.P = d.P →
    d0.sg = d.sg → d0.C = d.C → ∀ a b : Nat,
    Agree (fun f => countWith (W := int32) d0 corr f d.st a b shots obsIn) (fun f => countWith d0 corr f d.st a b shots obsIn) := by
  have hs := solid hw hB hcov h1
  induction shots with
  | nil => intro _ obsIn d _ d0 _ _ _ a b; exact .of_eq fun f => by cases obsIn <;> rfl
  | cons x shots ih =>
    intro hev obsIn d hd d0 eP eS eC a b
    have hev0 := hev x (by simp)
    have ha : (Correlated.Call.mask corr x.hits).Acceptable d1.P.mg := ⟨hev0.1, fun y hy => by rw [hs.len]; exact hev0.2 y hy⟩
    obtain ⟨f0, k0⟩ := reply_agree hw hB hcov hn h1 hd ha (fun h => ⟨hcorr h, hne h⟩)
    obtain ⟨r, st', ⟨f1, e1⟩, hd', hsh⟩ := CliRun.shape_any h1 hs hd (c := .mask corr x.hits) (fun _ => h64) (.inr ⟨_, _, rfl⟩) ha hcorr hne
    have step : ∀ (o : List Bool) (rest : Option (List (List Bool))),
        (∀ [W : Width] f, countWith d0 corr f d.st a b (x :: shots) obsIn =
          match respond d0.P.mg d0.sg d0.P.bnd d0.P.mask d0.C f d.st (.mask corr x.hits) with
          | none => none
          | some .ub => some .ub
          | some .throws => some .throws
          | some (.ok (.mask mask _, st')) => countWith d0 corr f st' (if mask64 o ≠ mask.toNat then a + 1 else a) (b + 1) shots rest
          | some (.ok (_, _)) => some (.ok none)) →
        Agree (fun f => countWith (W := int32) d0 corr f d.st a b (x :: shots) obsIn) (fun f => countWith d0 corr f d.st a b (x :: shots) obsIn) := by
      intro o rest hstep
      have : ∃ f2, ∀ f, max f0 (max f1 f2) ≤ f → countWith (W := int32) d0 corr f d.st a b (x :: shots) obsIn = countWith d0 corr f d.st a b (x :: shots) obsIn := by
        rcases hsh with rfl | ⟨mm, wt, rfl, hz⟩
        · refine ⟨0, fun f hf => ?_⟩
          have x0 := k0 f (by omega)
          have x1 := e1 f (by omega)
          simp only at x0 x1
          rw [@hstep int32 f, @hstep unbounded f]
          simp only [eP, eS, eC, x0, x1]
        · obtain ⟨f2, k2⟩ := ih (fun y hy => hev y (by simp [hy])) rest hd' d0 eP eS eC (if mask64 o ≠ mm.toNat then a + 1 else a) (b + 1)
          refine ⟨f2, fun f hf => ?_⟩
          have x0 := k0 f (by omega)
          have x1 := e1 f (by omega)
          have x2 := k2 f (by omega)
          simp only at x0 x1 x2
          rw [@hstep int32 f, @hstep unbounded f]
          simp only [eP, eS, eC, x0, x1]
          exact x2
      obtain ⟨f2, h⟩ := this
      exact ⟨_, h⟩
    cases obsIn with
    | none => exact step x.obs none (fun f => rfl)
    | some os =>
      cases os with
      | nil => exact .of_eq fun f => rfl
      | cons o os => exact step o (some os) (fun f => rfl)

end

/-- A question. -/
theorem ask_agree {g : UGraph K} (hw : WF g) (hB : Props.Convert.BndOk g) (hn : Near g) {without : Bool} {q : Query} (hq : Askable g without q) {o : Object K}
    (hi : Inv g without o) : Agree (fun f => o.ask (W := int32) f q) (fun f => o.ask f q) := by
  obtain ⟨⟨d1, h1⟩, hcov, hfit, hcorr⟩ := hq
  have hs := solid hw hB hcov h1
  cases q with
  | decode corr events =>
    obtain ⟨p, d, s, e, hh, hsr⟩ := decoderFor_held hw hB h1 hs hi corr
    obtain ⟨f0, k⟩ := row_agree hw hB hcov hn h1 hh hsr hcorr hfit false
    refine ⟨f0, fun f hf => ?_⟩
    have := k f hf
    simp only at this
    simp only [Object.ask, e, this]
  | batch ps pp corr cols rows =>
    obtain ⟨b, hg⟩ := id hi.same
    have sh : Obs.shapeOk ps cols o.graph.numDetectors o.graph.nodes.length = Obs.shapeOk ps cols g.numDetectors g.nodes.length := by rw [hg]; rfl
    by_cases hsh : Obs.shapeOk ps cols g.numDetectors g.nodes.length = true
    · have hev : ∀ row ∈ rows, EventsOk g (readRow ps row) := fun row hr => ⟨readRow_nodup ps row, hfit hsh row hr⟩
      obtain ⟨p, d, s, e, hh, hsr⟩ := decoderFor_held hw hB h1 hs hi corr
      obtain ⟨f0, k⟩ := batch_agree hw hB hcov hn h1 (corr := corr) hcorr ps pp rows hev hh hsr
      refine ⟨f0, fun f hf => ?_⟩
      have := k f hf
      simp only at this
      simp only [Object.ask, sh, if_pos hsh, e, this]
    · exact .of_eq fun f => by simp only [Object.ask, sh, if_neg hsh]
  | edges corr events =>
    obtain ⟨p, d, s, e, hh, hsr⟩ := decoderFor_held hw hB h1 hs hi true
    have ha : (Correlated.Call.edges corr events).Acceptable d1.P.mg := ⟨hfit.1, fun d hd => by rw [hs.len]; exact hfit.2 d hd⟩
    obtain ⟨f0, k⟩ := call_agree hw hB hcov hn h1 hh ha (fun h => ⟨hcorr h, hsr rfl⟩)
    refine ⟨f0, fun f hf => ?_⟩
    have := k f hf
    simp only at this
    simp only [Object.ask, e, this]
  | pairs events =>
    obtain ⟨p, d, s, e, hh, hsr⟩ := decoderFor_held hw hB h1 hs hi false
    have ha : (Correlated.Call.pairs events).Acceptable d1.P.mg := ⟨hfit.1, fun d hd => by rw [hs.len]; exact hfit.2 d hd⟩
    obtain ⟨f0, k⟩ := call_agree hw hB hcov hn h1 hh ha (fun h => (by cases h))
    refine ⟨f0, fun f hf => ?_⟩
    have := k f hf
    simp only at this
    simp only [Object.ask, e, this]
  | path src dst => exact .of_eq fun f => rfl

/-- A history. -/
theorem history_agree (mergeW : K → K → K) (without : Bool) : ∀ (ops : List (Op K)) (g : UGraph K) (asked : Prop) (o : Object K), WF g → Props.Convert.BndOk g →
    Inv g without o → (o.graph.needsUpdating = false → asked) → Object.Proper mergeW without g asked ops → (∀ p ∈ questions mergeW g ops, Near p.1) →
    Agree (fun f => o.history (W := int32) mergeW f ops) (fun f => o.history mergeW f ops) := by
  intro ops
  induction ops with
  | nil => intro g asked o _ _ _ _ _ _; exact .of_eq fun f => rfl
  | cons op ops ih =>
    intro g asked o hw hB hi hf hp hn
    cases op with
    | modify c =>
      obtain ⟨h1, h2⟩ := modify_inv mergeW hw hi hf hp.1
      exact ih _ _ _ (wf_exec mergeW hw c) (Props.Convert.bndOk_exec mergeW hB c) h1 h2 hp.2 hn
    | ask q =>
      obtain ⟨hq, hp2⟩ := hp
      obtain ⟨f0, k⟩ := ask_agree hw hB (hn (g, q) (by simp [questions])) hq hi
      obtain ⟨a, o1, ⟨f1, c1⟩, hi1, -⟩ := ask_one hw hB hq hi
      obtain ⟨f2, k2⟩ := ih g True o1 hw hB hi1 (fun _ => trivial) hp2 (fun p h => hn p (by simp [questions, h]))
      refine ⟨max f0 (max f1 f2), fun f hf => ?_⟩
      have x0 := k f (by omega)
      have x1 := c1 f (by omega)
      have x2 := k2 f (by omega)
      simp only at x0 x1 x2
      simp only [Object.history, x0, x1, x2]

end Verif.Props.Narrow
