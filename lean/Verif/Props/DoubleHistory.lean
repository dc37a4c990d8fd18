import Verif.ObjectD
import Verif.Props.Double

/-!
# C68: histories of one object in double precision
-/

namespace Verif.Props.DoubleHistory

open Verif Verif.SB Verif.UG Verif.Conv Verif.Obj Verif.Dbl Verif.ConvD Verif.ObjD
open Verif.Props.UserEdges Verif.Props.UserGraph Verif.Props.Answers Verif.Props.EndToEnd Verif.Props.Correlated
open Verif.Props.Object Verif.Props.Double Verif.Props.Discretise
open Verif.Props.UserGraph (Call exec)
open Verif.Props.Edges (Completes)
open Verif.Sch (Res)

/-! ## Specification -/

/-- A question that may be asked: the weights can be converted, `num_fault_ids` covers the fault ids, the arguments fit (for a path: an object with the converted weights
can answer), and correlations are asked for only if there are no negative weights. -/
structure AskableD (g : UGraph ℚ) (without : Bool) (q : Query) : Prop where
  usable : Usable g
  builds : ∃ x, toMwpmD g without true = .ok x
  covered : Covered g
  fits : ∀ c, normConstD g = some (.num c) → Fits (intGraph c g) without q
  corr : correlations q = true → NonNeg g

/-- The condition on a history that starts with graph `g`; see `Verif.Props.Object.Proper`. -/
def ProperD (mergeW : ℚ → ℚ → ℚ) (without : Bool) : UGraph ℚ → Prop → List (Op ℚ) → Prop
  | _, _, [] => True
  | g, asked, .modify c :: ops =>
    (asked → ∀ n, c = .setMinNumObs n → n ≤ g.numObs) ∧
    ProperD mergeW without (exec mergeW g c).1
      (asked ∧ (exec mergeW g c).1.nodes = g.nodes ∧ (exec mergeW g c).1.edges = g.edges ∧ (exec mergeW g c).1.boundary = g.boundary) ops
  | g, _, .ask q :: ops => AskableD g without q ∧ ProperD mergeW without g True ops

/-- Small enough for the 32-bit radius (see C61, and `Verif.Props.Double.C65_near`). -/
def NearD (g : UGraph ℚ) : Prop := ∀ c, normConstD g = some (.num c) → Narrow.Near (intGraph c g)

/-! ## Lemmas -/

theorem toMwpmD_congr {g g' : UGraph ℚ} (h1 : g'.nodes = g.nodes) (h2 : g'.edges = g.edges) (h3 : g'.boundary = g.boundary) (h4 : g'.numObs = g.numObs)
    (without ensure : Bool) : toMwpmD g' without ensure = toMwpmD g without ensure := by
  obtain ⟨n, e, bd, no, nu, ap⟩ := g
  obtain ⟨n', e', bd', no', nu', ap'⟩ := g'
  simp only at h1 h2 h3 h4
  subst h1 h2 h3 h4
  rfl

theorem const_congr {g g' : UGraph ℚ} (h1 : g'.nodes = g.nodes) (h2 : g'.edges = g.edges) (h3 : g'.boundary = g.boundary) (h4 : g'.numObs = g.numObs) {k c : ℚ}
    (h : Const g k c) : Const g' k c := by
  obtain ⟨n, e, bd, no, nu, ap⟩ := g
  obtain ⟨n', e', bd', no', nu', ap'⟩ := g'
  simp only at h1 h2 h3 h4
  subst h1 h2 h3 h4
  exact ⟨h.exact, h.norm, h.rep, h.one, h.small, h.low, h.near, h.le, h.ints⟩

/-- The cached decoder is that of the graph with integer weights, unless the flag is set. -/
structure InvD (g : UGraph ℚ) (without : Bool) (o : ObjectD) : Prop where
  same : SameBut g o.graph
  wo : o.without = without
  ready : o.graph.needsUpdating = false → ∃ k c d s, Const g k c ∧ o.cache = some (plainly d, .num (c * 2)) ∧ d.P.scale = 2 ∧ Ready (intGraph c g) without d s

theorem invD_of (g : UGraph ℚ) (without : Bool) : InvD g without (ObjectD.of g without) := ⟨⟨true, rfl⟩, rfl, fun h => (by cases h)⟩

theorem const_unique {g : UGraph ℚ} {k c k' c' : ℚ} (h : Const g k c) (h' : Const g k' c') : c' = c := by
  have := h.norm.symm.trans h'.norm
  cases this
  rfl

/-- The object with the graph of integer weights, and how the two get their decoders. -/
theorem twin_of {g : UGraph ℚ} (hw : WF g) (hB : Props.Convert.BndOk g) (hcov : Covered g) {k c : ℚ} (h : Const g k c) {without : Bool}
    (hb : ∃ x, toMwpmD g without true = .ok x) {o : ObjectD} (hi : InvD g without o) (search : Bool) :
    ∃ p p0 o0 d, Inv (intGraph c g) without p ∧ SameBut (intGraph c g) p.graph ∧ p.decoderFor search = some (p0, d) ∧ o.decoderFor search = .ok (o0, plainly d, .num (c * 2)) ∧
      o0.without = without ∧ o0.graph = { g with needsUpdating := false } ∧ d.P.scale = 2 ∧ (search = true → d.P.mg.nodes.length = d.sg.nodes.length) ∧
      Twin { g with needsUpdating := false } { intGraph c g with needsUpdating := false } ⟨o0.graph, some (plainly d), o0.without⟩ p0 := by
  obtain ⟨d1, h1, h2⟩ := builds_int h hb
  have hs := solid (int_wf hw) (int_bnd hB) (int_cov hcov) h1
  have hd : ∀ s, ∃ d, toMwpm (intGraph c g) without s = some d ∧ d.P.scale = 2 ∧ (s = true → d.P.mg.nodes.length = d.sg.nodes.length) := by
    intro s
    cases s with
    | true => exact ⟨d1, h1, h2, fun _ => by rw [hs.len, hs.slen]⟩
    | false =>
      obtain ⟨d0, k1, k2, -⟩ := toMwpm_false h1
      exact ⟨d0, k1, by rw [k2]; exact h2, fun e => by cases e⟩
  have hD : ∀ s d, toMwpm (intGraph c g) without s = some d → d.P.scale = 2 → toMwpmD g without s = .ok (plainly d, .num (c * 2)) := fun s d k1 k2 =>
    (toMwpm_int h without s _).2 ⟨d, k1, k2, rfl⟩
  obtain ⟨graph, cache, wo⟩ := o
  obtain ⟨⟨b, hg⟩, hwo, hready⟩ := hi
  simp only at hg hwo hready
  subst hg hwo
  have reb : ∀ s d, toMwpm (intGraph c g) wo s = some d → d.P.scale = 2 →
      (ObjectD.mk { g with needsUpdating := b } cache wo).rebuild s = .ok (⟨{ g with needsUpdating := false }, some (plainly d, .num (c * 2)), wo⟩, plainly d, .num (c * 2)) := by
    intro s d k1 k2
    unfold ObjectD.rebuild
    simp only
    rw [toMwpmD_congr (g := g) (g' := { g with needsUpdating := b }) rfl rfl rfl rfl wo s, hD s d k1 k2]
    rfl
  have fresh : (ObjectD.mk { g with needsUpdating := b } cache wo).decoderFor search = (ObjectD.mk { g with needsUpdating := b } cache wo).rebuild search →
      ∃ p p0 o0 d, Inv (intGraph c g) wo p ∧ SameBut (intGraph c g) p.graph ∧ p.decoderFor search = some (p0, d) ∧
        (ObjectD.mk { g with needsUpdating := b } cache wo).decoderFor search = .ok (o0, plainly d, .num (c * 2)) ∧
        o0.without = wo ∧ o0.graph = { g with needsUpdating := false } ∧ d.P.scale = 2 ∧ (search = true → d.P.mg.nodes.length = d.sg.nodes.length) ∧
        Twin { g with needsUpdating := false } { intGraph c g with needsUpdating := false } ⟨o0.graph, some (plainly d), o0.without⟩ p0 := by
    intro e
    obtain ⟨d, k1, k2, k3⟩ := hd search
    exact ⟨_, _, _, d, inv_of _ wo, ⟨true, rfl⟩, new_decoder k1, e.trans (reb search d k1 k2), rfl, rfl, k2, k3, rfl, rfl, rfl, fun d' h' => by cases h'; exact k2⟩
  cases b with
  | true =>
    refine fresh ?_
    cases search with
    | false => rfl
    | true =>
      simp only [ObjectD.decoderFor, if_true, ObjectD.getMwpmWithSearchGraph]
      cases cache with
      | none => rfl
      | some x => rfl
  | false =>
    obtain ⟨k', c', d, s, hk, rfl, k2, hr⟩ := hready rfl
    obtain rfl := const_unique h hk
    have hinv : Inv (intGraph c' g) wo ⟨{ intGraph c' g with needsUpdating := false }, some d, wo⟩ := ⟨⟨false, rfl⟩, rfl, fun _ => ⟨d, s, rfl, hr⟩⟩
    by_cases hlen : search = true → d.P.mg.nodes.length = d.sg.nodes.length
    · refine ⟨_, _, ⟨{ g with needsUpdating := false }, some (plainly d, .num (c' * 2)), wo⟩, d, hinv, ⟨false, rfl⟩, old_decoder hlen, ?_, rfl, rfl, k2, hlen, rfl, rfl, rfl, fun d' h' => by cases h'; exact k2⟩
      cases search with
      | false => rfl
      | true =>
        have : (plainly d).P.mg.nodes.length = (plainly d).sg.nodes.length := hlen rfl
        simp [ObjectD.decoderFor, ObjectD.getMwpmWithSearchGraph, this]
    · push Not at hlen
      obtain ⟨rfl, hlen⟩ := hlen
      refine fresh ?_
      have : ((plainly d).P.mg.nodes.length == (plainly d).sg.nodes.length) = false := by
        rw [beq_eq_false_iff_ne]
        exact hlen
      simp [ObjectD.decoderFor, ObjectD.getMwpmWithSearchGraph, this]

/-- What is used of `ask_one`, for the decoder with radii of any width. -/
def AskOne [W : Width] (g : UGraph ℚ) (without : Bool) (q : Query) : Prop :=
  ∀ o : Object ℚ, Inv g without o → ∃ a o', Completes (fun f => o.ask f q) (.ok (a, o')) ∧ Inv g without o' ∧
    Fresh1 g without q a ∧ Fresh1 (W := unbounded) g without q a

theorem askD_one [W : Width] {g : UGraph ℚ} (hw : WF g) (hB : Props.Convert.BndOk g) (hcov : Covered g) {k c : ℚ} (h : Const g k c) {without : Bool}
    (hb : ∃ x, toMwpmD g without true = .ok x) {q : Query} (hone : AskOne (intGraph c g) without q) {o : ObjectD} (hi : InvD g without o) :
    ∃ a o', Completes (fun f => o.ask f q) (.ok (mapWeights (fun w => scaleBack (.num (c * 2)) (w * 2)) a, o')) ∧ InvD g without o' ∧
      Fresh1 (intGraph c g) without q a ∧ Fresh1 (W := unbounded) (intGraph c g) without q a := by
  obtain ⟨p, p0, o0, d, hp, ⟨bp, hpg⟩, e1, e2, hwo, ho0, hd, hlen, ht⟩ := twin_of hw hB hcov h hb hi (needsSearch q)
  obtain ⟨a, p1, hc, hp1, hf, hf'⟩ := hone p hp
  obtain ⟨b, hg⟩ := id hi.same
  have hrg : refuses o.graph q = refuses g q := by rw [hg]; cases q <;> rfl
  have hrp : refuses p.graph q = refuses g q := by rw [hpg]; cases q <;> rfl
  by_cases hr : refuses g q = true
  · refine ⟨.exception, o, ⟨0, fun f _ => ?_⟩, hi, ?_⟩
    · simp only [ObjectD.ask]
      rw [if_pos (hrg.trans hr)]
      rfl
    · have ha : a = .exception := by
        cases q with
        | batch ps pp corr cols rows =>
          obtain ⟨f0, hc⟩ := hc
          have := hc f0 (le_refl _)
          simp only [refuses, Bool.not_eq_true'] at hrp hr
          simp only at this
          rw [shape_any p f0 (by rw [hpg]; exact hr)] at this
          simp only [Option.some.injEq, Res.ok.injEq, Prod.mk.injEq] at this
          exact this.1.symm
        | _ => cases hr
      rw [ha] at hf hf'
      exact ⟨hf, hf'⟩
  · rw [Bool.not_eq_true] at hr
    obtain ⟨f0, hc⟩ := hc
    have hO : ∀ f, f0 ≤ f → ∃ o1, (Object.mk o0.graph (some (plainly d)) o0.without).ask f q = some (.ok (mapWeights (· * 2) a, o1)) ∧
        Twin { g with needsUpdating := false } { intGraph c g with needsUpdating := false } o1 p1 := by
      intro f hf
      have e3 : (Object.mk o0.graph (some (plainly d)) o0.without).decoderFor (needsSearch q) = some (⟨o0.graph, some (plainly d), o0.without⟩, plainly d) := by
        rw [ho0, hwo]
        exact old_decoder hlen
      have e4 : refuses (Object.mk o0.graph (some (plainly d)) o0.without).graph q = false := by
        rw [ho0]
        exact Eq.trans (by cases q <;> rfl) hr
      exact ask_twin (g := { g with needsUpdating := false }) (gi := { intGraph c g with needsUpdating := false }) rfl rfl e1 e3 ht hd e4 (hrp.trans hr) (hc f hf)
    obtain ⟨d1, hd1⟩ : ∃ d1, p1.cache = some d1 := by
      obtain ⟨o1, -, t⟩ := hO f0 (le_refl _)
      obtain ⟨d1, s, hd1, -⟩ := hp1.ready (by rw [t.right])
      exact ⟨d1, hd1⟩
    obtain ⟨o1, -, t⟩ := hO f0 (le_refl _)
    refine ⟨a, ⟨o0.graph, some (plainly d1, .num (c * 2)), o0.without⟩, ⟨f0, fun f hf => ?_⟩, ⟨⟨false, ho0⟩, hwo, fun _ => ?_⟩, hf, hf'⟩
    · obtain ⟨o1, k1, k2⟩ := hO f hf
      simp only [ObjectD.ask]
      rw [if_neg (by rw [hrg, hr]; decide), e2]
      simp only [k1, mapWeights_comp, k2.cache, hd1, Option.map_some]
    · obtain ⟨d1', s, hd1', hr1⟩ := hp1.ready (by rw [t.right])
      rw [hd1] at hd1'
      cases hd1'
      exact ⟨k, c, d1, s, h, rfl, t.two d1 hd1, hr1⟩

/-- A modification keeps the object in order. -/
theorem modify_invD (mergeW : ℚ → ℚ → ℚ) {without : Bool} {g : UGraph ℚ} (hw : WF g) {o : ObjectD} (hi : InvD g without o) {asked : Prop}
    (hf : o.graph.needsUpdating = false → asked) {c : Call ℚ} (hp1 : asked → ∀ n, c = .setMinNumObs n → n ≤ g.numObs) :
    InvD (exec mergeW g c).1 without (o.modify mergeW c) ∧ ((o.modify mergeW c).graph.needsUpdating = false →
      asked ∧ (exec mergeW g c).1.nodes = g.nodes ∧ (exec mergeW g c).1.edges = g.edges ∧ (exec mergeW g c).1.boundary = g.boundary) := by
  obtain ⟨b, hg⟩ := id hi.same
  have hwo : WF o.graph := by rw [hg]; exact ⟨hw.fwd1, hw.fwd2, hw.back, hw.uniq⟩
  have hsame := exec_but mergeW hi.same c
  obtain ⟨b', hg'⟩ := id hsame
  have off : (exec mergeW o.graph c).1.needsUpdating = false → o.graph.needsUpdating = false ∧ (exec mergeW g c).1.nodes = g.nodes ∧
      (exec mergeW g c).1.edges = g.edges ∧ (exec mergeW g c).1.boundary = g.boundary := by
    intro hoff
    rcases Api.exec_flag mergeW o.graph hwo c with h | ⟨e1, e2, e3, -, e5⟩
    · rw [h] at hoff; cases hoff
    · refine ⟨e5.symm.trans hoff, ?_, ?_, ?_⟩
      · rw [hg'] at e1; rw [hg] at e1; exact e1
      · rw [hg'] at e2; rw [hg] at e2; exact e2
      · rw [hg'] at e3; rw [hg] at e3; exact e3
  refine ⟨⟨hsame, hi.wo, fun hoff => ?_⟩, fun hoff => ⟨hf (off hoff).1, (off hoff).2⟩⟩
  obtain ⟨h0, e1, e2, e3⟩ := off hoff
  obtain ⟨k, cc, d, s, hk, hc, h2, hr⟩ := hi.ready h0
  have e4 : (exec mergeW g c).1.numObs = g.numObs := by
    have := exec_obs mergeW o.graph c (fun n hn => by rw [hg]; exact hp1 (hf h0) n hn) hoff
    rw [hg'] at this; rw [hg] at this; exact this
  refine ⟨k, cc, d, s, const_congr e1 e2 e3 e4 hk, hc, h2, ?_, hr.rest⟩
  rw [toMwpm_congr (g := intGraph cc g) (g' := intGraph cc (exec mergeW g c).1) e1 (by simp only [intGraph]; rw [e2]) e3 e4]
  exact hr.built

/-- For every question of a proper history, the graph of that moment is in order. -/
theorem askedD {mergeW : ℚ → ℚ → ℚ} {without : Bool} : ∀ (ops : List (Op ℚ)) (g : UGraph ℚ) (asked : Prop), WF g → Props.Convert.BndOk g →
    ProperD mergeW without g asked ops → ∀ p ∈ questions mergeW g ops, WF p.1 ∧ Props.Convert.BndOk p.1 ∧ AskableD p.1 without p.2 := by
  intro ops
  induction ops with
  | nil => intro g asked _ _ _ p hp; cases hp
  | cons op ops ih =>
    intro g asked hw hB hp p hm
    cases op with
    | modify c => exact ih _ _ (wf_exec mergeW hw c) (Props.Convert.bndOk_exec mergeW hB c) hp.2 p hm
    | ask q =>
      rcases List.mem_cons.1 hm with rfl | hm
      · exact ⟨hw, hB, hp.1⟩
      · exact ih g True hw hB hp.2 p hm

theorem askable_int {g : UGraph ℚ} {without : Bool} {q : Query} (hq : AskableD g without q) {k c : ℚ} (h : Const g k c) : Askable (intGraph c g) without q := by
  obtain ⟨d, h1, -⟩ := builds_int h hq.builds
  refine ⟨⟨d, h1⟩, int_cov hq.covered, hq.fits c h.norm, fun hc e he => ?_⟩
  obtain ⟨e', he', rfl⟩ := List.mem_map.1 he
  show (0 : ℚ) ≤ ((toInt c e'.weight : Int) : ℚ)
  exact_mod_cast toInt_nonneg h.pos.le (hq.corr hc e' he')

/-- What an answer is: that of a new object, and that of exact arithmetic for the graph with integer weights, scaled back. -/
def FirstAnswer [W : Width] (g : UGraph ℚ) (without : Bool) (q : Query) (x : Answer Double) : Prop :=
  Completes (fun f => askD g without f q) (.ok x) ∧
  ∃ k c a, Const g k c ∧ Askable (intGraph c g) without q ∧ Fresh1 (W := unbounded) (intGraph c g) without q a ∧
    x = mapWeights (fun w => scaleBack (.num (c * 2)) (w * 2)) a

theorem historyD_core [W : Width] (mergeW : ℚ → ℚ → ℚ) (without : Bool) : ∀ (ops : List (Op ℚ)) (g : UGraph ℚ) (asked : Prop) (o : ObjectD), WF g → Props.Convert.BndOk g →
    InvD g without o → (o.graph.needsUpdating = false → asked) → ProperD mergeW without g asked ops →
    (∀ p ∈ questions mergeW g ops, ∀ k c, Const p.1 k c → AskOne (intGraph c p.1) without p.2) →
    ∃ as o', Completes (fun f => o.history mergeW f ops) (.ok (as, o')) ∧
      List.Forall₂ (fun (p : UGraph ℚ × Query) a => FirstAnswer p.1 without p.2 a) (questions mergeW g ops) as := by
  intro ops
  induction ops with
  | nil => intro g asked o _ _ _ _ _ _; exact ⟨[], o, ⟨0, fun f _ => rfl⟩, .nil⟩
  | cons op ops ih =>
    intro g asked o hw hB hi hf hp hone
    cases op with
    | modify c =>
      obtain ⟨h1, h2⟩ := modify_invD mergeW hw hi hf hp.1
      exact ih _ _ _ (wf_exec mergeW hw c) (Props.Convert.bndOk_exec mergeW hB c) h1 h2 hp.2 hone
    | ask q =>
      obtain ⟨hq, hp2⟩ := hp
      obtain ⟨k, c, h⟩ := const_of hq.usable.rules hq.usable.le hq.usable.big
      obtain ⟨a, o1, ⟨f1, c1⟩, hi1, hfr, hfr'⟩ := askD_one hw hB hq.covered h hq.builds (hone _ (List.mem_cons_self ..) k c h) hi
      obtain ⟨as, o2, ⟨f2, c2⟩, hall⟩ := ih g True o1 hw hB hi1 (fun _ => trivial) hp2 (fun p hp => hone p (List.mem_cons_of_mem _ hp))
      refine ⟨_ :: as, o2, ⟨max f1 f2, fun f hf => ?_⟩, .cons ⟨ask_int hw hB hq.covered h hq.builds hfr, k, c, a, h, askable_int hq h, hfr', rfl⟩ hall⟩
      have h1 := c1 f (le_trans (le_max_left _ _) hf)
      have h2 := c2 f (le_trans (le_max_right _ _) hf)
      simp only at h1 h2
      simp only [ObjectD.history, h1, h2, Res.bind]

theorem means_first [W : Width] {g : UGraph ℚ} (hw : WF g) (hB : Props.Convert.BndOk g) {without : Bool} {q : Query} {x : Answer Double} (h : FirstAnswer g without q x)
    (ha : About false q) (hN : NoGain g) (hn : g.edges.length < 2 ^ 38) : ∃ u, Step g u ∧ MeansD g u q x := by
  obtain ⟨-, k, c, a, hk, hq, hf, rfl⟩ := h
  obtain ⟨scale, ⟨c', hc', rfl⟩, hm⟩ := C58_new (int_wf hw) (int_bnd hB) hq ha (int_noGain hk.pos.le hN) hf
  rw [int_norm hk] at hc'
  cases hc'
  rw [mul_one] at hm
  exact ⟨1 / k, step_of hk, means_of hk hn hm⟩

/-! ## Theorems -/

section
variable (mergeW : ℚ → ℚ → ℚ) (without : Bool) (g0 : UGraph ℚ) (hw : WF g0) (hB : Props.Convert.BndOk g0) (ops : List (Op ℚ)) (hp : ProperD mergeW without g0 False ops)
include hw hB hp

/-- C68: in any history of modifications and questions on one object, in double precision, every question ends, without undefined behaviour.  Its answer is the one that a new
object with the graph of that moment gives.  Without correlations, it is an explanation that no other beats by more than about half a step per edge. -/
theorem C68_any_time : ∃ as o, Completes (fun f => (ObjectD.of g0 without).history mergeW f ops) (.ok (as, o)) ∧
    List.Forall₂ (fun (p : UGraph ℚ × Query) a => Completes (fun f => askD p.1 without f p.2) (.ok a) ∧
      (About false p.2 → NoGain p.1 → p.1.edges.length < 2 ^ 38 → ∃ u, Step p.1 u ∧ MeansD p.1 u p.2 a)) (questions mergeW g0 ops) as := by
  have hA := askedD ops g0 False hw hB hp
  obtain ⟨as, o, h1, h2⟩ := historyD_core (W := unbounded) mergeW without ops g0 False _ hw hB (invD_of g0 without) (fun h => (by cases h)) hp (by
    intro p hm k c hk o hi
    obtain ⟨k1, k2, k3⟩ := hA p hm
    obtain ⟨a, o', q1, q2, q3⟩ := ask_one (int_wf k1) (int_bnd k2) (askable_int k3 hk) hi
    exact ⟨a, o', q1, q2, q3, q3⟩)
  refine ⟨as, o, h1, ?_⟩
  rw [List.forall₂_iff_get] at h2 ⊢
  refine ⟨h2.1, fun i hi hi' => ⟨(h2.2 i hi hi').1, fun ha hN hn => ?_⟩⟩
  obtain ⟨k1, k2, -⟩ := hA _ (List.get_mem _ ⟨i, hi⟩)
  exact means_first k1 k2 (h2.2 i hi hi') ha hN hn

/-- C68 for the library as compiled, with its 32-bit wrapped radius: on graphs that are near (see C61). -/
theorem C68_any_time_int32 (hn : ∀ p ∈ questions mergeW g0 ops, NearD p.1) :
    ∃ as o, Completes (fun f => (ObjectD.of g0 without).history (W := int32) mergeW f ops) (.ok (as, o)) ∧
    List.Forall₂ (fun (p : UGraph ℚ × Query) a => Completes (fun f => askD (W := int32) p.1 without f p.2) (.ok a) ∧
      (About false p.2 → NoGain p.1 → p.1.edges.length < 2 ^ 38 → ∃ u, Step p.1 u ∧ MeansD p.1 u p.2 a)) (questions mergeW g0 ops) as := by
  have hA := askedD ops g0 False hw hB hp
  obtain ⟨as, o, h1, h2⟩ := historyD_core (W := int32) mergeW without ops g0 False _ hw hB (invD_of g0 without) (fun h => (by cases h)) hp (by
    intro p hm k c hk o hi
    obtain ⟨k1, k2, k3⟩ := hA p hm
    have hnear := hn p hm c hk.norm
    obtain ⟨a, o', q1, q2, q3⟩ := ask_one (int_wf k1) (int_bnd k2) (askable_int k3 hk) hi
    exact ⟨a, o', (Narrow.ask_agree (int_wf k1) (int_bnd k2) hnear (askable_int k3 hk) hi).completes q1, q2,
      (Narrow.fresh1_int32 (int_wf k1) (int_bnd k2) hnear (askable_int k3 hk) a).2 q3, q3⟩)
  refine ⟨as, o, h1, ?_⟩
  rw [List.forall₂_iff_get] at h2 ⊢
  refine ⟨h2.1, fun i hi hi' => ⟨(h2.2 i hi hi').1, fun ha hN hn => ?_⟩⟩
  obtain ⟨k1, k2, -⟩ := hA _ (List.get_mem _ ⟨i, hi⟩)
  exact means_first (W := int32) k1 k2 (h2.2 i hi hi') ha hN hn

end

/-- The sample of C65, with one more edge. -/
def sample' : UGraph ℚ := run (fun a _ => a) (UGraph.new 0 1) [.add 0 (some 1) [0] (-1 / 4) 0 .disallow, .add 1 none [] 4 0 .disallow, .add 0 none [] (3 / 2) 0 .disallow,
  .add 1 (some 2) [0] (7 / 3) 0 .disallow]

theorem sample'_usable : Usable sample' where
  rules := by
    have h : ∀ e ∈ sample'.edges, e.implied = [] := by decide +kernel
    intro e he i hi
    rw [h e he] at hi
    cases hi
  le := by decide +kernel
  big := .inr ⟨4, by decide +kernel, le_trans (one_div_le_one_div_of_le (by norm_num) (one_le_pow₀ (by norm_num))) (by norm_num)⟩

/-- A history: a question, then another edge, then the same question and a batch. -/
def sampleOps : List (Op ℚ) := [.ask (.decode false [0]), .modify (.add 1 (some 2) [0] (7 / 3) 0 .disallow), .ask (.decode false [0]),
  .ask (.batch false true false 3 [[1, 1, 0], [0, 1, 1]])]

/-- It meets the conditions of C68, also of the version with 32-bit radii. -/
theorem sample_proper : ProperD (fun a _ => a) false Double.sample False sampleOps := by
  have hb : ∀ {g : UGraph ℚ}, WF g → Props.Convert.BndOk g → Covered g → Usable g → (∀ e ∈ g.edges, e.implied = []) → ∃ x, toMwpmD g false true = .ok x :=
    fun h1 h2 h3 h4 h5 => C65_builds h1 h2 h3 h4 h5 false
  have h1 := hb (g := Double.sample) (wf_run _ (wf_new 0 1) _) (Props.Convert.bndOk_run _ (Props.Convert.bndOk_new 0 1) _) (by unfold Covered; decide +kernel) sample_usable
    (by decide +kernel)
  have h2 := hb (g := sample') (wf_run _ (wf_new 0 1) _) (Props.Convert.bndOk_run _ (Props.Convert.bndOk_new 0 1) _) (by unfold Covered; decide +kernel) sample'_usable
    (by decide +kernel)
  refine ⟨⟨sample_usable, h1, by unfold Covered; decide +kernel, fun c _ => ?_, fun h => by cases h⟩, ⟨fun _ n hn => (by cases hn),
    ⟨⟨sample'_usable, h2, by unfold Covered; decide +kernel, fun c _ => ?_, fun h => by cases h⟩,
    ⟨⟨sample'_usable, h2, by unfold Covered; decide +kernel, fun c _ => ?_, fun h => by cases h⟩, trivial⟩⟩⟩⟩
  · show EventsOk Double.sample [0]
    unfold EventsOk; decide +kernel
  · show EventsOk sample' [0]
    unfold EventsOk; decide +kernel
  · intro _
    show ∀ row ∈ [[1, 1, 0], [0, 1, 1]], ∀ d ∈ readRow false row, d < sample'.nodes.length
    decide +kernel

example : ∀ p ∈ questions (fun a _ => a) Double.sample sampleOps, NearD p.1 := by
  have h1 : NearD Double.sample := C65_near (wf_run _ (wf_new 0 1) _) sample_usable (.inl (by decide +kernel))
  have h2 : NearD sample' := C65_near (wf_run _ (wf_new 0 1) _) sample'_usable (.inl (by decide +kernel))
  intro p hp
  have : p.1 = Double.sample ∨ p.1 = sample' := by
    rcases List.mem_cons.1 hp with rfl | hp
    · exact .inl rfl
    rcases List.mem_cons.1 hp with rfl | hp
    · exact .inr rfl
    rcases List.mem_cons.1 hp with rfl | hp
    · exact .inr rfl
    · cases hp
  rcases this with e | e
  · rw [e]; exact h1
  · rw [e]; exact h2

end Verif.Props.DoubleHistory
