import Verif.Props.Answers

/-!
# C79: decoding with correlations on any graph, at any time

Exact arithmetic; for double precision see `Verif.Props.ConditionedD`.
-/

namespace Verif.Props.Conditioned

open Verif Verif.Graph Verif.CE Verif.SB Verif.UG Verif.Conv Verif.Obj
open Verif.Props.Correlated Verif.Props.Shots Verif.Props.Edges Verif.Props.EndToEnd Verif.Props.UserEdges Verif.Props.UserGraph Verif.Props.Decode
open Verif.Props.Object Verif.Props.Answers
open Verif.Sch (Res)

variable {K : Type} [Field K] [LinearOrder K] [IsStrictOrderedRing K] [FloorRing K]

/-! ## Specification -/

/-- The rounded weights that edge `j` may have in the second pass if `C` is the explanation found in the first: its own, and those that the edges of `C` imply for it.  (All
boundary nodes are the same end, see `seenAs`; edges from a node to itself imply nothing.) -/
def options (g : UGraph K) (scale : K) (C : Choice g) (j : Fin g.edges.length) : Set Int :=
  {x | x = rounded scale g.edges[j] ∨
    ∃ i ∈ C, ¬ (seenAs g g.edges[i]).IsDiag ∧ ∃ r ∈ g.edges[i].implied, s(some r.node1, r.node2) = seenAs g g.edges[j] ∧ x = |disc (scale / 2) r.weight|}

/-- `ω` are the weights of the second pass: for each edge the least of its options. -/
def Second (g : UGraph K) (scale : K) (C : Choice g) (ω : Fin g.edges.length → Int) : Prop := ∀ j, IsLeast (options g scale C j) (ω j)

/-- `C` explains the events, with least total of the weights `ω`. -/
def BestFor {g : UGraph K} (ω : Fin g.edges.length → Int) (C : Choice g) (events : List Nat) : Prop :=
  EndToEnd.Explains C events ∧ ∀ C' : Choice g, EndToEnd.Explains C' events → ∑ j ∈ C, ω j ≤ ∑ j ∈ C', ω j

/-- Explanations of least weight in a second pass, after a first pass that found an explanation of least weight. -/
def second (g : UGraph K) (scale : K) : Solutions g := fun events C n =>
  ∃ C1 ω, Best scale C1 events ∧ Second g scale C1 ω ∧ BestFor ω C events ∧ n = ∑ j ∈ C, ω j

/-- The answer of an object that was loaded without correlations: an exception (or an empty array, if no shots are given). -/
def Refused : Query → Answer K → Prop
  | .batch _ _ _ _ rows, a => a = .exception ∨ (rows = [] ∧ a = .batch [] [])
  | _, a => a = .exception

/-- What the answer to a question with correlations means; `without`: the object was loaded without correlations. -/
def Meant (g : UGraph K) (without : Bool) (q : Query) (a : Answer K) : Prop :=
  if without then Refused q a else ∃ scale, Scale g scale ∧ Means g scale (second g scale) q a

/-! ## Lemmas -/

omit [IsStrictOrderedRing K] in
theorem implied_from {g : UGraph K} {c : K} {e : UEdge K} {x : Conv.Ins K} (h : From g c e x) : impliedOf x = e.implied := by
  cases x with
  | edge => exact h.2.2.2.2.2
  | bdry => exact h.2.2.2

/-- The decoder with its rules, and where its edges come from. -/
structure Deep (g : UGraph K) (without : Bool) (d : Decoder K) (ins : List (Conv.Ins K)) (c : K) (φ : Fin (opsOf ins).length → Fin g.edges.length) : Prop
    extends Whole g d ins c φ where
  same : ∀ i, impliedOf (insAt ins i) = g.edges[φ i].implied
  corr : LoadedCorr g.nodes.length g.numObs ins d.P.scale d.P.mg d.sg d.P.mask d.C
  wo : d.C.without = without
  new : d.st = CState.init d.P.mg d.sg

theorem deep {g : UGraph K} (hw : WF g) (hB : Props.Convert.BndOk g) (hcov : Covered g) {without : Bool} {d : Decoder K} (h : toMwpm g without true = some d) :
    ∃ ins c φ, Deep g without d ins c φ := by
  unfold toMwpm at h
  split at h
  · rename_i P ins k hP hconv
    split at h
    · rename_i rg hrg
      rw [if_pos (by simp)] at h
      split at h
      · rename_i sg hsg
        split at h
        · rename_i rs hrs
          cases h
          obtain ⟨ins', k', c, h1, h2, h3, h4, h5, h6, h7, h8, h9, h10, h11, h12, φ, hO, hF⟩ := prepared_graph hw hB hP
          rw [hconv] at h1
          cases h1
          have hb : Built g.nodes.length g.numObs (opsOf ins) P.mg sg P.mask := ⟨h7, hsg, fun _ => h9, h8, by
            intro op hop o ho
            obtain ⟨i, hi, rfl⟩ := List.getElem_of_mem hop
            have := hO.obs ⟨i, hi⟩
            exact hcov _ (List.getElem_mem (φ ⟨i, hi⟩).2) o (by rw [← Fin.getElem_fin, ← this]; exact ho)⟩
          refine ⟨ins, c, φ, ⟨h2, h3, h5, h6, hb, h10, hO⟩, fun i => implied_from (hF i (by simpa using i.2)), ⟨hb, ?_, ?_⟩, rfl, rfl⟩
          · rw [h4]; exact hrg
          · rw [h4]; exact hrs
        · cases h
      · cases h
    · cases h
  · cases h

section
variable {g : UGraph K} {without : Bool} {d : Decoder K} {ins : List (Conv.Ins K)} {c : K} {φ : Fin (opsOf ins).length → Fin g.edges.length}

theorem Deep.full (hD : Deep g without d ins c φ) (hN : NonNeg g) : BuiltCorr g.nodes.length g.numObs ins d.P.scale d.P.mg d.sg d.P.mask d.C := by
  refine ⟨hD.corr, ?_⟩
  intro i hi r hr j hj he
  obtain ⟨n, hn, rfl⟩ := List.getElem_of_mem hj
  have h3 := hD.origin.w ⟨n, by simpa using hn⟩
  have h4 : (Props.Convert.toGraphIns ins[n]).w = disc c g.edges[φ ⟨n, by simpa using hn⟩].weight := by
    rw [← h3]; simp
  rw [h4]
  exact (Discretise.C19_monotone_odd _ hD.pos 0 _).2.2 (hN _ (List.getElem_mem _))

theorem noGain_of (hN : NonNeg g) : NoGain g :=
  ⟨fun i j _ _ _ _ => add_nonneg (hN _ (List.getElem_mem i.2)) (hN _ (List.getElem_mem j.2)), fun i _ => hN _ (List.getElem_mem i.2)⟩

/-- The options of an edge, in terms of the inserted edges. -/
theorem Deep.options_iff (hD : Deep g without d ins c φ) (x : NegWeights.Correction (opsOf ins)) (j : Fin (opsOf ins).length) :
    options g d.P.scale (lift hD.origin.inj x) (φ j) = offers ins d.P.scale x j := by
  ext n
  simp only [options, offers, Set.mem_setOf_eq]
  refine or_congr ?_ ?_
  · rw [hD.origin.w, rounded, hD.half]
  · constructor
    · rintro ⟨i', h1, h2, r, h3, h4, h5⟩
      obtain ⟨i, hi, rfl⟩ := Finset.mem_map.1 h1
      refine ⟨i, hi, ?_, r, ?_, ?_, h5⟩
      · rw [loop_iff, hD.origin.ends]; exact h2
      · rw [hD.same]; exact h3
      · rw [hD.origin.ends]; exact h4
    · rintro ⟨i, hi, h2, r, h3, h4, h5⟩
      refine ⟨φ i, Finset.mem_map.2 ⟨i, hi, rfl⟩, ?_, r, ?_, ?_, h5⟩
      · rw [loop_iff, hD.origin.ends] at h2; exact h2
      · rw [hD.same] at h3; exact h3
      · rw [hD.origin.ends] at h4; exact h4

theorem least_option {scale : K} (hs : 0 < scale / 2) (hN : NonNeg g) (C : Choice g) (j : Fin g.edges.length) : ∃ n, IsLeast (options g scale C j) n ∧ 0 ≤ n := by
  have h0 : ∀ x ∈ options g scale C j, 0 ≤ x := by
    rintro x (rfl | ⟨i, -, -, r, -, -, rfl⟩)
    · exact (Discretise.C19_monotone_odd _ hs 0 _).2.2 (hN _ (List.getElem_mem _))
    · exact abs_nonneg _
  have hne : (options g scale C j).Nonempty := ⟨_, .inl rfl⟩
  obtain ⟨n, hn, hl⟩ := Int.exists_least_of_bdd (P := fun x => x ∈ options g scale C j) ⟨0, h0⟩ hne
  exact ⟨n, ⟨hn, hl⟩, h0 n hn⟩

omit [IsStrictOrderedRing K] [FloorRing K] [Field K] [LinearOrder K] in
theorem Leaves.seen {u : Nat} {e : UEdge K} (h : Leaves g u e) : seenAs g e = s(some u, none) := by
  obtain ⟨h1, ⟨h2, h3 | ⟨v, h3, h4⟩⟩ | ⟨h2, h3⟩⟩ := h
  · simp [seenAs, h2, h3, h1]
  · simp [seenAs, h2, h3, h1, h4]
  · simp [seenAs, h2, h3, h1, Sym2.eq_swap]

open Classical in
/-- Least total of the weights of the second pass, transferred to the edges of the user. -/
theorem second_best (hO : Origin g c (opsOf ins) φ) {ω : Fin (opsOf ins).length → Int} {ω' : Fin g.edges.length → Int} (h0 : ∀ j, 0 ≤ ω' j)
    (he : ∀ i, ω i = ω' (φ i)) (hl : ∀ j u, Leaves g u g.edges[j] → ∃ i, Leaves g u g.edges[φ i] ∧ ω' (φ i) ≤ ω' j) {events : List Nat} {T : Finset Nat}
    (hT : ∀ x, x ∈ T ↔ x ∈ events ∧ x ∉ g.boundary) {x : NegWeights.Correction (opsOf ins)} (hx : NegWeights.Optimal (totalOf ω) x T) :
    BestFor ω' (lift hO.inj x) events ∧ totalOf ω x = ∑ j ∈ lift hO.inj x, ω' j := by
  have htot : ∀ x : NegWeights.Correction (opsOf ins), totalOf ω x = ∑ j ∈ lift hO.inj x, ω' j := by
    intro x
    unfold lift totalOf
    rw [Finset.sum_map]
    exact Finset.sum_congr rfl fun i _ => he i
  refine ⟨⟨(lift_explains hO x events _ hT).2 hx.1, fun C' hC' => ?_⟩, htot x⟩
  rw [← htot]
  refine le_trans (hx.2 _ (lower_explains hO C' events _ hT hC')) ?_
  have e1 : totalOf ω (lower φ C') = ∑ i ∈ lower φ C', ω' (φ i) := Finset.sum_congr rfl fun i _ => he i
  rw [e1, lower_sum hO, between_sum hO C' ω', split_sum C']
  have h1 : (0 : Int) ≤ ∑ j ∈ C'.filter (fun j => Outside g g.edges[j]), ω' j := Finset.sum_nonneg fun j _ => h0 j
  have h2 := leave_sum φ ω' (fun u j => Leaves g u g.edges[j]) C' (fun _ _ _ h h' => h.unique h') hl hO.one (fun a _ b _ _ _ _ _ => add_nonneg (h0 a) (h0 b))
  linarith

/-- Two passes on the decoding graph are two passes on the graph of the user. -/
theorem Deep.two (hB : Props.Convert.BndOk g) (hN : NonNeg g) (hD : Deep g without d ins c φ) {events : List Nat} (hev : ∀ x ∈ events, x < g.nodes.length)
    {c1 c2 : NegWeights.Correction (opsOf ins)} {ω : Fin (opsOf ins).length → Int}
    (h1 : NegWeights.Optimal NegWeights.weight c1 (counted d.P.bnd events)) (h2 : Conditional ins d.P.scale c1 ω)
    (h3 : NegWeights.Optimal (totalOf ω) c2 (counted d.P.bnd events)) : second g d.P.scale events (lift hD.origin.inj c2) (totalOf ω c2) := by
  have hT := counted_iff hB rfl hev
  rw [← hD.flags] at hT
  have hs : 0 < d.P.scale / 2 := by rw [hD.half]; exact hD.pos
  choose ω' hω using fun j => least_option hs hN (lift hD.origin.inj c1) j
  have he : ∀ i, ω i = ω' (φ i) := by
    intro i
    have := h2 i
    rw [← hD.options_iff] at this
    exact this.unique (hω (φ i)).1
  have hl : ∀ j u, Leaves g u g.edges[j] → ∃ i, Leaves g u g.edges[φ i] ∧ ω' (φ i) ≤ ω' j := by
    intro j u hj
    obtain ⟨i, hi, hle⟩ := hD.origin.least j u hj
    refine ⟨i, hi, ?_⟩
    have hm := (hω (φ i)).1
    rcases (hω j).1.1 with e | ⟨i', k1, k2, r, k3, k4, k5⟩
    · refine le_trans (hm.2 (.inl rfl)) ?_
      rw [e, rounded, rounded, hD.half]
      exact hle
    · refine hm.2 (.inr ⟨i', k1, k2, r, k3, ?_, k5⟩)
      rw [k4, Leaves.seen hj, Leaves.seen hi]
  obtain ⟨k1, k2⟩ := second_best hD.origin (fun j => (hω j).2) he hl hT h3
  exact ⟨_, ω', best_lift hD.origin hD.pos hD.half (noGain_of hN) hT h1, fun j => (hω j).1, k1, k2⟩

theorem Deep.none (hB : Props.Convert.BndOk g) (hD : Deep g without d ins c φ) {events : List Nat} (hev : ∀ x ∈ events, x < g.nodes.length)
    (hno : ∀ c : NegWeights.Correction (opsOf ins), ¬ NegWeights.Explains c (counted d.P.bnd events)) (C : Choice g) : ¬ EndToEnd.Explains C events := by
  have hT := counted_iff hB rfl hev
  rw [← hD.flags] at hT
  exact fun hE => hno _ (lower_explains hD.origin C events _ hT hE)

end

section
variable {g : UGraph K} (hw : WF g) (hB : Props.Convert.BndOk g) (hcov : Covered g) (hN : NonNeg g) {without : Bool} {d1 : Decoder K}
  (h1 : toMwpm g without true = some d1) {events : List Nat} (hev : EventsOk g events)
include hw hB hcov hN h1 hev

theorem decode_second : ∃ a scale, Scale g scale ∧ Fresh1 g without (.decode true events) a ∧
    ((without = true ∧ a = .exception) ∨ (without = false ∧ Means g scale (second g scale) (.decode true events) a)) := by
  have hs := solid hw hB hcov h1
  obtain ⟨ins, c, φ, hD⟩ := deep hw hB hcov h1
  have hsc : Scale g d1.P.scale := ⟨c, hD.norm, hD.twice⟩
  have hfull := hD.full hN
  have hval : Valid d1.P.mg events := ⟨hev.1, by rw [hs.len]; exact hev.2⟩
  have hrest := used_rest hfull hs.quiet (st := d1.st) (by rw [hD.new]; exact .fresh)
  have hr : ∀ {r : Reply} {st' : CState}, Completes (fun f => respond d1.P.mg d1.sg d1.P.bnd d1.P.mask d1.C f d1.st
      (.obs true events (List.replicate g.numObs 0#8) 0)) (.ok (r, st')) → Fresh1 g without (.decode true events) (decodeAns (rowAns false d1.P.scale r)) := by
    intro r st' hc
    exact CliRun.fresh_of hw hB h1 hs (ready_new h1) (fun _ => hN) (fun _ => rfl) hev hc
  rcases correlated_spec hfull hs.quiet hrest hval (promise_obs _ _ d1.P.bnd d1.P.mask events (buf := List.replicate g.numObs 0#8) (by simp) 0) with
    ⟨st', ⟨buf, w⟩, ⟨f0, e⟩, hwo, -⟩ | ⟨st', ⟨f0, e⟩, -, hthr⟩
  · have hf : without = false := by rw [← hD.wo]; exact hwo
    rcases C51_correlated_observables g.nodes.length g.numObs ins d1.P.scale d1.P.mg d1.sg d1.P.mask d1.C hfull d1.P.bnd hs.quiet d1.st (by rw [hD.new]; exact .fresh) events hval with
      ⟨st', buf, w, ⟨f0, e⟩, -, c1, k1, ω, k2, c2, k3, k4, k5, k6⟩ | ⟨st', ⟨f0, e⟩, -, k1⟩
    · refine ⟨_, d1.P.scale, hsc, hr (r := .predictions buf w) (st' := st') ⟨f0, fun f hf => ?_⟩, .inr ⟨hf, .inl ⟨buf, _, rfl, lift hD.origin.inj c2, w, ?_, k5, ?_, rfl⟩⟩⟩
      · have := e f hf
        simp only at this
        simp only [respond, this, tell]
      · rw [k4]
        exact hD.two hB hN hev.2 k1 k2 k3
      · intro o ho
        rw [k6 o ho, lift_crossed hD.origin]
    · refine ⟨_, d1.P.scale, hsc, hr (r := .exception) (st' := st') ⟨f0, fun f hf => ?_⟩, .inr ⟨hf, .inr ⟨rfl, ?_⟩⟩⟩
      · have := e f hf
        simp only at this
        simp only [respond, this, tell]
      · rcases k1 with k1 | k1
        · rw [hwo] at k1; cases k1
        · exact hD.none hB hev.2 k1
  · refine ⟨_, d1.P.scale, hsc, hr (r := .exception) (st' := st') ⟨f0, fun f hf => ?_⟩, ?_⟩
    · have := e f hf
      simp only at this
      simp only [respond, decodeObsCorr, this, tell]
    · cases hwo : without with
      | true => exact .inl ⟨rfl, rfl⟩
      | false =>
        refine .inr ⟨rfl, .inr ⟨rfl, ?_⟩⟩
        rcases hthr with k1 | k1
        · rw [hD.wo, hwo] at k1; cases k1
        · exact hD.none hB hev.2 k1

theorem edges_second : ∃ a scale, Scale g scale ∧ Fresh1 g without (.edges true events) a ∧
    ((without = true ∧ a = .exception) ∨ (without = false ∧ Means g scale (second g scale) (.edges true events) a)) := by
  have hs := solid hw hB hcov h1
  obtain ⟨ins, c, φ, hD⟩ := deep hw hB hcov h1
  have hsc : Scale g d1.P.scale := ⟨c, hD.norm, hD.twice⟩
  have hfull := hD.full hN
  have hval : Valid d1.P.mg events := ⟨hev.1, by rw [hs.len]; exact hev.2⟩
  have hrest := used_rest hfull hs.quiet (st := d1.st) (by rw [hD.new]; exact .fresh)
  have hd : (Object.of g without).decoderFor true = some ({ (Object.of g without) with graph := { g with needsUpdating := false }, cache := some d1 }, d1) := by
    have : toMwpm (Object.of g without).graph without true = some d1 :=
      (toMwpm_but (g := g) (g' := (Object.of g without).graph) ⟨true, rfl⟩ without true).trans h1
    simp only [Object.decoderFor, if_true, Object.getMwpmWithSearchGraph, Object.of, Object.rebuild] at this ⊢
    rw [this]
  have hok : ∀ {es : List (Nat × Option Nat)} {st' : CState}, Completes (fun f => decodeEdgesCorr d1.P.mg d1.sg d1.P.bnd d1.C f d1.st events) (.ok (st', es)) →
      Fresh1 g without (.edges true events) (.edges es) := by
    rintro es st' ⟨f0, e⟩
    refine ⟨{ (Object.of g without) with graph := { g with needsUpdating := false }, cache := some { d1 with st := st' } }, f0, fun f hf => ?_⟩
    have := e f hf
    simp only at this
    simp only [Object.ask, hd, Object.call, respond, this, tell]
  have hthrow : ∀ {st' : CState}, Completes (fun f => decodeEdgesCorr d1.P.mg d1.sg d1.P.bnd d1.C f d1.st events) (.throws st') →
      Fresh1 g without (.edges true events) .exception := by
    rintro st' ⟨f0, e⟩
    refine ⟨{ (Object.of g without) with graph := { g with needsUpdating := false }, cache := some { d1 with st := st' } }, f0, fun f hf => ?_⟩
    have := e f hf
    simp only at this
    simp only [Object.ask, hd, Object.call, respond, this, tell]
  rcases correlated_spec hfull hs.quiet hrest hval (promise_edges g.nodes.length g.numObs d1.P.bnd d1.P.mask events) with
    ⟨st', es, e, hwo, -⟩ | ⟨st', e, -, hthr⟩
  · have hf : without = false := by rw [← hD.wo]; exact hwo
    rcases C51_correlated_edges g.nodes.length g.numObs ins d1.P.scale d1.P.mg d1.sg d1.P.mask d1.C hfull d1.P.bnd hs.quiet d1.st (by rw [hD.new]; exact .fresh) events hval with
      ⟨st', es, e, -, c1, k1, ω, k2, c2, k3, k4⟩ | ⟨st', e, -, k1⟩
    · exact ⟨_, d1.P.scale, hsc, hok e, .inr ⟨hf, .inl ⟨es, rfl, lift hD.origin.inj c2, _, hD.two hB hN hev.2 k1 k2 k3, returned_lift hD.origin k4⟩⟩⟩
    · refine ⟨_, d1.P.scale, hsc, hthrow e, .inr ⟨hf, .inr ⟨rfl, ?_⟩⟩⟩
      rcases k1 with k1 | k1
      · rw [hwo] at k1; cases k1
      · exact hD.none hB hev.2 k1
  · refine ⟨_, d1.P.scale, hsc, hthrow e, ?_⟩
    cases hwo : without with
    | true => exact .inl ⟨rfl, rfl⟩
    | false =>
      refine .inr ⟨rfl, .inr ⟨rfl, ?_⟩⟩
      rcases hthr with k1 | k1
      · rw [hD.wo, hwo] at k1; cases k1
      · exact hD.none hB hev.2 k1

end

/-! ## Theorems -/

/-- C79 (first question).  What the answer of a new object to a question with correlations means. -/
theorem C79_new {g : UGraph K} (hw : WF g) (hB : Props.Convert.BndOk g) {without : Bool} {q : Query} (hq : Askable g without q) (ha : About true q)
    {a : Answer K} (h : Fresh1 g without q a) : Meant g without q a := by
  obtain ⟨⟨d1, h1⟩, hcov, hfit, hcor⟩ := id hq
  unfold Meant
  cases q with
  | decode corr events =>
    cases ha
    obtain ⟨b, scale, hsc, hf, hm⟩ := decode_second hw hB hcov (hcor rfl) h1 hfit
    rw [fresh1_unique h hf]
    rcases hm with ⟨rfl, hm⟩ | ⟨rfl, hm⟩
    · rw [if_pos rfl]; exact hm
    · rw [if_neg (by decide)]; exact ⟨scale, hsc, hm⟩
  | edges corr events =>
    cases ha
    obtain ⟨b, scale, hsc, hf, hm⟩ := edges_second hw hB hcov (hcor rfl) h1 hfit
    rw [fresh1_unique h hf]
    rcases hm with ⟨rfl, hm⟩ | ⟨rfl, hm⟩
    · rw [if_pos rfl]; exact hm
    · rw [if_neg (by decide)]; exact ⟨scale, hsc, hm⟩
  | batch ps pp corr cols rows =>
    cases ha
    cases without with
    | false =>
      rw [if_neg (by decide)]
      obtain ⟨ins, c, φ, hW⟩ := whole hw hB hcov h1
      have hsc : Scale g d1.P.scale := ⟨c, hW.norm, hW.twice⟩
      refine ⟨d1.P.scale, hsc, batch_means hw hB hq (fun events hev => ?_) h⟩
      obtain ⟨b', scale, hsc', hf, hm⟩ := decode_second hw hB hcov (hcor rfl) h1 hev
      rw [scale_unique hsc hsc']
      rcases hm with ⟨hm, -⟩ | ⟨-, hm⟩
      · cases hm
      · exact ⟨b', hf, hm⟩
    | true =>
      rw [if_pos rfl]
      cases hsh : Obs.shapeOk ps cols g.numDetectors g.nodes.length with
      | false =>
        have : Fresh1 g true (.batch ps pp true cols rows) .exception := ⟨_, 0, fun f _ => C55_shape (Object.of g true) f hsh⟩
        rw [fresh1_unique h this]
        exact .inl rfl
      | true =>
        rcases C55_batch hw hB hq hsh with ⟨raws, outs, weights, k1, k2, k3, k4, k5⟩ | ⟨k1, row, hr, k2⟩
        · rw [fresh1_unique h k1]
          cases rows with
          | nil =>
            rw [List.length_nil, List.length_eq_zero_iff] at k4 k5
            subst k4 k5
            cases k2
            exact .inr ⟨rfl, rfl⟩
          | cons row rows =>
            exfalso
            obtain ⟨b', scale, hsc', hf, hm⟩ := decode_second hw hB hcov (hcor rfl) h1 (events := readRow ps row) ⟨readRow_nodup ps row, hfit hsh row (by simp)⟩
            rcases hm with ⟨-, rfl⟩ | ⟨hm, -⟩
            · cases hz : raws.zip weights with
              | nil => rw [hz] at k3; cases k3
              | cons y ys =>
                rw [hz] at k3
                cases k3 with
                | cons k6 _ => cases fresh1_unique k6 hf
            · cases hm
        · rw [fresh1_unique h k1]
          exact .inl rfl
  | pairs events => exact ha.elim
  | path src dst => exact ha.elim

/-- C79.  In any history of modifications and questions on one object, every question ends, and every answer to a question with correlations for predictions, a batch of
predictions, or edges is a best explanation of the detection events in a second pass, on the graph of that moment; or an exception if nothing explains them, or if the object was
loaded without correlations. -/
theorem C79_any_time (mergeW : K → K → K) (without : Bool) (g0 : UGraph K) (hw : WF g0) (hB : Props.Convert.BndOk g0) (ops : List (Op K))
    (hp : Proper mergeW without g0 False ops) :
    ∃ as o, Completes (fun f => (Object.of g0 without).history mergeW f ops) (.ok (as, o)) ∧
      List.Forall₂ (fun (p : UGraph K × Query) a => About true p.2 → Meant p.1 without p.2 a) (questions mergeW g0 ops) as := by
  obtain ⟨as, o, h1, h2⟩ := C54_as_new mergeW without g0 hw hB ops hp
  refine ⟨as, o, h1, ?_⟩
  rw [List.forall₂_iff_get] at h2 ⊢
  refine ⟨h2.1, fun i hi hi' ha => ?_⟩
  obtain ⟨k1, k2, k3⟩ := asked ops g0 False hw hB hp _ (List.get_mem _ ⟨i, hi⟩)
  exact C79_new k1 k2 k3 ha (h2.2 i hi hi')

/-- C79, no rules: if no edge implies weights, the second pass finds what a single pass would. -/
theorem C79_no_rules {g : UGraph K} (hr : ∀ e ∈ g.edges, e.implied = []) (scale : K) (events : List Nat) (C : Choice g) (n : Int) :
    second g scale events C n → best g scale events C n := by
  rintro ⟨C1, ω, -, h2, h3, h4⟩
  have e : ω = fun j : Fin g.edges.length => rounded scale g.edges[j] := by
    funext j
    rcases (h2 j).1 with h | ⟨i, -, -, r, hm, -⟩
    · exact h
    · rw [hr g.edges[i] (List.getElem_mem _)] at hm
      cases hm
  rw [e] at h3 h4
  exact ⟨h3, h4⟩

/-! ## Examples -/

/-- Two detectors, with boundary edges of weight 2 and 4, and an edge of weight 7 between them.  The first boundary edge implies weight 1 for the second. -/
def sample : UGraph ℚ :=
  let g := run (fun a _ => a) (UGraph.new 0 2) [.add 0 none [0] 2 0 .disallow, .add 1 none [1] 4 0 .disallow, .add 0 (some 1) [] 7 0 .disallow]
  { g with edges := g.edges.map fun e => if e.node1 = 0 ∧ e.node2 = none then { e with implied := [⟨1, none, 1⟩] } else e }

omit [Field K] [LinearOrder K] [IsStrictOrderedRing K] [FloorRing K] in
theorem wf_map {g : UGraph K} (hw : WF g) {h : UEdge K → UEdge K} (hh : ∀ e, (h e).node1 = e.node1 ∧ (h e).node2 = e.node2) : WF { g with edges := g.edges.map h } where
  fwd1 := by
    intro i hi
    simp only [List.length_map] at hi
    simp only [List.getElem_map, (hh _).1]
    exact hw.fwd1 i hi
  fwd2 := by
    intro i hi
    simp only [List.length_map] at hi
    simp only [List.getElem_map, (hh _).1, (hh _).2]
    exact hw.fwd2 i hi
  back := by
    intro u n hn i b hm
    obtain ⟨h1, h2⟩ := hw.back u n hn i b hm
    refine ⟨by simpa using h1, ?_⟩
    simp only [List.getElem_map, (hh _).1, (hh _).2]
    exact h2
  uniq := by
    intro i j hi hj
    simp only [List.length_map] at hi hj
    simp only [List.getElem_map, UEdge.key, (hh _).1, (hh _).2]
    exact hw.uniq i j hi hj

theorem sample_wf : WF sample := wf_map (wf_run (fun a _ : ℚ => a) (wf_new 0 2) _) fun e => by split <;> exact ⟨rfl, rfl⟩

theorem sample_askable : Askable sample false (.decode true [0, 1]) :=
  ⟨Option.isSome_iff_exists.1 (by decide +kernel), by unfold Covered; decide +kernel, by show EventsOk _ _; unfold EventsOk; decide +kernel, fun _ => by unfold NonNeg; decide +kernel⟩

/-- The sample meets the conditions of `C79_new` and of `C79_any_time`. -/
example : Props.Convert.BndOk sample ∧ About true (.decode true [0, 1]) ∧
    Proper (fun a _ => a) false sample False [.ask (.decode true [0, 1]), .modify (.setMinNumObs 1), .ask (.decode true [0, 1])] :=
  ⟨Props.Convert.bndOk_run (fun a _ : ℚ => a) (Props.Convert.bndOk_new 0 2) _, rfl, sample_askable, fun _ n h => by cases h; decide +kernel, sample_askable, trivial⟩

/-- Both boundary edges are chosen, in both passes; in the second their weight is 3. -/
example : ∀ o, ((Object.of sample false).ask 30 (.decode true [0, 1])).bind (fun r => match r with | .ok (a, _) => some a | _ => none) = o →
    o = some (.predictions [1#8, 1#8] 3) := by
  rintro _ rfl
  decide +kernel

end Verif.Props.Conditioned
