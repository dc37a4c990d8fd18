import Verif.Props.Correlated
import Verif.Props.UserEdges
import Verif.Props.Dem

/-!
# Correlated decoding of a detector error model, end to end (C53)

The statements mention the errors of the model, the edges of the loaded graph and the detection events, but no implied weights and no decoding graph.
-/

namespace Verif.Props.DemCorr

open Verif Verif.UG Verif.Conv Verif.SB Verif.Dem Verif.Props.Dem Verif.Props.EndToEnd Verif.Props.UserEdges Verif.Props.Correlated
open Verif.Props.Edges (Completes)
open Verif.Props.UserGraph (samePair)
open Verif.Props.MergeWeights (oddOf llr)
open Verif.MW (mergeWeights)
open Verif.Sch (Res)

/-! ## Specification -/

/-- No component of a possible error names one detector twice. -/
def NoLoops (m : Model ℝ) : Prop := ∀ e ∈ m.errors, e.p ≠ 0 → ∀ c ∈ components e, ∀ d, c.1 ≠ [d, d]

/-- Some possible error contains both edges. -/
def Share (m : Model ℝ) (a b : UEdge ℝ) : Prop := ∃ e ∈ m.errors, 0 < multiplicity a.node1 a.node2 e ∧ 0 < multiplicity b.node1 b.node2 e

/-- The probability of edge `b` given edge `a`, but at most one half. -/
noncomputable def given (m : Model ℝ) (a b : UEdge ℝ) : ℝ :=
  min (1 / 2) (oddOf (fires a.node1 a.node2 b.node1 b.node2 m.errors) / oddOf (fires a.node1 a.node2 a.node1 a.node2 m.errors))

/-- The weights that edge `j` may have in the second pass if `C` is the solution of the first: its own, and that of its probability given any edge of
`C` which shares an error with it. -/
def options (m : Model ℝ) (g : UGraph ℝ) (scale : ℝ) (C : Choice g) (j : Fin g.edges.length) : Set Int :=
  {x | x = rounded scale g.edges[j] ∨ ∃ i ∈ C, i ≠ j ∧ Share m g.edges[i] g.edges[j] ∧ x = disc (scale / 2) (llr (given m g.edges[i] g.edges[j]))}

/-- `ω` are the weights of the second pass. -/
def Posterior (m : Model ℝ) (g : UGraph ℝ) (scale : ℝ) (C : Choice g) (ω : Fin g.edges.length → Int) : Prop :=
  ∀ j, IsLeast (options m g scale C j) (ω j)

/-- `C` explains the events, with least total of the weights `ω`. -/
def BestFor {g : UGraph ℝ} (ω : Fin g.edges.length → Int) (C : Choice g) (events : List Nat) : Prop :=
  EndToEnd.Explains C events ∧ ∀ C' : Choice g, EndToEnd.Explains C' events → ∑ j ∈ C, ω j ≤ ∑ j ∈ C', ω j

/-- What decoding with correlations is about: `C2` is a best explanation for the weights of the second pass, which come from a best explanation of the
first. -/
def TwoPass (m : Model ℝ) (g : UGraph ℝ) (scale : ℝ) (events : List Nat) (ω : Fin g.edges.length → Int) (C2 : Choice g) : Prop :=
  ∃ C1 : Choice g, Best scale C1 events ∧ Posterior m g scale C1 ω ∧ BestFor ω C2 events

/-! ## Lemmas: the loaded graph -/

theorem key_map {K : Type} {h : UEdge K → UEdge K} (hh : ∀ e, (h e).node1 = e.node1 ∧ (h e).node2 = e.node2) (e : UEdge K) : (h e).key = e.key := by
  unfold UEdge.key
  rw [(hh e).1, (hh e).2]

theorem wf_map {K : Type} {g : UGraph K} (hw : WF g) {h : UEdge K → UEdge K} (hh : ∀ e, (h e).node1 = e.node1 ∧ (h e).node2 = e.node2) :
    WF { g with edges := g.edges.map h } where
  fwd1 := by
    intro i hi
    simp only [List.length_map] at hi
    simp only [List.getElem_map, (hh _).1]
    exact hw.fwd1 i hi
  fwd2 := by
    intro i hi
    simp only [List.length_map] at hi
    simp only [List.getElem_map, (hh _).1, (hh _).2]
    exact hw.fwd2 i hi
  back := by
    intro u n hn i b hm
    obtain ⟨h1, h2⟩ := hw.back u n hn i b hm
    refine ⟨by simpa using h1, ?_⟩
    simp only [List.getElem_map, (hh _).1, (hh _).2]
    exact h2
  uniq := by
    intro i j hi hj
    simp only [List.length_map] at hi hj
    simp only [List.getElem_map, key_map hh]
    exact hw.uniq i j hi hj

theorem calls_range (m : Model ℝ) (hv : Valid m) :
    ∀ c ∈ callsOf' llr m.errors, ∃ u t obs w p s, c = UserGraph.Call.add u t obs w p s ∧ UserGraph.top u t < m.numDets ∧ ∀ o ∈ obs, o < m.numObs := by
  intro c hc
  simp only [callsOf', List.mem_flatMap] at hc
  obtain ⟨e, he, hm⟩ := hc
  obtain ⟨-, hd, ho⟩ := hv e he
  by_cases h0 : e.p = 0
  · rw [if_pos h0] at hm; cases hm
  · rw [if_neg h0, List.mem_filterMap] at hm
    obtain ⟨x, hx, hcall⟩ := hm
    rw [← segs_components] at hx
    obtain ⟨h1, h2⟩ := segs_mem [] [] e.targets x hx
    have hD : ∀ d ∈ x.1, d < m.numDets := fun d hd' => by
      rcases h1 d hd' with h | h
      · cases h
      · exact hd d h
    have hO : ∀ o ∈ x.2, o < m.numObs := fun o ho' => by
      rcases h2 o ho' with h | h
      · cases h
      · exact ho o h
    obtain ⟨ds, os⟩ := x
    match ds with
    | [] => simp [callOf'] at hcall
    | [a] =>
      simp only [callOf', Option.some.injEq] at hcall
      refine ⟨_, _, _, _, _, _, hcall.symm, ?_, hO⟩
      exact hD a (by simp)
    | [a, b] =>
      simp only [callOf', Option.some.injEq] at hcall
      refine ⟨_, _, _, _, _, _, hcall.symm, ?_, hO⟩
      have := hD a (by simp)
      have := hD b (by simp)
      simp only [UserGraph.top]; omega
    | a :: b :: d :: l => simp [callOf'] at hcall

theorem boundary_add (g : UGraph ℝ) (u : Nat) (t : Option Nat) (obs : List Nat) (w p : ℝ) (s : Strategy) :
    (UserGraph.exec mergeWeights g (.add u t obs w p s)).1.boundary = g.boundary := by
  have hm : ∀ (g : UGraph ℝ) ei, (g.mergeEdge mergeWeights ei obs w p s).1.boundary = g.boundary := by
    intro g ei
    unfold UGraph.mergeEdge
    split
    · rfl
    · split <;> rfl
  cases t with
  | none =>
    show (UGraph.addBoundaryEdge mergeWeights g u obs w p s).1.boundary = _
    unfold UGraph.addBoundaryEdge
    simp only
    split
    · rfl
    · split
      · rfl
      · rw [hm]
  | some v =>
    show (UGraph.addEdge mergeWeights g u v obs w p s).1.boundary = _
    unfold UGraph.addEdge
    simp only
    split
    · rfl
    · split
      · rfl
      · rw [hm]

/-- Everything about the loaded graph that is needed below. -/
structure Loaded (m : Model ℝ) (g : UGraph ℝ) : Prop where
  prob : ∀ e ∈ m.errors, 0 ≤ e.p ∧ Accepted e
  wf : WF g
  bndOk : Props.Convert.BndOk g
  bnd : g.boundary = ∅
  nodes : g.nodes.length = m.numDets
  numObs : g.numObs = m.numObs
  fill : LoadedFrom m.errors g
  rules : ∀ e ∈ g.edges,
      (∀ u' t' w, (∃ r ∈ e.implied, samePair r.node1 r.node2 u' t' ∧ r.weight = w) ↔
        ¬ samePair e.node1 e.node2 u' t' ∧ fires e.node1 e.node2 u' t' m.errors ≠ [] ∧
          w = llr (min (1 / 2) (oddOf (fires e.node1 e.node2 u' t' m.errors) / oddOf (fires e.node1 e.node2 e.node1 e.node2 m.errors)))) ∧
      e.implied.Pairwise (fun r r' => ¬ samePair r.node1 r.node2 r'.node1 r'.node2) ∧
      ∀ r ∈ e.implied, 0 ≤ r.weight ∧ g.hasEdge r.node1 r.node2 = true

theorem loaded (m : Model ℝ) (hv : Valid m) (g : UGraph ℝ) (hl : loadCorr mergeWeights llr m = some g) : Loaded m g := by
  have hp : ∀ e ∈ m.errors, 0 ≤ e.p := fun e he => (hv e he).1.1
  have hA : ∀ e ∈ m.errors, 0 ≤ e.p ∧ Accepted e := by
    intro e he
    refine ⟨hp e he, ?_⟩
    by_contra hc
    rw [(C21_load_with_correlations_rejects m hp).2 ⟨e, he, hc⟩] at hl
    cases hl
  have h1 := C21_load_with_correlations m hp g hl
  have h2 := C22_rules m hp g hl
  obtain ⟨f, hf, hl2⟩ := loadCorr_eq m hA
  rw [hl2] at hl
  simp only [Option.some.injEq] at hl
  set g0 := UserGraph.run mergeWeights (UGraph.new m.numDets m.numObs) (callsOf' llr m.errors) with hg0
  have hB : Props.Convert.BndOk g0 := Props.Convert.bndOk_run mergeWeights (Props.Convert.bndOk_new _ _) _
  obtain ⟨h3, h4⟩ := run_counts m.numDets m.numObs _ (UGraph.new m.numDets m.numObs) (wf_new _ _) (by simp [UGraph.new]) rfl (calls_range m hv)
  have hbnd : g0.boundary = ∅ := by
    have : ∀ (cs : List (UserGraph.Call ℝ)) (g : UGraph ℝ), WF g → g.boundary = ∅ →
        (∀ c ∈ cs, ∃ u t obs w p s, c = UserGraph.Call.add u t obs w p s) → (UserGraph.run mergeWeights g cs).boundary = ∅ := by
      intro cs
      induction cs with
      | nil => intro g _ hg _; exact hg
      | cons c cs ih =>
        intro g hw hg hcs
        obtain ⟨u, t, obs, w, p, s, rfl⟩ := hcs c List.mem_cons_self
        refine ih _ (UserGraph.wf_exec mergeWeights hw _) ?_ (fun x hx => hcs x (List.mem_cons_of_mem _ hx))
        rw [boundary_add, hg]
    exact this _ _ (wf_new _ _) rfl fun c hc => by
      obtain ⟨u, t, obs, w, p, s, h, -⟩ := calls_range m hv c hc
      exact ⟨u, t, obs, w, p, s, h⟩
  subst hl
  exact ⟨hA, wf_map (UserGraph.wf_run mergeWeights (wf_new _ _) _) (fun e => ⟨(hf e).1, (hf e).2.1⟩), hB, hbnd, h3, h4, h1, h2⟩

section

variable {m : Model ℝ} {g : UGraph ℝ}

theorem data_of_mem (h : Loaded m g) {e : UEdge ℝ} (he : e ∈ g.edges) : UserGraph.dataOf g e.node1 e.node2 = some ⟨e.obs, e.weight, e.prob⟩ := by
  obtain ⟨i, hi, rfl⟩ := List.getElem_of_mem he
  unfold UserGraph.dataOf
  rw [(UserGraph.getEdge_iff h.wf _ _ g.edges[i]).2 ⟨i, hi, rfl, rfl⟩]
  rfl

/-- Every edge comes from some component. -/
theorem contributed (h : Loaded m g) {e : UEdge ℝ} (he : e ∈ g.edges) :
    ∃ c cs, contributions e.node1 e.node2 m.errors = c :: cs ∧ e.obs = c.1 ∧ e.weight = llr (oddOf ((c :: cs).map Prod.snd)) := by
  have h1 := h.fill e.node1 e.node2
  rw [data_of_mem h he] at h1
  cases hc : contributions e.node1 e.node2 m.errors with
  | nil => rw [hc] at h1; cases h1
  | cons c cs =>
    rw [hc] at h1
    obtain ⟨r, h2, h3, h4, h5⟩ := h1
    cases h2
    exact ⟨c, cs, rfl, h3, by rw [← h4]; exact h5⟩

theorem contribution_mem {u : Nat} {t : Option Nat} {c : List Nat × ℝ} (hc : c ∈ contributions u t m.errors) :
    ∃ e ∈ m.errors, e.p ≠ 0 ∧ ∃ x ∈ components e, connects u t x.1 ∧ c = (x.2, e.p) := by
  unfold contributions at hc
  rw [List.mem_flatMap] at hc
  obtain ⟨e, he, hc⟩ := hc
  split_ifs at hc with h0
  · cases hc
  · rw [List.mem_map] at hc
    obtain ⟨x, hx, rfl⟩ := hc
    rw [List.mem_filter] at hx
    exact ⟨e, he, h0, x, hx.1, by simpa using hx.2, rfl⟩

theorem weight_nonneg (h : Loaded m g) {e : UEdge ℝ} (he : e ∈ g.edges) : 0 ≤ e.weight := by
  obtain ⟨c, cs, h1, -, h3⟩ := contributed h he
  rw [h3]
  have hr := oddOf_range ((c :: cs).map Prod.snd) (by simp) (by
    intro p hp
    rw [← h1, List.mem_map] at hp
    obtain ⟨x, hx, rfl⟩ := hp
    obtain ⟨e, he, h0, y, -, -, rfl⟩ := contribution_mem hx
    obtain ⟨k1, k2, -⟩ := h.prob e he
    exact ⟨lt_of_le_of_ne k1 (Ne.symm h0), k2⟩)
  unfold llr
  apply Real.log_nonneg
  rw [le_div_iff₀ hr.1]
  linarith [hr.2]

theorem covered (h : Loaded m g) (hv : Valid m) : Covered g := by
  intro e he o ho
  obtain ⟨c, cs, h1, h2, -⟩ := contributed h he
  obtain ⟨e', he', -, x, hx, -, rfl⟩ := contribution_mem (m := m) (c := c) (by rw [h1]; simp)
  rw [h2] at ho
  rw [h.numObs]
  rw [← segs_components] at hx
  rcases (segs_mem [] [] e'.targets x hx).2 o ho with k | k
  · cases k
  · exact (hv e' he').2.2 o k

theorem no_loop (h : Loaded m g) (hn : NoLoops m) {e : UEdge ℝ} (he : e ∈ g.edges) : e.node2 ≠ some e.node1 := by
  intro hl
  obtain ⟨c, cs, h1, -, -⟩ := contributed h he
  obtain ⟨e', he', h0, x, hx, hc, rfl⟩ := contribution_mem (m := m) (c := c) (by rw [h1]; simp)
  have := hn e' he' h0 x hx
  obtain ⟨ds, os⟩ := x
  match ds with
  | [] => exact hc
  | [a] =>
    rcases hc with ⟨-, h3⟩ | ⟨-, h3⟩
    · rw [hl] at h3; cases h3
    · cases h3
  | [a, b] =>
    rw [hl] at hc
    rcases hc with ⟨h2, h3⟩ | ⟨h2, h3⟩
    · cases h3; exact this _ (by rw [h2])
    · cases h2; cases h3; exact this _ rfl
  | _ :: _ :: _ :: _ => exact hc

theorem fires_share (a b : UEdge ℝ) : fires a.node1 a.node2 b.node1 b.node2 m.errors ≠ [] ↔ Share m a b := by
  unfold fires Share
  rw [Ne, List.flatMap_eq_nil_iff]
  push Not
  refine exists_congr fun e => and_congr_right fun _ => ?_
  rw [Ne, List.replicate_eq_nil_iff, Nat.mul_eq_zero]
  omega

theorem seen (hb : g.boundary = ∅) (e : UEdge ℝ) : seenAs g e = s(some e.node1, e.node2) := by
  unfold seenAs
  rw [hb]
  simp

theorem same_sym (u : Nat) (t : Option Nat) (u' : Nat) (t' : Option Nat) : samePair u t u' t' ↔ s(some u, t) = s(some u', t') := by
  unfold samePair
  rw [Sym2.eq_iff]
  constructor
  · rintro (⟨rfl, rfl⟩ | ⟨rfl, rfl⟩)
    · exact .inl ⟨rfl, rfl⟩
    · exact .inr ⟨rfl, rfl⟩
  · rintro (⟨h1, rfl⟩ | ⟨h1, h2⟩)
    · cases h1; exact .inl ⟨rfl, rfl⟩
    · exact .inr ⟨h2, h1.symm⟩

/-! ## Lemmas: the decoding graph -/

theorem implied_from {c : ℝ} {e : UEdge ℝ} {x : Conv.Ins ℝ} (h : From g c e x) : impliedOf x = e.implied := by
  cases x with
  | edge => exact h.2.2.2.2.2
  | bdry => exact h.2.2.2

theorem onto (hw : WF g) (hb : g.boundary = ∅) {c : ℝ} {ops : List Props.Graph.EdgeIns} {φ : Fin ops.length → Fin g.edges.length} (hO : Origin g c ops φ) :
    Function.Surjective φ := by
  intro j
  cases hn : g.edges[j].node2 with
  | some v => exact hO.hit j ⟨by simp [hb], v, hn, by simp [hb]⟩
  | none =>
    obtain ⟨i, ⟨-, ⟨h1, h2⟩ | ⟨-, h2⟩⟩, -⟩ := hO.least j g.edges[j].node1 ⟨by simp [hb], .inl ⟨rfl, .inl hn⟩⟩
    · rcases h2 with h2 | ⟨v, -, h3⟩
      · refine ⟨i, Fin.ext (hw.uniq _ _ (φ i).2 j.2 ?_)⟩
        show g.edges[φ i].key = g.edges[j].key
        unfold UEdge.key
        rw [h1, h2, hn]
      · simp [hb] at h3
    · simp [hb] at h2

theorem mapRes_total {α β : Type} {f : α → Res β} {l : List α} (h : ∀ a ∈ l, ∃ b, f a = .ok b) : ∃ bs, mapRes f l = .ok bs := by
  induction l with
  | nil => exact ⟨[], rfl⟩
  | cons a l ih =>
    obtain ⟨b, hb⟩ := h a (by simp)
    obtain ⟨bs, hbs⟩ := ih fun x hx => h x (by simp [hx])
    exact ⟨b :: bs, by simp [mapRes, hb, hbs, Res.bind]⟩

/-- A decoder of the loaded graph, edge by edge. -/
structure Ready (m : Model ℝ) (g : UGraph ℝ) (P : Prepared ℝ) (sg : Graph.SGraph) (ins : List (Conv.Ins ℝ)) (φ : Fin (opsOf ins).length → Fin g.edges.length) :
    Prop where
  conv : convert g = some (ins, P.scale)
  pos : 0 < P.scale / 2
  built : Edges.Built g.nodes.length g.numObs (opsOf ins) P.mg sg P.mask
  flags : P.bnd = boundaryFlags g
  quiet : ∀ d ∈ P.mg.negDets, TL.notBoundary P.bnd d = true
  len : P.mg.nodes.length = g.nodes.length
  origin : Origin g (P.scale / 2) (opsOf ins) φ
  onto : Function.Surjective φ
  same : ∀ i, impliedOf (insAt ins i) = g.edges[φ i].implied

theorem ready (h : Loaded m g) (hv : Valid m) {P : Prepared ℝ} {sg : Graph.SGraph} (hP : prepareFull g = some (P, sg)) : ∃ ins φ, Ready m g P sg ins φ := by
  unfold prepareFull at hP
  cases hp : prepare g with
  | none => rw [hp] at hP; cases hP
  | some P' =>
    rw [hp] at hP
    obtain ⟨ins, k, c, h1, h2, h3, h4, h5, h6, h7, h8, h9, h10, h11, h12, φ, hO, hF⟩ := prepared_graph h.wf h.bndOk hp
    simp only [h1] at hP
    cases hs : runS (Graph.SGraph.empty g.nodes.length) (ins.map Props.Convert.toGraphIns) with
    | none => rw [hs] at hP; cases hP
    | some sg' =>
      rw [hs] at hP
      cases hP
      refine ⟨ins, φ, ⟨by rw [h4]; exact h1, by rw [h3]; exact h6, ⟨h7, hs, fun _ => h9, h8, ?_⟩, h10, h11, h12, by rw [h3]; exact hO, onto h.wf h.bnd hO, ?_⟩⟩
      · intro op hop o ho
        obtain ⟨i, hi, rfl⟩ := List.getElem_of_mem hop
        have := hO.obs ⟨i, hi⟩
        exact covered h hv _ (List.getElem_mem (φ ⟨i, hi⟩).2) o (by rw [← Fin.getElem_fin, ← this]; exact ho)
      · intro i
        exact implied_from (hF i (by simpa using i.2))

variable {P : Prepared ℝ} {sg : Graph.SGraph} {ins : List (Conv.Ins ℝ)} {φ : Fin (opsOf ins).length → Fin g.edges.length}

theorem Ready.ends (hb : g.boundary = ∅) (hR : Ready m g P sg ins φ) (i : Fin (opsOf ins).length) :
    endsOf (opsOf ins)[i] = s(some g.edges[φ i].node1, g.edges[φ i].node2) := by
  rw [hR.origin.ends, seen hb]

theorem Ready.noloop (h : Loaded m g) (hn : NoLoops m) (hR : Ready m g P sg ins φ) (i : Fin (opsOf ins).length) : ¬ IsLoop (opsOf ins)[i] := by
  rw [loop_iff, hR.ends h.bnd]
  intro hd
  exact no_loop h hn (List.getElem_mem (φ i).2) (Sym2.mk_isDiag_iff.1 hd).symm

/-- Every rule is for an edge that was inserted. -/
theorem Ready.target (h : Loaded m g) (hR : Ready m g P sg ins φ) {i : Conv.Ins ℝ} (hi : i ∈ ins) {r : Implied ℝ} (hr : r ∈ impliedOf i) :
    ∃ j : Fin (opsOf ins).length, endsOf (opsOf ins)[j] = s(some r.node1, r.node2) := by
  obtain ⟨n, hn, rfl⟩ := List.getElem_of_mem hi
  have e := hR.same ⟨n, by simpa using hn⟩
  have e' : impliedOf ins[n] = g.edges[φ ⟨n, by simpa using hn⟩].implied := e
  rw [e'] at hr
  have hh := ((h.rules _ (List.getElem_mem _)).2.2 r hr).2
  rw [UserGraph.hasEdge_eq h.wf, Option.isSome_iff_exists] at hh
  obtain ⟨e1, he1⟩ := hh
  obtain ⟨j, hj, rfl, hk⟩ := (UserGraph.getEdge_iff h.wf _ _ _).1 he1
  obtain ⟨j', hj'⟩ := hR.onto ⟨j, hj⟩
  refine ⟨j', ?_⟩
  have e2 : g.edges[φ j'] = g.edges[j] := by simp [hj']
  rw [hR.ends h.bnd, e2]
  have : samePair r.node1 r.node2 g.edges[j].node1 g.edges[j].node2 := (UserGraph.samePair_iff_key _ _ _ _).2 hk
  exact ((same_sym _ _ _ _).1 this).symm

theorem Ready.rules (h : Loaded m g) (hn : NoLoops m) (hR : Ready m g P sg ins φ) (k : ℝ) :
    ∃ R, convertTable (adjM P.mg) k (table g.nodes.length ins) = .ok R := by
  have hg := proper_of_run hR.built.matching hR.built.edges.pairs hR.built.edges.even hR.built.edges.small
  have hA := fair_of_proper hg
  have hl := linked_run hR.built.matching
  have key : ∀ i ∈ ins, ∀ r ∈ impliedOf i, ∃ b, convertRule (adjM P.mg) k r = .ok b := by
    intro i hi r hr
    obtain ⟨j, hj⟩ := hR.target h hi hr
    have hmem : (opsOf ins)[j] ∈ opsOf ins := List.getElem_mem _
    obtain ⟨z, hz⟩ := op_at hR.built hmem (hR.noloop h hn j) hj
    unfold convertRule
    rw [(slotOf_ok hA).2 hz]
    cases hr2 : r.node2 with
    | none => exact ⟨_, rfl⟩
    | some v =>
      rw [hr2] at hj
      obtain ⟨z', hz'⟩ := op_at hR.built hmem (hR.noloop h hn j) (hj.trans Sym2.eq_swap)
      simp only [Res.bind, (slotOf_ok hA).2 hz']
      exact ⟨_, rfl⟩
  refine mapRes_total fun row hrow => mapRes_total fun im him => mapRes_total fun r hr => ?_
  obtain ⟨u, hu, rfl⟩ := List.getElem_of_mem hrow
  have h2 := hl.2 u hu (by rw [← hl.1]; exact hu)
  obtain ⟨n, -, i, hi, rfl, -⟩ := forall2_left h2 im him
  exact key i hi r hr

theorem Ready.corr (h : Loaded m g) (hn : NoLoops m) (hR : Ready m g P sg ins φ) (hP : prepareFull g = some (P, sg)) (without : Bool) :
    ∃ C, prepareCorr g without = some (P, sg, C) := by
  obtain ⟨R, hr⟩ := hR.rules h hn P.scale
  refine ⟨⟨R, R, without⟩, ?_⟩
  unfold prepareCorr
  rw [hP, hR.conv]
  simp only [adj_same hR.built, hr]

theorem Ready.loadedCorr (h : Loaded m g) (hR : Ready m g P sg ins φ) (hP : prepareFull g = some (P, sg)) {without : Bool} {C : Corr}
    (hC : prepareCorr g without = some (P, sg, C)) : BuiltCorr g.nodes.length g.numObs ins P.scale P.mg sg P.mask C ∧ C.without = without := by
  unfold prepareCorr at hC
  rw [hP, hR.conv] at hC
  simp only at hC
  split at hC
  · rename_i h1 h2
    cases hC
    refine ⟨⟨⟨hR.built, h1, h2⟩, ?_⟩, rfl⟩
    intro i hi r hr j hj he
    obtain ⟨n, hn, rfl⟩ := List.getElem_of_mem hj
    have h3 := hR.origin.w ⟨n, by simpa using hn⟩
    have h4 : (Props.Convert.toGraphIns ins[n]).w = disc (P.scale / 2) g.edges[φ ⟨n, by simpa using hn⟩].weight := by
      rw [← h3]; simp
    rw [h4]
    exact (Discretise.C19_monotone_odd _ hR.pos 0 _).2.2 (weight_nonneg h (List.getElem_mem _))
  · cases hC

theorem Ready.offers (h : Loaded m g) (hn : NoLoops m) (hR : Ready m g P sg ins φ) (c : NegWeights.Correction (opsOf ins)) (j : Fin (opsOf ins).length) :
    options m g P.scale (lift hR.origin.inj c) (φ j) = Correlated.offers ins P.scale c j := by
  have key : ∀ i : Fin (opsOf ins).length, ∀ x : Int,
      (∃ r ∈ impliedOf (insAt ins i), s(some r.node1, r.node2) = endsOf (opsOf ins)[j] ∧ x = |disc (P.scale / 2) r.weight|) ↔
      (φ i ≠ φ j ∧ Share m g.edges[φ i] g.edges[φ j] ∧ x = disc (P.scale / 2) (llr (given m g.edges[φ i] g.edges[φ j]))) := by
    intro i x
    have hr := h.rules g.edges[φ i] (List.getElem_mem _)
    have hne : φ i ≠ φ j ↔ ¬ samePair g.edges[φ i].node1 g.edges[φ i].node2 g.edges[φ j].node1 g.edges[φ j].node2 := by
      rw [not_iff_not, UserGraph.samePair_iff_key]
      constructor
      · intro e; simp only [e]
      · intro e; exact Fin.ext (h.wf.uniq _ _ (φ i).2 (φ j).2 (by exact e.symm))
    rw [hR.same, hR.ends h.bnd]
    constructor
    · rintro ⟨r, h1, h2, h3⟩
      have h4 := (hr.1 _ _ _).1 ⟨r, h1, (same_sym _ _ _ _).2 h2, rfl⟩
      refine ⟨hne.2 h4.1, (fires_share _ _).1 h4.2.1, ?_⟩
      rw [h3, abs_of_nonneg ((Discretise.C19_monotone_odd _ hR.pos 0 _).2.2 (hr.2.2 r h1).1), h4.2.2]
      rfl
    · rintro ⟨h1, h2, h3⟩
      obtain ⟨r, h4, h5, h6⟩ := (hr.1 _ _ _).2 ⟨hne.1 h1, (fires_share _ _).2 h2, rfl⟩
      refine ⟨r, h4, (same_sym _ _ _ _).1 h5, ?_⟩
      rw [abs_of_nonneg ((Discretise.C19_monotone_odd _ hR.pos 0 _).2.2 (hr.2.2 r h4).1), h6, h3]
      rfl
  ext x
  simp only [options, Correlated.offers, Set.mem_ofPred_eq]
  refine or_congr ?_ ?_
  · rw [hR.origin.w]; rfl
  · constructor
    · rintro ⟨i', h1, h2⟩
      obtain ⟨i, hi, rfl⟩ := Finset.mem_map.1 h1
      exact ⟨i, hi, hR.noloop h hn i, (key i x).2 h2⟩
    · rintro ⟨i, h1, -, h2⟩
      exact ⟨φ i, Finset.mem_map.2 ⟨i, h1, rfl⟩, (key i x).1 h2⟩

theorem Ready.onto_lift (hR : Ready m g P sg ins φ) (C : Choice g) : ∃ c : NegWeights.Correction (opsOf ins), lift hR.origin.inj c = C := by
  classical
  refine ⟨Finset.univ.filter fun i => φ i ∈ C, ?_⟩
  ext j
  unfold lift
  rw [Finset.mem_map]
  constructor
  · rintro ⟨i, hi, rfl⟩
    exact (Finset.mem_filter.1 hi).2
  · intro hj
    obtain ⟨i, rfl⟩ := hR.onto j
    exact ⟨i, Finset.mem_filter.2 ⟨Finset.mem_univ _, hj⟩, rfl⟩

/-- Two passes on the decoding graph are two passes on the loaded graph. -/
theorem Ready.two (h : Loaded m g) (hn : NoLoops m) (hR : Ready m g P sg ins φ) {events : List Nat} (hev : ∀ d ∈ events, d < g.nodes.length)
    {c1 c2 : NegWeights.Correction (opsOf ins)} {ω : Fin (opsOf ins).length → Int}
    (h1 : NegWeights.Optimal NegWeights.weight c1 (Decode.counted P.bnd events)) (h2 : Conditional ins P.scale c1 ω)
    (h3 : NegWeights.Optimal (totalOf ω) c2 (Decode.counted P.bnd events)) :
    ∃ ω', TwoPass m g P.scale events ω' (lift hR.origin.inj c2) ∧ totalOf ω c2 = ∑ j ∈ lift hR.origin.inj c2, ω' j := by
  have hT := counted_iff h.bndOk rfl hev
  rw [← hR.flags] at hT
  let ψ := Equiv.ofBijective φ ⟨hR.origin.inj, hR.onto⟩
  have hω : ∀ i, ω (ψ.symm (φ i)) = ω i := fun i => by rw [show ψ.symm (φ i) = i from ψ.symm_apply_apply i]
  have htot : ∀ c : NegWeights.Correction (opsOf ins), ∑ j ∈ lift hR.origin.inj c, ω (ψ.symm j) = totalOf ω c := by
    intro c
    unfold lift totalOf
    rw [Finset.sum_map]
    exact Finset.sum_congr rfl fun i _ => hω i
  refine ⟨fun j => ω (ψ.symm j), ⟨lift hR.origin.inj c1, ⟨(lift_explains hR.origin c1 events _ hT).2 h1.1, ?_⟩, ?_,
    (lift_explains hR.origin c2 events _ hT).2 h3.1, ?_⟩, (htot c2).symm⟩
  · intro C' hC'
    obtain ⟨c, rfl⟩ := hR.onto_lift C'
    rw [lift_total hR.origin rfl, lift_total hR.origin rfl]
    exact h1.2 c ((lift_explains hR.origin c events _ hT).1 hC')
  · intro j
    obtain ⟨i, rfl⟩ := hR.onto j
    rw [hR.offers h hn]
    show IsLeast _ (ω (ψ.symm (φ i)))
    rw [hω]
    exact h2 i
  · intro C' hC'
    obtain ⟨c, rfl⟩ := hR.onto_lift C'
    rw [htot, htot]
    exact h3.2 c ((lift_explains hR.origin c events _ hT).1 hC')

theorem Ready.none (h : Loaded m g) (hR : Ready m g P sg ins φ) {events : List Nat} (hev : ∀ d ∈ events, d < g.nodes.length)
    (hno : ∀ c : NegWeights.Correction (opsOf ins), ¬ NegWeights.Explains c (Decode.counted P.bnd events)) (C : Choice g) : ¬ EndToEnd.Explains C events := by
  have hT := counted_iff h.bndOk rfl hev
  rw [← hR.flags] at hT
  obtain ⟨c, rfl⟩ := hR.onto_lift C
  exact fun hE => hno c ((lift_explains hR.origin c events _ hT).1 hE)

theorem full_of_corr {without : Bool} {C : Corr} (hC : prepareCorr g without = some (P, sg, C)) : prepareFull g = some (P, sg) := by
  unfold prepareCorr at hC
  split at hC
  · rename_i h1 h2
    split at hC
    · cases hC; exact h1
    · cases hC
  · cases hC

end

/-! ## Theorems -/

/-- C53 (the decoder can be built).  Every model that is accepted with correlations, without components that name one detector twice, gives a decoder
with correlations, unless a weight is too large. -/
theorem C53_decoder_exists (m : Model ℝ) (hv : Valid m) (hn : NoLoops m) (g : UGraph ℝ) (hl : loadCorr mergeWeights llr m = some g)
    (hw : ∀ a ∈ g.edges, a.weight ≤ (2 ^ 24 - 1 : Nat) ∧ ∀ b ∈ g.edges, Share m a b → llr (given m a b) ≤ (2 ^ 24 - 1 : Nat)) :
    ∃ P sg C, prepareCorr g false = some (P, sg, C) := by
  have h := loaded m hv g hl
  have hedge : ∀ e ∈ g.edges, ∀ r ∈ e.implied, ∃ e' ∈ g.edges, g.getEdge r.node1 r.node2 = some e' ∧ samePair r.node1 r.node2 e'.node1 e'.node2 := by
    intro e he r hr
    have hh := ((h.rules e he).2.2 r hr).2
    rw [UserGraph.hasEdge_eq h.wf, Option.isSome_iff_exists] at hh
    obtain ⟨e1, he1⟩ := hh
    obtain ⟨j, hj, rfl, hk⟩ := (UserGraph.getEdge_iff h.wf _ _ _).1 he1
    exact ⟨_, List.getElem_mem hj, he1, (UserGraph.samePair_iff_key _ _ _ _).2 hk⟩
  have hconst : normConst g numDistinctWeights ≠ none := by
    rw [Ne, (Discretise.C19_constant g numDistinctWeights).1]
    push Not
    refine ⟨?_, ?_⟩
    · intro e he r hr
      obtain ⟨e', h1, h2, -⟩ := hedge e he r hr
      exact ⟨e', h2, mul_nonneg (weight_nonneg h h1) ((h.rules e he).2.2 r hr).1⟩
    · intro w hw'
      unfold Discretise.allWeights at hw'
      rw [List.mem_flatMap] at hw'
      obtain ⟨e, he, hw'⟩ := hw'
      rcases List.mem_cons.1 hw' with rfl | hw'
      · rw [abs_of_nonneg (weight_nonneg h he)]
        exact (hw e he).1
      · obtain ⟨r, hr, rfl⟩ := List.mem_map.1 hw'
        rw [abs_of_nonneg ((h.rules e he).2.2 r hr).1]
        obtain ⟨e', h1, -, h2⟩ := hedge e he r hr
        obtain ⟨-, h3, h4⟩ := ((h.rules e he).1 e'.node1 e'.node2 r.weight).1 ⟨r, hr, h2, rfl⟩
        rw [h4]
        exact (hw e he).2 e' h1 ((fires_share _ _).1 h3)
  obtain ⟨c, hc⟩ := Option.ne_none_iff_exists'.1 hconst
  obtain ⟨ins, k, hconv⟩ : ∃ ins k, convert g = some (ins, k) := by
    unfold convert
    rw [hc]
    exact ⟨_, _, rfl⟩
  have hcov := covered h hv
  obtain ⟨mg, hrun⟩ := Props.Convert.accepted_of_wf h.wf hconv (by
    by_cases hle : 64 < g.numObs
    · exact .inl hle
    · exact .inr fun e he o ho => by have := hcov e he o ho; omega)
  obtain ⟨sg, hs⟩ := runS_exists hrun
  obtain ⟨c', -, -, φ, hO, -⟩ := origin_from h.wf h.bndOk hconv hrun
  have hno : mg.numObs = g.numObs := (Graph.built_run (Graph.built_empty _ _) hrun).nobs
  obtain ⟨mk, hmk⟩ := Edges.obsMask_some mg.numObs (mg.negObs.sort (· ≤ ·)) (by
    intro hle o hmem
    have := Edges.negObs_range hrun (by
      intro op hop o ho
      obtain ⟨i, hi, rfl⟩ := List.getElem_of_mem hop
      have := hO.obs ⟨i, hi⟩
      exact hcov _ (List.getElem_mem (φ ⟨i, hi⟩).2) o (by rw [← Fin.getElem_fin, ← this]; exact ho)) o ((Finset.mem_sort _).1 hmem)
    omega)
  have hp : prepare g = some ⟨mg, boundaryFlags g, mk, k⟩ := by
    unfold prepare negMaskOf
    rw [hconv]
    simp only [hrun, hmk]
  have hP : prepareFull g = some (⟨mg, boundaryFlags g, mk, k⟩, sg) := by
    unfold prepareFull
    rw [hp, hconv]
    simp only [hs]
  obtain ⟨ins', φ', hR⟩ := ready h hv hP
  obtain ⟨C, hC⟩ := hR.corr h hn hP false
  exact ⟨_, _, C, hC⟩

/-- `error(0.1) D0 L0 ^ D1 L1`. -/
noncomputable def sample : Model ℝ := ⟨[⟨1 / 10, [.det 0, .obs 0, .sep, .det 1, .obs 1]⟩], 2, 2⟩

theorem sample_components : components (⟨1 / 10, [.det 0, .obs 0, .sep, .det 1, .obs 1]⟩ : Err ℝ) = [([0], [0]), ([1], [1])] := by
  rw [← segs_components]; rfl

theorem sample_valid : Dem.Valid sample := by
  intro e he
  simp only [sample, List.mem_singleton] at he
  subst he
  refine ⟨by norm_num, fun d hd => ?_, fun o ho => ?_⟩ <;> simp [sample] at * <;> omega

theorem sample_noloops : NoLoops sample := by
  intro e he _ c hc d
  simp only [sample, List.mem_singleton] at he
  subst he
  rw [sample_components] at hc
  simp only [List.mem_cons, List.not_mem_nil, or_false] at hc
  rcases hc with rfl | rfl <;> simp

theorem sample_loads : ∃ g, loadCorr mergeWeights llr sample = some g := by
  rw [← Option.ne_none_iff_exists', Ne, C21_load_with_correlations_rejects sample (fun e he => (sample_valid e he).1.1)]
  push Not
  intro e he
  simp only [sample, List.mem_singleton] at he
  subst he
  refine ⟨by norm_num, .inr (.inl ?_)⟩
  rw [sample_components]; decide

theorem sample_edge {g : UGraph ℝ} (hl : loadCorr mergeWeights llr sample = some g) {e : UEdge ℝ} (he : e ∈ g.edges) :
    (e.node1 = 0 ∧ e.node2 = none) ∨ (e.node1 = 1 ∧ e.node2 = none) := by
  obtain ⟨c, cs, h1, -, -⟩ := contributed (loaded sample sample_valid g hl) he
  obtain ⟨e', he', -, x, hx, hc, -⟩ := contribution_mem (m := sample) (c := c) (by rw [h1]; simp)
  simp only [sample, List.mem_singleton] at he'
  subst he'
  rw [sample_components] at hx
  simp only [List.mem_cons, List.not_mem_nil, or_false] at hx
  rcases hx with rfl | rfl
  · rcases hc with ⟨h2, h3⟩ | ⟨-, h3⟩
    · exact .inl ⟨h2, h3⟩
    · cases h3
  · rcases hc with ⟨h2, h3⟩ | ⟨-, h3⟩
    · exact .inr ⟨h2, h3⟩
    · cases h3

theorem sample_mult (u : Nat) (hu : u = 0 ∨ u = 1) : multiplicity u none (⟨1 / 10, [.det 0, .obs 0, .sep, .det 1, .obs 1]⟩ : Err ℝ) = 1 := by
  unfold Dem.multiplicity
  rw [if_neg (by norm_num), sample_components]
  rcases hu with rfl | rfl <;> rfl

/-- The sample gives a decoder: the edges have weight log 9, and weight 0 given the other one. -/
theorem sample_ready {g : UGraph ℝ} (hl : loadCorr mergeWeights llr sample = some g) : ∃ P sg C, prepareCorr g false = some (P, sg, C) := by
  refine C53_decoder_exists sample sample_valid sample_noloops g hl fun a ha => ⟨?_, fun b hb _ => ?_⟩
  · obtain ⟨c, cs, h1, -, h3⟩ := contributed (loaded sample sample_valid g hl) ha
    have : (c :: cs).map Prod.snd = [1 / 10] := by
      rw [← h1]
      unfold contributions sample
      simp only [List.flatMap_cons, List.flatMap_nil, List.append_nil, sample_components]
      rw [if_neg (by norm_num)]
      rcases sample_edge hl ha with ⟨e1, e2⟩ | ⟨e1, e2⟩ <;> rw [e1, e2] <;> simp [connects, samePair]
    rw [h3, this]
    have e : oddOf [(1 / 10 : ℝ)] = 1 / 10 := by norm_num [MergeWeights.oddOf]
    rw [e]
    unfold llr
    refine le_trans (Real.log_le_sub_one_of_pos (by norm_num)) (by norm_num)
  · have hf : ∀ x ∈ g.edges, ∀ y ∈ g.edges, fires x.node1 x.node2 y.node1 y.node2 sample.errors = [1 / 10] := by
      intro x hx y hy
      have h1 : ∀ z ∈ g.edges, (z.node1 = 0 ∨ z.node1 = 1) ∧ z.node2 = none := fun z hz => by
        rcases sample_edge hl hz with ⟨k1, k2⟩ | ⟨k1, k2⟩
        · exact ⟨.inl k1, k2⟩
        · exact ⟨.inr k1, k2⟩
      unfold fires sample
      simp only [List.flatMap_cons, List.flatMap_nil, List.append_nil]
      rw [(h1 x hx).2, (h1 y hy).2, sample_mult _ (h1 x hx).1, sample_mult _ (h1 y hy).1]
      rfl
    unfold given
    rw [hf a ha b hb, hf a ha a ha]
    norm_num [MergeWeights.oddOf, llr]

/-- The hypotheses of `C53_decoder_exists`, `C53_observables`, `C53_edges` and `C53_mask` hold for the sample (with events `[0]`, say). -/
example : Dem.Valid sample ∧ NoLoops sample ∧ ∃ g, loadCorr mergeWeights llr sample = some g ∧ ∃ P sg C, prepareCorr g false = some (P, sg, C) ∧
    UsedCorr P.mg sg P.bnd P.mask C (CState.init P.mg sg) := by
  obtain ⟨g, hg⟩ := sample_loads
  obtain ⟨P, sg, C, h⟩ := sample_ready hg
  exact ⟨sample_valid, sample_noloops, g, hg, P, sg, C, h, .fresh⟩

/-- C53 (what the exception is about).  If some possible error has a component that names detector `d` twice, next to another component that does not do
that with its own detector, the decoder with correlations cannot be built: `enable_correlations=True` raises for every syndrome. -/
theorem C53_self_loop_rejected (m : Model ℝ) (hv : Dem.Valid m) (g : UGraph ℝ) (hl : loadCorr mergeWeights llr m = some g) (e : Err ℝ) (he : e ∈ m.errors)
    (d : Nat) (h1 : 0 < Dem.multiplicity d (some d) e) (u : Nat) (t : Option Nat) (hut : t ≠ some u) (h2 : 0 < Dem.multiplicity u t e) :
    prepareCorr g false = none := by
  by_contra hC
  obtain ⟨⟨P, sg, C⟩, hC⟩ := Option.ne_none_iff_exists'.1 hC
  have h := loaded m hv g hl
  have hP := full_of_corr hC
  obtain ⟨ins, φ, hR⟩ := ready h hv hP
  obtain ⟨hB, -⟩ := hR.loadedCorr h hP hC
  have hg := proper_of_run hR.built.matching hR.built.edges.pairs hR.built.edges.even hR.built.edges.small
  -- the edge of the other component
  obtain ⟨j, hj⟩ : ∃ j : Fin g.edges.length, g.edges[j].key = key u t := by
    have h3 := h.fill u t
    cases hc : contributions u t m.errors with
    | nil =>
      exfalso
      unfold contributions at hc
      rw [List.flatMap_eq_nil_iff] at hc
      have := hc e he
      unfold Dem.multiplicity at h2
      split_ifs at this h2 with h0
      · omega
      · rw [List.map_eq_nil_iff] at this
        rw [this] at h2
        simp at h2
    | cons c cs =>
      rw [hc] at h3
      obtain ⟨r, h4, -⟩ := h3
      unfold UserGraph.dataOf at h4
      cases hge : g.getEdge u t with
      | none => rw [hge] at h4; cases h4
      | some a =>
        obtain ⟨j, hj, rfl, hk⟩ := (UserGraph.getEdge_iff h.wf _ _ _).1 hge
        exact ⟨⟨j, hj⟩, hk⟩
  have hsame : samePair u t g.edges[j].node1 g.edges[j].node2 := (UserGraph.samePair_iff_key _ _ _ _).2 hj
  have hnl : g.edges[j].node2 ≠ some g.edges[j].node1 := by
    intro hl
    rw [hl] at hsame
    rcases hsame with ⟨k1, k2⟩ | ⟨k1, k2⟩
    · rw [k1] at hut; exact hut k2
    · exact hut (k1.trans (by rw [k2]))
  -- its rule for the self-loop
  have hf : fires g.edges[j].node1 g.edges[j].node2 d (some d) m.errors ≠ [] := by
    unfold fires
    rw [Ne, List.flatMap_eq_nil_iff]
    push Not
    refine ⟨e, he, ?_⟩
    have h3 : Dem.multiplicity g.edges[j].node1 g.edges[j].node2 e = Dem.multiplicity u t e := by
      rw [← count_keysOf _ _ e (h.prob e he).2, ← count_keysOf _ _ e (h.prob e he).2]
      congr 1
    rw [Ne, List.replicate_eq_nil_iff, h3, Nat.mul_eq_zero]
    omega
  obtain ⟨r, hr, hrs, -⟩ := ((h.rules _ (List.getElem_mem j.2)).1 d (some d) _).2 ⟨by
    intro hs
    rcases hs with ⟨k1, k2⟩ | ⟨k1, k2⟩
    · exact hnl (k2.trans (congrArg some k1.symm))
    · exact hnl (k1.trans k2), hf, rfl⟩
  have hrd : r.node1 = d ∧ r.node2 = some d := by
    rcases hrs with ⟨k1, k2⟩ | ⟨k1, k2⟩
    · exact ⟨k1, k2⟩
    · cases k2; exact ⟨rfl, k1⟩
  -- the rule was converted
  obtain ⟨i, hi⟩ := hR.onto j
  have hends := hR.ends h.bnd i
  have hni : ¬ IsLoop (opsOf ins)[i] := by
    rw [loop_iff, hends]
    intro hd
    have := (Sym2.mk_isDiag_iff.1 hd).symm
    simp only [hi] at this
    exact hnl this
  obtain ⟨z, hz⟩ := op_at hR.built (List.getElem_mem i.2) hni hends
  obtain ⟨i', k1, xs, -, k2⟩ := rules_at (linked_run hR.built.matching) (fair_of_proper hg) hB.rulesM hz
  have k3 := ins_of hR.built k1 hni hends
  rw [← k3, hR.same] at k2
  simp only [hi] at k2
  obtain ⟨x, -, hx⟩ := forall2_left k2 r hr
  have hat := hx.at0
  rw [hrd.1, hrd.2] at hat
  obtain ⟨l, k4, k5⟩ := hat
  exact ((fair_of_proper hg).sym d d l k4 (List.mem_of_getElem? k5)).1 rfl

/-- `error(0.1) D0 D0 ^ D1` is such a model. -/
example : Dem.Valid ⟨[⟨1 / 10, [.det 0, .det 0, .sep, .det 1]⟩], 2, 0⟩ ∧
    (∃ g, loadCorr mergeWeights llr ⟨[⟨1 / 10, [.det 0, .det 0, .sep, .det 1]⟩], 2, 0⟩ = some g) ∧
    0 < Dem.multiplicity 0 (some 0) (⟨1 / 10, [.det 0, .det 0, .sep, .det 1]⟩ : Err ℝ) ∧
    0 < Dem.multiplicity 1 none (⟨1 / 10, [.det 0, .det 0, .sep, .det 1]⟩ : Err ℝ) := by
  have hcomp : components (⟨1 / 10, [.det 0, .det 0, .sep, .det 1]⟩ : Err ℝ) = [([0, 0], []), ([1], [])] := by
    rw [← segs_components]; rfl
  have hv : Dem.Valid ⟨[⟨1 / 10, [.det 0, .det 0, .sep, .det 1]⟩], 2, 0⟩ := by
    intro e he
    simp only [List.mem_singleton] at he
    subst he
    refine ⟨by norm_num, fun d hd => ?_, fun o ho => ?_⟩ <;> (simp at *; try omega)
  refine ⟨hv, ?_, ?_, ?_⟩
  · rw [← Option.ne_none_iff_exists', Ne, C21_load_with_correlations_rejects _ (fun e he => (hv e he).1.1)]
    push Not
    intro e he
    simp only [List.mem_singleton] at he
    subst he
    refine ⟨by norm_num, .inr (.inl ?_)⟩
    rw [hcomp]; decide
  · unfold Dem.multiplicity
    rw [if_neg (by norm_num), hcomp]
    decide
  · unfold Dem.multiplicity
    rw [if_neg (by norm_num), hcomp]
    decide

/-- C53 (predictions).  Load any model with correlations, use the decoder for any number of calls of any kind, and decode any events with correlations:
the call ends.  Either it returns the predictions and the weight of a best explanation for the weights of the second pass.  Or it raises, and nothing
explains the events. -/
theorem C53_observables (m : Model ℝ) (hv : Valid m) (hn : NoLoops m) (g : UGraph ℝ) (hl : loadCorr mergeWeights llr m = some g) (P : Prepared ℝ)
    (sg : Graph.SGraph) (C : Corr) (hC : prepareCorr g false = some (P, sg, C)) (st : CState) (hst : UsedCorr P.mg sg P.bnd P.mask C st)
    (events : List Nat) (hnd : events.Nodup) (hev : ∀ d ∈ events, d < m.numDets) :
    (∃ st' buf w, Completes (fun f => decodeObsCorr P.mg sg P.bnd P.mask C f st events (List.replicate m.numObs 0#8) 0) (.ok (st', buf, w)) ∧
      ∃ ω C2, TwoPass m g P.scale events ω C2 ∧ w = ∑ j ∈ C2, ω j ∧ buf.length = m.numObs ∧
        ∀ o, o < m.numObs → buf[o]? = some (if EndToEnd.crossed C2 o % 2 = 1 then 1#8 else 0#8)) ∨
    (∃ st', Completes (fun f => decodeObsCorr P.mg sg P.bnd P.mask C f st events (List.replicate m.numObs 0#8) 0) (.throws st') ∧
      ∀ C' : Choice g, ¬ EndToEnd.Explains C' events) := by
  have h := loaded m hv g hl
  have hP := full_of_corr hC
  obtain ⟨ins, φ, hR⟩ := ready h hv hP
  obtain ⟨hB, hw⟩ := hR.loadedCorr h hP hC
  have hev' : ∀ d ∈ events, d < g.nodes.length := by rw [h.nodes]; exact hev
  have hval : Decode.Valid P.mg events := ⟨hnd, by rw [hR.len]; exact hev'⟩
  rw [← h.numObs]
  rcases C51_correlated_observables _ _ ins P.scale P.mg sg P.mask C hB P.bnd hR.quiet st hst events hval with
    ⟨st', buf, w, k1, -, c1, k2, ω, k3, c2, k4, k5, k6, k7⟩ | ⟨st', k1, -, k2⟩
  · obtain ⟨ω', k8, k9⟩ := hR.two h hn hev' k2 k3 k4
    refine .inl ⟨st', buf, w, k1, ω', _, k8, k5.trans k9, k6, fun o ho => ?_⟩
    rw [lift_crossed hR.origin]
    exact k7 o ho
  · rw [hw] at k2
    rcases k2 with k2 | k2
    · cases k2
    · exact .inr ⟨st', k1, hR.none h hev' k2⟩

/-- C53 (edges). -/
theorem C53_edges (m : Model ℝ) (hv : Valid m) (hn : NoLoops m) (g : UGraph ℝ) (hl : loadCorr mergeWeights llr m = some g) (P : Prepared ℝ)
    (sg : Graph.SGraph) (C : Corr) (hC : prepareCorr g false = some (P, sg, C)) (st : CState) (hst : UsedCorr P.mg sg P.bnd P.mask C st)
    (events : List Nat) (hnd : events.Nodup) (hev : ∀ d ∈ events, d < m.numDets) :
    (∃ st' es, Completes (fun f => decodeEdgesCorr P.mg sg P.bnd C f st events) (.ok (st', es)) ∧
      ∃ ω C2, TwoPass m g P.scale events ω C2 ∧ Returned es C2) ∨
    (∃ st', Completes (fun f => decodeEdgesCorr P.mg sg P.bnd C f st events) (.throws st') ∧
      ∀ C' : Choice g, ¬ EndToEnd.Explains C' events) := by
  have h := loaded m hv g hl
  have hP := full_of_corr hC
  obtain ⟨ins, φ, hR⟩ := ready h hv hP
  obtain ⟨hB, hw⟩ := hR.loadedCorr h hP hC
  have hev' : ∀ d ∈ events, d < g.nodes.length := by rw [h.nodes]; exact hev
  have hval : Decode.Valid P.mg events := ⟨hnd, by rw [hR.len]; exact hev'⟩
  rcases C51_correlated_edges _ _ ins P.scale P.mg sg P.mask C hB P.bnd hR.quiet st hst events hval with
    ⟨st', es, k1, -, c1, k2, ω, k3, c2, k4, k5⟩ | ⟨st', k1, -, k2⟩
  · obtain ⟨ω', k8, -⟩ := hR.two h hn hev' k2 k3 k4
    exact .inl ⟨st', es, k1, ω', _, k8, returned_lift hR.origin k5⟩
  · rw [hw] at k2
    rcases k2 with k2 | k2
    · cases k2
    · exact .inr ⟨st', k1, hR.none h hev' k2⟩

/-- C53 (bit masks, at most 64 observables). -/
theorem C53_mask (m : Model ℝ) (hv : Valid m) (hn : NoLoops m) (hobs : m.numObs ≤ 64) (g : UGraph ℝ) (hl : loadCorr mergeWeights llr m = some g)
    (P : Prepared ℝ) (sg : Graph.SGraph) (C : Corr) (hC : prepareCorr g false = some (P, sg, C)) (st : CState)
    (hst : UsedCorr P.mg sg P.bnd P.mask C st) (events : List Nat) (hnd : events.Nodup) (hev : ∀ d ∈ events, d < m.numDets) :
    (∃ st' mask w, Completes (fun f => decode64Corr P.mg sg P.bnd P.mask C f st events) (.ok (st', mask, w)) ∧
      ∃ ω C2, TwoPass m g P.scale events ω C2 ∧ w = ∑ j ∈ C2, ω j ∧ ∀ o, o < 64 → (mask.getLsbD o = true ↔ EndToEnd.crossed C2 o % 2 = 1)) ∨
    (∃ st', Completes (fun f => decode64Corr P.mg sg P.bnd P.mask C f st events) (.throws st') ∧
      ∀ C' : Choice g, ¬ EndToEnd.Explains C' events) := by
  have h := loaded m hv g hl
  have hP := full_of_corr hC
  obtain ⟨ins, φ, hR⟩ := ready h hv hP
  obtain ⟨hB, hw⟩ := hR.loadedCorr h hP hC
  have hev' : ∀ d ∈ events, d < g.nodes.length := by rw [h.nodes]; exact hev
  have hval : Decode.Valid P.mg events := ⟨hnd, by rw [hR.len]; exact hev'⟩
  rcases C51_correlated_mask _ _ (by rw [h.numObs]; exact hobs) ins P.scale P.mg sg P.mask C hB P.bnd hR.quiet st hst events hval with
    ⟨st', mask, w, k1, -, c1, k2, ω, k3, c2, k4, k5, k6⟩ | ⟨st', k1, -, k2⟩
  · obtain ⟨ω', k8, k9⟩ := hR.two h hn hev' k2 k3 k4
    refine .inl ⟨st', mask, w, k1, ω', _, k8, k5.trans k9, fun o ho => ?_⟩
    rw [lift_crossed hR.origin]
    exact k6 o ho
  · rw [hw] at k2
    rcases k2 with k2 | k2
    · cases k2
    · exact .inr ⟨st', k1, hR.none h hev' k2⟩

end Verif.Props.DemCorr
