import Verif.Object
import Verif.Props.UserEdges
import Verif.Props.Api

/-!
# An object answers for its current graph, as a new object would (C54)
-/

namespace Verif.Props.Object

open Verif Verif.Graph Verif.CE Verif.SB Verif.UG Verif.Conv Verif.Obj
open Verif.Props.Correlated Verif.Props.Shots Verif.Props.Edges Verif.Props.EndToEnd Verif.Props.UserEdges Verif.Props.UserGraph Verif.Props.Decode
open Verif.Sch (Res Fresh SS)

variable {K : Type} [Field K] [LinearOrder K] [IsStrictOrderedRing K] [FloorRing K]

/-! ## Specification -/

/-- The detection events are different nodes of the graph. -/
def EventsOk (g : UGraph K) (events : List Nat) : Prop := events.Nodup ∧ ∀ d ∈ events, d < g.nodes.length

/-- No edge has negative weight. -/
def NonNeg (g : UGraph K) : Prop := ∀ e ∈ g.edges, 0 ≤ e.weight

/-- The question asks for correlations. -/
def correlations : Query → Bool
  | .decode corr _ => corr
  | .batch _ _ corr _ _ => corr
  | .edges corr _ => corr
  | _ => false

/-- The answer to a question asked to an object with the given graph to which no question was asked before. -/
def Fresh1 [W : Width] (g : UGraph K) (without : Bool) (q : Query) (a : Answer K) : Prop :=
  ∃ o, Completes (fun f => (Object.of g without).ask f q) (.ok (a, o))

/-- The arguments of the question fit to the graph. -/
def Fits (g : UGraph K) (without : Bool) : Query → Prop
  | .decode _ events => EventsOk g events
  | .batch ps _ _ cols rows => Obs.shapeOk ps cols g.numDetectors g.nodes.length = true → ∀ row ∈ rows, ∀ d ∈ readRow ps row, d < g.nodes.length
  | .edges _ events => EventsOk g events
  | .pairs events => EventsOk g events
  | .path src dst => ∃ a, Fresh1 g without (.path src dst) a

/-- A question that may be asked: a decoder can be built, `num_fault_ids` covers the fault ids, the arguments fit, and correlations are asked for only if
there are no negative weights. -/
structure Askable (g : UGraph K) (without : Bool) (q : Query) : Prop where
  builds : ∃ d, toMwpm g without true = some d
  covered : Covered g
  fits : Fits g without q
  corr : correlations q = true → NonNeg g

/-- The condition on a history that starts with graph `g`; `asked`: a question was asked since nodes, edges or boundary last changed.  Then
`ensure_num_fault_ids` must not raise the number of fault ids. -/
def Proper (mergeW : K → K → K) (without : Bool) : UGraph K → Prop → List (Op K) → Prop
  | _, _, [] => True
  | g, asked, .modify c :: ops =>
    (asked → ∀ n, c = .setMinNumObs n → n ≤ g.numObs) ∧
    Proper mergeW without (exec mergeW g c).1
      (asked ∧ (exec mergeW g c).1.nodes = g.nodes ∧ (exec mergeW g c).1.edges = g.edges ∧ (exec mergeW g c).1.boundary = g.boundary) ops
  | g, _, .ask q :: ops => Askable g without q ∧ Proper mergeW without g True ops

/-- The questions of a history, each with the graph at that time. -/
def questions (mergeW : K → K → K) : UGraph K → List (Op K) → List (UGraph K × Query)
  | _, [] => []
  | g, .modify c :: ops => questions mergeW (exec mergeW g c).1 ops
  | g, .ask q :: ops => (g, q) :: questions mergeW g ops

/-! ## Lemmas: graphs -/

/-- The same graph, except perhaps for the flag `_mwpm_needs_updating`. -/
def SameBut (g g' : UGraph K) : Prop := ∃ b, g' = { g with needsUpdating := b }

omit [IsStrictOrderedRing K] [FloorRing K] in
theorem mergeEdge_but (mergeW : K → K → K) (g : UGraph K) (b : Bool) (ei : Nat) (obs : List Nat) (w p : K) (s : Strategy) :
    SameBut (g.mergeEdge mergeW ei obs w p s).1 ((({ g with needsUpdating := b } : UGraph K)).mergeEdge mergeW ei obs w p s).1 := by
  unfold UGraph.mergeEdge
  simp only
  split
  · exact ⟨b, rfl⟩
  · split
    · exact ⟨b, rfl⟩
    · exact ⟨b, rfl⟩
    · exact ⟨true, rfl⟩

omit [IsStrictOrderedRing K] [FloorRing K] in
/-- Modifications do not read the flag. -/
theorem exec_but (mergeW : K → K → K) {g g' : UGraph K} (h : SameBut g g') (c : Call K) : SameBut (exec mergeW g c).1 (exec mergeW g' c).1 := by
  obtain ⟨b, rfl⟩ := h
  cases c with
  | setBoundary l => exact ⟨true, rfl⟩
  | setMinNumObs n => exact ⟨b, rfl⟩
  | add u t obs w p s =>
    cases t with
    | none =>
      simp only [exec, UGraph.addBoundaryEdge]
      split
      · exact ⟨b, rfl⟩
      · rename_i nd _
        have : (({ { g with needsUpdating := b } with nodes := grow g.nodes (u + 1) } : UGraph K)).edgeTo nd none =
          (({ g with nodes := grow g.nodes (u + 1) } : UGraph K)).edgeTo nd none := rfl
        rw [this]
        split
        · exact ⟨true, rfl⟩
        · exact mergeEdge_but mergeW { g with nodes := grow g.nodes (u + 1) } b _ obs w p s
    | some v =>
      simp only [exec, UGraph.addEdge]
      split
      · exact ⟨b, rfl⟩
      · rename_i nd _
        have : (({ { g with needsUpdating := b } with nodes := grow g.nodes (max u v + 1) } : UGraph K)).edgeTo nd (some v) =
          (({ g with nodes := grow g.nodes (max u v + 1) } : UGraph K)).edgeTo nd (some v) := rfl
        rw [this]
        split
        · exact ⟨true, rfl⟩
        · exact mergeEdge_but mergeW { g with nodes := grow g.nodes (max u v + 1) } b _ obs w p s

omit [IsStrictOrderedRing K] in
/-- The decoder depends on nodes, edges, boundary and number of fault ids. -/
theorem toMwpm_congr {g g' : UGraph K} (h1 : g'.nodes = g.nodes) (h2 : g'.edges = g.edges) (h3 : g'.boundary = g.boundary) (h4 : g'.numObs = g.numObs)
    (without ensure : Bool) : toMwpm g' without ensure = toMwpm g without ensure := by
  obtain ⟨n, e, bd, no, nu, ap⟩ := g
  obtain ⟨n', e', bd', no', nu', ap'⟩ := g'
  simp only at h1 h2 h3 h4
  subst h1 h2 h3 h4
  rfl

/-! ## Lemmas: decoders -/

/-- The decoder was built from the graph, and is at rest. -/
structure Ready (g : UGraph K) (without : Bool) (d : Decoder K) (search : Bool) : Prop where
  built : toMwpm g without search = some { d with st := CState.init d.P.mg d.sg }
  rest : Rest d.P.mg d.sg d.st

omit [IsStrictOrderedRing K] in
theorem ready_new {g : UGraph K} {without search : Bool} {d : Decoder K} (h : toMwpm g without search = some d) : Ready g without d search := by
  have e : d.st = CState.init d.P.mg d.sg := by
    unfold toMwpm at h
    split at h
    · split at h
      · split_ifs at h
        · split at h
          · split at h
            · cases h; rfl
            · cases h
          · cases h
        · cases h; rfl
      · cases h
    · cases h
  refine ⟨by rw [h, ← e], ?_⟩
  rw [e]
  exact rest_init _ _

/-- What is known about the decoder with search graph. -/
structure Solid (g : UGraph K) (d : Decoder K) : Prop where
  ex : ∃ ins : List (Conv.Ins K), Built g.nodes.length g.numObs (opsOf ins) d.P.mg d.sg d.P.mask ∧
    (NonNeg g → BuiltCorr g.nodes.length g.numObs ins d.P.scale d.P.mg d.sg d.P.mask d.C)
  quiet : ∀ x ∈ d.P.mg.negDets, TL.notBoundary d.P.bnd x = true
  len : d.P.mg.nodes.length = g.nodes.length
  slen : d.sg.nodes.length = g.nodes.length
  nobs : d.P.mg.numObs = g.numObs
  good : Sch.Good d.sg

theorem solid {g : UGraph K} (hw : WF g) (hB : Props.Convert.BndOk g) (hcov : Covered g) {without : Bool} {d : Decoder K} (h : toMwpm g without true = some d) :
    Solid g d := by
  unfold toMwpm at h
  split at h
  · rename_i P ins k hP hconv
    split at h
    · rename_i rg hrg
      rw [if_pos (by simp)] at h
      split at h
      · rename_i sg hsg
        split at h
        · rename_i rs hrs
          cases h
          obtain ⟨ins', k', c, h1, h2, h3, h4, h5, h6, h7, h8, h9, h10, h11, h12, φ, hO, hF⟩ := prepared_graph hw hB hP
          rw [hconv] at h1
          cases h1
          have hBuilt : Built g.nodes.length g.numObs (opsOf ins) P.mg sg P.mask := by
            refine ⟨h7, hsg, fun _ => h9, h8, ?_⟩
            intro op hop o ho
            obtain ⟨i, hi, rfl⟩ := List.getElem_of_mem hop
            have := hO.obs ⟨i, hi⟩
            exact hcov _ (List.getElem_mem (φ ⟨i, hi⟩).2) o (by rw [← Fin.getElem_fin, ← this]; exact ho)
          have htw := twin_of_runs hBuilt.matching hBuilt.search
          refine ⟨⟨ins, hBuilt, fun hn => ⟨⟨hBuilt, by rw [h4]; exact hrg, by rw [h4]; exact hrs⟩, ?_⟩⟩, h11, h12, htw.len,
            (Props.Graph.built_run (Props.Graph.built_empty _ _) h7).nobs, good_of_run hBuilt.matching htw (proper_of_run h7 h8.pairs h8.even h8.small)⟩
          intro i hi r hr j hj he
          obtain ⟨n, hn', rfl⟩ := List.getElem_of_mem hj
          have e3 := hO.w ⟨n, by simpa using hn'⟩
          have e4 : (Props.Convert.toGraphIns ins[n]).w = disc c g.edges[φ ⟨n, by simpa using hn'⟩].weight := by
            rw [← e3]; simp
          rw [e4]
          exact (Discretise.C19_monotone_odd _ h6 0 _).2.2 (hn _ (List.getElem_mem _))
        · cases h
      · cases h
    · cases h
  · cases h

/-- Without search graph, the same graph and masks. -/
theorem toMwpm_false {g : UGraph K} {without : Bool} {d : Decoder K} (h : toMwpm g without true = some d) :
    ∃ d0, toMwpm g without false = some d0 ∧ d0.P = d.P ∧ (64 < g.numObs → d0 = d) := by
  unfold toMwpm at h
  split at h
  · rename_i P ins k hP hconv
    split at h
    · rename_i rg hrg
      rw [if_pos (by simp)] at h
      split at h
      · rename_i sg hsg
        split at h
        · rename_i rs hrs
          cases h
          by_cases hn : g.numObs > 64
          · exact ⟨⟨P, sg, ⟨rg, rs, without⟩, CState.init P.mg sg⟩,
              by simp only [toMwpm, hP, hconv, hrg, hn, decide_true, Bool.true_or, if_true, hsg, hrs], rfl, fun _ => rfl⟩
          · exact ⟨⟨P, SGraph.empty 0, ⟨rg, [], without⟩, CState.init P.mg (SGraph.empty 0)⟩,
              by simp only [toMwpm, hP, hconv, hrg, hn, decide_false, Bool.or_false, Bool.false_eq_true, if_false], rfl, fun h => absurd h hn⟩
        · cases h
      · cases h
    · cases h
  · cases h

omit [LinearOrder K] [IsStrictOrderedRing K] [FloorRing K] [Field K] in
/-- With up to 64 observables, `decode` does not use the search graph. -/
theorem decodeObs_any {g : MGraph} (hn : ¬ g.numObs > 64) (sg sg' : SGraph) (bnd : List Bool) (m : ObsInt) (f : Nat) (F : Full) (events : List Nat)
    (buf : List (BitVec 8)) (w : Int) : decodeObs g sg bnd m f F events buf w = decodeObs g sg' bnd m f F events buf w := by
  simp only [decodeObs, if_neg hn]

/-- The call needs the search graph. -/
def needs : Correlated.Call → Bool
  | .obs corr _ _ _ => corr
  | .edges _ _ => true
  | .mask corr _ => corr
  | .pairs _ => false

omit [LinearOrder K] [IsStrictOrderedRing K] [FloorRing K] [Field K] in
theorem respond_narrow {g : MGraph} {sg sg' : SGraph} {bnd : List Bool} {m : ObsInt} {C C' : Corr} (hn : ¬ g.numObs > 64) {c : Correlated.Call}
    (hc : needs c = false) {f : Nat} {st st1 : CState} {ws : RW.State} {r : Reply} (h : respond g sg bnd m C f { st with ws := ws } c = some (.ok (r, st1))) :
    respond g sg' bnd m C' f st c = some (.ok (r, { st1 with ws := st.ws })) := by
  have key : ∀ {α : Type} (v : α → Reply) (call : MGraph → SGraph → Full → Option (Ended (Full × α))),
      (∀ sg sg' F, call (withM g st.wg.mem) sg F = call (withM g st.wg.mem) sg' F) →
      tell v (plain g sg call { st with ws := ws }) = some (.ok (r, st1)) → tell v (plain g sg' call st) = some (.ok (r, { st1 with ws := st.ws })) := by
    intro α v call he h
    unfold plain at h ⊢
    simp only at h
    rw [he (withS sg' st.ws.mem) (withS sg ws.mem)]
    revert h
    generalize call (withM g st.wg.mem) (withS sg ws.mem) st.full = x
    intro h
    match x, h with
    | some (.throws F), h =>
      simp only [tell] at h ⊢
      cases h
      rfl
    | some (.ok (F, a)), h =>
      simp only [tell] at h ⊢
      cases h
      rfl
  cases c with
  | obs corr events buf w =>
    cases corr
    · exact key _ _ (fun sg sg' F => decodeObs_any (by exact hn) sg sg' bnd m f F events buf w) h
    · cases hc
  | edges corr events => cases hc
  | mask corr events =>
    cases corr
    · exact key _ _ (fun _ _ _ => rfl) h
    · cases hc
  | pairs events => exact key _ _ (fun _ _ _ => rfl) h

/-- A decoder at rest behaves as the decoder with search graph in some state at rest. -/
theorem stand_in {g : UGraph K} {without : Bool} {d1 d : Decoder K} {s : Bool} (h1 : toMwpm g without true = some d1) (hs : Solid g d1)
    (hd : Ready g without d s) : d.P = d1.P ∧ (s = true → d.sg = d1.sg) ∧ ∃ st1, Rest d1.P.mg d1.sg st1 ∧
      ∀ (c : Correlated.Call) (r : Reply) (st' : CState), (needs c = true → s = true) → Rest d1.P.mg d1.sg st' →
        Completes (fun f => respond d1.P.mg d1.sg d1.P.bnd d1.P.mask d1.C f st1 c) (.ok (r, st')) →
        ∃ st, Completes (fun f => respond d.P.mg d.sg d.P.bnd d.P.mask d.C f d.st c) (.ok (r, st)) ∧ Rest d.P.mg d.sg st := by
  have same : ({ d with st := CState.init d.P.mg d.sg } : Decoder K) = d1 → d.P = d1.P ∧ (s = true → d.sg = d1.sg) ∧ ∃ st1, Rest d1.P.mg d1.sg st1 ∧
      ∀ (c : Correlated.Call) (r : Reply) (st' : CState), (needs c = true → s = true) → Rest d1.P.mg d1.sg st' →
        Completes (fun f => respond d1.P.mg d1.sg d1.P.bnd d1.P.mask d1.C f st1 c) (.ok (r, st')) →
        ∃ st, Completes (fun f => respond d.P.mg d.sg d.P.bnd d.P.mask d.C f d.st c) (.ok (r, st)) ∧ Rest d.P.mg d.sg st := by
    rintro rfl
    exact ⟨rfl, fun _ => rfl, d.st, hd.rest, fun c r st' _ hr hc => ⟨st', hc, hr⟩⟩
  obtain ⟨d0, h0, hP, h64⟩ := toMwpm_false h1
  cases s with
  | true =>
    have := hd.built
    rw [h1] at this
    exact same (Option.some.inj this).symm
  | false =>
    have hb := hd.built
    rw [h0] at hb
    have hb := Option.some.inj hb
    by_cases hn : 64 < g.numObs
    · exact same (hb.symm.trans (h64 hn))
    · have eP : d.P = d1.P := by rw [← hP, hb]
      refine ⟨eP, fun h => (by cases h), { d.st with ws := ⟨memS d1.sg, []⟩ }, ⟨hd.rest.full, by rw [← eP]; exact hd.rest.matching, rfl⟩, ?_⟩
      rintro c r st' hc hr ⟨f0, e⟩
      refine ⟨{ st' with ws := d.st.ws }, ⟨f0, fun f hf => ?_⟩, ⟨hr.full, by rw [eP]; exact hr.matching, hd.rest.search⟩⟩
      have := e f hf
      simp only at this
      have hn' : ¬ d1.P.mg.numObs > 64 := by rw [hs.nobs]; exact hn
      rw [eP]
      refine respond_narrow hn' ?_ this
      cases hne : needs c with
      | false => rfl
      | true => cases hc hne

/-- Two decoders of the same graph give the same reply. -/
theorem reply {g : UGraph K} {without : Bool} {d1 d d' : Decoder K} {s s' : Bool} (h1 : toMwpm g without true = some d1) (hs : Solid g d1)
    (hd : Ready g without d s) (hd' : Ready g without d' s') {c : Correlated.Call} (ha : c.Acceptable d1.P.mg) (hcorr : asksCorr c = true → NonNeg g)
    (hne : needs c = true → s = true ∧ s' = true) :
    ∃ r st st', Completes (fun f => respond d.P.mg d.sg d.P.bnd d.P.mask d.C f d.st c) (.ok (r, st)) ∧
      Completes (fun f => respond d'.P.mg d'.sg d'.P.bnd d'.P.mask d'.C f d'.st c) (.ok (r, st')) ∧
      Ready g without { d with st := st } s ∧ Ready g without { d' with st := st' } s' := by
  obtain ⟨-, -, st1, r1, k1⟩ := stand_in h1 hs hd
  obtain ⟨-, -, st2, r2, k2⟩ := stand_in h1 hs hd'
  obtain ⟨ins, hB, hC⟩ := hs.ex
  have main : ∀ {st1 st2 : CState}, Rest d1.P.mg d1.sg st1 → Rest d1.P.mg d1.sg st2 → SameReply d1.P.mg d1.sg d1.P.bnd d1.P.mask d1.C st1 st2 c := by
    intro st1 st2 r1 r2
    cases hc : asksCorr c with
    | false => exact plain_reply hB hs.quiet r1 r2 ha hc _
    | true => exact any_reply (hC (hcorr hc)) hs.quiet r1 r2 ha
  obtain ⟨r, sa, sb, ca, cb, rb⟩ := main r1 r2
  obtain ⟨r', sa', sb', ca', cb', rb'⟩ := main r2 r1
  have e1 := completes_unique ca cb'
  have e2 := completes_unique cb ca'
  cases e1
  obtain ⟨t1, x1, y1⟩ := k1 c r _ (fun h => (hne h).1) rb' ca
  obtain ⟨t2, x2, y2⟩ := k2 c r _ (fun h => (hne h).2) rb cb
  exact ⟨r, t1, t2, x1, x2, ⟨hd.built, y1⟩, ⟨hd'.built, y2⟩⟩

/-! ## Lemmas: paths -/

omit [LinearOrder K] [IsStrictOrderedRing K] [FloorRing K] [Field K] in
theorem path_ends {sg : SGraph} (hg : Sch.Good sg) {s : SS} (hs : Fresh s) {bnd : List Bool} (hb : bnd.length = sg.nodes.length) (src dst : Option Nat) :
    ∃ x, Completes (fun f => Sch.nodesOnPath sg f s bnd src dst) x ∧ ∀ l s', x = .ok (l, s') → Fresh s' := by
  have hin : ∀ {u : Nat} {b : Bool}, Sch.isBnd bnd (some u) = .ok b → u < sg.nodes.length := by
    intro u b h
    simp only [Sch.isBnd] at h
    split at h
    · cases h
    · rename_i b' hb'
      rw [← hb]
      exact (List.getElem?_eq_some_iff.mp hb').1
  have key : ∀ (u : Nat) (v : Option Nat), u < sg.nodes.length → (∀ d, v = some d → d < sg.nodes.length) →
      ∃ x, Completes (fun f => Sch.nodesFrom sg f s u v) x ∧ ∀ l s', x = .ok (l, s') → Fresh s' := by
    intro u v hu hv
    rcases Props.Search.search_outcome hg s hs u v hu hv with ⟨-, N, es, es', W, s', h1, -, -, -, h2⟩ | ⟨-, N, h2⟩
    · refine ⟨.ok (es.map (·.1) ++ v.toList, s'), ⟨N, fun f hf => ?_⟩, ?_⟩
      · simp only [Sch.nodesFrom, (h2 f hf).1, Res.bind]
      · intro l t e
        cases e
        exact h1
    · refine ⟨.ub, ⟨N, fun f hf => ?_⟩, fun l s' e => (by cases e)⟩
      simp only [Sch.nodesFrom, (h2 f hf).1, Res.bind]
  have const : ∀ x : Res (List Nat × SS), (∀ l s', x ≠ .ok (l, s')) → (∀ f, Sch.nodesOnPath sg f s bnd src dst = some x) →
      ∃ x, Completes (fun f => Sch.nodesOnPath sg f s bnd src dst) x ∧ ∀ l s', x = .ok (l, s') → Fresh s' :=
    fun x h1 h2 => ⟨x, ⟨0, fun f _ => h2 f⟩, fun l s' e => absurd e (h1 l s')⟩
  cases h1 : Sch.isBnd bnd src with
  | ub => exact const .ub (fun _ _ h => (by cases h)) (fun f => by simp only [Sch.nodesOnPath, h1])
  | throws => exact const .ub (fun _ _ h => (by cases h)) (fun f => by simp only [Sch.nodesOnPath, h1])
  | ok b1 =>
    cases h2 : Sch.isBnd bnd dst with
    | ub => exact const .ub (fun _ _ h => (by cases h)) (fun f => by simp only [Sch.nodesOnPath, h1, h2])
    | throws => exact const .ub (fun _ _ h => (by cases h)) (fun f => by simp only [Sch.nodesOnPath, h1, h2])
    | ok b2 =>
      cases b1 with
      | false =>
        cases src with
        | none => cases h1
        | some u =>
          obtain ⟨x, ⟨N, hx⟩, hf⟩ := key u (if b2 then none else dst) (hin h1) (by
            intro d hd
            cases b2 with
            | true => simp at hd
            | false =>
              simp only [Bool.false_eq_true, if_false] at hd
              subst hd
              exact hin h2)
          refine ⟨x, ⟨N, fun f hff => ?_⟩, hf⟩
          have := hx f hff
          simp only at this
          simp only [Sch.nodesOnPath, h1, h2, this]
      | true =>
        cases b2 with
        | true => exact const .throws (fun _ _ h => (by cases h)) (fun f => by simp only [Sch.nodesOnPath, h1, h2])
        | false =>
          cases dst with
          | none => cases h2
          | some v =>
            obtain ⟨x, ⟨N, hx⟩, hf⟩ := key v none (hin h2) (fun d hd => (by cases hd))
            refine ⟨x.bind fun (l, s') => .ok (l.reverse, s'), ⟨N, fun f hff => ?_⟩, ?_⟩
            · have := hx f hff
              simp only at this
              simp only [Sch.nodesOnPath, h1, h2, this]
            · intro l s' e
              cases x with
              | ub => cases e
              | throws => cases e
              | ok a =>
                obtain ⟨l0, s0⟩ := a
                simp only [Res.bind] at e
                cases e
                exact hf _ _ rfl

omit [LinearOrder K] [IsStrictOrderedRing K] [FloorRing K] [Field K] in
/-- Two searches at rest find the same nodes. -/
theorem path_two {sg : SGraph} (hg : Sch.Good sg) {a b : SS} (ha : Fresh a) (hb : Fresh b) {bnd : List Bool} (hl : bnd.length = sg.nodes.length)
    (src dst : Option Nat) :
    (∃ l a' b', Completes (fun f => Sch.nodesOnPath sg f a bnd src dst) (.ok (l, a')) ∧ Completes (fun f => Sch.nodesOnPath sg f b bnd src dst) (.ok (l, b')) ∧
      Fresh a' ∧ Fresh b') ∨
    (Completes (fun f => Sch.nodesOnPath sg f a bnd src dst) .throws ∧ Completes (fun f => Sch.nodesOnPath sg f b bnd src dst) .throws) ∨
    (Completes (fun f => Sch.nodesOnPath sg f a bnd src dst) .ub ∧ Completes (fun f => Sch.nodesOnPath sg f b bnd src dst) .ub) := by
  obtain ⟨x, hx, fx⟩ := path_ends hg ha hl src dst
  obtain ⟨y, hy, fy⟩ := path_ends hg hb hl src dst
  obtain ⟨f1, h1⟩ := id hx
  obtain ⟨f2, h2⟩ := id hy
  have hsim := Sch.nodesOnPath_sim (g := sg) (Sch.fresh_alike ha hb) (max f1 f2) bnd src dst
  have e1 := h1 _ (le_max_left f1 f2)
  have e2 := h2 _ (le_max_right f1 f2)
  simp only at e1 e2
  rw [e1, e2] at hsim
  cases hsim with
  | some h =>
    cases h with
    | ub => exact .inr (.inr ⟨hx, hy⟩)
    | throws => exact .inr (.inl ⟨hx, hy⟩)
    | ok h =>
      rename_i p q
      obtain ⟨l, a'⟩ := p
      obtain ⟨l', b'⟩ := q
      obtain ⟨e, -⟩ := h
      cases e
      exact .inl ⟨l, a', b', hx, hy, fx _ _ rfl, fy _ _ rfl⟩

/-! ## Lemmas: objects -/

/-- The cached decoder belongs to the graph, unless the flag is set. -/
structure Inv (g : UGraph K) (without : Bool) (o : Object K) : Prop where
  same : SameBut g o.graph
  wo : o.without = without
  ready : o.graph.needsUpdating = false → ∃ d s, o.cache = some d ∧ Ready g without d s

/-- The object has this decoder. -/
structure Held (g : UGraph K) (without : Bool) (o : Object K) (d : Decoder K) (s : Bool) : Prop where
  same : SameBut g o.graph
  wo : o.without = without
  cache : o.cache = some d
  ready : Ready g without d s

omit [IsStrictOrderedRing K] in
theorem Held.inv {g : UGraph K} {without : Bool} {o : Object K} {d : Decoder K} {s : Bool} (h : Held g without o d s) : Inv g without o :=
  ⟨h.same, h.wo, fun _ => ⟨d, s, h.cache, h.ready⟩⟩

omit [IsStrictOrderedRing K] in
theorem inv_of (g : UGraph K) (without : Bool) : Inv g without (Object.of g without) :=
  ⟨⟨true, rfl⟩, rfl, fun h => (by cases h)⟩

omit [IsStrictOrderedRing K] in
theorem toMwpm_but {g g' : UGraph K} (h : SameBut g g') (without ensure : Bool) : toMwpm g' without ensure = toMwpm g without ensure := by
  obtain ⟨b, rfl⟩ := h
  exact toMwpm_congr rfl rfl rfl rfl _ _

/-- Without nodes there is no difference. -/
theorem toMwpm_nil {g : UGraph K} (hw : WF g) (hB : Props.Convert.BndOk g) (hn : g.nodes.length = 0) {without : Bool} {d1 : Decoder K}
    (h : toMwpm g without true = some d1) : toMwpm g without false = some d1 := by
  have h' := h
  unfold toMwpm at h
  split at h
  · rename_i P ins k hP hconv
    obtain ⟨ins', k', c, h1, h2, h3, h4, h5, h6, h7, h8, h9, h10, h11, h12, φ, hO, hF⟩ := prepared_graph hw hB hP
    rw [hconv] at h1
    cases h1
    have : ins = [] := by
      cases ins with
      | nil => rfl
      | cons i l =>
        have hi := (φ ⟨0, by simp⟩).2
        have := UserGraph.key_in_range hw _ hi g.edges[φ ⟨0, by simp⟩].node1 g.edges[φ ⟨0, by simp⟩].node2 rfl
        omega
    subst this
    split at h
    · rename_i rg hrg
      rw [if_pos (by simp)] at h
      have e1 : runS (SGraph.empty g.nodes.length) (([] : List (Conv.Ins K)).map Props.Convert.toGraphIns) = some (SGraph.empty 0) := by rw [hn]; rfl
      have e2 : table g.nodes.length ([] : List (Conv.Ins K)) = [] := by rw [hn]; rfl
      have e3 : ∀ A k, convertTable A k (table g.nodes.length ([] : List (Conv.Ins K))) = .ok [] := by intro A k; rw [e2]; rfl
      rw [e3] at hrg
      cases hrg
      rw [e1] at h
      simp only [e3] at h
      cases h
      simp only [toMwpm, hP, hconv, e3, e1]
      split <;> rfl
    · cases h
  · cases h

/-- The object gets a decoder for its graph. -/
theorem decoderFor_held {g : UGraph K} (hw : WF g) (hB : Props.Convert.BndOk g) {without : Bool} {d1 : Decoder K} (h1 : toMwpm g without true = some d1)
    (hs : Solid g d1) {o : Object K} (hi : Inv g without o) (search : Bool) :
    ∃ o' d s, o.decoderFor search = some (o', d) ∧ Held g without o' d s ∧ (search = true → s = true) := by
  obtain ⟨d0, h0, -, h64⟩ := toMwpm_false h1
  have hb : ∀ e, ∃ d, toMwpm g without e = some d := by
    intro e
    cases e
    · exact ⟨d0, h0⟩
    · exact ⟨d1, h1⟩
  have hre : ∀ e, ∃ o' d, o.rebuild e = some (o', d) ∧ Held g without o' d e := by
    intro e
    obtain ⟨d, hd⟩ := hb e
    have hd' : toMwpm o.graph o.without e = some d := by rw [toMwpm_but hi.same, hi.wo]; exact hd
    obtain ⟨b, hg⟩ := hi.same
    refine ⟨{ o with graph := { o.graph with needsUpdating := false }, cache := some d }, d, ?_, ⟨⟨false, ?_⟩, hi.wo, rfl, ready_new hd⟩⟩
    · simp only [Object.rebuild, hd']
    · simp only [hg]
  cases search with
  | false =>
    simp only [Object.decoderFor, Bool.false_eq_true, if_false, Object.getMwpm]
    by_cases hf : o.graph.needsUpdating = true
    · obtain ⟨o', d, e, hh⟩ := hre false
      exact ⟨o', d, false, by rw [if_pos hf]; exact e, hh, fun h => (by cases h)⟩
    · obtain ⟨d, s, hc, hr⟩ := hi.ready (by simpa using hf)
      exact ⟨o, d, s, by rw [if_neg hf, hc], ⟨hi.same, hi.wo, hc, hr⟩, fun h => (by cases h)⟩
  | true =>
    obtain ⟨o', d', e', hh'⟩ := hre true
    simp only [Object.decoderFor, if_true, Object.getMwpmWithSearchGraph]
    cases hc : o.cache with
    | none => exact ⟨o', d', true, e', hh', fun _ => rfl⟩
    | some d =>
      simp only
      split
      · rename_i hcond
        simp only [Bool.and_eq_true, Bool.not_eq_true', beq_iff_eq] at hcond
        obtain ⟨dd, s, hc', hr⟩ := hi.ready hcond.1
        rw [hc] at hc'
        cases hc'
        refine ⟨o, d, true, rfl, ⟨hi.same, hi.wo, hc, ?_⟩, fun _ => rfl⟩
        cases s with
        | true => exact hr
        | false =>
          refine ⟨?_, hr.rest⟩
          have hb := hr.built
          rw [h0] at hb
          by_cases hn : 64 < g.numObs
          · rw [h64 hn] at hb
            rw [h1, hb]
          · have hd := (stand_in h1 hs hr).1
            have hsg : d.sg = SGraph.empty 0 := by
              have hb := hr.built
              unfold toMwpm at hb
              split at hb
              · split at hb
                · rw [if_neg (by simp only [Bool.or_false, decide_eq_true_eq]; omega)] at hb
                  have := Option.some.inj hb
                  exact (congrArg Decoder.sg this).symm
                · cases hb
              · cases hb
            have hlen : g.nodes.length = 0 := by
              rw [← hs.len, ← hd, hcond.2, hsg]
              rfl
            have := toMwpm_nil hw hB hlen h1
            rw [h0] at this
            rw [h1, ← this, hb]
      · exact ⟨o', d', true, e', hh', fun _ => rfl⟩

/-- A call on two objects. -/
theorem call_two {g : UGraph K} {without : Bool} {d1 : Decoder K} (h1 : toMwpm g without true = some d1) (hs : Solid g d1)
    {o o' : Object K} {d d' : Decoder K} {s s' : Bool} (hh : Held g without o d s) (hh' : Held g without o' d' s') {c : Correlated.Call}
    (ha : c.Acceptable d1.P.mg) (hcorr : asksCorr c = true → NonNeg g) (hne : needs c = true → s = true ∧ s' = true) :
    ∃ r p q p' q', Completes (fun f => o.call d f c) (.ok (r, p, q)) ∧ Completes (fun f => o'.call d' f c) (.ok (r, p', q')) ∧
      Held g without p q s ∧ Held g without p' q' s' := by
  obtain ⟨r, st, st', ⟨f0, e0⟩, ⟨f1, e1⟩, k1, k2⟩ := reply h1 hs hh.ready hh'.ready ha hcorr hne
  refine ⟨r, { o with cache := some { d with st := st } }, { d with st := st }, { o' with cache := some { d' with st := st' } }, { d' with st := st' },
    ⟨f0, fun f hf => ?_⟩, ⟨f1, fun f hf => ?_⟩, ⟨hh.same, hh.wo, rfl, k1⟩, ⟨hh'.same, hh'.wo, rfl, k2⟩⟩
  · have := e0 f hf
    simp only at this
    simp only [Object.call, this]
  · have := e1 f hf
    simp only at this
    simp only [Object.call, this]

omit [LinearOrder K] [IsStrictOrderedRing K] [FloorRing K] [Field K] in
theorem packRow_total (preds : List (BitVec 8)) : ∃ out, Obs.packRow preds = some out := by
  have : ∀ (preds : List (BitVec 8)) (k : Nat) (out : List (BitVec 8)), (k + preds.length + 7) / 8 ≤ out.length → ∃ out', Obs.packLoop k preds out = some out' := by
    intro preds
    induction preds with
    | nil => intro k out _; exact ⟨out, rfl⟩
    | cons p ps ih =>
      intro k out h
      simp only [List.length_cons] at h
      have hk : k >>> 3 < out.length := by rw [Obs.shiftRight3]; omega
      simp only [Obs.packLoop, Obs.packStep, List.getElem?_eq_getElem hk]
      exact ih _ _ (by simp only [List.length_set]; omega)
  refine this preds 0 _ ?_
  simp only [List.length_replicate, Obs.numBytes, Obs.shiftRight3]
  omega

/-- The row of a reply. -/
def rowAns (packed : Bool) (scale : K) : Reply → Option (List (BitVec 8) × K)
  | .predictions buf w => some (if packed then (Obs.packRow buf).getD [] else buf, (w : K) / scale)
  | _ => none

omit [IsStrictOrderedRing K] in
theorem row_of_call {o p : Object K} {d q : Decoder K} {corr packed : Bool} {events : List Nat} {r : Reply}
    (h : Completes (fun f => o.call d f (.obs corr events (List.replicate o.graph.numObs 0#8) 0)) (.ok (r, p, q))) :
    Completes (fun f => o.decodeRow d f corr packed events) (.ok (rowAns packed d.P.scale r, p, q)) := by
  obtain ⟨f0, e⟩ := h
  refine ⟨f0, fun f hf => ?_⟩
  have := e f hf
  simp only at this
  simp only [Object.decodeRow, this]
  cases r with
  | predictions buf w =>
    simp only [rowAns]
    cases packed with
    | false => simp
    | true =>
      obtain ⟨out, ho⟩ := packRow_total buf
      simp [ho]
  | _ => rfl

omit [LinearOrder K] [IsStrictOrderedRing K] [FloorRing K] [Field K] in
theorem readRow_nodup (packed : Bool) (row : List (BitVec 8)) : (readRow packed row).Nodup := by
  cases packed
  · exact (Obs.readUnpackedFrom_sorted row 0).imp (fun h => Nat.ne_of_lt h)
  · exact (Obs.readPackedFrom_sorted row 0).imp (fun h => Nat.ne_of_lt h)

/-- The answer for a row. -/
def decodeAns (x : Option (List (BitVec 8) × K)) : Answer K :=
  match x with
  | none => .exception
  | some (r, w) => .predictions r w

omit [IsStrictOrderedRing K] in
theorem ask_decode {o p p' : Object K} {d q : Decoder K} {corr : Bool} {events : List Nat} {x : Option (List (BitVec 8) × K)}
    (h : o.decoderFor corr = some (p, d)) (hc : Completes (fun f => p.decodeRow d f corr false events) (.ok (x, p', q))) :
    Completes (fun f => o.ask f (.decode corr events)) (.ok (decodeAns x, p')) := by
  obtain ⟨f0, e⟩ := hc
  refine ⟨f0, fun f hf => ?_⟩
  have := e f hf
  simp only at this
  simp only [Object.ask, h, this]
  cases x <;> rfl

theorem acceptable_obs {g : UGraph K} {without : Bool} {d1 : Decoder K} (hs : Solid g d1) {events : List Nat} (hev : EventsOk g events) {o : Object K}
    {d : Decoder K} {s : Bool} (hh : Held g without o d s) (corr : Bool) (w : Int) :
    (Correlated.Call.obs corr events (List.replicate o.graph.numObs 0#8) w).Acceptable d1.P.mg := by
  obtain ⟨b, e⟩ := hh.same
  refine ⟨⟨hev.1, fun d hd => by rw [hs.len]; exact hev.2 d hd⟩, ?_⟩
  rw [List.length_replicate, hs.nobs, e]

section
variable {g : UGraph K} (hw : WF g) (hB : Props.Convert.BndOk g) {without : Bool} {d1 : Decoder K} (h1 : toMwpm g without true = some d1) (hs : Solid g d1)
include hw hB h1 hs

/-- One row, in a decoder at rest, compared with `decode` on a new object. -/
theorem row_two {o : Object K} {d : Decoder K} {s : Bool} (hh : Held g without o d s) {corr : Bool} (hsrch : corr = true → s = true)
    (hcorr : corr = true → NonNeg g) {events : List Nat} (hev : EventsOk g events) (packed : Bool) :
    ∃ r p q, Completes (fun f => o.decodeRow d f corr packed events) (.ok (rowAns packed d1.P.scale r, p, q)) ∧ Held g without p q s ∧
      Fresh1 g without (.decode corr events) (decodeAns (rowAns false d1.P.scale r)) := by
  obtain ⟨o', d', s', e', hh', hs'⟩ := decoderFor_held hw hB h1 hs (inv_of g without) corr
  have hn : o.graph.numObs = o'.graph.numObs := by
    obtain ⟨b, e⟩ := hh.same
    obtain ⟨b', e'⟩ := hh'.same
    rw [e, e']
  have ha := acceptable_obs hs hev hh corr 0
  obtain ⟨r, p, q, p', q', c1, c2, k1, k2⟩ := call_two h1 hs hh hh' ha (fun h => hcorr h) (fun h => ⟨hsrch h, hs' h⟩)
  rw [hn] at c2
  have hP := (stand_in h1 hs hh.ready).1
  have hP' := (stand_in h1 hs hh'.ready).1
  refine ⟨r, p, q, ?_, k1, p', ?_⟩
  · rw [← hP]
    exact row_of_call c1
  · rw [← hP']
    exact ask_decode e' (row_of_call c2)

/-- The loop over the rows, compared with `decode` on new objects. -/
theorem batch_rows {corr : Bool} (hcorr : corr = true → NonNeg g) (ps pp : Bool) : ∀ (rows : List (List (BitVec 8))),
    (∀ row ∈ rows, EventsOk g (readRow ps row)) → ∀ {o : Object K} {d : Decoder K} {s : Bool}, Held g without o d s → (corr = true → s = true) →
    ∃ x p, Completes (fun f => o.batchLoop d f ps pp corr rows) (.ok (x, p)) ∧ Inv g without p ∧
      ((x = none ∧ ∃ row ∈ rows, Fresh1 g without (.decode corr (readRow ps row)) .exception) ∨
       ∃ raws : List (List (BitVec 8) × K), x = some (raws.map (fun a => if pp then (Obs.packRow a.1).getD [] else a.1), raws.map (·.2)) ∧
         List.Forall₂ (fun row a => Fresh1 g without (.decode corr (readRow ps row)) (.predictions a.1 a.2)) rows raws) := by
  intro rows
  induction rows with
  | nil =>
    intro _ o d s hh _
    exact ⟨some ([], []), o, ⟨0, fun f _ => rfl⟩, hh.inv, .inr ⟨[], rfl, .nil⟩⟩
  | cons row rows ih =>
    intro hrows o d s hh hsrch
    obtain ⟨r, p, q, ⟨f0, e0⟩, k1, hfr⟩ := row_two hw hB h1 hs hh hsrch hcorr (hrows row (by simp)) pp
    have exc : rowAns pp d1.P.scale r = none → decodeAns (rowAns false d1.P.scale r) = .exception →
      ∃ x p, Completes (fun f => o.batchLoop d f ps pp corr (row :: rows)) (.ok (x, p)) ∧ Inv g without p ∧
      ((x = none ∧ ∃ row' ∈ row :: rows, Fresh1 g without (.decode corr (readRow ps row')) .exception) ∨
       ∃ raws : List (List (BitVec 8) × K), x = some (raws.map (fun a => if pp then (Obs.packRow a.1).getD [] else a.1), raws.map (·.2)) ∧
         List.Forall₂ (fun row a => Fresh1 g without (.decode corr (readRow ps row)) (.predictions a.1 a.2)) (row :: rows) raws) := by
      intro h2 h3
      refine ⟨none, p, ⟨f0, fun f hf => ?_⟩, k1.inv, .inl ⟨rfl, row, by simp, by rw [← h3]; exact hfr⟩⟩
      have := e0 f hf
      simp only [h2] at this
      simp only [Object.batchLoop, this]
    cases r with
    | predictions buf w =>
      obtain ⟨x, p2, ⟨f1, e1⟩, hi, hx⟩ := ih (fun row' h => hrows row' (by simp [h])) k1 hsrch
      rcases hx with ⟨rfl, row', hr', hf'⟩ | ⟨raws, rfl, hf'⟩
      · refine ⟨none, p2, ⟨max f0 f1, fun f hf => ?_⟩, hi, .inl ⟨rfl, row', by simp [hr'], hf'⟩⟩
        have h2 := e0 f (le_trans (le_max_left _ _) hf)
        have h3 := e1 f (le_trans (le_max_right _ _) hf)
        simp only [rowAns] at h2 h3
        simp only [Object.batchLoop, h2, h3]
      · refine ⟨_, p2, ⟨max f0 f1, fun f hf => ?_⟩, hi, .inr ⟨(buf, (w : K) / d1.P.scale) :: raws, rfl, .cons ?_ hf'⟩⟩
        · have h2 := e0 f (le_trans (le_max_left _ _) hf)
          have h3 := e1 f (le_trans (le_max_right _ _) hf)
          simp only [rowAns] at h2 h3
          simp only [Object.batchLoop, h2, h3, List.map_cons]
        · exact hfr
    | edges es => exact exc rfl rfl
    | mask m w => exact exc rfl rfl
    | pairs ps => exact exc rfl rfl
    | exception => exact exc rfl rfl

end

omit [IsStrictOrderedRing K] in
/-- A new object has one answer. -/
theorem fresh1_unique {g : UGraph K} {without : Bool} {q : Query} {a b : Answer K} (ha : Fresh1 g without q a) (hb : Fresh1 g without q b) : a = b := by
  obtain ⟨o, ha⟩ := ha
  obtain ⟨o', hb⟩ := hb
  have := completes_unique ha hb
  cases this
  rfl

/-- The answer for a batch. -/
def batchAns (x : Option (List (List (BitVec 8)) × List K)) : Answer K :=
  match x with
  | none => .exception
  | some (rs, ws) => .batch rs ws

omit [IsStrictOrderedRing K] in
theorem ask_batch {o p p' : Object K} {d : Decoder K} {corr ps pp : Bool} {cols : Nat} {rows : List (List (BitVec 8))}
    {x : Option (List (List (BitVec 8)) × List K)} (hsh : Obs.shapeOk ps cols o.graph.numDetectors o.graph.nodes.length = true)
    (h : o.decoderFor corr = some (p, d)) (hc : Completes (fun f => p.batchLoop d f ps pp corr rows) (.ok (x, p'))) :
    Completes (fun f => o.ask f (.batch ps pp corr cols rows)) (.ok (batchAns x, p')) := by
  obtain ⟨f0, e⟩ := hc
  refine ⟨f0, fun f hf => ?_⟩
  have := e f hf
  simp only at this
  simp only [Object.ask, if_pos hsh, h, this]
  cases x <;> rfl

omit [IsStrictOrderedRing K] in
theorem batch_unique {g : UGraph K} {without ps pp corr : Bool} {rows : List (List (BitVec 8))} {x y : Option (List (List (BitVec 8)) × List K)}
    (hx : (x = none ∧ ∃ row ∈ rows, Fresh1 g without (.decode corr (readRow ps row)) .exception) ∨
       ∃ raws : List (List (BitVec 8) × K), x = some (raws.map (fun a => if pp then (Obs.packRow a.1).getD [] else a.1), raws.map (·.2)) ∧
         List.Forall₂ (fun row a => Fresh1 g without (.decode corr (readRow ps row)) (.predictions a.1 a.2)) rows raws)
    (hy : (y = none ∧ ∃ row ∈ rows, Fresh1 g without (.decode corr (readRow ps row)) .exception) ∨
       ∃ raws : List (List (BitVec 8) × K), y = some (raws.map (fun a => if pp then (Obs.packRow a.1).getD [] else a.1), raws.map (·.2)) ∧
         List.Forall₂ (fun row a => Fresh1 g without (.decode corr (readRow ps row)) (.predictions a.1 a.2)) rows raws) : x = y := by
  have clash : ∀ {raws : List (List (BitVec 8) × K)}, (∃ row ∈ rows, Fresh1 g without (.decode corr (readRow ps row)) .exception) →
      List.Forall₂ (fun row a => Fresh1 g without (.decode corr (readRow ps row)) (.predictions a.1 a.2)) rows raws → False := by
    rintro raws ⟨row, hr, he⟩ hf
    have : ∀ row ∈ rows, ∃ a : List (BitVec 8) × K, Fresh1 g without (.decode corr (readRow ps row)) (.predictions a.1 a.2) := by
      clear hr he hx hy
      induction hf with
      | nil => simp
      | cons h _ ih => simp only [List.mem_cons, forall_eq_or_imp]; exact ⟨⟨_, h⟩, ih⟩
    obtain ⟨a, ha⟩ := this row hr
    cases fresh1_unique he ha
  rcases hx with ⟨rfl, e1⟩ | ⟨raws, rfl, e1⟩ <;> rcases hy with ⟨rfl, e2⟩ | ⟨raws', rfl, e2⟩
  · rfl
  · exact (clash e1 e2).elim
  · exact (clash e2 e1).elim
  · have : raws = raws' := by
      clear clash
      induction e1 generalizing raws' with
      | nil => cases e2; rfl
      | cons h _ ih =>
        cases e2 with
        | cons h' t' =>
          have := fresh1_unique h h'
          injection this with h1 h2
          rw [Prod.ext h1 h2, ih _ t']
    rw [this]

/-- The question to an object in order: it is answered as by a new object. -/
theorem ask_one {g : UGraph K} (hw : WF g) (hB : Props.Convert.BndOk g) {without : Bool} {q : Query} (hq : Askable g without q) {o : Object K}
    (hi : Inv g without o) : ∃ a o', Completes (fun f => o.ask f q) (.ok (a, o')) ∧ Inv g without o' ∧ Fresh1 g without q a := by
  obtain ⟨⟨d1, h1⟩, hcov, hfit, hcorr⟩ := hq
  have hs := solid hw hB hcov h1
  cases q with
  | decode corr events =>
    obtain ⟨p, d, s, e, hh, hsr⟩ := decoderFor_held hw hB h1 hs hi corr
    obtain ⟨r, p', q', c1, k1, hf⟩ := row_two hw hB h1 hs hh hsr hcorr hfit false
    exact ⟨_, p', ask_decode e c1, k1.inv, hf⟩
  | batch ps pp corr cols rows =>
    obtain ⟨b, hg⟩ := id hi.same
    have sh : Obs.shapeOk ps cols o.graph.numDetectors o.graph.nodes.length = Obs.shapeOk ps cols g.numDetectors g.nodes.length := by rw [hg]; rfl
    by_cases hsh : Obs.shapeOk ps cols g.numDetectors g.nodes.length = true
    · have hev : ∀ row ∈ rows, EventsOk g (readRow ps row) := fun row hr => ⟨readRow_nodup ps row, hfit hsh row hr⟩
      obtain ⟨p, d, s, e, hh, hsr⟩ := decoderFor_held hw hB h1 hs hi corr
      obtain ⟨x, p', c1, k1, hx⟩ := batch_rows hw hB h1 hs hcorr ps pp rows hev hh hsr
      obtain ⟨p2, d2, s2, e2, hh2, hsr2⟩ := decoderFor_held hw hB h1 hs (inv_of g without) corr
      obtain ⟨y, p2', c2, k2, hy⟩ := batch_rows hw hB h1 hs hcorr ps pp rows hev hh2 hsr2
      have := batch_unique hx hy
      subst this
      exact ⟨_, p', ask_batch (sh.trans hsh) e c1, k1, p2', ask_batch (o := Object.of g without) hsh e2 c2⟩
    · refine ⟨.exception, o, ⟨0, fun f _ => ?_⟩, hi, Object.of g without, 0, fun f _ => ?_⟩
      · simp only [Object.ask, sh, if_neg hsh]
      · exact if_neg hsh
  | edges corr events =>
    obtain ⟨p, d, s, e, hh, hsr⟩ := decoderFor_held hw hB h1 hs hi true
    obtain ⟨p2, d2, s2, e2, hh2, hsr2⟩ := decoderFor_held hw hB h1 hs (inv_of g without) true
    have ha : (Correlated.Call.edges corr events).Acceptable d1.P.mg := ⟨hfit.1, fun d hd => by rw [hs.len]; exact hfit.2 d hd⟩
    obtain ⟨r, o1, q1, o2, q2, ⟨f1, c1⟩, ⟨f2, c2⟩, k1, k2⟩ := call_two h1 hs hh hh2 ha (fun h => hcorr h) (fun _ => ⟨hsr rfl, hsr2 rfl⟩)
    refine ⟨match r with | .edges es => .edges es | _ => .exception, o1, ⟨f1, fun f hf => ?_⟩, k1.inv, o2, f2, fun f hf => ?_⟩
    · have := c1 f hf
      simp only at this
      simp only [Object.ask, e, this]
      cases r <;> rfl
    · have := c2 f hf
      simp only at this
      simp only [Object.ask, e2, this]
      cases r <;> rfl
  | pairs events =>
    obtain ⟨p, d, s, e, hh, hsr⟩ := decoderFor_held hw hB h1 hs hi false
    obtain ⟨p2, d2, s2, e2, hh2, hsr2⟩ := decoderFor_held hw hB h1 hs (inv_of g without) false
    have ha : (Correlated.Call.pairs events).Acceptable d1.P.mg := ⟨hfit.1, fun d hd => by rw [hs.len]; exact hfit.2 d hd⟩
    obtain ⟨r, o1, q1, o2, q2, ⟨f1, c1⟩, ⟨f2, c2⟩, k1, k2⟩ := call_two h1 hs hh hh2 ha (fun h => (by cases h)) (fun h => (by cases h))
    refine ⟨match r with | .pairs es => .pairs es | _ => .exception, o1, ⟨f1, fun f hf => ?_⟩, k1.inv, o2, f2, fun f hf => ?_⟩
    · have := c1 f hf
      simp only at this
      simp only [Object.ask, e, this]
      cases r <;> rfl
    · have := c2 f hf
      simp only at this
      simp only [Object.ask, e2, this]
      cases r <;> rfl
  | path src dst =>
    obtain ⟨p, d, s, e, hh, hsr⟩ := decoderFor_held hw hB h1 hs hi true
    obtain ⟨p2, d2, s2, e2, hh2, hsr2⟩ := decoderFor_held hw hB h1 hs (inv_of g without) true
    have hsg := (stand_in h1 hs hh.ready).2.1 (hsr rfl)
    have hsg2 := (stand_in h1 hs hh2.ready).2.1 (hsr2 rfl)
    have hg1 : p.graph.nodes = g.nodes := by obtain ⟨b, h⟩ := hh.same; rw [h]
    have hg2 : p2.graph.nodes = g.nodes := by obtain ⟨b, h⟩ := hh2.same; rw [h]
    have w1 : withS d.sg d.st.ws.mem = d1.sg := by rw [hh.ready.rest.search, withS_mem, hsg]
    have w2 : withS d2.sg d2.st.ws.mem = d1.sg := by rw [hh2.ready.rest.search, withS_mem, hsg2]
    have hl : (g.nodes.map (·.isBoundary)).length = d1.sg.nodes.length := by rw [List.length_map, hs.slen]
    have hold : ∀ {o : Object K} {d : Decoder K} {s : Bool} {ss : SS}, Held g without o d s → Fresh ss →
        Inv g without { o with cache := some { d with st := { d.st with full := { d.st.full with ss := ss } } } } := by
      intro o d s ss h hf
      exact ⟨h.same, h.wo, fun _ => ⟨_, s, rfl, h.ready.built, ⟨⟨h.ready.rest.full.ms, hf, h.ready.rest.full.marks⟩, h.ready.rest.matching, h.ready.rest.search⟩⟩⟩
    rcases path_two hs.good hh.ready.rest.full.ss hh2.ready.rest.full.ss hl src dst with ⟨l, a', b', ⟨f1, c1⟩, ⟨f2, c2⟩, x1, x2⟩ | ⟨⟨f1, c1⟩, ⟨f2, c2⟩⟩ | ⟨c1, ⟨f2, c2⟩⟩
    · refine ⟨.nodes l, _, ⟨f1, fun f hf => ?_⟩, hold hh x1,
        { p2 with cache := some { d2 with st := { d2.st with full := { d2.st.full with ss := b' } } } }, f2, fun f hf => ?_⟩
      · have := c1 f hf
        simp only at this
        simp only [Object.ask, e, w1, hg1, this]
      · have := c2 f hf
        simp only at this
        simp only [Object.ask, e2, w2, hg2, this]
    · refine ⟨.exception, p, ⟨f1, fun f hf => ?_⟩, hh.inv, p2, f2, fun f hf => ?_⟩
      · have := c1 f hf
        simp only at this
        simp only [Object.ask, e, w1, hg1, this]
      · have := c2 f hf
        simp only at this
        simp only [Object.ask, e2, w2, hg2, this]
    · obtain ⟨a, oo, hc⟩ := hfit
      have : Completes (fun f => (Object.of g without).ask f (.path src dst)) .ub := by
        refine ⟨f2, fun f hf => ?_⟩
        have := c2 f hf
        simp only at this
        simp only [Object.ask, e2, w2, hg2, this]
      cases completes_unique hc this

/-! ## Lemmas: histories -/

omit [IsStrictOrderedRing K] [FloorRing K] in
/-- With the flag off afterwards, the number of fault ids has changed only through `ensure_num_fault_ids`. -/
theorem exec_obs (mergeW : K → K → K) (g : UGraph K) (c : Call K) (hc : ∀ n, c = .setMinNumObs n → n ≤ g.numObs)
    (h : (exec mergeW g c).1.needsUpdating = false) : (exec mergeW g c).1.numObs = g.numObs := by
  cases c with
  | setMinNumObs k =>
    have := hc k rfl
    simp only [exec, UGraph.setMinNumObs]
    split <;> omega
  | setBoundary b => cases h
  | add u t obs w p st =>
    cases t with
    | none =>
      simp only [exec, UGraph.addBoundaryEdge] at h ⊢
      split at h
      · rfl
      · split at h
        · cases h
        · rename_i ei _
          rcases Api.mergeEdge_flag mergeW { g with nodes := grow g.nodes (u + 1) } ei obs w p st with h' | h'
          · rw [h'] at h; cases h
          · rw [h']
    | some v =>
      simp only [exec, UGraph.addEdge] at h ⊢
      split at h
      · rfl
      · split at h
        · cases h
        · rename_i ei _
          rcases Api.mergeEdge_flag mergeW { g with nodes := grow g.nodes (max u v + 1) } ei obs w p st with h' | h'
          · rw [h'] at h; cases h
          · rw [h']

/-- A modification keeps the object in order. -/
theorem modify_inv (mergeW : K → K → K) {without : Bool} {g : UGraph K} (hw : WF g) {o : Object K} (hi : Inv g without o) {asked : Prop}
    (hf : o.graph.needsUpdating = false → asked) {c : Call K} (hp1 : asked → ∀ n, c = .setMinNumObs n → n ≤ g.numObs) :
    Inv (exec mergeW g c).1 without (o.modify mergeW c) ∧ ((o.modify mergeW c).graph.needsUpdating = false →
      asked ∧ (exec mergeW g c).1.nodes = g.nodes ∧ (exec mergeW g c).1.edges = g.edges ∧ (exec mergeW g c).1.boundary = g.boundary) := by
  obtain ⟨b, hg⟩ := id hi.same
  have hwo : WF o.graph := by rw [hg]; exact ⟨hw.fwd1, hw.fwd2, hw.back, hw.uniq⟩
  have hsame := exec_but mergeW hi.same c
  obtain ⟨b', hg'⟩ := id hsame
  have off : (exec mergeW o.graph c).1.needsUpdating = false → o.graph.needsUpdating = false ∧ (exec mergeW g c).1.nodes = g.nodes ∧
      (exec mergeW g c).1.edges = g.edges ∧ (exec mergeW g c).1.boundary = g.boundary := by
    intro hoff
    rcases Api.exec_flag mergeW o.graph hwo c with h | ⟨e1, e2, e3, -, e5⟩
    · rw [h] at hoff; cases hoff
    · refine ⟨e5.symm.trans hoff, ?_, ?_, ?_⟩
      · rw [hg'] at e1; rw [hg] at e1; exact e1
      · rw [hg'] at e2; rw [hg] at e2; exact e2
      · rw [hg'] at e3; rw [hg] at e3; exact e3
  have hinv : Inv (exec mergeW g c).1 without (o.modify mergeW c) := by
    refine ⟨hsame, hi.wo, fun hoff => ?_⟩
    obtain ⟨h0, e1, e2, e3⟩ := off hoff
    obtain ⟨d, s, hc, hr⟩ := hi.ready h0
    have e4 : (exec mergeW g c).1.numObs = g.numObs := by
      have := exec_obs mergeW o.graph c (fun n hn => by rw [hg]; exact hp1 (hf h0) n hn) hoff
      rw [hg'] at this; rw [hg] at this; exact this
    exact ⟨d, s, hc, by rw [toMwpm_congr e1 e2 e3 e4]; exact hr.built, hr.rest⟩
  exact ⟨hinv, fun hoff => ⟨hf (off hoff).1, (off hoff).2⟩⟩

theorem history_core (mergeW : K → K → K) (without : Bool) : ∀ (ops : List (Op K)) (g : UGraph K) (asked : Prop) (o : Object K), WF g → Props.Convert.BndOk g →
    Inv g without o → (o.graph.needsUpdating = false → asked) → Proper mergeW without g asked ops →
    ∃ as o', Completes (fun f => o.history mergeW f ops) (.ok (as, o')) ∧
      List.Forall₂ (fun (p : UGraph K × Query) a => Fresh1 p.1 without p.2 a) (questions mergeW g ops) as := by
  intro ops
  induction ops with
  | nil => intro g asked o _ _ _ _ _; exact ⟨[], o, ⟨0, fun f _ => rfl⟩, .nil⟩
  | cons op ops ih =>
    intro g asked o hw hB hi hf hp
    cases op with
    | modify c =>
      obtain ⟨h1, h2⟩ := modify_inv mergeW hw hi hf hp.1
      exact ih _ _ _ (wf_exec mergeW hw c) (Props.Convert.bndOk_exec mergeW hB c) h1 h2 hp.2
    | ask q =>
      obtain ⟨hq, hp2⟩ := hp
      obtain ⟨a, o1, ⟨f1, c1⟩, hi1, hfr⟩ := ask_one hw hB hq hi
      obtain ⟨as, o2, ⟨f2, c2⟩, hall⟩ := ih g True o1 hw hB hi1 (fun _ => trivial) hp2
      refine ⟨a :: as, o2, ⟨max f1 f2, fun f hf => ?_⟩, .cons hfr hall⟩
      have h1 := c1 f (le_trans (le_max_left _ _) hf)
      have h2 := c2 f (le_trans (le_max_right _ _) hf)
      simp only at h1 h2
      simp only [Object.history, h1, h2, Res.bind]

/-! ## C54 -/

/-- C54.  In any history of modifications and questions on one object, every question ends, without undefined behaviour, and its answer is the one that
a new object with the graph of that moment gives as its first answer. -/
theorem C54_as_new (mergeW : K → K → K) (without : Bool) (g0 : UGraph K) (hw : WF g0) (hB : Props.Convert.BndOk g0) (ops : List (Op K))
    (hp : Proper mergeW without g0 False ops) :
    ∃ as o, Completes (fun f => (Object.of g0 without).history mergeW f ops) (.ok (as, o)) ∧
      List.Forall₂ (fun (p : UGraph K × Query) a => Fresh1 p.1 without p.2 a) (questions mergeW g0 ops) as :=
  history_core mergeW without ops g0 False _ hw hB (inv_of g0 without) (fun h => (by cases h)) hp

/-- A question has one answer: C54 determines the answers. -/
theorem C54_one_answer {g : UGraph K} {without : Bool} {q : Query} {a b : Answer K} (ha : Fresh1 g without q a) (hb : Fresh1 g without q b) : a = b :=
  fresh1_unique ha hb

/-- When a path question may be asked: between two detectors that some route connects. -/
theorem C54_path_fits {g : UGraph K} (hw : WF g) (hB : Props.Convert.BndOk g) (hcov : Covered g) {without : Bool} {d1 : Decoder K}
    (h1 : toMwpm g without true = some d1) {src dst : Nat} (hsrc : (g.nodes.map (·.isBoundary))[src]? = some false)
    (hdst : (g.nodes.map (·.isBoundary))[dst]? = some false) (hne : dst ≠ src) {es : List (Nat × Nat)} {W : Nat}
    (hr : Spec.Route d1.sg src (some dst) es W) : Askable g without (.path (some src) (some dst)) := by
  have hs := solid hw hB hcov h1
  refine ⟨⟨d1, h1⟩, hcov, ?_, fun h => (by cases h)⟩
  obtain ⟨p, d, s, e, hh, hsr⟩ := decoderFor_held hw hB h1 hs (inv_of g without) true
  have hsg := (stand_in h1 hs hh.ready).2.1 (hsr rfl)
  have hg1 : p.graph.nodes = g.nodes := by obtain ⟨b, h⟩ := hh.same; rw [h]
  have w1 : withS d.sg d.st.ws.mem = d1.sg := by rw [hh.ready.rest.search, withS_mem, hsg]
  obtain ⟨N, es', W', s', -, -, -, c⟩ := Props.Search.C25_nodes hs.good d.st.full.ss hh.ready.rest.full.ss (g.nodes.map (·.isBoundary))
    (by rw [List.length_map, hs.slen]) src dst hsrc hdst hne es W hr
  exact ⟨.nodes (es'.map (·.1) ++ [dst]), { p with cache := some { d with st := { d.st with full := { d.st.full with ss := s' } } } }, N, fun f hf => by
    simp only [Object.ask, e, w1, hg1, c f hf]⟩

section Sample

/-- Three steps in the life of a graph. -/
def sample1 : UGraph ℚ := run (fun a _ => a) (UGraph.new 0 1) [.add 0 (some 1) [0] 3 0 .disallow, .add 1 none [] 4 0 .disallow]

def sample2 : UGraph ℚ := (exec (fun a _ => a) sample1 (.add 0 none [] 1 0 .disallow)).1

def sampleOps : List (Op ℚ) :=
  [.modify (.add 0 (some 1) [0] 3 0 .disallow), .modify (.add 1 none [] 4 0 .disallow), .ask (.decode false [0]),
   .modify (.add 0 none [] 1 0 .disallow), .ask (.edges true [0, 1]), .ask (.batch false true true 2 [[1, 1], [0, 1]]),
   .modify (.setMinNumObs 1), .ask (.pairs [1]), .ask (.path (some 0) (some 1))]

theorem sample_path : Askable sample2 false (.path (some 0) (some 1)) := by
  have hw : WF sample2 := wf_exec _ (wf_exec _ (wf_exec _ (wf_new 0 1) _) _) _
  have hB : Props.Convert.BndOk sample2 := Props.Convert.bndOk_exec _ (Props.Convert.bndOk_exec _ (Props.Convert.bndOk_exec _ (Props.Convert.bndOk_new 0 1) _) _) _
  obtain ⟨d, hd⟩ := Option.isSome_iff_exists.mp (by decide +kernel : (toMwpm sample2 false true).isSome = true)
  have h2 : ((toMwpm sample2 false true).bind fun d => (Sch.nbr d.sg 0 1).map (·.target)) = some (some 1) := by decide +kernel
  have h3 : ((toMwpm sample2 false true).map fun d => d.sg.nodes.length) = some 2 := by decide +kernel
  rw [hd] at h2 h3
  simp only [Option.bind_some, Option.map_some, Option.some.injEq] at h2 h3
  cases hn : Sch.nbr d.sg 0 1 with
  | none => rw [hn] at h2; cases h2
  | some n =>
    rw [hn] at h2
    exact C54_path_fits hw hB (by unfold Covered; decide +kernel) hd (by decide +kernel) (by decide +kernel) (by decide)
      (.step hn (Option.some.inj h2) (.here 1 (by omega)))

/-- Questions and modifications in turn: the hypotheses of C54 hold. -/
example : WF (UGraph.new 0 1 : UGraph ℚ) ∧ Props.Convert.BndOk (UGraph.new 0 1 : UGraph ℚ) ∧ Proper (fun a _ => a) false (UGraph.new 0 1) False sampleOps := by
  have b1 : ∃ d, toMwpm sample1 false true = some d := Option.isSome_iff_exists.mp (by decide +kernel)
  have b2 : ∃ d, toMwpm sample2 false true = some d := Option.isSome_iff_exists.mp (by decide +kernel)
  have c1 : Covered sample1 := by unfold Covered; decide +kernel
  have c2 : Covered sample2 := by unfold Covered; decide +kernel
  have n2 : NonNeg sample2 := by unfold NonNeg; decide +kernel
  refine ⟨wf_new 0 1, Props.Convert.bndOk_new 0 1, fun h => h.elim, fun h => h.1.elim, ?_, fun _ n h => (by cases h), ?_, ?_, ?_, ?_, ?_, trivial⟩
  · exact ⟨b1, c1, by show EventsOk sample1 [0]; unfold EventsOk; decide +kernel, fun h => (by cases h)⟩
  · exact ⟨b2, c2, by show EventsOk sample2 [0, 1]; unfold EventsOk; decide +kernel, fun _ => n2⟩
  · exact ⟨b2, c2, fun _ => by decide +kernel, fun _ => n2⟩
  · intro _ n h
    cases h
    decide +kernel
  · exact ⟨b2, c2, by show EventsOk sample2 [1]; unfold EventsOk; decide +kernel, fun h => (by cases h)⟩
  · exact sample_path

end Sample

/-! ## C55 -/

/-- The row of the array for the predictions of a shot: themselves, or bit-packed. -/
def Stored (packed : Bool) (row out : List (BitVec 8)) : Prop := if packed then Obs.packRow row = some out else out = row

/-- C55.  `decode_batch` gives for each row what `decode` gives for the detection events of the row, bit-packed if asked for; or it raises an exception,
and so does `decode` for one of the rows. -/
theorem C55_batch {g : UGraph K} (hw : WF g) (hB : Props.Convert.BndOk g) {without ps pp corr : Bool} {cols : Nat} {rows : List (List (BitVec 8))}
    (hq : Askable g without (.batch ps pp corr cols rows)) (hsh : Obs.shapeOk ps cols g.numDetectors g.nodes.length = true) :
    (∃ (raws outs : List (List (BitVec 8))) (weights : List K),
      Fresh1 g without (.batch ps pp corr cols rows) (.batch outs weights) ∧ List.Forall₂ (Stored pp) raws outs ∧
      List.Forall₂ (fun row (a : List (BitVec 8) × K) => Fresh1 g without (.decode corr (readRow ps row)) (.predictions a.1 a.2)) rows (raws.zip weights) ∧
      raws.length = rows.length ∧ weights.length = rows.length) ∨
    (Fresh1 g without (.batch ps pp corr cols rows) .exception ∧ ∃ row ∈ rows, Fresh1 g without (.decode corr (readRow ps row)) .exception) := by
  obtain ⟨⟨d1, h1⟩, hcov, hfit, hcorr⟩ := hq
  have hs := solid hw hB hcov h1
  have hev : ∀ row ∈ rows, EventsOk g (readRow ps row) := fun row hr => ⟨readRow_nodup ps row, hfit hsh row hr⟩
  obtain ⟨p, d, s, e, hh, hsr⟩ := decoderFor_held hw hB h1 hs (inv_of g without) corr
  obtain ⟨x, p', c1, k1, hx⟩ := batch_rows hw hB h1 hs hcorr ps pp rows hev hh hsr
  have c2 := ask_batch (o := Object.of g without) (cols := cols) hsh e c1
  rcases hx with ⟨rfl, hr⟩ | ⟨raws, rfl, hf⟩
  · exact .inr ⟨⟨p', c2⟩, hr⟩
  · refine .inl ⟨raws.map (·.1), _, _, ⟨p', c2⟩, ?_, ?_, ?_, ?_⟩
    · rw [List.forall₂_map_left_iff, List.forall₂_map_right_iff, List.forall₂_same]
      intro a _
      unfold Stored
      split
      · obtain ⟨out, ho⟩ := packRow_total a.1
        simp [ho]
      · rfl
    · have : (raws.map (·.1)).zip (raws.map (·.2)) = raws := by
        rw [List.zip_map']
        simp
      rw [this]
      exact hf
    · rw [List.length_map]; exact hf.length_eq.symm
    · rw [List.length_map]; exact hf.length_eq.symm

/-- C55, wrong shape: an exception, whatever the object has done before. -/
theorem C55_shape (o : Object K) (f : Nat) {ps pp corr : Bool} {cols : Nat} {rows : List (List (BitVec 8))}
    (hsh : Obs.shapeOk ps cols o.graph.numDetectors o.graph.nodes.length = false) :
    o.ask f (.batch ps pp corr cols rows) = some (.ok (.exception, o)) := by
  simp only [Object.ask, hsh, Bool.false_eq_true, if_false]

/-- C55, format: bit-packed and unpacked shots with the same detection events give the same answer. -/
theorem C55_formats {g : UGraph K} (without pp corr : Bool) {cols cols' : Nat} {rows rows' : List (List (BitVec 8))} {a : Answer K}
    (hsh : Obs.shapeOk false cols g.numDetectors g.nodes.length = true) (hsh' : Obs.shapeOk true cols' g.numDetectors g.nodes.length = true)
    (hr : List.Forall₂ (fun row row' => readRow false row = readRow true row') rows rows') :
    Fresh1 g without (.batch false pp corr cols rows) a ↔ Fresh1 g without (.batch true pp corr cols' rows') a := by
  have key : ∀ (o : Object K) (d : Decoder K) (f : Nat), o.batchLoop d f false pp corr rows = o.batchLoop d f true pp corr rows' := by
    induction hr with
    | nil => intro o d f; rfl
    | cons h _ ih =>
      intro o d f
      simp only [Object.batchLoop, h, ih]
  have : ∀ f, (Object.of g without).ask f (.batch false pp corr cols rows) = (Object.of g without).ask f (.batch true pp corr cols' rows') := by
    intro f
    have e1 : Obs.shapeOk false cols (Object.of g without).graph.numDetectors (Object.of g without).graph.nodes.length = true := hsh
    have e2 : Obs.shapeOk true cols' (Object.of g without).graph.numDetectors (Object.of g without).graph.nodes.length = true := hsh'
    simp only [Object.ask, e1, e2, if_true, key]
  unfold Fresh1
  simp only [this]

/-- Two shots, bit-packed or not: the hypotheses of C55 hold. -/
example : WF sample2 ∧ Props.Convert.BndOk sample2 ∧ Askable sample2 false (.batch false true true 2 [[1, 1], [0, 1]]) ∧
    Obs.shapeOk false 2 sample2.numDetectors sample2.nodes.length = true ∧ Obs.shapeOk true 1 sample2.numDetectors sample2.nodes.length = true ∧
    List.Forall₂ (fun row row' => readRow false row = readRow true row') [[1, 1], [0, 1]] [[3], [2]] ∧
    Obs.shapeOk false 3 sample2.numDetectors sample2.nodes.length = false := by
  refine ⟨wf_exec _ (wf_exec _ (wf_exec _ (wf_new 0 1) _) _) _,
    Props.Convert.bndOk_exec _ (Props.Convert.bndOk_exec _ (Props.Convert.bndOk_exec _ (Props.Convert.bndOk_new 0 1) _) _) _, ?_,
    by decide +kernel, by decide +kernel, .cons (by decide) (.cons (by decide) .nil), by decide +kernel⟩
  exact ⟨Option.isSome_iff_exists.mp (by decide +kernel), by unfold Covered; decide +kernel, fun _ => by decide +kernel,
    fun _ => by unfold NonNeg; decide +kernel⟩

end Verif.Props.Object
