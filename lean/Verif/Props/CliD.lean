import Verif.CliRunD
import Verif.Props.RulesD

/-!
# C83: the command line tools in double precision

`pymatching predict` and `pymatching count_mistakes` (`Verif.CliRunD`), with the arithmetic of the code.  Each prediction is the one that `decode` on a new object for the same model makes of
that shot alone (`C83_decode`), so that the numbers printed are those of the records written (`C83_same`); and it means what C76 and C82 say the replies of `decode` mean (`C83_plain`,
`C83_correlated`).
-/

namespace Verif.Props.CliD

open Verif Verif.SB Verif.UG Verif.Obj Verif.Dbl Verif.ConvD Verif.ObjD Verif.Cli Verif.Dem Verif.DemD
open Verif.Props.Edges (Completes)
open Verif.Props.UserEdges Verif.Props.UserGraph
open Verif.Props.Object (EventsOk NonNeg Fresh1 Inv inv_of toMwpm_false)
open Verif.Props.DoubleHistory
open Verif.Props.Double
open Verif.Props.CliRun (bits Predicted Counted)
open Verif.Props.Session (Net netOf Stands)
open Verif.Props.Dem (Valid)
open Verif.Props.Likelihood (Graphlike)
open Verif.Props.LikelihoodD (real exact Precise NotTiny size)
open Verif.Props.Arithmetic (Library)
open Verif.Sch (Res)

/-! ## Specification -/

/-- The records are `good` for the first shots.  After success all shots have one; after failure the next shot is `bad`. -/
def Shown (good : List Nat → List Bool → Prop) (bad : List Nat → Prop) (shots : List (List Nat)) (records : List (List Bool)) (ok : Bool) : Prop :=
  List.Forall₂ good (shots.take records.length) records ∧ (ok = true → records.length = shots.length) ∧
    (ok = false → ∃ hits, shots[records.length]? = some hits ∧ bad hits)

/-- In how many places the lists differ. -/
def differing (a b : List (List Bool)) : Nat := ((a.zip b).filter fun x => x.1 ≠ x.2).length

/-- There are `good` predictions for the shots, and the tool prints how many of them are not what was recorded, and the number of shots.  Or it fails; then the recorded observables end
early, or one of the shots is `bad`. -/
def Tallied (good : List Nat → List Bool → Prop) (bad : List Nat → Prop) (shots : List (List Nat)) (recorded : List (List Bool)) : Option (Nat × Nat) → Prop
  | some out => shots.length ≤ recorded.length ∧ ∃ records, List.Forall₂ good shots records ∧ out = (differing records recorded, shots.length)
  | none => recorded.length < shots.length ∨ ∃ hits ∈ shots, bad hits

/-- The syndrome with events at the given detectors. -/
def syndrome (n : Nat) (hits : List Nat) : Syn.Arr := .d1 ((List.range n).map fun i => if i ∈ hits then 1 else 0)

/-- On a new object with the graph, `m.decode(syndrome, return_weight=True, enable_correlations=corr)` replies `r`. -/
def Replies [W : Width] (mergeW : ℚ → ℚ → ℚ) (g : UGraph ℚ) (corr : Bool) (n : Nat) (hits : List Nat) (r : Session.Reply) : Prop :=
  ∃ o, Completes (fun f => Session.run mergeW f (ObjectD.of g (!corr)) [.decode (syndrome n hits) true corr]) (.ok ([r], o))

/-- The record tells for each fault id whether an odd number of the links has it. -/
def Bits {N : Net} (C : N.Links) (record : List Bool) : Prop :=
  record.length = N.ids ∧ ∀ k, k < N.ids → record[k]? = some (decide (Session.count C k % 2 = 1))

/-- The record tells the fault ids of a set of links that is nearly the best explanation of the events, for the exact weights of the model (see C82). -/
def Foretold (m : Model ℚ) (N : Net) (D : ℝ) (hits : List Nat) (record : List Bool) : Prop :=
  ∃ (ρ : Fin N.links.length → ℝ) (C : N.Links), RulesD.Weights m D (· ∈ hits) true ρ ∧ RulesD.Nearly D ρ (· ∈ hits) C ∧ Bits C record

/-- The events have no explanation. -/
def Hopeless (N : Net) (hits : List Nat) : Prop := ∀ C : N.Links, ¬ Session.Explained C (· ∈ hits)

/-- The record tells which observables likely errors flip that explain the events (see C76). -/
def Likely (m : Model ℚ) (δ : ℝ) (u : ℚ) (hits : List Nat) (record : List Bool) : Prop :=
  ∃ F row, DemSession.LikelyErrors m δ u F (· ∈ hits) ∧ DemSession.Tells m false F row ∧ record = bits row

/-- No errors explain the events. -/
def Impossible (m : Model ℚ) (hits : List Nat) : Prop := ∀ F, ¬ DemSession.Explain m F (· ∈ hits)

/-- The targets of the errors exist. -/
def Within (m : Model ℚ) : Prop := ∀ e ∈ m.errors, (∀ d, .det d ∈ e.targets → d < m.numDets) ∧ ∀ o, .obs o ∈ e.targets → o < m.numObs

/-- The network of a model, loaded with or without correlations in double precision. -/
def Loads (mergeW : ℚ → ℚ → ℚ) (lg : ℚ → ℚ) (m : Model ℚ) (corr : Bool) (N : Net) : Prop :=
  if corr then DemRules.corrNet rounded mergeW lg m = some N ∧ ∀ e ∈ m.errors, DemRules.Once e else DemSession.demNet mergeW lg m = some N ∧ ∀ e ∈ m.errors, 0 ≤ e.p

/-- The shots of a tool: detectors of the model, in increasing order. -/
def ShotOk (m : Model ℚ) (hits : List Nat) : Prop := hits.Pairwise (· < ·) ∧ ∀ d ∈ hits, d < m.numDets

/-! ## Lemmas: the loops -/

theorem predict_plainly [W : Width] (d : Decoder ℚ) (corr : Bool) (n f : Nat) : ∀ (shots : List (List Nat)) (st : CState) (buf : List (BitVec 8)) (w : Int),
    predictWith (plainly d) corr n f st buf w shots = predictWith d corr n f st buf w shots := by
  intro shots
  induction shots with
  | nil => intro st buf w; rfl
  | cons x shots ih =>
    intro st buf w
    simp only [predictWith, ih]
    rfl

theorem count_plainly [W : Width] (d : Decoder ℚ) (corr : Bool) (f : Nat) : ∀ (shots : List Shot) (st : CState) (a b : Nat) (o : Option (List (List Bool))),
    countWith (plainly d) corr f st a b shots o = countWith d corr f st a b shots o := by
  intro shots
  induction shots with
  | nil => intro st a b o; cases o <;> rfl
  | cons x shots ih =>
    intro st a b o
    match o with
    | none => simp only [countWith, ih]; rfl
    | some [] => rfl
    | some (r :: os) => simp only [countWith, ih]; rfl

theorem shown_of {g : UGraph ℚ} {wo corr : Bool} {shots : List (List Nat)} {good : List Nat → List Bool → Prop} {bad : List Nat → Prop}
    (h1 : ∀ ev ∈ shots, ∀ row w, Fresh1 g wo (.decode corr ev) (.predictions row w) → good ev (bits row)) (h2 : ∀ ev ∈ shots, Fresh1 g wo (.decode corr ev) .exception → bad ev)
    {records : List (List Bool)} {ok : Bool} (h : Predicted g wo corr shots records ok) : Shown good bad shots records ok := by
  induction h with
  | done => exact ⟨.nil, fun _ => rfl, fun h => by cases h⟩
  | raised h => exact ⟨.nil, fun h => (by cases h), fun _ => ⟨_, rfl, h2 _ (by simp) h⟩⟩
  | shot h rest ih =>
    obtain ⟨k1, k2, k3⟩ := ih (fun ev he => h1 ev (by simp [he])) (fun ev he => h2 ev (by simp [he]))
    exact ⟨.cons (h1 _ (by simp) _ _ h) k1, fun e => by simp [k2 e], fun e => by simpa using k3 e⟩

theorem fresh_unique {g : UGraph ℚ} {wo : Bool} {q : Query} {a b : Answer ℚ} (h : Fresh1 g wo q a) (h' : Fresh1 g wo q b) : a = b := by
  obtain ⟨o, f0, e⟩ := h
  obtain ⟨o', f1, e'⟩ := h'
  have x := e (max f0 f1) (le_max_left _ _)
  have y := e' (max f0 f1) (le_max_right _ _)
  simp only at x y
  rw [x] at y
  cases y
  rfl

/-- The predictions that are compared. -/
theorem counted_of {g : UGraph ℚ} {wo corr : Bool} {l : List (List Nat × List Bool)} {n : Nat} (h : Counted g wo corr l n) :
    ∃ records, List.Forall₂ (fun x r => ∃ row w, Fresh1 g wo (.decode corr x) (.predictions row w) ∧ r = bits row) (l.map (·.1)) records ∧ n = differing records (l.map (·.2)) := by
  induction h with
  | done => exact ⟨[], .nil, rfl⟩
  | right h he rest ih =>
    obtain ⟨rs, k1, k2⟩ := ih
    exact ⟨_ :: rs, .cons ⟨_, _, h, rfl⟩ k1, by simp [differing, he, k2]⟩
  | wrong h he rest ih =>
    obtain ⟨rs, k1, k2⟩ := ih
    exact ⟨_ :: rs, .cons ⟨_, _, h, rfl⟩ k1, by simp [differing, he, k2]⟩

theorem zip_second {α β : Type} : ∀ (a : List α) (b : List β), (a.zip b).map (·.2) = b.take a.length := by
  intro a
  induction a with
  | nil => intro b; rfl
  | cons x a ih =>
    intro b
    cases b with
    | nil => rfl
    | cons y b => simp only [List.zip_cons_cons, List.map_cons, List.length_cons, List.take_succ_cons, ih]

theorem differing_take : ∀ (a b : List (List Bool)), differing a (b.take a.length) = differing a b := by
  intro a
  induction a with
  | nil => intro b; rfl
  | cons x a ih =>
    intro b
    cases b with
    | nil => rfl
    | cons y b =>
      have := ih b
      unfold differing at this ⊢
      simp only [List.length_cons, List.take_succ_cons, List.zip_cons_cons, List.filter_cons]
      split
      · rw [List.length_cons, List.length_cons, this]
      · exact this

section
variable {g : UGraph ℚ} (hw : WF g) (hB : Props.Convert.BndOk g) (hcov : Covered g) {wo : Bool} (hb : ∃ x, toMwpmD g wo true = .ok x) {k c : ℚ} (hk : Const g k c) {corr : Bool}
  (hcorr : corr = true → NonNeg g)
include hw hB hcov hb hk hcorr

omit hw hB hcov hb in
theorem nonneg_int : corr = true → NonNeg (intGraph c g) := by
  intro h e he
  obtain ⟨e', he', rfl⟩ := List.mem_map.1 he
  show (0 : ℚ) ≤ ((toInt c e'.weight : Int) : ℚ)
  exact_mod_cast toInt_nonneg hk.pos.le (hcorr h e' he')

/-- The decoder of a tool. -/
theorem tool_decoder : ∃ d1 d, toMwpm (intGraph c g) wo true = some d1 ∧ toMwpm (intGraph c g) wo corr = some d ∧ toMwpmD g wo corr = .ok (plainly d, .num (c * 2)) ∧
    d.P.mg.numObs = g.numObs := by
  obtain ⟨d1, h1, h2⟩ := builds_int hk hb
  have hs := Props.Object.solid (int_wf hw) (int_bnd hB) (int_cov hcov) h1
  cases corr with
  | true => exact ⟨d1, d1, h1, h1, (toMwpm_int hk wo true _).2 ⟨d1, h1, h2, rfl⟩, hs.nobs⟩
  | false =>
    obtain ⟨d0, k1, k2, -⟩ := toMwpm_false h1
    exact ⟨d1, d0, h1, k1, (toMwpm_int hk wo false _).2 ⟨d0, k1, by rw [k2]; exact h2, rfl⟩, by rw [k2]; exact hs.nobs⟩

theorem tool_predict {shots : List (List Nat)} (hev : ∀ ev ∈ shots, EventsOk g ev) : ∃ d records ok, toMwpmD g wo corr = .ok (d, .num (c * 2)) ∧ d.P.mg.numObs = g.numObs ∧
    Completes (fun f => predictWith d corr g.numObs f d.st (List.replicate g.numObs 0#8) 0 shots) (.ok (records, ok)) ∧
    (Narrow.Near (intGraph c g) → Completes (fun f => predictWith (W := int32) d corr g.numObs f d.st (List.replicate g.numObs 0#8) 0 shots) (.ok (records, ok))) ∧
    Predicted (intGraph c g) wo corr shots records ok := by
  obtain ⟨d1, d, h1, h2, h3, h4⟩ := tool_decoder hw hB hcov hb hk hcorr
  have hs := Props.Object.solid (int_wf hw) (int_bnd hB) (int_cov hcov) h1
  have hev' : ∀ ev ∈ shots, EventsOk (intGraph c g) ev := hev
  obtain ⟨records, ok, k1, k2⟩ := CliRun.predict_loop (int_wf hw) (int_bnd hB) h1 hs (nonneg_int hk hcorr) (s := corr) id shots hev' (Props.Object.ready_new h2) d rfl rfl rfl
  refine ⟨plainly d, records, ok, h3, h4, ?_, fun hn => ?_, k2⟩
  · simp only [predict_plainly]
    exact k1
  · simp only [predict_plainly]
    exact (Narrow.predict_agree (int_wf hw) (int_bnd hB) (int_cov hcov) hn h1 (nonneg_int hk hcorr) (s := corr) id shots hev' (Props.Object.ready_new h2) d rfl rfl rfl).completes k1

theorem tool_count (h64 : g.numObs ≤ 64) {shots : List Shot} (hev : ∀ x ∈ shots, EventsOk g x.hits) {obsIn : Option (List (List Bool))}
    (hrec : ∀ r ∈ Props.Cli.recorded shots obsIn, r.length = g.numObs) : ∃ d out, toMwpmD g wo corr = .ok (d, .num (c * 2)) ∧
    Completes (fun f => countWith d corr f d.st 0 0 shots obsIn) (.ok out) ∧
    (Narrow.Near (intGraph c g) → Completes (fun f => countWith (W := int32) d corr f d.st 0 0 shots obsIn) (.ok out)) ∧
    Tallied (fun x r => ∃ row w, Fresh1 (intGraph c g) wo (.decode corr x) (.predictions row w) ∧ r = bits row) (fun x => Fresh1 (intGraph c g) wo (.decode corr x) .exception)
      (shots.map (·.hits)) (Props.Cli.recorded shots obsIn) out := by
  obtain ⟨d1, d, h1, h2, h3, h4⟩ := tool_decoder hw hB hcov hb hk hcorr
  have hs := Props.Object.solid (int_wf hw) (int_bnd hB) (int_cov hcov) h1
  have hev' : ∀ x ∈ shots, EventsOk (intGraph c g) x.hits := hev
  obtain ⟨out, k1, k2⟩ := CliRun.count_loop (int_wf hw) (int_bnd hB) h1 hs h64 (nonneg_int hk hcorr) (s := corr) id shots hev' obsIn hrec (Props.Object.ready_new h2) d rfl rfl rfl 0 0
  refine ⟨plainly d, out, h3, ?_, fun hn => ?_, ?_⟩
  · simp only [count_plainly]
    exact k1
  · simp only [count_plainly]
    exact (Narrow.count_agree (int_wf hw) (int_bnd hB) (int_cov hcov) hn h1 h64 (nonneg_int hk hcorr) (s := corr) id shots hev' obsIn (Props.Object.ready_new h2) d rfl rfl rfl 0 0).completes k1
  · rcases k2 with ⟨n, rfl, hle, hc⟩ | ⟨rfl, h⟩
    · obtain ⟨records, r1, r2⟩ := counted_of hc
      rw [List.map_fst_zip (by simpa using hle)] at r1
      refine ⟨by simpa using hle, records, r1, ?_⟩
      have hlen : records.length = shots.length := by rw [← r1.length_eq, List.length_map]
      rw [zip_second, List.length_map, ← hlen, differing_take] at r2
      simp [r2]
    · rcases h with h | ⟨x, hx, h⟩
      · exact .inl (by simpa using h)
      · exact .inr ⟨x.hits, List.mem_map_of_mem hx, h⟩

/-- Answers of the graph with integer weights are first answers. -/
theorem first_of (hu : Usable g) {ev : List Nat} (hev : EventsOk g ev) {a : Answer ℚ} (h : Fresh1 (intGraph c g) wo (.decode corr ev) a) :
    FirstAnswer (W := unbounded) g wo (.decode corr ev) (mapWeights (fun w => scaleBack (.num (c * 2)) (w * 2)) a) :=
  ⟨ask_int hw hB hcov hk hb h, k, c, a, hk, askable_int (q := .decode corr ev) ⟨hu, hb, hcov, fun _ _ => hev, hcorr⟩ hk, h, rfl⟩

end

/-! ## Lemmas: networks -/

theorem place_within (mergeW : ℚ → ℚ → ℚ) {n k : Nat} : ∀ (ls : List Session.Link) {N N' : Net}, MatrixSession.placeAll mergeW .independent N ls = some N' →
    (∀ l ∈ ls, l.a < n ∧ (∀ b, l.b = some b → b < n) ∧ ∀ x ∈ l.faults, x < k) → N.nodes = n → N.ids = k → N'.nodes = n ∧ N'.ids = k := by
  intro ls
  induction ls with
  | nil => intro N N' h _ h1 h2; cases h; exact ⟨h1, h2⟩
  | cons l ls ih =>
    intro N N' h hl h1 h2
    unfold MatrixSession.placeAll at h
    split at h
    · rename_i N1 hp
      have key : N1.nodes = n ∧ N1.ids = k := by
        unfold Session.Net.place at hp
        split at hp
        · rw [if_neg (by simp)] at hp
          obtain ⟨rfl, -⟩ := Prod.mk.inj hp
          exact ⟨h1, h2⟩
        · obtain ⟨rfl, -⟩ := Prod.mk.inj hp
          obtain ⟨a1, a2, a3⟩ := hl l (by simp)
          subst h1 h2
          refine ⟨max_eq_left ?_, max_eq_left (Finset.sup_le fun x hx => a3 x hx)⟩
          unfold top
          split
          · exact a1
          · rename_i b hb
            have := a2 b hb
            omega
      exact ih h (fun x hx => hl x (by simp [hx])) key.1 key.2
    · cases h

theorem links_within {m : Model ℚ} (h : Within m) (lg : ℚ → ℚ) : ∀ l ∈ DemSession.demLinks lg m, l.a < m.numDets ∧ (∀ b, l.b = some b → b < m.numDets) ∧ ∀ x ∈ l.faults, x < m.numObs := by
  intro l hl
  obtain ⟨e, he, hl⟩ := List.mem_flatMap.1 hl
  split at hl
  · cases hl
  · obtain ⟨c, hc, hl⟩ := List.mem_filterMap.1 hl
    rw [← Props.Dem.segs_components] at hc
    obtain ⟨h1, h2⟩ := Props.Dem.segs_mem _ _ _ c hc
    have d1 : ∀ d ∈ c.1, d < m.numDets := fun d hd => (h e he).1 d ((h1 d hd).resolve_left (by simp))
    have d2 : ∀ o ∈ c.2.toFinset, o < m.numObs := fun o ho => (h e he).2 o ((h2 o (by simpa using ho)).resolve_left (by simp))
    unfold DemSession.linkOf at hl
    split at hl
    · rename_i a ha
      rw [ha] at d1
      cases hl
      exact ⟨d1 a (by simp), fun b hb => (by cases hb), d2⟩
    · rename_i a b hab
      rw [hab] at d1
      cases hl
      exact ⟨d1 a (by simp), fun b' hb => (by cases hb; exact d1 b (by simp)), d2⟩
    · cases hl

theorem loads_stands {mergeW : ℚ → ℚ → ℚ} {lg : ℚ → ℚ} {m : Model ℚ} {corr : Bool} {N : Net} (hn : ∀ e ∈ m.errors, ∀ c ∈ Props.Dem.components e, c.2.Nodup) (hwi : Within m)
    (h : Loads mergeW lg m corr N) : ∃ g, loadForD mergeW lg corr m = some g ∧ Stands N (!corr) False g (ObjectD.of g (!corr)) ∧ N.nodes = m.numDets ∧ N.ids = m.numObs := by
  unfold Loads at h
  unfold loadForD
  cases corr with
  | true =>
    rw [if_pos rfl] at h ⊢
    obtain ⟨h1, h2⟩ := h
    rcases DemRules.corr_stands rounded mergeW lg m hn h2 with ⟨N', g, k1, k2, k3⟩ | ⟨k1, -⟩
    · rw [h1] at k1
      cases k1
      refine ⟨g, k2, k3, ?_⟩
      unfold DemRules.corrNet at h1
      split_ifs at h1 with hA
      obtain ⟨N0, h0, rfl⟩ := Option.map_eq_some_iff.1 h1
      refine place_within (N' := N0) mergeW _ h0 (fun l hl => ?_) rfl rfl
      obtain ⟨l', hl', rfl⟩ := List.mem_map.1 hl
      obtain ⟨a1, a2, a3⟩ := links_within hwi lg l' hl'
      unfold DemRules.sorted
      split
      · exact ⟨a1, a2, a3⟩
      · rename_i b hb
        have := a2 b hb
        refine ⟨by simp only; omega, fun x hx => ?_, a3⟩
        simp only [Option.some.injEq] at hx
        omega
    · rw [h1] at k1
      cases k1
  | false =>
    rw [if_neg (by decide)] at h ⊢
    obtain ⟨h1, h2⟩ := h
    obtain ⟨N', k1, k2⟩ := DemSession.dem_stands mergeW lg m h2 hn
    rw [h1] at k1
    cases k1
    exact ⟨_, rfl, k2, place_within mergeW _ h1 (links_within hwi lg) rfl rfl⟩

/-- What is known about a network that may be asked about. -/
theorem package {N : Net} {wo : Bool} {asked : Prop} {g : UGraph ℚ} {o : ObjectD} (hs : Stands N wo asked g o) {corr : Bool} (hr : N.Ready corr) :
    Usable g ∧ (∃ x, toMwpmD g wo true = .ok x) ∧ Covered g ∧ (corr = true → NonNeg g) ∧ ∃ k c, Const g k c := by
  have hf := hr.1
  rw [← hs.net] at hf
  have hc : corr = true → NonNeg g := fun h => Session.nonneg_of (by rw [hs.net]; exact hr.2 h)
  have hA := Session.askable_of (q := .decode corr []) hs.wf hs.bnd hf (wo := wo) hc fun c => ⟨List.nodup_nil, fun x hx => by cases hx⟩
  exact ⟨hA.usable, hA.builds, hA.covered, hc, const_of hA.usable.rules hA.usable.le hA.usable.big⟩

/-- What an answer to `decode` means. -/
theorem answer_means {N : Net} {corr : Bool} {g : UGraph ℚ} {asked : Prop} {o : ObjectD} (hs : Stands N (!corr) asked g o) (hr : N.Ready corr) {ev : List Nat} {a : Answer Double}
    (h : FirstAnswer (W := unbounded) g (!corr) (.decode corr ev) a) :
    (∃ u, Session.StepOf N u ∧ ∃ (w : _) (C : N.Links) (row : _) (x : _), Session.Weighed u (· ∈ ev) corr w ∧ Session.CheapFor u w (· ∈ ev) C ∧ Session.Tells C row ∧ a = .predictions row x) ∨
    (a = .exception ∧ ∀ C : N.Links, ¬ Session.Explained C (· ∈ ev)) := by
  obtain ⟨hw, hB, hc, rfl, hi, -⟩ := hs
  have hM : Session.MeansB g (!corr) corr (.decode corr ev) a := by
    unfold Session.MeansB
    cases corr with
    | true =>
      rw [if_pos rfl]
      exact ConditionedD.meant_first (W := unbounded) hw hB h rfl (Session.few_of hr.1)
    | false =>
      rw [if_neg (by decide)]
      exact means_first (W := unbounded) hw hB h rfl (Session.fine_noGain hr.1) (Session.few_of hr.1)
  rcases Session.single_up (fun x => Iff.rfl) hM (mk := fun y : List (BitVec 8) × Double => .predictions y.1 y.2) (P := fun C y => Says C y.1)
    (B := fun u ρ C y => ConditionedD.CloseFor u ρ C y.2)
    (fun u h => by
      rcases h with ⟨row, x, h, C, k⟩ | h
      · exact .inl ⟨(row, x), h, C, k⟩
      · exact .inr h)
    (fun u h => by
      rcases h with ⟨row, x, h, C, ρ, k⟩ | h
      · exact .inl ⟨(row, x), h, C, ρ, k⟩
      · exact .inr h) id with ⟨k0, u, hu, ρ, C, y, k1, k2, k3, k4, rfl⟩ | ⟨rfl, hno⟩
  · exact .inl ⟨u, hu, _, _, y.1, y.2, k1, k2, Session.tells_up hc k3, rfl⟩
  · exact .inr ⟨rfl, hno.resolve_left fun h => by cases corr <;> simp at h⟩

theorem bits_of {N : Net} {C : N.Links} {row : List (BitVec 8)} (h : Session.Tells C row) : Bits C (bits row) := by
  refine ⟨by simpa [bits] using h.1, fun k hk => ?_⟩
  unfold bits
  rw [List.getElem?_map, h.2 k hk]
  by_cases hc : Session.count C k % 2 = 1 <;> simp [hc]

theorem nonzero_syndrome {n : Nat} {hits : List Nat} (h : hits.Pairwise (· < ·)) (hn : ∀ x ∈ hits, x < n) :
    Syn.nonzero ((List.range n).map fun i => if i ∈ hits then 1 else 0) = hits := by
  have e : ((List.range n).map fun i => if i ∈ hits then 1 else 0).zipIdx = (List.range n).map fun i => ((if i ∈ hits then 1 else 0 : Nat), i) := by
    apply List.ext_getElem
    · simp
    · intro i h1 h2
      simp
  unfold Syn.nonzero
  rw [e, List.filter_map, List.map_map]
  have e2 : ((fun x : Nat × Nat => x.2) ∘ fun i => ((if i ∈ hits then 1 else 0 : Nat), i)) = id := rfl
  rw [e2, List.map_id]
  have e3 : (List.range n).filter ((fun x : Nat × Nat => decide (x.1 ≠ 0)) ∘ fun i => ((if i ∈ hits then 1 else 0 : Nat), i)) = (List.range n).filter fun i => decide (i ∈ hits) := by
    refine List.filter_congr fun i _ => ?_
    by_cases hi : i ∈ hits <;> simp [hi]
  rw [e3]
  refine List.Perm.eq_of_pairwise (le := (· < ·)) (fun a b _ _ h1 h2 => absurd h1 (by omega)) (List.Pairwise.filter _ List.pairwise_lt_range) h ?_
  refine (List.perm_ext_iff_of_nodup (List.nodup_range.filter _) (h.imp fun h => Nat.ne_of_lt h)).2 fun x => ?_
  rw [List.mem_filter, List.mem_range, decide_eq_true_eq]
  exact ⟨fun h => h.2, fun h => ⟨hn x h, h⟩⟩

section
variable {mergeW : ℚ → ℚ → ℚ} {lg : ℚ → ℚ} {m : Model ℚ} {corr : Bool} {g : UGraph ℚ} (hl : loadForD mergeW lg corr m = some g) (hw : WF g) (hB : Props.Convert.BndOk g)
  (hcov : Covered g) (hb : ∃ x, toMwpmD g (!corr) true = .ok x) {k c : ℚ} (hk : Const g k c) (hcorr : corr = true → NonNeg g) (hobs : g.numObs = m.numObs)
include hl hw hB hcov hb hk hcorr hobs

theorem run_predict {shots : List (List Nat)} (hev : ∀ ev ∈ shots, EventsOk g ev) : ∃ records ok,
    Completes (fun f => runPredictD mergeW lg corr m shots f) (.ok (records, ok)) ∧
    (Narrow.Near (intGraph c g) → Completes (fun f => runPredictD (W := int32) mergeW lg corr m shots f) (.ok (records, ok))) ∧
    Predicted (intGraph c g) (!corr) corr shots records ok := by
  obtain ⟨d, records, ok, h1, h2, h3, h4, h5⟩ := tool_predict hw hB hcov hb hk hcorr hev
  rw [hobs] at h2 h3 h4
  refine ⟨records, ok, ?_, fun hn => ?_, h5⟩
  · simp only [runPredictD, hl, h1, h2]
    exact h3
  · simp only [runPredictD, hl, h1, h2]
    exact h4 hn

theorem run_count (h64 : m.numObs ≤ 64) {shots : List Shot} (hev : ∀ x ∈ shots, EventsOk g x.hits) {obsIn : Option (List (List Bool))}
    (hrec : ∀ r ∈ Props.Cli.recorded shots obsIn, r.length = m.numObs) : ∃ out, Completes (fun f => runCountD mergeW lg corr m shots obsIn f) (.ok out) ∧
    (Narrow.Near (intGraph c g) → Completes (fun f => runCountD (W := int32) mergeW lg corr m shots obsIn f) (.ok out)) ∧
    Tallied (fun x r => ∃ row w, Fresh1 (intGraph c g) (!corr) (.decode corr x) (.predictions row w) ∧ r = bits row)
      (fun x => Fresh1 (intGraph c g) (!corr) (.decode corr x) .exception) (shots.map (·.hits)) (Props.Cli.recorded shots obsIn) out := by
  rw [← hobs] at h64 hrec
  obtain ⟨d, out, h1, h2, h3, h4⟩ := tool_count hw hB hcov hb hk hcorr h64 hev hrec
  refine ⟨out, ?_, fun hn => ?_, h4⟩
  · simp only [runCountD, hl, h1]
    exact h2
  · simp only [runCountD, hl, h1]
    exact h3 hn

end

theorem tallied_imp {good good' : List Nat → List Bool → Prop} {bad bad' : List Nat → Prop} {shots : List (List Nat)} {recorded : List (List Bool)} {out : Option (Nat × Nat)}
    (h1 : ∀ x ∈ shots, ∀ r, good x r → good' x r) (h2 : ∀ x ∈ shots, bad x → bad' x) (h : Tallied good bad shots recorded out) : Tallied good' bad' shots recorded out := by
  cases out with
  | none => exact h.imp_right fun ⟨x, hx, h⟩ => ⟨x, hx, h2 x hx h⟩
  | some out =>
    obtain ⟨k1, records, k2, k3⟩ := h
    refine ⟨k1, records, ?_, k3⟩
    clear k1 k3
    induction k2 with
    | nil => exact .nil
    | cons h _ ih => exact .cons (h1 _ (by simp) _ h) (ih (fun x hx => h1 x (by simp [hx])) fun x hx => h2 x (by simp [hx]))

theorem near_of {N : Net} {wo : Bool} {asked : Prop} {g : UGraph ℚ} {o : ObjectD} (hs : Stands N wo asked g o) {corr : Bool} (hr : N.Ready corr) (h : N.Small) {k c : ℚ}
    (hk : Const g k c) : Narrow.Near (intGraph c g) := by
  have hf := hr.1
  rw [← hs.net] at hf h
  exact C65_near hs.wf (Session.fine_usable hs.wf hf) (by
    rcases h with h | ⟨h1, M, h2, h3⟩
    · exact .inl h
    · exact .inr ⟨Session.whole_iff.1 h1, M, fun e he => h2 (Session.toLink e) (List.mem_map_of_mem he), h3⟩) c hk.norm

/-- The answer of the graph with integer weights is what the program gets. -/
theorem replies_of [W : Width] {mergeW : ℚ → ℚ → ℚ} {N : Net} {corr : Bool} {g : UGraph ℚ} (hs : Stands N (!corr) False g (ObjectD.of g (!corr))) (hr : N.Ready corr)
    (hb0 : g.boundary = ∅) (hwk : ∀ s, Session.Works N s) {k c : ℚ} (hk : Const g k c) {ev : List Nat} (hinc : ev.Pairwise (· < ·)) (hev : ∀ x ∈ ev, x < g.nodes.length)
    {a : Answer ℚ} (h : Fresh1 (W := unbounded) (intGraph c g) (!corr) (.decode corr ev) a) :
    Replies mergeW g corr g.nodes.length ev (Session.valueOf true (mapWeights (fun w => scaleBack (.num (c * 2)) (w * 2)) a)) := by
  obtain ⟨hu, hb, hcov, hc, -⟩ := package hs hr
  have hdet : g.numDetectors = g.nodes.length := by
    unfold UGraph.numDetectors
    rw [hb0]
    simp
  have he : Syn.toEvents g.numDetectors g.boundary.card (syndrome g.nodes.length ev) = some ev := by
    unfold syndrome Syn.toEvents
    simp only
    rw [if_pos (by simp [hdet]), nonzero_syndrome hinc hev]
  have hq : Session.queryOf g (.decode (syndrome g.nodes.length ev) true corr) = some (.decode corr ev) := by
    simp only [Session.queryOf, he, Option.map_some]
  have hok : EventsOk g ev := ⟨hinc.imp fun h => Nat.ne_of_lt h, hev⟩
  obtain ⟨a', o', k1, -, -, k4⟩ := askD_one hs.wf hs.bnd hcov hk hb (hwk _ g hs.wf hs.bnd hs.net hr.1 _ hq hc (!corr) (fun _ => hok) k c hk) hs.inv
  obtain rfl := fresh_unique h k4
  obtain ⟨f0, k1⟩ := k1
  refine ⟨o', f0, fun f hf => ?_⟩
  have he' : Syn.toEvents (ObjectD.of g (!corr)).graph.numDetectors (ObjectD.of g (!corr)).graph.boundary.card (syndrome g.nodes.length ev) = some ev := he
  have := k1 f hf
  simp only at this
  simp only [Session.run, Session.exec, he', Session.ask, this]
  rfl

theorem no_boundary {mergeW : ℚ → ℚ → ℚ} {lg : ℚ → ℚ} {m : Model ℚ} {corr : Bool} {N : Net} (h : Loads mergeW lg m corr N) : N.boundary = ∅ := by
  unfold Loads at h
  cases corr with
  | true =>
    rw [if_pos rfl] at h
    have h1 := h.1
    unfold DemRules.corrNet at h1
    split_ifs at h1 with hA
    obtain ⟨N0, h0, rfl⟩ := Option.map_eq_some_iff.1 h1
    exact (DemRules.place_kept _ _ h0 (fun l hl => by cases hl)).1
  | false =>
    rw [if_neg (by decide)] at h
    exact (DemRules.place_kept _ _ h.1 (fun l hl => by cases hl)).1

theorem replies_unique [W : Width] {mergeW : ℚ → ℚ → ℚ} {g : UGraph ℚ} {corr : Bool} {n : Nat} {hits : List Nat} {r r' : Session.Reply} (h : Replies mergeW g corr n hits r)
    (h' : Replies mergeW g corr n hits r') : r = r' := by
  obtain ⟨o, f0, e⟩ := h
  obtain ⟨o', f1, e'⟩ := h'
  have x := e (max f0 f1) (le_max_left _ _)
  have y := e' (max f0 f1) (le_max_right _ _)
  simp only at x y
  rw [x] at y
  cases y
  rfl

section
variable (mergeW : ℚ → ℚ → ℚ) (lg : ℚ → ℚ) (m : Model ℚ) (hn : ∀ e ∈ m.errors, ∀ c ∈ Props.Dem.components e, c.2.Nodup) (hwi : Within m) (corr : Bool) (N : Net)
  (hN : Loads mergeW lg m corr N) (hr : N.Ready corr)
include hn hwi hN hr

/-- All that the theorems say, for any meaning of the answers. -/
theorem core {good : UGraph ℚ → List Nat → List Bool → Prop} {bad : UGraph ℚ → List Nat → Prop}
    (hgood : ∀ g, Stands N (!corr) False g (ObjectD.of g (!corr)) → g.boundary = ∅ → g.nodes.length = m.numDets → ∀ k c, Const g k c → ∀ x, ShotOk m x →
      (∀ row w, Fresh1 (intGraph c g) (!corr) (.decode corr x) (.predictions row w) → good g x (bits row)) ∧
      (Fresh1 (intGraph c g) (!corr) (.decode corr x) .exception → bad g x)) : ∃ g, loadForD mergeW lg corr m = some g ∧
    (∀ shots, (∀ x ∈ shots, ShotOk m x) → ∃ records ok, Completes (fun f => runPredictD (W := unbounded) mergeW lg corr m shots f) (.ok (records, ok)) ∧
      (N.Small → Completes (fun f => runPredictD (W := int32) mergeW lg corr m shots f) (.ok (records, ok))) ∧ Shown (good g) (bad g) shots records ok) ∧
    (m.numObs ≤ 64 → ∀ (shots : List Shot) (obsIn : Option (List (List Bool))), (∀ x ∈ shots, ShotOk m x.hits) → (∀ r ∈ Props.Cli.recorded shots obsIn, r.length = m.numObs) →
      ∃ out, Completes (fun f => runCountD (W := unbounded) mergeW lg corr m shots obsIn f) (.ok out) ∧
        (N.Small → Completes (fun f => runCountD (W := int32) mergeW lg corr m shots obsIn f) (.ok out)) ∧
        Tallied (good g) (bad g) (shots.map (·.hits)) (Props.Cli.recorded shots obsIn) out) := by
  obtain ⟨g, hl, hs, n1, n2⟩ := loads_stands hn hwi hN
  obtain ⟨hu, hb, hcov, hc, k, c, hk⟩ := package hs hr
  have hnodes : g.nodes.length = m.numDets := by rw [← n1, ← hs.net]; rfl
  have hobs : g.numObs = m.numObs := by rw [← n2, ← hs.net]; rfl
  have hb0 : g.boundary = ∅ := by
    have h := no_boundary hN
    rw [← hs.net] at h
    exact h
  have hev : ∀ x, ShotOk m x → EventsOk g x := fun x hx => ⟨hx.1.imp fun h => Nat.ne_of_lt h, fun d hd => by rw [hnodes]; exact hx.2 d hd⟩
  refine ⟨g, hl, fun shots hsh => ?_, fun h64 shots obsIn hsh hrec => ?_⟩
  · obtain ⟨records, ok, h1, h2, h3⟩ := run_predict hl hs.wf hs.bnd hcov hb hk hc hobs fun x hx => hev x (hsh x hx)
    exact ⟨records, ok, h1, fun h => h2 (near_of hs hr h hk), shown_of (fun x hx => (hgood g hs hb0 hnodes k c hk x (hsh x hx)).1) (fun x hx => (hgood g hs hb0 hnodes k c hk x (hsh x hx)).2) h3⟩
  · obtain ⟨out, h1, h2, h3⟩ := run_count hl hs.wf hs.bnd hcov hb hk hc hobs h64 (fun x hx => hev _ (hsh x hx)) hrec
    have hm : ∀ x ∈ shots.map (·.hits), ShotOk m x := fun x hx => by
      obtain ⟨y, hy, rfl⟩ := List.mem_map.1 hx
      exact hsh y hy
    refine ⟨out, h1, fun h => h2 (near_of hs hr h hk), tallied_imp (fun x hx r h => ?_) (fun x hx => (hgood g hs hb0 hnodes k c hk x (hm x hx)).2) h3⟩
    obtain ⟨row, w, h, rfl⟩ := h
    exact (hgood g hs hb0 hnodes k c hk x (hm x hx)).1 row w h

theorem core_decode [W : Width] (hwk : ∀ s, Session.Works N s) : ∃ g, loadForD mergeW lg corr m = some g ∧
    (∀ shots, (∀ x ∈ shots, ShotOk m x) → ∃ records ok, Completes (fun f => runPredictD (W := unbounded) mergeW lg corr m shots f) (.ok (records, ok)) ∧
      (N.Small → Completes (fun f => runPredictD (W := int32) mergeW lg corr m shots f) (.ok (records, ok))) ∧
      Shown (fun x r => ∃ row w, Replies mergeW g corr m.numDets x (.pair row w) ∧ r = bits row) (fun x => Replies mergeW g corr m.numDets x .raised) shots records ok) ∧
    (m.numObs ≤ 64 → ∀ (shots : List Shot) (obsIn : Option (List (List Bool))), (∀ x ∈ shots, ShotOk m x.hits) → (∀ r ∈ Props.Cli.recorded shots obsIn, r.length = m.numObs) →
      ∃ out, Completes (fun f => runCountD (W := unbounded) mergeW lg corr m shots obsIn f) (.ok out) ∧
        (N.Small → Completes (fun f => runCountD (W := int32) mergeW lg corr m shots obsIn f) (.ok out)) ∧
        Tallied (fun x r => ∃ row w, Replies mergeW g corr m.numDets x (.pair row w) ∧ r = bits row) (fun x => Replies mergeW g corr m.numDets x .raised)
          (shots.map (·.hits)) (Props.Cli.recorded shots obsIn) out) := by
  refine core mergeW lg m hn hwi corr N hN hr (good := fun g x r => ∃ row w, Replies mergeW g corr m.numDets x (.pair row w) ∧ r = bits row)
    (bad := fun g x => Replies mergeW g corr m.numDets x .raised) fun g hs hb0 hnodes k c hk x hx => ⟨fun row w h => ?_, fun h => ?_⟩
  · have := replies_of (mergeW := mergeW) hs hr hb0 hwk hk hx.1 (by rw [hnodes]; exact hx.2) h
    rw [hnodes] at this
    exact ⟨row, _, this, rfl⟩
  · have := replies_of (mergeW := mergeW) hs hr hb0 hwk hk hx.1 (by rw [hnodes]; exact hx.2) h
    rw [hnodes] at this
    exact this

end

theorem same_of {good : List Nat → List Bool → Prop} {bad : List Nat → Prop} (hu : ∀ x r r', good x r → good x r' → r = r') (hd : ∀ x r, good x r → ¬ bad x) {shots : List (List Nat)}
    {records recorded : List (List Bool)} {out : Option (Nat × Nat)} (h1 : Shown good bad shots records true) (h2 : Tallied good bad shots recorded out)
    (hlen : shots.length ≤ recorded.length) : out = some (differing records recorded, shots.length) := by
  obtain ⟨k1, k2, -⟩ := h1
  rw [k2 rfl, List.take_length] at k1
  cases out with
  | none =>
    rcases h2 with h2 | ⟨x, hx, h2⟩
    · omega
    · exfalso
      clear k2 hlen
      induction k1 with
      | nil => cases hx
      | cons h _ ih =>
        rcases List.mem_cons.1 hx with rfl | hx
        · exact hd _ _ h h2
        · exact ih hx
  | some out =>
    obtain ⟨-, records', k3, rfl⟩ := h2
    suffices h : records = records' by rw [h]
    clear k2 hlen
    induction k1 generalizing records' with
    | nil => cases k3; rfl
    | cons h _ ih =>
      cases k3 with
      | cons h' k3 => rw [hu _ _ _ h h', ih _ k3]

/-! ## Theorems -/

section
variable (mergeW : ℚ → ℚ → ℚ) (lg : ℚ → ℚ) (m : Model ℚ) (hn : ∀ e ∈ m.errors, ∀ c ∈ Props.Dem.components e, c.2.Nodup) (hwi : Within m) (corr : Bool) (N : Net)
  (hN : Loads mergeW lg m corr N) (hr : N.Ready corr)
include hn hwi hN hr

/-- C83: both tools, in double precision, predict what `decode` does on a new object for the same model, asked about that shot only. -/
theorem C83_decode : ∃ g, loadForD mergeW lg corr m = some g ∧
    (∀ shots, (∀ x ∈ shots, ShotOk m x) → ∃ records ok, Completes (fun f => runPredictD mergeW lg corr m shots f) (.ok (records, ok)) ∧
      Shown (fun x r => ∃ row w, Replies mergeW g corr m.numDets x (.pair row w) ∧ r = bits row) (fun x => Replies mergeW g corr m.numDets x .raised) shots records ok) ∧
    (m.numObs ≤ 64 → ∀ (shots : List Shot) (obsIn : Option (List (List Bool))), (∀ x ∈ shots, ShotOk m x.hits) → (∀ r ∈ Props.Cli.recorded shots obsIn, r.length = m.numObs) →
      ∃ out, Completes (fun f => runCountD mergeW lg corr m shots obsIn f) (.ok out) ∧
        Tallied (fun x r => ∃ row w, Replies mergeW g corr m.numDets x (.pair row w) ∧ r = bits row) (fun x => Replies mergeW g corr m.numDets x .raised)
          (shots.map (·.hits)) (Props.Cli.recorded shots obsIn) out) := by
  obtain ⟨g, h1, h2, h3⟩ := core_decode (W := unbounded) mergeW lg m hn hwi corr N hN hr (Session.works_of N)
  refine ⟨g, h1, fun shots hs => ?_, fun h64 shots obsIn hs hrec => ?_⟩
  · obtain ⟨records, ok, k1, -, k2⟩ := h2 shots hs
    exact ⟨records, ok, k1, k2⟩
  · obtain ⟨out, k1, -, k2⟩ := h3 h64 shots obsIn hs hrec
    exact ⟨out, k1, k2⟩

/-- C83 for the tools as compiled, with the 32-bit wrapped radius. -/
theorem C83_decode_int32 (hsmall : N.Small) : ∃ g, loadForD mergeW lg corr m = some g ∧
    (∀ shots, (∀ x ∈ shots, ShotOk m x) → ∃ records ok, Completes (fun f => runPredictD (W := int32) mergeW lg corr m shots f) (.ok (records, ok)) ∧
      Shown (fun x r => ∃ row w, Replies (W := int32) mergeW g corr m.numDets x (.pair row w) ∧ r = bits row) (fun x => Replies (W := int32) mergeW g corr m.numDets x .raised)
        shots records ok) ∧
    (m.numObs ≤ 64 → ∀ (shots : List Shot) (obsIn : Option (List (List Bool))), (∀ x ∈ shots, ShotOk m x.hits) → (∀ r ∈ Props.Cli.recorded shots obsIn, r.length = m.numObs) →
      ∃ out, Completes (fun f => runCountD (W := int32) mergeW lg corr m shots obsIn f) (.ok out) ∧
        Tallied (fun x r => ∃ row w, Replies (W := int32) mergeW g corr m.numDets x (.pair row w) ∧ r = bits row) (fun x => Replies (W := int32) mergeW g corr m.numDets x .raised)
          (shots.map (·.hits)) (Props.Cli.recorded shots obsIn) out) := by
  obtain ⟨g, h1, h2, h3⟩ := core_decode (W := int32) mergeW lg m hn hwi corr N hN hr fun s => Session.works_small fun _ => hsmall
  refine ⟨g, h1, fun shots hs => ?_, fun h64 shots obsIn hs hrec => ?_⟩
  · obtain ⟨records, ok, k1, k3, k2⟩ := h2 shots hs
    exact ⟨records, ok, k3 hsmall, k2⟩
  · obtain ⟨out, k1, k3, k2⟩ := h3 h64 shots obsIn hs hrec
    exact ⟨out, k3 hsmall, k2⟩

/-- C83: if `predict` writes a record for every shot, `count_mistakes` on the same shots prints in how many of them the record is not what was recorded. -/
theorem C83_same (h64 : m.numObs ≤ 64) (shots : List Shot) (obsIn : Option (List (List Bool))) (hs : ∀ x ∈ shots, ShotOk m x.hits)
    (hrec : ∀ r ∈ Props.Cli.recorded shots obsIn, r.length = m.numObs) (hlen : shots.length ≤ (Props.Cli.recorded shots obsIn).length) (records : List (List Bool))
    (h : Completes (fun f => runPredictD mergeW lg corr m (shots.map (·.hits)) f) (.ok (records, true))) :
    Completes (fun f => runCountD mergeW lg corr m shots obsIn f) (.ok (some (differing records (Props.Cli.recorded shots obsIn), shots.length))) := by
  obtain ⟨g, h1, h2, h3⟩ := C83_decode mergeW lg m hn hwi corr N hN hr
  obtain ⟨records', ok, k1, k2⟩ := h2 (shots.map (·.hits)) (fun x hx => by
    obtain ⟨y, hy, rfl⟩ := List.mem_map.1 hx
    exact hs y hy)
  obtain ⟨out, k3, k4⟩ := h3 h64 shots obsIn hs hrec
  obtain ⟨f0, e⟩ := h
  obtain ⟨f1, e'⟩ := k1
  have x := e (max f0 f1) (le_max_left _ _)
  have y := e' (max f0 f1) (le_max_right _ _)
  simp only at x y
  rw [x] at y
  cases y
  have := same_of (fun x r r' h h' => by
    obtain ⟨row, w, a1, rfl⟩ := h
    obtain ⟨row', w', a2, rfl⟩ := h'
    cases replies_unique a1 a2
    rfl) (fun x r h h' => by
    obtain ⟨row, w, a1, rfl⟩ := h
    cases replies_unique a1 h') k2 k4 (by simpa using hlen)
  rw [this, List.length_map] at k3
  exact k3

end

section
variable {ex ln : ℚ → ℚ} {η : ℝ} (hl : Library ex ln η) {m : Model ℚ} (hu : RulesD.Usual m (1 / 2 ^ 40 + 711 * η)) (hn : ∀ e ∈ m.errors, ∀ c ∈ Props.Dem.components e, c.2.Nodup)
  (hwi : Within m) {N : Net} (hN : DemRules.corrNet rounded (mergeD ex ln) (weightD ln) m = some N) (hr : N.Ready true)
include hl hu hn hwi hN hr

theorem core_rules : ∃ g, loadForD (mergeD ex ln) (weightD ln) true m = some g ∧
    (∀ shots, (∀ x ∈ shots, ShotOk m x) → ∃ records ok, Completes (fun f => runPredictD (W := unbounded) (mergeD ex ln) (weightD ln) true m shots f) (.ok (records, ok)) ∧
      (N.Small → Completes (fun f => runPredictD (W := int32) (mergeD ex ln) (weightD ln) true m shots f) (.ok (records, ok))) ∧
      Shown (Foretold m N (1 / 2 ^ 15 + 2 * m.errors.length * (1 / 2 ^ 40 + 711 * η))) (Hopeless N) shots records ok) ∧
    (m.numObs ≤ 64 → ∀ (shots : List Shot) (obsIn : Option (List (List Bool))), (∀ x ∈ shots, ShotOk m x.hits) → (∀ r ∈ Props.Cli.recorded shots obsIn, r.length = m.numObs) →
      ∃ out, Completes (fun f => runCountD (W := unbounded) (mergeD ex ln) (weightD ln) true m shots obsIn f) (.ok out) ∧
        (N.Small → Completes (fun f => runCountD (W := int32) (mergeD ex ln) (weightD ln) true m shots obsIn f) (.ok out)) ∧
        Tallied (Foretold m N (1 / 2 ^ 15 + 2 * m.errors.length * (1 / 2 ^ 40 + 711 * η))) (Hopeless N) (shots.map (·.hits)) (Props.Cli.recorded shots obsIn) out) := by
  refine core (mergeD ex ln) (weightD ln) m hn hwi true N ⟨hN, hu.once⟩ hr (good := fun _ => Foretold m N (1 / 2 ^ 15 + 2 * m.errors.length * (1 / 2 ^ 40 + 711 * η)))
    (bad := fun _ => Hopeless N) fun g hs hb0 hnodes k c hk x hx => ?_
  obtain ⟨hus, hb, hcov, hc, -⟩ := package hs hr
  have hev : EventsOk g x := ⟨hx.1.imp fun h => Nat.ne_of_lt h, fun d hd => by rw [hnodes]; exact hx.2 d hd⟩
  refine ⟨fun row w h => ?_, fun h => ?_⟩
  · rcases answer_means hs hr (first_of hs.wf hs.bnd hcov hb hk hc hus hev h) with ⟨u, hst, w', C, row', x', k1, k2, k3, k4⟩ | ⟨k, -⟩
    · cases k4
      obtain ⟨ρ, w1, w2⟩ := RulesD.weights_of hl hu hN hst k1
      exact ⟨ρ, C, w1, RulesD.nearly_of hl hu hN hst w2 k2, bits_of k3⟩
    · cases k
  · rcases answer_means hs hr (first_of hs.wf hs.bnd hcov hb hk hc hus hev h) with ⟨u, hst, w', C, row', x', k1, k2, k3, k4⟩ | ⟨-, k⟩
    · cases k4
    · exact k

/-- C83: what the predictions with `--enable_correlations` mean, in terms of the errors of the model and their probabilities. -/
theorem C83_correlated : (∀ shots, (∀ x ∈ shots, ShotOk m x) → ∃ records ok, Completes (fun f => runPredictD (mergeD ex ln) (weightD ln) true m shots f) (.ok (records, ok)) ∧
      Shown (Foretold m N (1 / 2 ^ 15 + 2 * m.errors.length * (1 / 2 ^ 40 + 711 * η))) (Hopeless N) shots records ok) ∧
    (m.numObs ≤ 64 → ∀ (shots : List Shot) (obsIn : Option (List (List Bool))), (∀ x ∈ shots, ShotOk m x.hits) → (∀ r ∈ Props.Cli.recorded shots obsIn, r.length = m.numObs) →
      ∃ out, Completes (fun f => runCountD (mergeD ex ln) (weightD ln) true m shots obsIn f) (.ok out) ∧
        Tallied (Foretold m N (1 / 2 ^ 15 + 2 * m.errors.length * (1 / 2 ^ 40 + 711 * η))) (Hopeless N) (shots.map (·.hits)) (Props.Cli.recorded shots obsIn) out) := by
  obtain ⟨g, h1, h2, h3⟩ := core_rules hl hu hn hwi hN hr
  refine ⟨fun shots hs => ?_, fun h64 shots obsIn hs hrec => ?_⟩
  · obtain ⟨records, ok, k1, -, k2⟩ := h2 shots hs
    exact ⟨records, ok, k1, k2⟩
  · obtain ⟨out, k1, -, k2⟩ := h3 h64 shots obsIn hs hrec
    exact ⟨out, k1, k2⟩

/-- The same for the tools as compiled. -/
theorem C83_correlated_int32 (hsmall : N.Small) :
    (∀ shots, (∀ x ∈ shots, ShotOk m x) → ∃ records ok, Completes (fun f => runPredictD (W := int32) (mergeD ex ln) (weightD ln) true m shots f) (.ok (records, ok)) ∧
      Shown (Foretold m N (1 / 2 ^ 15 + 2 * m.errors.length * (1 / 2 ^ 40 + 711 * η))) (Hopeless N) shots records ok) ∧
    (m.numObs ≤ 64 → ∀ (shots : List Shot) (obsIn : Option (List (List Bool))), (∀ x ∈ shots, ShotOk m x.hits) → (∀ r ∈ Props.Cli.recorded shots obsIn, r.length = m.numObs) →
      ∃ out, Completes (fun f => runCountD (W := int32) (mergeD ex ln) (weightD ln) true m shots obsIn f) (.ok out) ∧
        Tallied (Foretold m N (1 / 2 ^ 15 + 2 * m.errors.length * (1 / 2 ^ 40 + 711 * η))) (Hopeless N) (shots.map (·.hits)) (Props.Cli.recorded shots obsIn) out) := by
  obtain ⟨g, h1, h2, h3⟩ := core_rules hl hu hn hwi hN hr
  refine ⟨fun shots hs => ?_, fun h64 shots obsIn hs hrec => ?_⟩
  · obtain ⟨records, ok, k1, k3, k2⟩ := h2 shots hs
    exact ⟨records, ok, k3 hsmall, k2⟩
  · obtain ⟨out, k1, k3, k2⟩ := h3 h64 shots obsIn hs hrec
    exact ⟨out, k3 hsmall, k2⟩

end

section
variable (m : Model ℚ) (hv : Valid (real m)) (hgl : Graphlike (real m)) (mw : ℚ → ℚ → ℚ) (lg : ℚ → ℚ) (B δ : ℝ) (hp : Precise m mw lg B δ) (hB : B ≤ 2 ^ 24 - 1)
  (hsz : size m < 2 ^ 38) (ht : NotTiny (load mw lg m))
include hv hgl hp hB hsz ht

theorem core_plain : ∃ u, Step (load mw lg m) u ∧
    (∀ shots, (∀ x ∈ shots, ShotOk m x) → ∃ records ok, Completes (fun f => runPredictD (W := unbounded) mw lg false m shots f) (.ok (records, ok)) ∧
      (NearD (load mw lg m) → Completes (fun f => runPredictD (W := int32) mw lg false m shots f) (.ok (records, ok))) ∧ Shown (Likely m δ u) (Impossible m) shots records ok) ∧
    (m.numObs ≤ 64 → ∀ (shots : List Shot) (obsIn : Option (List (List Bool))), (∀ x ∈ shots, ShotOk m x.hits) → (∀ r ∈ Props.Cli.recorded shots obsIn, r.length = m.numObs) →
      ∃ out, Completes (fun f => runCountD (W := unbounded) mw lg false m shots obsIn f) (.ok out) ∧
        (NearD (load mw lg m) → Completes (fun f => runCountD (W := int32) mw lg false m shots obsIn f) (.ok out)) ∧
        Tallied (Likely m δ u) (Impossible m) (shots.map (·.hits)) (Props.Cli.recorded shots obsIn) out) := by
  have hpar := LikelihoodD.par_valid hv hp
  obtain ⟨n1, n2, n3, n4⟩ := DemSession.dem_counts hv hp
  have hs := Likelihood.start (real m) hv
  have hus := LikelihoodD.usable_load hv hp hB ht
  have hcov := LikelihoodD.par_covered hpar (Likelihood.covered hs hv)
  have hpl : ∀ e ∈ (load mw lg m).edges, e.implied = [] := fun e he => by
    obtain ⟨e', -, k⟩ := LikelihoodD.par_edge hpar he
    exact k.plain
  have hb := C65_builds hpar.wfd hpar.bndOk hcov hus hpl true
  obtain ⟨k, c, hk⟩ := const_of hus.rules hus.le hus.big
  obtain ⟨u, hu⟩ := DemSession.step_exists (load mw lg m)
  have hload : loadForD mw lg false m = some (load mw lg m) := rfl
  have hev : ∀ x, ShotOk m x → EventsOk (load mw lg m) x := fun x hx => ⟨hx.1.imp fun h => Nat.ne_of_lt h, fun d hd => by rw [n1]; exact hx.2 d hd⟩
  have hmeans : ∀ x, ShotOk m x → ∀ a, Fresh1 (intGraph c (load mw lg m)) true (.decode false x) a →
      (∃ row w, a = .predictions row w ∧ Likely m δ u x (bits row)) ∨ (a = .exception ∧ Impossible m x) := by
    intro x hx a h
    obtain ⟨u', hu', hM⟩ := means_first hpar.wfd hpar.bndOk (first_of hpar.wfd hpar.bndOk hcov hb hk (corr := false) (by simp) hus (hev x hx) h) rfl (DemSession.dem_noGain hv hp)
      (lt_of_le_of_lt hpar.few hsz)
    obtain rfl := DemSession.step_unique hu hu'
    rcases hM with ⟨row, x', e, C, j1, j2, j3⟩ | ⟨e, hno⟩
    · cases a <;> first | cases e | skip
      obtain ⟨F, k1, -, k2, k3⟩ := DemSession.likely_for hv hgl hp (fires := (· ∈ x)) (fun _ => Iff.rfl) j1
      exact .inl ⟨row, _, rfl, F, row, k1, k2 row j2 false row rfl, rfl⟩
    · cases a <;> first | cases e | skip
      exact .inr ⟨rfl, DemSession.none_for hv hgl hp (fires := (· ∈ x)) (fun _ => Iff.rfl) hno⟩
  refine ⟨u, hu, fun shots hsh => ?_, fun h64 shots obsIn hsh hrec => ?_⟩
  · obtain ⟨records, ok, h1, h2, h3⟩ := run_predict hload hpar.wfd hpar.bndOk hcov hb hk (by simp) n3 fun x hx => hev x (hsh x hx)
    refine ⟨records, ok, h1, fun h => h2 (h c hk.norm), shown_of (fun x hx row w h => ?_) (fun x hx h => ?_) h3⟩
    · rcases hmeans x (hsh x hx) _ h with ⟨row', w', e, h⟩ | ⟨e, -⟩
      · cases e; exact h
      · cases e
    · rcases hmeans x (hsh x hx) _ h with ⟨row', w', e, h⟩ | ⟨-, h⟩
      · cases e
      · exact h
  · obtain ⟨out, h1, h2, h3⟩ := run_count hload hpar.wfd hpar.bndOk hcov hb hk (by simp) n3 h64 (fun x hx => hev _ (hsh x hx)) hrec
    have hm : ∀ x ∈ shots.map (·.hits), ShotOk m x := fun x hx => by
      obtain ⟨y, hy, rfl⟩ := List.mem_map.1 hx
      exact hsh y hy
    refine ⟨out, h1, fun h => h2 (h c hk.norm), tallied_imp (fun x hx r h => ?_) (fun x hx h => ?_) h3⟩
    · obtain ⟨row, w, h, rfl⟩ := h
      rcases hmeans x (hm x hx) _ h with ⟨row', w', e, h⟩ | ⟨e, -⟩
      · cases e; exact h
      · cases e
    · rcases hmeans x (hm x hx) _ h with ⟨row', w', e, h⟩ | ⟨-, h⟩
      · cases e
      · exact h

/-- C83: what the predictions without correlations mean, in terms of the errors of the model and their probabilities. -/
theorem C83_plain : ∃ u, Step (load mw lg m) u ∧
    (∀ shots, (∀ x ∈ shots, ShotOk m x) → ∃ records ok, Completes (fun f => runPredictD mw lg false m shots f) (.ok (records, ok)) ∧
      Shown (Likely m δ u) (Impossible m) shots records ok) ∧
    (m.numObs ≤ 64 → ∀ (shots : List Shot) (obsIn : Option (List (List Bool))), (∀ x ∈ shots, ShotOk m x.hits) → (∀ r ∈ Props.Cli.recorded shots obsIn, r.length = m.numObs) →
      ∃ out, Completes (fun f => runCountD mw lg false m shots obsIn f) (.ok out) ∧
        Tallied (Likely m δ u) (Impossible m) (shots.map (·.hits)) (Props.Cli.recorded shots obsIn) out) := by
  obtain ⟨u, h1, h2, h3⟩ := core_plain m hv hgl mw lg B δ hp hB hsz ht
  refine ⟨u, h1, fun shots hs => ?_, fun h64 shots obsIn hs hrec => ?_⟩
  · obtain ⟨records, ok, k1, -, k2⟩ := h2 shots hs
    exact ⟨records, ok, k1, k2⟩
  · obtain ⟨out, k1, -, k2⟩ := h3 h64 shots obsIn hs hrec
    exact ⟨out, k1, k2⟩

/-- The same for the tools as compiled. -/
theorem C83_plain_int32 (hnear : NearD (load mw lg m)) : ∃ u, Step (load mw lg m) u ∧
    (∀ shots, (∀ x ∈ shots, ShotOk m x) → ∃ records ok, Completes (fun f => runPredictD (W := int32) mw lg false m shots f) (.ok (records, ok)) ∧
      Shown (Likely m δ u) (Impossible m) shots records ok) ∧
    (m.numObs ≤ 64 → ∀ (shots : List Shot) (obsIn : Option (List (List Bool))), (∀ x ∈ shots, ShotOk m x.hits) → (∀ r ∈ Props.Cli.recorded shots obsIn, r.length = m.numObs) →
      ∃ out, Completes (fun f => runCountD (W := int32) mw lg false m shots obsIn f) (.ok out) ∧
        Tallied (Likely m δ u) (Impossible m) (shots.map (·.hits)) (Props.Cli.recorded shots obsIn) out) := by
  obtain ⟨u, h1, h2, h3⟩ := core_plain m hv hgl mw lg B δ hp hB hsz ht
  refine ⟨u, h1, fun shots hs => ?_, fun h64 shots obsIn hs hrec => ?_⟩
  · obtain ⟨records, ok, k1, k3, k2⟩ := h2 shots hs
    exact ⟨records, ok, k3 hnear, k2⟩
  · obtain ⟨out, k1, k3, k2⟩ := h3 h64 shots obsIn hs hrec
    exact ⟨out, k3 hnear, k2⟩

end

/-- C83: a model that the loader refuses makes the tools with `--enable_correlations` fail without output. -/
theorem C83_refused [W : Width] (mergeW : ℚ → ℚ → ℚ) (lg : ℚ → ℚ) (m : Model ℚ) (h : ∃ e ∈ m.errors, ¬ Props.Dem.Accepted e) (shots : List (List Nat)) (shots' : List Shot)
    (obsIn : Option (List (List Bool))) : Completes (fun f => runPredictD mergeW lg true m shots f) (.ok ([], false)) ∧ Completes (fun f => runCountD mergeW lg true m shots' obsIn f) (.ok none) := by
  have hl : loadForD mergeW lg true m = none := (Props.Dem.loadCorr_none rounded m).2 h
  exact ⟨⟨0, fun f _ => by simp only [runPredictD, hl]⟩, ⟨0, fun f _ => by simp only [runCountD, hl]⟩⟩

/-- C83: if the model is loaded and no decoder can be made of it, the tools fail without output, whatever the shots are. -/
theorem C83_no_decoder [W : Width] (mergeW : ℚ → ℚ → ℚ) (lg : ℚ → ℚ) (corr : Bool) (m : Model ℚ) (g : UGraph ℚ) (hg : loadForD mergeW lg corr m = some g)
    (h : ConvD.toMwpmD g (!corr) corr = .throws) (shots : List (List Nat)) (shots' : List Shot) (obsIn : Option (List (List Bool))) :
    Completes (fun f => runPredictD mergeW lg corr m shots f) (.ok ([], false)) ∧ Completes (fun f => runCountD mergeW lg corr m shots' obsIn f) (.ok none) :=
  ⟨⟨0, fun f _ => by simp only [runPredictD, hg, h]⟩, ⟨0, fun f _ => by simp only [runCountD, hg, h]⟩⟩

/-- A model with a component that names a detector twice, next to another component: `error(0.125) D0 D0 ^ D1`. -/
def looped : Model ℚ := ⟨[⟨1 / 8, [.det 0, .det 0, .sep, .det 1]⟩], 2, 0⟩

/-- Is a graph loaded, and does making a decoder of it raise an exception? -/
def unusable (mergeW : ℚ → ℚ → ℚ) (lg : ℚ → ℚ) (corr : Bool) (m : Model ℚ) : Bool :=
  match loadForD mergeW lg corr m with
  | none => false
  | some g => match ConvD.toMwpmD g (!corr) corr with
    | .throws => true
    | _ => false

/-- The loader accepts the model; with correlations the tools fail on it (graph.cc:166-182: the rule for the self-loop finds no neighbour). -/
theorem C83_looped [W : Width] (shots : List (List Nat)) (shots' : List Shot) (obsIn : Option (List (List Bool))) :
    Completes (fun f => runPredictD (fun a _ => a) (fun _ => 2) true looped shots f) (.ok ([], false)) ∧
    Completes (fun f => runCountD (fun a _ => a) (fun _ => 2) true looped shots' obsIn f) (.ok none) := by
  have h : unusable (fun a _ => a) (fun _ => 2) true looped = true := by decide +kernel
  unfold unusable at h
  split at h
  · cases h
  · rename_i g hg
    split at h
    · rename_i ht
      exact C83_no_decoder _ _ true looped g hg ht shots shots' obsIn
    · cases h

/-! ## Examples -/

theorem both_within : Within RulesD.both := by
  intro e he
  have h : ∀ e ∈ RulesD.both.errors, ∀ t ∈ e.targets, t = .det 0 ∨ t = .det 1 ∨ t = .det 2 ∨ t = .obs 0 ∨ t = .sep := by decide +kernel
  refine ⟨fun d hd => ?_, fun o ho => ?_⟩
  · rcases h e he _ hd with h | h | h | h | h <;> cases h <;> decide
  · rcases h e he _ ho with h | h | h | h | h <;> cases h <;> decide

theorem sampleD_within : Within Arithmetic.sampleD := by
  intro e he
  have h : ∀ e ∈ Arithmetic.sampleD.errors, ∀ t ∈ e.targets, t = .det 0 ∨ t = .det 1 ∨ t = .obs 0 := by decide +kernel
  refine ⟨fun d hd => ?_, fun o ho => ?_⟩
  · rcases h e he _ hd with h | h | h <;> cases h <;> decide
  · rcases h e he _ ho with h | h | h <;> cases h <;> decide

/-- C83 with correlations: the sample of C82, and shots with and without events. -/
example : ∃ ex ln, Library ex ln (1 / 2 ^ 52) ∧ RulesD.Usual RulesD.both (1 / 2 ^ 40 + 711 * (1 / 2 ^ 52)) ∧ Within RulesD.both ∧
    ∃ N, Loads (mergeD ex ln) (weightD ln) RulesD.both true N ∧ N.Ready true ∧ N.Small ∧ ∀ x ∈ ([[0, 1, 2], [], [1, 2]] : List (List Nat)), ShotOk RulesD.both x := by
  obtain ⟨ex, ln, hl⟩ := Arithmetic.library_exists (η := 1 / 2 ^ 52) (by positivity) (by norm_num)
  obtain ⟨N, h1, h2, h3⟩ := RulesD.both_ready hl
  refine ⟨ex, ln, hl, RulesD.both_usual, both_within, N, ⟨h1, RulesD.both_usual.once⟩, h3, .inl ?_, by unfold ShotOk; decide +kernel⟩
  obtain ⟨g, -, -, h, -⟩ := loads_stands RulesD.both_nodup both_within (corr := true) ⟨h1, RulesD.both_usual.once⟩
  rw [h]
  decide

/-- C83 without correlations: the sample of C70. -/
example : ∃ ex ln u records ok, Step (load (mergeD ex ln) (weightD ln) Arithmetic.sampleD) u ∧
    Completes (fun f => runPredictD (mergeD ex ln) (weightD ln) false Arithmetic.sampleD [[0, 1], [], [1]] f) (.ok (records, ok)) ∧
    Shown (Likely Arithmetic.sampleD (1 / 2 ^ 40 + 711 * (1 / 2 ^ 52)) u) (Impossible Arithmetic.sampleD) [[0, 1], [], [1]] records ok := by
  obtain ⟨ex, ln, h1, h2, h3, h4, h5, h6, h7, h8, h9⟩ := Arithmetic.sampleD_meets
  obtain ⟨u, hu, h, -⟩ := C83_plain _ h2 h3 _ _ _ _ h5 h6 h7 h8
  obtain ⟨-, -, -, -⟩ := C83_plain_int32 _ h2 h3 _ _ _ _ h5 h6 h7 h8 h9
  obtain ⟨records, ok, k1, k2⟩ := h [[0, 1], [], [1]] (by unfold ShotOk; decide +kernel)
  exact ⟨ex, ln, u, records, ok, hu, k1, k2⟩

/-- C83 with small numbers, for the tools as compiled. -/
example : ∃ N, Loads (fun a _ => a) (fun p => if p = 1 / 10 then 2 else 1) Arithmetic.sampleD false N ∧ N.Ready false ∧ N.Small ∧ Within Arithmetic.sampleD := by
  refine ⟨⟨2, [⟨0, none, {0}, 2, 1 / 10, ∅⟩, ⟨0, some 1, ∅, 1, 13 / 50, ∅⟩, ⟨1, none, ∅, 2, 1 / 10, ∅⟩], ∅, 1⟩, ⟨by decide +kernel, by decide +kernel⟩,
    Session.ready_plain (Session.fine_of (by decide +kernel) (by decide +kernel) (by decide +kernel) (by decide +kernel) (by decide +kernel) (by decide +kernel) (by decide +kernel)), .inl (by decide), sampleD_within⟩

/-- A model that is refused: an error with three detectors. -/
example : ∃ e ∈ (⟨[⟨1 / 10, [.det 0]⟩, ⟨1 / 5, [.det 0, .det 1, .det 2]⟩], 3, 0⟩ : Model ℚ).errors, ¬ Props.Dem.Accepted e := by
  refine ⟨⟨1 / 5, [.det 0, .det 1, .det 2]⟩, by simp, ?_⟩
  have h : Props.Dem.components (⟨1 / 5, [.det 0, .det 1, .det 2]⟩ : Err ℚ) = [([0, 1, 2], [])] := by decide +kernel
  unfold Props.Dem.Accepted
  rw [h]
  rintro ⟨-, h | h | ⟨o, h⟩⟩
  · norm_num at h
  · exact absurd h (by decide)
  · cases h

end Verif.Props.CliD
