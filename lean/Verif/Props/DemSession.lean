import Verif.Props.MatrixSession
import Verif.Props.Arithmetic

/-!
# C75, C76: programs that start with a detector error model
-/

namespace Verif.Props.DemSession

open Verif Verif.SB Verif.UG Verif.Obj Verif.Dbl Verif.ConvD Verif.ObjD Verif.Session Verif.Dem
open Verif.Props.UserEdges Verif.Props.Answers Verif.Props.EndToEnd
open Verif.Props.Object Verif.Props.Double Verif.Props.DoubleHistory
open Verif.Props.Dem (components Valid)
open Verif.Props.Likelihood
open Verif.Props.LikelihoodD (real exact slack Precise NotTiny size)
open Verif.Props.UserGraph (Call wf_run)
open Verif.Props.Session (Link Net moments ProperProgram Clean netOf Stands program_core)
open Verif.Props.MatrixSession (placeAll place_calls Adds forall2_flatMap Able)
open Verif.Props.Edges (Completes)
open Verif.Sch (Res)
open Verif.Props.Discretise (allWeights IsInt)

/-! ## Specification: programs -/

/-- The link of a component with one or two detectors of an error with probability `p`. -/
def linkOf (lg : ℚ → ℚ) (p : ℚ) (c : List Nat × List Nat) : Option Link :=
  match c.1 with
  | [a] => some ⟨a, none, c.2.toFinset, lg p, p, ∅⟩
  | [a, b] => some ⟨a, some b, c.2.toFinset, lg p, p, ∅⟩
  | _ => none

/-- The links of a model: those of the components of each error that can happen. -/
def demLinks (lg : ℚ → ℚ) (m : Model ℚ) : List Link :=
  m.errors.flatMap fun e => if e.p = 0 then [] else (components e).filterMap (linkOf lg e.p)

/-- The network of a model: its links are placed one after the other; links between the same ends are merged as independent errors. -/
def demNet (mergeW : ℚ → ℚ → ℚ) (lg : ℚ → ℚ) (m : Model ℚ) : Option Net :=
  placeAll mergeW .independent ⟨m.numDets, [], ∅, m.numObs⟩ (demLinks lg m)

/-! ## Lemmas: programs -/

/-- The call for a component. -/
def callOf (lg : ℚ → ℚ) (p : ℚ) (c : List Nat × List Nat) : Option (Call ℚ) :=
  match c.1 with
  | [a] => some (.add a none c.2 (lg p) p .independent)
  | [a, b] => some (.add a (some b) c.2 (lg p) p .independent)
  | _ => none

/-- The calls for a model. -/
def callsOf (lg : ℚ → ℚ) (es : List (Err ℚ)) : List (Call ℚ) := es.flatMap fun e => if e.p = 0 then [] else (components e).filterMap (callOf lg e.p)

theorem handle_fold (mergeW : ℚ → ℚ → ℚ) (lg : ℚ → ℚ) (p : ℚ) (cs : List (List Nat × List Nat)) (g : UGraph ℚ) :
    cs.foldl (fun g c => handle mergeW lg g p c.1 c.2) g = UserGraph.run mergeW g (cs.filterMap (callOf lg p)) := by
  induction cs generalizing g with
  | nil => rfl
  | cons c cs ih =>
    rw [List.foldl_cons, ih]
    obtain ⟨ds, os⟩ := c
    match ds with
    | [] => rw [List.filterMap_cons_none (by rfl)]; rfl
    | [a] => simp [handle, callOf, UserGraph.run, UserGraph.exec]
    | [a, b] => simp [handle, callOf, UserGraph.run, UserGraph.exec]
    | a :: b :: c :: l => rw [List.filterMap_cons_none (by rfl)]; rfl

theorem load_eq (mergeW : ℚ → ℚ → ℚ) (lg : ℚ → ℚ) (m : Model ℚ) (hp : ∀ e ∈ m.errors, 0 ≤ e.p) :
    load mergeW lg m = UserGraph.run mergeW (UGraph.new m.numDets m.numObs) (callsOf lg m.errors) := by
  unfold load
  generalize UGraph.new m.numDets m.numObs = g
  generalize m.errors = es at hp
  induction es generalizing g with
  | nil => rfl
  | cons e es ih =>
    rw [List.foldl_cons, ih _ (fun x hx => hp x (by simp [hx]))]
    have : callsOf lg (e :: es) = (if e.p = 0 then [] else (components e).filterMap (callOf lg e.p)) ++ callsOf lg es := by simp [callsOf]
    rw [this]
    have happ : ∀ a b : List (Call ℚ), UserGraph.run mergeW g (a ++ b) = UserGraph.run mergeW (UserGraph.run mergeW g a) b := by intro a b; simp [UserGraph.run]
    rw [happ]
    congr 1
    rw [LikelihoodD.calls_count (hp e (by simp))]
    split_ifs with h0
    · rfl
    · exact handle_fold ..

theorem adds_of (lg : ℚ → ℚ) (m : Model ℚ) (hn : ∀ e ∈ m.errors, ∀ c ∈ components e, c.2.Nodup) :
    List.Forall₂ (Adds .independent) (callsOf lg m.errors) (demLinks lg m) := by
  refine forall2_flatMap fun e he => ?_
  split_ifs
  · exact .nil
  · have hn := hn e he
    generalize components e = cs at hn
    induction cs with
    | nil => exact .nil
    | cons c cs ih =>
      have ih := ih fun c hc => hn c (by simp [hc])
      have hc := hn c (by simp)
      obtain ⟨ds, os⟩ := c
      match ds with
      | [] => rw [List.filterMap_cons_none (by rfl), List.filterMap_cons_none (by rfl)]; exact ih
      | [a] => rw [List.filterMap_cons_some (by rfl), List.filterMap_cons_some (by rfl)]; exact .cons ⟨rfl, os, hc, rfl, rfl⟩ ih
      | [a, b] => rw [List.filterMap_cons_some (by rfl), List.filterMap_cons_some (by rfl)]; exact .cons ⟨rfl, os, hc, rfl, rfl⟩ ih
      | a :: b :: c :: l => rw [List.filterMap_cons_none (by rfl), List.filterMap_cons_none (by rfl)]; exact ih

theorem placed (mergeW : ℚ → ℚ → ℚ) (ls : List Link) : ∀ N : Net, placeAll mergeW .independent N ls ≠ none := by
  induction ls with
  | nil => intro N h; cases h
  | cons l ls ih =>
    intro N
    have : (N.place mergeW l .independent).2 = .nothing := by
      unfold Net.place
      split <;> rfl
    unfold placeAll
    split
    · exact ih _
    · rename_i h
      exact (h _ (Prod.ext rfl this)).elim

theorem dem_stands (mergeW : ℚ → ℚ → ℚ) (lg : ℚ → ℚ) (m : Model ℚ) (hp : ∀ e ∈ m.errors, 0 ≤ e.p) (hn : ∀ e ∈ m.errors, ∀ c ∈ components e, c.2.Nodup) :
    ∃ N, demNet mergeW lg m = some N ∧ Stands N true False (load mergeW lg m) (ObjectD.of (load mergeW lg m) true) := by
  have hN0 : netOf (UGraph.new m.numDets m.numObs) = ⟨m.numDets, [], ∅, m.numObs⟩ := by simp [netOf, UGraph.new]
  rcases place_calls mergeW .independent (adds_of lg m hn) (g := UGraph.new m.numDets m.numObs) (wf_new _ _) (fun e he => by cases he) with ⟨-, h4, h5, h6⟩ | ⟨-, h⟩
  · rw [hN0, ← load_eq mergeW lg m hp] at h6
    rw [← load_eq mergeW lg m hp] at h4 h5
    refine ⟨_, h6, h4, ?_, h5, rfl, invD_of _ _, fun h => by cases h⟩
    rw [load_eq mergeW lg m hp]
    exact Props.Convert.bndOk_run mergeW (Props.Convert.bndOk_new _ _) _
  · exact (placed _ _ _ h).elim

/-! ## Theorems: programs -/

section
variable (m : Model ℚ) (hp : ∀ e ∈ m.errors, 0 ≤ e.p ∧ e.p < 1) (hn : ∀ e ∈ m.errors, ∀ c ∈ components e, c.2.Nodup) (mergeW : ℚ → ℚ → ℚ) (lg : ℚ → ℚ)
include hp hn

/-- C75: `Matching.from_detector_error_model(model)`, followed by any proper program.  The object stands for the network of the model, and the program gets right replies, about the
network of that moment (see C69). -/
theorem C75_program : ∃ N, demNet mergeW lg m = some N ∧ ∀ prog, ProperProgram mergeW N False prog →
    ∃ replies o, Completes (fun f => Session.run mergeW f (ObjectD.of (load mergeW lg m) true) prog) (.ok (replies, o)) ∧
      List.Forall₂ (fun (x : Net × Stmt) r => Session.Right mergeW true x.1 x.2 r) (moments mergeW N prog) replies := by
  obtain ⟨N, h1, h2⟩ := dem_stands mergeW lg m (fun e he => (hp e he).1) hn
  exact ⟨N, h1, fun prog h => program_core (W := unbounded) mergeW prog _ _ _ _ _ h2 h fun x _ => Session.works_of x.1 x.2⟩

/-- C75 for the library as compiled, with its 32-bit wrapped radius. -/
theorem C75_program_int32 : ∃ N, demNet mergeW lg m = some N ∧ ∀ prog, ProperProgram mergeW N False prog → (∀ x ∈ moments mergeW N prog, Session.Asks x.2 → x.1.Small) →
    ∃ replies o, Completes (fun f => Session.run (W := int32) mergeW f (ObjectD.of (load mergeW lg m) true) prog) (.ok (replies, o)) ∧
      List.Forall₂ (fun (x : Net × Stmt) r => Session.Right mergeW true x.1 x.2 r) (moments mergeW N prog) replies := by
  obtain ⟨N, h1, h2⟩ := dem_stands mergeW lg m (fun e he => (hp e he).1) hn
  exact ⟨N, h1, fun prog h hs => program_core (W := int32) mergeW prog _ _ _ _ _ h2 h fun x hx => Session.works_small (hs x hx)⟩

end

/-! ## Specification: only questions -/

section
variable (m : Model ℚ)

/-- The errors can happen, and they flip exactly the detectors with an event. -/
def Explain (F : Happened (real m)) (fires : Nat → Prop) : Prop := 0 < chance (real m) F ∧ ∀ d, fires d ↔ flips (real m) F d % 2 = 1

/-- The errors explain the events, and no other errors are more likely, up to a factor for the precision of the arithmetic. -/
def LikelyErrors (δ : ℝ) (u : ℚ) (F : Happened (real m)) (fires : Nat → Prop) : Prop :=
  Explain m F fires ∧ ∀ F' : Happened (real m), Explain m F' fires → likelihood (real m) (pattern (exact m) F') ≤ likelihood (real m) (pattern (exact m) F) *
    Real.exp (slack m ((1 / 2 + 1 / 2 ^ 27) * u) δ (pattern (exact m) F) + slack m ((1 / 2 + 1 / 2 ^ 27) * u) δ (pattern (exact m) F'))

/-- The weight of errors. -/
noncomputable def weightOf (F : Happened (real m)) : ℝ := Real.log (likelihood (real m) (∅ : Choice (exact m)) / likelihood (real m) (pattern (exact m) F))

/-- The returned weight is that of the errors, up to the precision of the arithmetic. -/
def Weighs (δ : ℝ) (u : ℚ) (F : Happened (real m)) (x : Double) : Prop :=
  ∃ q, x = .num q ∧ |(q : ℝ) - weightOf m F| ≤ slack m ((1 / 2 + 1 / 2 ^ 25) * u) δ (pattern (exact m) F) + 1 / 2 ^ 1074

/-- The row of predictions tells which of the numbers are odd; `packed`: in one bit each. -/
def Agrees (packed : Bool) (numObs : Nat) (out : List (BitVec 8)) (n : Nat → Nat) : Prop :=
  if packed then out.length = (numObs + 7) / 8 ∧ ∀ k, k < 8 * out.length → ∃ b, out[k / 8]? = some b ∧ (b.getLsbD (k % 8) = true ↔ k < numObs ∧ n k % 2 = 1)
  else Predicts numObs out n

/-- The row tells which observables are flipped: by the edges that the errors use; and by the errors themselves, if errors with the same detectors flip the same observables. -/
def Tells (packed : Bool) (F : Happened (real m)) (out : List (BitVec 8)) : Prop :=
  Agrees packed m.numObs out (crossed (pattern (exact m) F)) ∧ (Consistent (real m) → Agrees packed m.numObs out (flipsObs (real m) F))

/-- The two ends of an error: its detectors, or its detector and the boundary `none`. -/
def endsOf (e : Err ℝ) : Option (Sym2 (Option Nat)) :=
  match components e with
  | [([a], _)] => some s(some a, none)
  | [([a, b], _)] => some s(some a, some b)
  | _ => none

/-- The array lists the pairs of ends that an odd number of the errors have, each pair once. -/
def Lists (F : Happened (real m)) (es : List (Nat × Option Nat)) : Prop :=
  (es.map fun e => s(some e.1, e.2)).Nodup ∧ ∀ z, z ∈ es.map (fun e => s(some e.1, e.2)) ↔ ¬ z.IsDiag ∧ (F.filter fun i => endsOf (real m).errors[i] = some z).card % 2 = 1

/-- The pairs contain every event once.  Each pair alone is explained by likely errors, and the weights of these add up to that of likely errors that explain all events, up to the
precision of the arithmetic. -/
structure Paired (δ : ℝ) (u : ℚ) (fires : Nat → Prop) (rows : List (Nat × Option Nat)) : Prop where
  once : (rows.flatMap Session.ends).Nodup
  all : ∀ x, x ∈ rows.flatMap Session.ends ↔ fires x
  each : ∃ D : Nat × Option Nat → Happened (real m), (∀ p ∈ rows, LikelyErrors m δ u (D p) (· ∈ Session.ends p)) ∧ ∃ F, LikelyErrors m δ u F fires ∧
    |weightOf m F - (rows.map fun p => weightOf m (D p)).sum| ≤ slack m ((1 / 2 + 1 / 2 ^ 27) * u) δ (pattern (exact m) F) +
      (rows.map fun p => slack m ((1 / 2 + 1 / 2 ^ 27) * u) δ (pattern (exact m) (D p))).sum

/-- The array has one entry per detector. -/
def Shape : Syn.Arr → Prop
  | .d1 z => z.length = m.numDets
  | .d2 r c _ => r * c = m.numDets
  | .other => False

/-- The number of columns of an array of shots: one per detector; or one per eight of them, if the shots are packed. -/
def ShotsFit (packed : Bool) (cols : Nat) : Prop := cols = if packed then (m.numDets + 7) / 8 else m.numDets

/-- A statement that does not modify the object.  Shots of a fitting number of columns have no events beyond the last detector. -/
def Use : Stmt → Prop
  | .decode _ _ corr | .decodeToEdgesArray _ corr => corr = false
  | .matchedArray _ | .matchedDict _ | .look _ => True
  | .decodeBatch ps _ _ corr cols rows => corr = false ∧ (ShotsFit m ps cols → ∀ row ∈ rows, ∀ x, Session.ShotFires ps row x → x < m.numDets)
  | _ => False

/-- What the statement should reply; `neg`: some weight is negative. -/
def Reports (δ : ℝ) (u : ℚ) (neg : Prop) : Stmt → Reply → Prop
  | .decode z rw _, r =>
    (Shape m z ∧ ∃ F row x, LikelyErrors m δ u F (Session.Fires z) ∧ Tells m false F row ∧ Weighs m δ u F x ∧ r = if rw then .pair row x else .array row) ∨
    (r = .raised ∧ (Shape m z → ∀ F, ¬ Explain m F (Session.Fires z)))
  | .decodeBatch ps pp rw _ cols rows, r =>
    (ShotsFit m ps cols ∧ ∃ outs ws, outs.length = rows.length ∧ ws.length = rows.length ∧
      List.Forall₂ (fun row (y : List (BitVec 8) × Double) => ∃ F, LikelyErrors m δ u F (Session.ShotFires ps row) ∧ Tells m pp F y.1 ∧ Weighs m δ u F y.2) rows (outs.zip ws) ∧
      r = if rw then .rowsAndWeights outs ws else .rows outs) ∨
    (r = .raised ∧ (ShotsFit m ps cols → ∃ row ∈ rows, ∀ F, ¬ Explain m F (Session.ShotFires ps row)))
  | .decodeToEdgesArray z _, r =>
    (Shape m z ∧ ∃ F es, LikelyErrors m δ u F (Session.Fires z) ∧ Lists m F es ∧ r = .edges es) ∨ (r = .raised ∧ (Shape m z → ∀ F, ¬ Explain m F (Session.Fires z)))
  | .matchedArray z, r =>
    (Shape m z ∧ ∃ rows, Paired m δ u (Session.Fires z) rows ∧ r = .pairs (rows.map Session.rowOf)) ∨ (r = .raised ∧ (Shape m z → neg ∨ ∀ F, ¬ Explain m F (Session.Fires z)))
  | .matchedDict z, r =>
    (Shape m z ∧ ∃ rows d, Paired m δ u (Session.Fires z) rows ∧ Session.Mates rows d ∧ r = .mates d) ∨
    (r = .raised ∧ (Shape m z → neg ∨ ∀ F, ¬ Explain m F (Session.Fires z)))
  | .look .numDetectors, r => r = .number m.numDets
  | .look .numNodes, r => r = .number m.numDets
  | .look .numFaultIds, r => r = .number m.numObs
  | .look .boundary, r => r = .nodes ∅
  | _, _ => True

end

/-! ## Lemmas: only questions -/

theorem agrees_in {numObs : Nat} {n : Nat → Nat} {row out : List (BitVec 8)} {pp : Bool} (h : Predicts numObs row n) (hs : Stored pp row out) : Agrees pp numObs out n := by
  cases pp
  · rw [show out = row from hs]
    exact h
  · have hbits : ObsMask.IsBits row := by
      intro b hb
      obtain ⟨k, hk, rfl⟩ := List.getElem_of_mem hb
      have := h.2 k (h.1 ▸ hk)
      rw [List.getElem?_eq_getElem hk, Option.some_inj] at this
      rw [this]
      split
      · exact .inr rfl
      · exact .inl rfl
    obtain ⟨out', h1, h2, h3⟩ := ObsMask.C34_packed_predictions row hbits
    have e : Obs.packRow row = some out := hs
    rw [h1, Option.some_inj] at e
    subst e
    refine ⟨by rw [h2, h.1], fun k hk => ?_⟩
    obtain ⟨b, hb, hiff⟩ := h3 k hk
    refine ⟨b, hb, hiff.trans ?_⟩
    by_cases hlt : k < numObs
    · rw [h.2 k hlt]
      by_cases ho : n k % 2 = 1
      · simp [hlt, ho]
      · simp [ho]
    · rw [List.getElem?_eq_none (by rw [h.1]; omega)]
      simp [hlt]

section
variable {m : Model ℚ} {mw : ℚ → ℚ → ℚ} {lg : ℚ → ℚ} {B δ : ℝ} (hv : Valid (real m)) (hgl : Graphlike (real m)) (hp : Precise m mw lg B δ)
include hv hgl hp

theorem likely_for {u : ℚ} {fires : Nat → Prop} {events : List Nat} (he : ∀ x, x ∈ events ↔ fires x) {C : Choice (load mw lg m)} (hgood : Good u events C) :
    ∃ F, LikelyErrors m δ u F fires ∧ (pattern (exact m) F = LikelihoodD.over (LikelihoodD.par_valid hv hp) C ∧
      |((trueWeight C : ℚ) : ℝ) - weightOf m F| ≤ δ * ∑ j ∈ pattern (exact m) F, (2 * (LikelihoodD.shares (real m) (exact m).edges[j] : ℝ) - 1)) ∧
      (∀ row, Says C row → ∀ pp out, Stored pp row out → Tells m pp F out) ∧ ∀ x, CloseTo u C x → Weighs m δ u F x := by
  obtain ⟨F, h0, h1, h2, h3, h4, h5⟩ := LikelihoodD.errors_for hv hgl hp hgood
  refine ⟨F, ⟨⟨h1, fun d => (he d).symm.trans (h2 d)⟩, fun F' hF' => h3 F' hF'.1 fun d => (he d).trans (hF'.2 d)⟩, h0, fun row hr pp out ho => ?_, h5⟩
  exact ⟨agrees_in (h4 row hr).1 ho, fun hc => agrees_in ((h4 row hr).2 hc) ho⟩

theorem none_for {fires : Nat → Prop} {events : List Nat} (he : ∀ x, x ∈ events ↔ fires x) (hno : ∀ C : Choice (load mw lg m), ¬ Explains C events) (F : Happened (real m)) :
    ¬ Explain m F fires := fun h => LikelihoodD.no_errors hv hgl hp hno F h.1 fun d => (he d).trans (h.2 d)

omit hv hp in
theorem belongs_ends {i : Fin (real m).errors.length} (h0 : (real m).errors[i].p ≠ 0) (x : UEdge ℝ) :
    belongs (real m).errors[i] x ↔ endsOf (real m).errors[i] = some s(some x.node1, x.node2) := by
  obtain ⟨c, hc, hlen⟩ := hgl _ (List.getElem_mem i.2) h0
  have hc' : components (real m).errors[i] = [c] := hc
  rw [belongs_iff hc']
  obtain ⟨ds, os⟩ := c
  unfold endsOf
  rw [hc']
  match ds with
  | [] => simp at hlen
  | [a] => simp only [Dem.connects, DemCorr.same_sym, Option.some_inj]; exact eq_comm
  | [a, b] => simp only [Dem.connects, DemCorr.same_sym, Option.some_inj]; exact eq_comm
  | _ :: _ :: _ :: _ => simp at hlen

theorem lists_of {C : Choice (load mw lg m)} {F : Happened (real m)} (hF : 0 < chance (real m) F) (hpat : pattern (exact m) F = LikelihoodD.over (LikelihoodD.par_valid hv hp) C)
    {es : List (Nat × Option Nat)} (h : Returned es C) : Lists m F es := by
  have hpar := LikelihoodD.par_valid hv hp
  have hs := start (real m) hv
  have hb : (load mw lg m).boundary = ∅ := by rw [hpar.boundary, hs.bnd]
  have hseen : ∀ e : UEdge ℚ, seenAs (load mw lg m) e = s(some e.node1, e.node2) := by
    intro e
    unfold seenAs
    rw [hb]
    cases e.node2 <;> simp
  have hin : ∀ j : Fin (load mw lg m).edges.length, j ∈ C ↔
      (F.filter fun i => endsOf (real m).errors[i] = some (seenAs (load mw lg m) (load mw lg m).edges[j])).card % 2 = 1 := by
    intro j
    have h1 : j ∈ C ↔ finCongr hpar.len j ∈ pattern (exact m) F := by
      rw [hpat]
      unfold LikelihoodD.over
      rw [Finset.mem_map_equiv]
      simp
    rw [h1]
    unfold pattern
    rw [Finset.mem_filter]
    simp only [Finset.mem_univ, true_and]
    have hj' : j.1 < (exact m).edges.length := hpar.len ▸ j.2
    have hk := hpar.edge j.1 j.2 hj'
    have hfil : (F.filter fun i => belongs (real m).errors[i] (exact m).edges[finCongr hpar.len j]) =
        F.filter fun i => endsOf (real m).errors[i] = some (seenAs (load mw lg m) (load mw lg m).edges[j]) := Finset.filter_congr fun i hi => ?_
    · have hcard := congrArg (fun S : Finset _ => S.card % 2 = 1) hfil
      exact iff_of_eq hcard
    rw [belongs_ends hgl (possible hF.ne' i hi), hseen]
    show _ = some s(some (exact m).edges[j.1].node1, (exact m).edges[j.1].node2) ↔ _ = some s(some (load mw lg m).edges[j.1].node1, (load mw lg m).edges[j.1].node2)
    rw [hk.node1, hk.node2]
  refine ⟨h.1, fun z => (h.2 z).trans ?_⟩
  constructor
  · rintro ⟨j, hj, hd, rfl⟩
    exact ⟨hd, (hin j).1 hj⟩
  · rintro ⟨hd, hodd⟩
    have hne : (F.filter fun i => endsOf (real m).errors[i] = some z).Nonempty := by
      rw [← Finset.card_pos]
      omega
    obtain ⟨i, hi⟩ := hne
    rw [Finset.mem_filter] at hi
    have h0 := possible hF.ne' i hi.1
    obtain ⟨j, hj⟩ := belongs_exists hs hgl h0
    rw [belongs_ends hgl h0, hi.2, Option.some_inj] at hj
    have hlt : j.1 < (load mw lg m).edges.length := by have := j.2; rw [hpar.len]; exact this
    have hk := hpar.edge j.1 hlt j.2
    have hz : seenAs (load mw lg m) (load mw lg m).edges[j.1] = z := by
      rw [hseen, hk.node1, hk.node2, hj]
      rfl
    exact ⟨⟨j.1, hlt⟩, (hin _).2 (by show (F.filter fun i => endsOf (real m).errors[i] = some (seenAs (load mw lg m) (load mw lg m).edges[j.1])).card % 2 = 1; rw [hz]; exact hodd),
      by show ¬ (seenAs (load mw lg m) (load mw lg m).edges[j.1]).IsDiag; rw [hz]; exact hd, hz⟩

theorem paired_of {u : ℚ} {fires : Nat → Prop} {events : List Nat} (he : ∀ x, x ∈ events ↔ fires x) {ps : List CE.CompressedEdge}
    (h : PairsD.MatchedD (load mw lg m) u events ps) : Paired m δ u fires (ps.map Session.pairOf) := by
  classical
  have hpar := LikelihoodD.par_valid hv hp
  have hs := start (real m) hv
  have hb : (load mw lg m).boundary = ∅ := by rw [hpar.boundary, hs.bnd]
  obtain ⟨h1, h2, h3, D, hD, C, hC, hs1, -⟩ := h
  have hflat := Session.flat_ends h3
  obtain ⟨F, hF, ⟨hF1, hF2⟩, -⟩ := likely_for hv hgl hp he hC
  have hall : ∀ e ∈ ps, ∃ F, LikelyErrors m δ u F (· ∈ Session.ends (Session.pairOf e)) ∧ (pattern (exact m) F).card = (D e).card ∧
      |((trueWeight (D e) : ℚ) : ℝ) - weightOf m F| ≤ δ * ∑ j ∈ pattern (exact m) F, (2 * (LikelihoodD.shares (real m) (exact m).edges[j] : ℝ) - 1) := by
    intro e hee
    obtain ⟨F, k1, ⟨k2, k3⟩, -⟩ := likely_for hv hgl hp (fires := (· ∈ Session.ends (Session.pairOf e))) (fun x => by rw [Session.ends_of (h3 e hee)]) (hD e hee)
    exact ⟨F, k1, by rw [k2, LikelihoodD.over_card], k3⟩
  choose! G hG1 hG2 hG3 using hall
  have hP : ∃ E : Nat × Option Nat → Happened (real m), ∀ e ∈ ps, E (Session.pairOf e) = G e := by
    refine ⟨fun p => if hp : ∃ e ∈ ps, Session.pairOf e = p then G hp.choose else ∅, fun e he => ?_⟩
    have hp : ∃ e' ∈ ps, Session.pairOf e' = Session.pairOf e := ⟨e, he, rfl⟩
    simp only
    rw [dif_pos hp, Session.same_row h3 h1 hp.choose_spec.1 he hp.choose_spec.2]
  obtain ⟨E, hE⟩ := hP
  refine ⟨by rw [hflat]; exact h1, fun x => ?_, E, ?_, F, hF, ?_⟩
  · rw [hflat, h2 x, hb, he]
    simp
  · intro p hp
    obtain ⟨e, hee, rfl⟩ := List.mem_map.1 hp
    rw [hE e hee]
    exact hG1 e hee
  · have m1 : ((ps.map Session.pairOf).map fun p => weightOf m (E p)) = ps.map fun e => weightOf m (G e) := by
      rw [List.map_map]
      exact List.map_congr_left fun e he => by simp only [Function.comp, hE e he]
    have m2 : ((ps.map Session.pairOf).map fun p => slack m ((1 / 2 + 1 / 2 ^ 27) * u) δ (pattern (exact m) (E p))) =
        ps.map fun e => slack m ((1 / 2 + 1 / 2 ^ 27) * u) δ (pattern (exact m) (G e)) := by
      rw [List.map_map]
      exact List.map_congr_left fun e he => by simp only [Function.comp, hE e he]
    rw [m1, m2]
    have hsum : ∀ l : List CE.CompressedEdge, (∀ e ∈ l, e ∈ ps) →
        |(((l.map fun e => trueWeight (D e)).sum : ℚ) : ℝ) - (l.map fun e => weightOf m (G e)).sum| + ((l.map fun e => (D e).card).sum : ℕ) * ((1 / 2 + 1 / 2 ^ 27) * u) ≤
          (l.map fun e => slack m ((1 / 2 + 1 / 2 ^ 27) * u) δ (pattern (exact m) (G e))).sum := by
      intro l
      induction l with
      | nil => intro _; simp
      | cons e l ih =>
        intro hl
        have ih := ih fun e he => hl e (by simp [he])
        have h3 := hG3 e (hl e (by simp))
        simp only [List.map_cons, List.sum_cons]
        push_cast at ih ⊢
        have hsl : slack m ((1 / 2 + 1 / 2 ^ 27) * u) δ (pattern (exact m) (G e)) = (D e).card * ((1 / 2 + 1 / 2 ^ 27) * u) +
            δ * ∑ j ∈ pattern (exact m) (G e), (2 * (LikelihoodD.shares (real m) (exact m).edges[j] : ℝ) - 1) := by
          unfold slack
          rw [hG2 e (hl e (by simp))]
        rw [hsl]
        have habs : |((trueWeight (D e) : ℚ) : ℝ) + ((l.map fun e => trueWeight (D e)).sum : ℚ) - (weightOf m (G e) + (l.map fun e => weightOf m (G e)).sum)| ≤
            |((trueWeight (D e) : ℚ) : ℝ) - weightOf m (G e)| + |(((l.map fun e => trueWeight (D e)).sum : ℚ) : ℝ) - (l.map fun e => weightOf m (G e)).sum| := by
          refine le_trans (le_of_eq ?_) (abs_add_le _ _)
          congr 1
          ring
        push_cast at habs
        linarith
    have hsum := hsum ps fun _ h => h
    generalize (ps.map fun e => trueWeight (D e)).sum = S at hsum hs1
    generalize (ps.map fun e => (D e).card).sum = n at hsum hs1
    have hs1 := (Rat.cast_le (K := ℝ)).2 hs1
    push_cast at hs1
    have hslF : slack m ((1 / 2 + 1 / 2 ^ 27) * u) δ (pattern (exact m) F) = C.card * ((1 / 2 + 1 / 2 ^ 27) * u) +
        δ * ∑ j ∈ pattern (exact m) F, (2 * (LikelihoodD.shares (real m) (exact m).edges[j] : ℝ) - 1) := by
      unfold slack
      rw [hF1, LikelihoodD.over_card]
    rw [hslF]
    rw [abs_sub_comm] at hF2
    have h4 := abs_sub_le (weightOf m F) ((trueWeight C : ℚ) : ℝ) (ps.map fun e => weightOf m (G e)).sum
    have h5 := abs_sub_le ((trueWeight C : ℚ) : ℝ) (S : ℝ) (ps.map fun e => weightOf m (G e)).sum
    linarith

end

/-! ## Lemmas: the object -/

section
variable {m : Model ℚ} {mw : ℚ → ℚ → ℚ} {lg : ℚ → ℚ} {B δ : ℝ} (hv : Valid (real m)) (hgl : Graphlike (real m)) (hp : Precise m mw lg B δ) (hB : B ≤ 2 ^ 24 - 1)
  (hsz : size m < 2 ^ 38) (ht : NotTiny (load mw lg m))
include hv hp hB ht

theorem dem_first [W : Width] (hone : Able (load mw lg m)) {o : ObjectD} (hi : InvD (load mw lg m) true o) {q : Query} (ha : correlations q = false)
    (hq : ∀ c, Fits (intGraph c (load mw lg m)) true q) :
    ∃ a o', Completes (fun f => o.ask f q) (.ok (a, o')) ∧ InvD (load mw lg m) true o' ∧ FirstAnswer (load mw lg m) true q a := by
  have hpar := LikelihoodD.par_valid hv hp
  have hs := start (real m) hv
  have hu := LikelihoodD.usable_load hv hp hB ht
  have hcov := LikelihoodD.par_covered hpar (covered hs hv)
  have hpl : ∀ e ∈ (load mw lg m).edges, e.implied = [] := fun e he => by
    obtain ⟨e', -, k⟩ := LikelihoodD.par_edge hpar he
    exact k.plain
  have hA : AskableD (load mw lg m) true q := ⟨hu, C65_builds hpar.wfd hpar.bndOk hcov hu hpl true, hcov, fun c _ => hq c, fun h => by rw [ha] at h; cases h⟩
  obtain ⟨k, c, h⟩ := const_of hA.usable.rules hA.usable.le hA.usable.big
  obtain ⟨a, o1, c1, hi1, hfr, hfr'⟩ := askD_one hpar.wfd hpar.bndOk hcov h hA.builds (hone _ q hA k c h) hi
  exact ⟨_, o1, c1, hi1, ask_int hpar.wfd hpar.bndOk hcov h hA.builds hfr, k, c, a, h, askable_int hA h, hfr', rfl⟩

omit hB ht in
theorem dem_noGain : NoGain (load mw lg m) := by
  have hpar := LikelihoodD.par_valid hv hp
  have hs := start (real m) hv
  exact LikelihoodD.noGain' hpar.wfd (by rw [hpar.boundary, hs.bnd])

include hsz in
theorem dem_asks [W : Width] (hone : Able (load mw lg m)) {o : ObjectD} (hi : InvD (load mw lg m) true o) {q : Query} (ha : About false q)
    (hq : ∀ c, Fits (intGraph c (load mw lg m)) true q) :
    ∃ a o', Completes (fun f => o.ask f q) (.ok (a, o')) ∧ InvD (load mw lg m) true o' ∧ ∃ u, Step (load mw lg m) u ∧ MeansD (load mw lg m) u q a := by
  have hpar := LikelihoodD.par_valid hv hp
  obtain ⟨a, o1, c1, h1, h2⟩ := dem_first hv hp hB ht hone hi (q := q) (by cases q <;> first | exact ha | cases ha) hq
  exact ⟨a, o1, c1, h1, means_first hpar.wfd hpar.bndOk h2 ha (dem_noGain hv hp) (lt_of_le_of_lt hpar.few hsz)⟩

omit hB ht in
theorem dem_counts : (load mw lg m).nodes.length = m.numDets ∧ (load mw lg m).boundary = ∅ ∧ (load mw lg m).numObs = m.numObs ∧ (load mw lg m).numDetectors = m.numDets := by
  have hpar := LikelihoodD.par_valid hv hp
  have hs := start (real m) hv
  have h1 : (load mw lg m).nodes.length = m.numDets := by rw [hpar.nodes, hs.nodes]; rfl
  have h2 : (load mw lg m).boundary = ∅ := by rw [hpar.boundary, hs.bnd]
  refine ⟨h1, h2, by rw [hpar.numObs, hs.numObs]; rfl, ?_⟩
  unfold UGraph.numDetectors
  rw [h1, h2]
  simp

omit hB ht in
theorem shape_iff (z : Syn.Arr) : Session.Shaped (netOf (load mw lg m)) z ↔ Shape m z := by
  obtain ⟨h1, h2, -, -⟩ := dem_counts hv hp
  cases z with
  | d1 z =>
    simp only [Session.Shaped, Shape, Net.detectors, netOf, h1, h2, Finset.card_empty]
    omega
  | d2 r c z => simp [Session.Shaped, Shape, Net.detectors, netOf, h1, h2]
  | other => rfl

omit hB ht in
theorem fit_iff (ps : Bool) (cols : Nat) : Obs.shapeOk ps cols (load mw lg m).numDetectors (load mw lg m).nodes.length = true ↔ ShotsFit m ps cols := by
  obtain ⟨h1, -, -, h2⟩ := dem_counts hv hp
  rw [h1, h2]
  unfold ShotsFit Obs.shapeOk
  cases ps <;> simp [Obs.numBytes, Obs.shiftRight3] <;> omega

omit hv hp hB ht in
theorem step_exists (g : UGraph ℚ) : ∃ u, Step g u := by
  by_cases h : ∀ w ∈ allWeights g, IsInt w
  · exact ⟨1, .inl ⟨h, rfl⟩⟩
  · push Not at h
    obtain ⟨w, hw, hi⟩ := h
    obtain ⟨x, hx, hm⟩ := (allWeights g).toFinset.exists_max_image (fun w => |w|) ⟨w, List.mem_toFinset.2 hw⟩
    exact ⟨_, .inr ⟨⟨w, hw, hi⟩, x, List.mem_toFinset.1 hx, fun y hy => hm y (List.mem_toFinset.2 hy), rfl⟩⟩

omit hv hp hB ht in
theorem step_unique {g : UGraph ℚ} {u u' : ℚ} (h : Step g u) (h' : Step g u') : u = u' := by
  rcases h with ⟨h1, rfl⟩ | ⟨⟨w, h1, h2⟩, x, h3, h4, rfl⟩ <;> rcases h' with ⟨k1, rfl⟩ | ⟨⟨w', k1, k2⟩, x', k3, k4, rfl⟩
  · rfl
  · exact absurd (h1 _ k1) k2
  · exact absurd (k1 _ h1) h2
  · rw [le_antisymm (h4 x' k3) (k4 x h3)]

include hgl hsz in
theorem reports_of [W : Width] (mergeW : ℚ → ℚ → ℚ) (hone : Able (load mw lg m)) {u : ℚ} (hu : Step (load mw lg m) u) {o : ObjectD} (hi : InvD (load mw lg m) true o) {s : Stmt}
    (hs : Use m s) : ∃ r o', Completes (fun f => Session.exec mergeW f o s) (.ok (r, o')) ∧ InvD (load mw lg m) true o' ∧
      Reports m δ u (∃ e ∈ (load mw lg m).edges, e.weight < 0) s r := by
  have hpar := LikelihoodD.par_valid hv hp
  obtain ⟨n1, n2, n3, n4⟩ := dem_counts hv hp
  have hdet : o.graph.numDetectors = (load mw lg m).numDetectors ∧ o.graph.boundary = (load mw lg m).boundary ∧ o.graph.nodes.length = (load mw lg m).nodes.length ∧
      o.graph.numObs = (load mw lg m).numObs := by
    obtain ⟨b, e⟩ := hi.same
    rw [e]
    exact ⟨rfl, rfl, rfl, rfl⟩
  obtain ⟨hdet, hbd, hnodes, hobs⟩ := hdet
  cases s with
  | decode z rw corr =>
    obtain rfl : corr = false := hs
    simp only [Session.exec, hdet, hbd]
    rcases Session.shaped_iff hpar.bndOk z with ⟨h1, h2⟩ | ⟨events, h1, h2, h3, h4⟩
    · rw [h1]
      exact ⟨_, o, ⟨0, fun f _ => rfl⟩, hi, .inr ⟨rfl, fun h => absurd ((shape_iff hv hp z).2 h) h2⟩⟩
    · obtain ⟨a, o', c1, hi', u', hu', hM⟩ := dem_asks hv hp hB hsz ht hone hi (q := .decode false events) rfl fun _ => h3
      obtain rfl := step_unique hu hu'
      rw [h1]
      refine ⟨_, o', Session.completes_ask c1 rw, hi', ?_⟩
      rcases hM with ⟨row, x, rfl, C, j1, j2, j3⟩ | ⟨rfl, hno⟩
      · obtain ⟨F, k1, -, k2, k3⟩ := likely_for hv hgl hp h4 j1
        exact .inl ⟨(shape_iff hv hp z).1 h2, F, row, x, k1, k2 row j2 false row rfl, k3 x j3, rfl⟩
      · exact .inr ⟨rfl, fun _ => none_for hv hgl hp h4 hno⟩
  | decodeToEdgesArray z corr =>
    obtain rfl : corr = false := hs
    simp only [Session.exec, hdet, hbd]
    rcases Session.shaped_iff hpar.bndOk z with ⟨h1, h2⟩ | ⟨events, h1, h2, h3, h4⟩
    · rw [h1]
      exact ⟨_, o, ⟨0, fun f _ => rfl⟩, hi, .inr ⟨rfl, fun h => absurd ((shape_iff hv hp z).2 h) h2⟩⟩
    · obtain ⟨a, o', c1, hi', u', hu', hM⟩ := dem_asks hv hp hB hsz ht hone hi (q := .edges false events) rfl fun _ => h3
      obtain rfl := step_unique hu hu'
      rw [h1]
      refine ⟨_, o', Session.completes_ask c1 false, hi', ?_⟩
      rcases hM with ⟨es, rfl, C, j1, j2⟩ | ⟨rfl, hno⟩
      · obtain ⟨F, k1, ⟨k2, -⟩, -⟩ := likely_for hv hgl hp h4 j1
        exact .inl ⟨(shape_iff hv hp z).1 h2, F, es, k1, lists_of hv hgl hp k1.1.1 k2 j2, rfl⟩
      · exact .inr ⟨rfl, fun _ => none_for hv hgl hp h4 hno⟩
  | matchedArray z =>
    simp only [Session.exec, hdet, hbd]
    rcases Session.shaped_iff hpar.bndOk z with ⟨h1, h2⟩ | ⟨events, h1, h2, h3, h4⟩
    · rw [h1]
      exact ⟨_, o, ⟨0, fun f _ => rfl⟩, hi, .inr ⟨rfl, fun h => absurd ((shape_iff hv hp z).2 h) h2⟩⟩
    · obtain ⟨a, o', c1, hi', hfa⟩ := dem_first hv hp hB ht hone hi (q := .pairs events) rfl fun _ => h3
      obtain ⟨u', hu', hM⟩ := PairsD.pairs_first hpar.wfd hpar.bndOk hfa (dem_noGain hv hp)
      obtain rfl := step_unique hu hu'
      rw [h1]
      rcases hM with ⟨ps, rfl, hM⟩ | ⟨rfl, hno⟩
      · refine ⟨_, o', Session.completes_pairs c1 (dict := false) (r := .pairs ((ps.map Session.pairOf).map Session.rowOf)) ?_, hi',
          .inl ⟨(shape_iff hv hp z).1 h2, _, paired_of hv hgl hp h4 hM, rfl⟩⟩
        simp [Session.pairsOf, Session.array_of hM.first]
      · exact ⟨_, o', Session.completes_pairs c1 (dict := false) rfl, hi', .inr ⟨rfl, fun _ => hno.imp_right (none_for hv hgl hp h4)⟩⟩
  | matchedDict z =>
    simp only [Session.exec, hdet, hbd]
    rcases Session.shaped_iff hpar.bndOk z with ⟨h1, h2⟩ | ⟨events, h1, h2, h3, h4⟩
    · rw [h1]
      exact ⟨_, o, ⟨0, fun f _ => rfl⟩, hi, .inr ⟨rfl, fun h => absurd ((shape_iff hv hp z).2 h) h2⟩⟩
    · obtain ⟨a, o', c1, hi', hfa⟩ := dem_first hv hp hB ht hone hi (q := .pairs events) rfl fun _ => h3
      obtain ⟨u', hu', hM⟩ := PairsD.pairs_first hpar.wfd hpar.bndOk hfa (dem_noGain hv hp)
      obtain rfl := step_unique hu hu'
      rw [h1]
      rcases hM with ⟨ps, rfl, hM⟩ | ⟨rfl, hno⟩
      · obtain ⟨d, k1, k2⟩ := Session.dict_of hM.first hM.once
        refine ⟨_, o', Session.completes_pairs c1 (dict := true) (r := .mates d) ?_, hi', .inl ⟨(shape_iff hv hp z).1 h2, _, d, paired_of hv hgl hp h4 hM, k2, rfl⟩⟩
        simp [Session.pairsOf, k1]
      · exact ⟨_, o', Session.completes_pairs c1 (dict := true) rfl, hi', .inr ⟨rfl, fun _ => hno.imp_right (none_for hv hgl hp h4)⟩⟩
  | decodeBatch ps pp rw corr cols rows =>
    obtain ⟨rfl, hs⟩ := hs
    simp only [Session.exec]
    by_cases hc : ShotsFit m ps cols
    · have hev : ∀ row ∈ rows, ∀ d ∈ readRow ps row, d < (load mw lg m).nodes.length := fun row hr d hd => by
        rw [n1]
        exact hs hc row hr d ((Session.fires_iff ps row d).1 hd)
      obtain ⟨a, o', c1, hi', u', hu', hM⟩ := dem_asks hv hp hB hsz ht hone hi (q := .batch ps pp false cols rows) rfl fun _ _ => hev
      obtain rfl := step_unique hu hu'
      refine ⟨_, o', Session.completes_ask c1 rw, hi', ?_⟩
      rcases hM with ⟨raws, outs, ws, rfl, k1, k2, k3, k4⟩ | ⟨rfl, hno⟩
      · refine .inl ⟨hc, outs, ws, by rw [← k1.length_eq, k2], k3, ?_, rfl⟩
        have hl := k1.length_eq
        rw [List.forall₂_iff_get] at k1 k4 ⊢
        refine ⟨by rw [k4.1]; simp [hl], fun i h1 h2 => ?_⟩
        have h2' : i < outs.length ∧ i < ws.length := by simpa using h2
        have h2'' : i < raws.length := hl ▸ h2'.1
        obtain ⟨C, j1, j2, j3⟩ := k4.2 i h1 (by simp [h2', h2''])
        obtain ⟨F, e1, -, e2, e3⟩ := likely_for hv hgl hp (Session.fires_iff ps _) j1
        simp only [List.get_eq_getElem, List.getElem_zip] at j2 j3 ⊢
        exact ⟨F, e1, e2 _ j2 pp _ (k1.2 i h2'' h2'.1), e3 _ j3⟩
      · refine .inr ⟨rfl, fun _ => ?_⟩
        rcases hno with h | ⟨row, hr, h⟩
        · rw [(fit_iff hv hp ps cols).2 hc] at h; cases h
        · exact ⟨row, hr, none_for hv hgl hp (Session.fires_iff ps row) h⟩
    · refine ⟨.raised, o, ⟨0, fun f _ => ?_⟩, hi, .inr ⟨rfl, fun h => absurd h hc⟩⟩
      have hr : refuses o.graph (.batch ps pp false cols rows) = true := by
        simp only [refuses, hdet, hnodes]
        simpa using fun h => hc ((fit_iff hv hp ps cols).1 h)
      simp only [Session.ask, ObjectD.ask, hr, if_true]
      rfl
  | look l =>
    refine ⟨Session.look o.graph l, o, ⟨0, fun f _ => rfl⟩, hi, ?_⟩
    cases l <;> first | trivial | skip
    · show Reply.nodes _ = _
      rw [hbd, n2]
    · show Reply.number _ = _
      rw [hobs, n3]
    · show Reply.number _ = _
      rw [hnodes, n1]
    · show Reply.number _ = _
      rw [hdet, n4]
  | _ => exact absurd hs id

include hgl hsz in
theorem uses_core [W : Width] (mergeW : ℚ → ℚ → ℚ) (hone : Able (load mw lg m)) {u : ℚ} (hu : Step (load mw lg m) u) : ∀ (prog : List Stmt) (o : ObjectD),
    InvD (load mw lg m) true o → (∀ s ∈ prog, Use m s) →
    ∃ rs o', Completes (fun f => Session.run mergeW f o prog) (.ok (rs, o')) ∧ List.Forall₂ (Reports m δ u (∃ e ∈ (load mw lg m).edges, e.weight < 0)) prog rs := by
  intro prog
  induction prog with
  | nil => intro o _ _; exact ⟨[], o, ⟨0, fun f _ => rfl⟩, .nil⟩
  | cons s prog ih =>
    intro o hi hpr
    obtain ⟨r, o1, ⟨f1, h1⟩, hi1, hr⟩ := reports_of hv hgl hp hB hsz ht mergeW hone hu hi (hpr s (by simp))
    obtain ⟨rs, o2, ⟨f2, h2⟩, hrs⟩ := ih o1 hi1 fun s hs => hpr s (by simp [hs])
    refine ⟨r :: rs, o2, ⟨max f1 f2, fun f hf => ?_⟩, .cons hr hrs⟩
    have e1 := h1 f (by omega)
    have e2 := h2 f (by omega)
    simp only at e1 e2
    simp only [Session.run, e1, e2]
    rfl

end

/-! ## Theorems: only questions -/

section
variable (m : Model ℚ) (hv : Valid (real m)) (hgl : Graphlike (real m)) (mw : ℚ → ℚ → ℚ) (lg : ℚ → ℚ) (B δ : ℝ) (hp : Precise m mw lg B δ) (hB : B ≤ 2 ^ 24 - 1)
  (hsz : size m < 2 ^ 38) (ht : NotTiny (load mw lg m))
include hv hgl hp hB hsz ht

/-- C76: `Matching.from_detector_error_model(model)`, and then any sequence of statements that do not modify the object.  Each reply is right, in terms of the errors of the model and
their probabilities, and whatever was asked before. -/
theorem C76_questions : ∃ u, Step (load mw lg m) u ∧ ∀ prog : List Stmt, (∀ s ∈ prog, Use m s) →
    ∃ replies o, Completes (fun f => Session.run mw f (ObjectD.of (load mw lg m) true) prog) (.ok (replies, o)) ∧
      List.Forall₂ (Reports m δ u (∃ e ∈ (load mw lg m).edges, e.weight < 0)) prog replies := by
  have hpar := LikelihoodD.par_valid hv hp
  obtain ⟨u, hu⟩ := step_exists (load mw lg m)
  refine ⟨u, hu, fun prog hprog => ?_⟩
  exact uses_core (W := unbounded) hv hgl hp hB hsz ht mw (MatrixSession.able_of hpar.wfd hpar.bndOk) hu prog _ (invD_of _ true) hprog

/-- C76 for the library as compiled, with its 32-bit wrapped radius. -/
theorem C76_questions_int32 (hnear : NearD (load mw lg m)) : ∃ u, Step (load mw lg m) u ∧ ∀ prog : List Stmt, (∀ s ∈ prog, Use m s) →
    ∃ replies o, Completes (fun f => Session.run (W := int32) mw f (ObjectD.of (load mw lg m) true) prog) (.ok (replies, o)) ∧
      List.Forall₂ (Reports m δ u (∃ e ∈ (load mw lg m).edges, e.weight < 0)) prog replies := by
  have hpar := LikelihoodD.par_valid hv hp
  obtain ⟨u, hu⟩ := step_exists (load mw lg m)
  refine ⟨u, hu, fun prog hprog => ?_⟩
  exact uses_core (W := int32) hv hgl hp hB hsz ht mw (MatrixSession.able_near hpar.wfd hpar.bndOk fun k c hk => hnear c hk.norm) hu prog _ (invD_of _ true) hprog

end

/-! ## Examples -/

/-- C75: the network of the sample of C70, with weights that make it easy to compute, and a proper program that goes on from there: the object is asked, looked at, extended and asked
again. -/
example : ∃ N, demNet (fun a _ => a) (fun p => if p = 1 / 10 then 2 else 1) Arithmetic.sampleD = some N ∧ ProperProgram (fun a _ => a) N False
    [.decode (.d1 [1, 1]) true false, .look .edges, .addEdge 1 2 { weight := .fin (-4), faultIds := .int 5 }, .decodeToEdgesArray (.d1 [1, 0, 1]) false] := by
  refine ⟨⟨2, [⟨0, none, {0}, 2, 1 / 10, ∅⟩, ⟨0, some 1, ∅, 1, 13 / 50, ∅⟩, ⟨1, none, ∅, 2, 1 / 10, ∅⟩], ∅, 1⟩, by decide +kernel, ?_⟩
  refine Session.proper_step (N' := ⟨2, [⟨0, none, {0}, 2, 1 / 10, ∅⟩, ⟨0, some 1, ∅, 1, 13 / 50, ∅⟩, ⟨1, none, ∅, 2, 1 / 10, ∅⟩], ∅, 1⟩) rfl
    (Session.ready_plain (Session.fine_of (by decide +kernel) (by decide +kernel) (by decide +kernel) (by decide +kernel) (by decide +kernel) (by decide +kernel) (by decide +kernel))) fun _ => ?_
  refine Session.proper_step (N' := ⟨2, [⟨0, none, {0}, 2, 1 / 10, ∅⟩, ⟨0, some 1, ∅, 1, 13 / 50, ∅⟩, ⟨1, none, ∅, 2, 1 / 10, ∅⟩], ∅, 1⟩) rfl trivial fun _ => ?_
  refine Session.proper_step (N' := ⟨3, [⟨0, none, {0}, 2, 1 / 10, ∅⟩, ⟨0, some 1, ∅, 1, 13 / 50, ∅⟩, ⟨1, none, ∅, 2, 1 / 10, ∅⟩, ⟨1, some 2, {5}, -4, -1, ∅⟩], ∅, 6⟩) (by decide +kernel)
    (fun h => by cases h) fun _ => ?_
  exact Session.proper_step (N' := ⟨3, [⟨0, none, {0}, 2, 1 / 10, ∅⟩, ⟨0, some 1, ∅, 1, 13 / 50, ∅⟩, ⟨1, none, ∅, 2, 1 / 10, ∅⟩, ⟨1, some 2, {5}, -4, -1, ∅⟩], ∅, 6⟩) rfl
    (Session.ready_plain (Session.fine_of (by decide +kernel) (by decide +kernel) (by decide +kernel) (by decide +kernel) (by decide +kernel) (by decide +kernel) (by decide +kernel))) fun _ => trivial

theorem sampleD_probs : ∀ e ∈ Arithmetic.sampleD.errors, 0 ≤ e.p ∧ e.p < 1 := by decide +kernel
theorem sampleD_nodup : ∀ e ∈ Arithmetic.sampleD.errors, ∀ c ∈ components e, c.2.Nodup := by decide +kernel

example := C75_program _ sampleD_probs sampleD_nodup
example := C75_program_int32 _ sampleD_probs sampleD_nodup

/-- C76: questions of all kinds about the sample, with arrays of right and wrong shapes. -/
def questions : List Stmt := [
  .decode (.d1 [1, 1]) true false,
  .decodeToEdgesArray (.d1 [1, 0]) false,
  .decodeBatch false true true false 2 [[0, 1], [1, 1]],
  .decodeBatch true false false false 1 [[0b10#8], [0b1#8]],
  .look .numDetectors,
  .decode (.d1 [1, 0, 1]) false false,
  .matchedDict (.d1 [1, 1]),
  .decodeBatch true false false false 3 [[255#8, 1, 2]]]

theorem questions_use : ∀ s ∈ questions, Use Arithmetic.sampleD s := by
  intro s hs
  simp only [questions, List.mem_cons, List.not_mem_nil, or_false] at hs
  rcases hs with rfl | rfl | rfl | rfl | rfl | rfl | rfl | rfl
  · rfl
  · rfl
  · have : ∀ row ∈ ([[0, 1], [1, 1]] : List (List (BitVec 8))), ∀ x ∈ readRow false row, x < 2 := by decide +kernel
    exact ⟨rfl, fun _ row hr x hx => this row hr x ((Session.fires_iff _ _ _).2 hx)⟩
  · have : ∀ row ∈ ([[0b10#8], [0b1#8]] : List (List (BitVec 8))), ∀ x ∈ readRow true row, x < 2 := by decide +kernel
    exact ⟨rfl, fun _ row hr x hx => this row hr x ((Session.fires_iff _ _ _).2 hx)⟩
  · trivial
  · rfl
  · trivial
  · exact ⟨rfl, fun h => absurd h (show ¬ 3 = (2 + 7) / 8 by decide)⟩

/-- The hypotheses of C76 hold for the sample and this program, with the formulas of the code. -/
example : ∃ ex ln u replies o, Double.Step (load (DemD.mergeD ex ln) (DemD.weightD ln) Arithmetic.sampleD) u ∧
    Completes (fun f => Session.run (DemD.mergeD ex ln) f (ObjectD.of (load (DemD.mergeD ex ln) (DemD.weightD ln) Arithmetic.sampleD) true) questions) (.ok (replies, o)) := by
  obtain ⟨ex, ln, h1, h2, h3, h4, h5, h6, h7, h8, h9⟩ := Arithmetic.sampleD_meets
  obtain ⟨u, hu, h⟩ := C76_questions _ h2 h3 _ _ _ _ h5 h6 h7 h8
  obtain ⟨rs, o, h, -⟩ := h questions questions_use
  obtain ⟨-, -, -⟩ := C76_questions_int32 _ h2 h3 _ _ _ _ h5 h6 h7 h8 h9
  exact ⟨ex, ln, u, rs, o, hu, h⟩

end Verif.Props.DemSession
