import Verif.Props.Session

/-!
# C91: questions leave no trace in programs
-/

namespace Verif.Props.Trace

open Verif Verif.SB Verif.UG Verif.Obj Verif.Dbl Verif.ConvD Verif.ObjD Verif.Session
open Verif.Props.UserEdges Verif.Props.UserGraph
open Verif.Props.Object Verif.Props.Double Verif.Props.DoubleHistory Verif.Props.Session
open Verif.Props.UserGraph (Call)
open Verif.Props.Edges (Completes completes_unique)
open Verif.Session (Stmt Look Reply EdgeArgs FaultIds run)
open Verif.Sch (Res)
open Verif.Api (strategyOf)

/-! ## Specification -/

/-- A statement that asks a question or looks at the object; all others build the graph. -/
def Idle (s : Stmt) : Prop := Asks s ∨ ∃ l, s = .look l

/-- The program of the statements that are marked. -/
def shorter (marked : List (Stmt × Bool)) : List Stmt := (marked.filter (·.2)).map (·.1)

/-- The replies to the statements that are marked. -/
def keptOf (marked : List (Stmt × Bool)) (replies : List Reply) : List Reply := ((marked.zip replies).filter (·.1.2)).map (·.2)

/-- The statement without `return_weight` or `return_weights`. -/
def plain : Stmt → Stmt
  | .decode z _ corr => .decode z false corr
  | .decodeBatch ps pp _ corr cols rows => .decodeBatch ps pp false corr cols rows
  | s => s

/-- The reply without its weights. -/
def bare : Reply → Reply
  | .pair row _ => .array row
  | .rowsAndWeights rows _ => .rows rows
  | r => r

/-- The row of predictions of `decode`, as `decode_batch` returns it: the same, or eight fault ids in a byte, the first in the lowest bit. -/
def Written (packed : Bool) (row out : List (BitVec 8)) : Prop :=
  if packed then out.length = (row.length + 7) / 8 ∧ ∀ k, k < 8 * out.length → ∃ b, out[k / 8]? = some b ∧ (b.getLsbD (k % 8) = true ↔ row[k]? = some 1) else out = row

/-! ## Lemmas: the flag of the graph -/

theorem but_symm {g g' : UGraph ℚ} (h : SameBut g g') : SameBut g' g := by
  obtain ⟨b, rfl⟩ := h
  exact ⟨g.needsUpdating, rfl⟩

theorem but_trans {g g' g'' : UGraph ℚ} (h : SameBut g g') (h' : SameBut g' g'') : SameBut g g'' := by
  obtain ⟨b, rfl⟩ := h
  obtain ⟨b', rfl⟩ := h'
  exact ⟨b', rfl⟩

theorem inv_but {g g' : UGraph ℚ} (h : SameBut g g') {wo : Bool} {o : ObjectD} (hi : InvD g wo o) : InvD g' wo o := by
  refine ⟨but_trans (but_symm h) hi.same, hi.wo, fun hf => ?_⟩
  obtain ⟨k, c, d, s, h1, h2, h3, h4⟩ := hi.ready hf
  obtain ⟨b, rfl⟩ := h
  refine ⟨k, c, d, s, ⟨h1.exact, h1.norm, h1.rep, h1.one, h1.small, h1.low, h1.near, h1.le, h1.ints⟩, h2, h3, ?_, h4.rest⟩
  exact (toMwpm_but (g := intGraph c g) (g' := intGraph c { g with needsUpdating := b }) ⟨b, rfl⟩ wo s).trans h4.built

theorem stands_but {g g' : UGraph ℚ} (h : SameBut g g') {N : Net} {wo : Bool} {asked : Prop} {o : ObjectD} (hs : Stands N wo asked g o) : Stands N wo asked g' o := by
  obtain ⟨n1, n2, n3⟩ := netOf_but h
  refine ⟨n3.2 hs.wf, ?_, n2.2 hs.clean, n1.trans hs.net, inv_but h hs.inv, hs.flag⟩
  obtain ⟨b, rfl⟩ := h
  exact hs.bnd

theorem stands_weak {g : UGraph ℚ} {N : Net} {wo : Bool} {asked asked' : Prop} {o : ObjectD} (hs : Stands N wo asked g o) (h : asked → asked') : Stands N wo asked' g o :=
  ⟨hs.wf, hs.bnd, hs.clean, hs.net, hs.inv, fun hf => h (hs.flag hf)⟩

/-! ## Lemmas: building -/

/-- The graph after a call, or after none. -/
def turned (mergeW : ℚ → ℚ → ℚ) (m : Option (Call ℚ)) (g : UGraph ℚ) : UGraph ℚ := m.elim g fun c => (UserGraph.exec mergeW g c).1

theorem turned_but (mergeW : ℚ → ℚ → ℚ) (m : Option (Call ℚ)) {g g' : UGraph ℚ} (h : SameBut g g') : SameBut (turned mergeW m g) (turned mergeW m g') := by
  cases m with
  | none => exact h
  | some c => exact exec_but mergeW h c

theorem checked_turned (mergeW : ℚ → ℚ → ℚ) (w : Api.Dbl ℚ) (strategy : String) (c : ℚ → Strategy → Call ℚ) :
    ∃ m, ∀ (o : ObjectD) r o', answerOf o (Api.checked o.graph w strategy fun x s => UserGraph.exec mergeW o.graph (c x s)) = some (r, o') → o'.graph = turned mergeW m o.graph := by
  unfold Api.checked
  by_cases h : Api.tooHeavy w = true
  · refine ⟨none, fun o r o' e => ?_⟩
    rw [if_pos h] at e
    cases e
    rfl
  · cases hs : strategyOf strategy with
    | none =>
      refine ⟨none, fun o r o' e => ?_⟩
      rw [if_neg h] at e
      cases e
      rfl
    | some s =>
      cases w with
      | fin x =>
        refine ⟨some (c x s), fun o r o' e => ?_⟩
        rw [if_neg h] at e
        simp only at e
        split at e <;> cases e <;> rfl
      | _ =>
        refine ⟨none, fun o r o' e => ?_⟩
        rw [if_neg h] at e
        cases e

/-- What a building statement does to the graph depends on the statement only. -/
theorem exec_turned [W : Width] (mergeW : ℚ → ℚ → ℚ) {s : Stmt} (hs : ¬ Idle s) :
    ∃ m, ∀ (o : ObjectD) f r o', Session.exec mergeW f o s = some (.ok (r, o')) → o'.graph = turned mergeW m o.graph := by
  have stay : ∀ {r o' f} {o : ObjectD}, Session.exec mergeW f o s = some (.ok (.raised, o)) → Session.exec mergeW f o s = some (.ok (r, o')) → o'.graph = turned mergeW none o.graph := by
    intro r o' f o h1 h2
    rw [h1] at h2
    cases h2
    rfl
  cases s with
  | addEdge u v a =>
    cases ho : oneOf a.faultIds a.qubitId with
    | none => exact ⟨none, fun o f r o' => stay (by simp [Session.exec, Session.addEdge, ho])⟩
    | some ids =>
      cases hz : toSizes (faultSet ids) with
      | none => exact ⟨none, fun o f r o' => stay (by simp [Session.exec, Session.addEdge, ho, hz])⟩
      | some obs =>
        by_cases hn : u < 0 ∨ v < 0
        · exact ⟨none, fun o f r o' => stay (by simp [Session.exec, Session.addEdge, ho, hz, Api.addEdge, if_pos hn, answerOf])⟩
        · obtain ⟨m, hm⟩ := checked_turned mergeW a.weight a.strategy fun x s => .add u.toNat (some v.toNat) obs x (a.prob.getD (-1)) s
          refine ⟨m, fun o f r o' e => hm o r o' ?_⟩
          simp only [Session.exec, Session.addEdge, ho, hz, Api.addEdge, if_neg hn, Option.map_eq_some_iff] at e
          obtain ⟨x, e1, e2⟩ := e
          cases e2
          exact e1
  | addBoundaryEdge u a =>
    cases hz : toSizes (faultSet a.faultIds) with
    | none => exact ⟨none, fun o f r o' => stay (by simp [Session.exec, Session.addBoundaryEdge, hz])⟩
    | some obs =>
      by_cases hn : u < 0
      · exact ⟨none, fun o f r o' => stay (by simp [Session.exec, Session.addBoundaryEdge, hz, Api.addBoundaryEdge, if_pos hn, answerOf])⟩
      · obtain ⟨m, hm⟩ := checked_turned mergeW a.weight a.strategy fun x s => .add u.toNat none obs x (a.prob.getD (-1)) s
        refine ⟨m, fun o f r o' e => hm o r o' ?_⟩
        simp only [Session.exec, Session.addBoundaryEdge, hz, Api.addBoundaryEdge, if_neg hn, Option.map_eq_some_iff] at e
        obtain ⟨x, e1, e2⟩ := e
        cases e2
        exact e1
  | setBoundaryNodes S =>
    cases hz : toSizes S with
    | none => exact ⟨none, fun o f r o' => stay (by simp [Session.exec, Session.setBoundaryNodes, hz])⟩
    | some b =>
      refine ⟨some (.setBoundary b), fun o f r o' e => ?_⟩
      simp only [Session.exec, Session.setBoundaryNodes, hz] at e
      cases e
      rfl
  | ensureNumFaultIds n =>
    by_cases h : n < 0
    · exact ⟨none, fun o f r o' => stay (by simp [Session.exec, Session.ensureNumFaultIds, h])⟩
    · refine ⟨some (.setMinNumObs n.toNat), fun o f r o' e => ?_⟩
      simp only [Session.exec, Session.ensureNumFaultIds, if_neg h] at e
      cases e
      rfl
  | look l => exact absurd (.inr ⟨l, rfl⟩) hs
  | _ => exact absurd (.inl trivial) hs

/-! ## Lemmas: questions -/

/-- Two objects that stand for the same graph give the same reply to a question. -/
theorem same_reply [W : Width] (mergeW : ℚ → ℚ → ℚ) {g : UGraph ℚ} {N : Net} {wo : Bool} {asked asked' : Prop} {o1 o2 : ObjectD} (h1 : Stands N wo asked g o1)
    (h2 : Stands N wo asked' g o2) {s : Stmt} (ha : Allowed N asked s) (has : Asks s) (hw : Works N s) {r1 r2 : Reply} {p1 p2 : ObjectD}
    (c1 : Completes (fun f => Session.exec mergeW f o1 s) (.ok (r1, p1))) (c2 : Completes (fun f => Session.exec mergeW f o2 s) (.ok (r2, p2))) : r1 = r2 := by
  have hdet : ∀ {a o}, Stands N wo a g o → o.graph.numDetectors = g.numDetectors ∧ o.graph.boundary = g.boundary := by
    intro a o hs
    obtain ⟨b, e⟩ := hs.inv.same
    rw [e]
    exact ⟨rfl, rfl⟩
  have hpos : ∀ {corr : Bool} {q : Query}, N.Ready corr → correlations q = corr → correlations q = true → NonNeg g :=
    fun k1 k2 k3 => nonneg_of (by rw [h1.net]; exact k1.2 (k2 ▸ k3))
  -- the answer is that of a new object
  have one : ∀ {q : Query}, N.Fine → (correlations q = true → NonNeg g) → (∀ c, Fits (intGraph c g) wo q) → (∀ k c, Const g k c → AskOne (intGraph c g) wo q) →
      ∃ a o1' o2', Completes (fun f => o1.ask f q) (.ok (a, o1')) ∧ Completes (fun f => o2.ask f q) (.ok (a, o2')) := by
    intro q hf k1 k2 k3
    obtain ⟨a, o1', e1, -, f1, -⟩ := question_first h1 hf k1 k2 k3
    obtain ⟨b, o2', e2, -, f2, -⟩ := question_first h2 hf k1 k2 k3
    have := completes_unique f1 f2
    cases this
    exact ⟨a, o1', o2', e1, e2⟩
  have plainly : ∀ {q : Query} {rw : Bool} {a o1' o2'}, Completes (fun f => o1.ask f q) (.ok (a, o1')) → Completes (fun f => o2.ask f q) (.ok (a, o2')) →
      Completes (fun f => Session.ask o1 f q rw) (.ok (r1, p1)) → Completes (fun f => Session.ask o2 f q rw) (.ok (r2, p2)) → r1 = r2 := by
    intro q rw a o1' o2' e1 e2 e3 e4
    have k1 := completes_unique (completes_ask e1 rw) e3
    have k2 := completes_unique (completes_ask e2 rw) e4
    cases k1
    cases k2
    rfl
  have pairs : ∀ {events : List Nat} {dict : Bool} {a o1' o2'}, Completes (fun f => o1.ask f (.pairs events)) (.ok (a, o1')) → Completes (fun f => o2.ask f (.pairs events)) (.ok (a, o2')) →
      Completes (fun f => Session.askPairs o1 f events dict) (.ok (r1, p1)) → Completes (fun f => Session.askPairs o2 f events dict) (.ok (r2, p2)) → r1 = r2 := by
    intro events dict a o1' o2' e1 e2 e3 e4
    cases hr : Session.pairsOf dict a with
    | none =>
      obtain ⟨f1, e1⟩ := e1
      obtain ⟨f3, e3⟩ := e3
      have k1 := e1 (max f1 f3) (le_max_left ..)
      have k3 := e3 (max f1 f3) (le_max_right ..)
      simp only at k1 k3
      simp only [Session.askPairs, k1, hr] at k3
      cases k3
    | some r =>
      have k1 := completes_unique (completes_pairs e1 hr) e3
      have k2 := completes_unique (completes_pairs e2 hr) e4
      cases k1
      cases k2
      rfl
  have raised : Completes (fun _ => some (.ok (.raised, o1))) (Res.ok (r1, p1)) → Completes (fun _ => some (.ok (.raised, o2))) (Res.ok (r2, p2)) → r1 = r2 := by
    rintro ⟨f1, e1⟩ ⟨f2, e2⟩
    have k1 := e1 f1 (le_refl _)
    have k2 := e2 f2 (le_refl _)
    cases k1
    cases k2
    rfl
  cases s with
  | decode z rw corr =>
    simp only [Session.exec, (hdet h1).1, (hdet h1).2, (hdet h2).1, (hdet h2).2] at c1 c2
    rcases shaped_iff h1.bnd z with ⟨k1, k2⟩ | ⟨events, k1, k2, k3, k4⟩
    · rw [k1] at c1 c2
      exact raised c1 c2
    · rw [k1] at c1 c2
      have hq : queryOf g (.decode z rw corr) = some (.decode corr events) := by simp [queryOf, k1]
      obtain ⟨a, o1', o2', e1, e2⟩ := one (q := .decode corr events) ha.1 (hpos ha rfl) (fun _ => k3) (hw g h1.wf h1.bnd h1.net ha.1 _ hq (hpos ha rfl) _ (fun _ => k3))
      exact plainly e1 e2 c1 c2
  | decodeToEdgesArray z corr =>
    simp only [Session.exec, (hdet h1).1, (hdet h1).2, (hdet h2).1, (hdet h2).2] at c1 c2
    rcases shaped_iff h1.bnd z with ⟨k1, k2⟩ | ⟨events, k1, k2, k3, k4⟩
    · rw [k1] at c1 c2
      exact raised c1 c2
    · rw [k1] at c1 c2
      have hq : queryOf g (.decodeToEdgesArray z corr) = some (.edges corr events) := by simp [queryOf, k1]
      obtain ⟨a, o1', o2', e1, e2⟩ := one (q := .edges corr events) ha.1 (hpos ha rfl) (fun _ => k3) (hw g h1.wf h1.bnd h1.net ha.1 _ hq (hpos ha rfl) _ (fun _ => k3))
      exact plainly e1 e2 c1 c2
  | decodeBatch ps pp rw corr cols rows =>
    simp only [Session.exec] at c1 c2
    have hfit : ∀ c, Fits (intGraph c g) wo (.batch ps pp corr cols rows) := fun c _ row hr d hd => by
      have := ha.2 row hr d ((fires_iff ps row d).1 hd)
      rw [← h1.net] at this
      exact this
    obtain ⟨a, o1', o2', e1, e2⟩ := one (q := .batch ps pp corr cols rows) ha.1.1 (hpos ha.1 rfl) hfit (hw g h1.wf h1.bnd h1.net ha.1.1 _ rfl (hpos ha.1 rfl) _ hfit)
    exact plainly e1 e2 c1 c2
  | matchedArray z =>
    simp only [Session.exec, (hdet h1).1, (hdet h1).2, (hdet h2).1, (hdet h2).2] at c1 c2
    rcases shaped_iff h1.bnd z with ⟨k1, k2⟩ | ⟨events, k1, k2, k3, k4⟩
    · rw [k1] at c1 c2
      exact raised c1 c2
    · rw [k1] at c1 c2
      have hq : queryOf g (.matchedArray z) = some (.pairs events) := by simp [queryOf, k1]
      obtain ⟨a, o1', o2', e1, e2⟩ := one (q := .pairs events) ha (fun h => by cases h) (fun _ => k3) (hw g h1.wf h1.bnd h1.net ha _ hq (fun h => by cases h) _ (fun _ => k3))
      exact pairs e1 e2 c1 c2
  | matchedDict z =>
    simp only [Session.exec, (hdet h1).1, (hdet h1).2, (hdet h2).1, (hdet h2).2] at c1 c2
    rcases shaped_iff h1.bnd z with ⟨k1, k2⟩ | ⟨events, k1, k2, k3, k4⟩
    · rw [k1] at c1 c2
      exact raised c1 c2
    · rw [k1] at c1 c2
      have hq : queryOf g (.matchedDict z) = some (.pairs events) := by simp [queryOf, k1]
      obtain ⟨a, o1', o2', e1, e2⟩ := one (q := .pairs events) ha (fun h => by cases h) (fun _ => k3) (hw g h1.wf h1.bnd h1.net ha _ hq (fun h => by cases h) _ (fun _ => k3))
      exact pairs e1 e2 c1 c2
  | _ => exact absurd has id

/-! ## Lemmas: programs -/

theorem allowed_weak {N : Net} {asked asked' : Prop} (h : asked' → asked) {s : Stmt} (ha : Allowed N asked s) : Allowed N asked' s := by
  cases s <;> first | exact ha | exact fun k => ha (h k)

/-- The network is the same after a question. -/
theorem after_idle (mergeW : ℚ → ℚ → ℚ) (N : Net) {s : Stmt} (h : Idle s) : (N.after mergeW s).1 = N := by
  rcases h with h | ⟨l, rfl⟩
  · cases s <;> first | rfl | exact absurd h id
  · rfl

/-- An idle statement leaves an object that stands for the same graph. -/
theorem idle_of [W : Width] (mergeW : ℚ → ℚ → ℚ) {g : UGraph ℚ} {o : ObjectD} {N : Net} {wo : Bool} {asked : Prop} (hs : Stands N wo asked g o) {s : Stmt} (ha : Allowed N asked s)
    (hi : Idle s) (hw : Works N s) : ∃ r o', Completes (fun f => Session.exec mergeW f o s) (.ok (r, o')) ∧ Stands N wo (Asks s ∨ asked) g o' := by
  rcases hi with h | ⟨l, rfl⟩
  · obtain ⟨r, o', h1, h2, -⟩ := asks_of mergeW hs ha h hw
    exact ⟨r, o', h1, stands_weak h2 fun _ => .inl h⟩
  · exact ⟨_, o, ⟨0, fun f _ => rfl⟩, stands_weak hs .inr⟩

/-- One statement on two objects that stand for the same graph. -/
theorem both_of [W : Width] (mergeW : ℚ → ℚ → ℚ) {g : UGraph ℚ} {o1 o2 : ObjectD} {N : Net} {wo : Bool} {asked asked' : Prop} (h1 : Stands N wo asked g o1) (h2 : Stands N wo asked' g o2)
    (hm : asked' → asked) {s : Stmt} (ha : Allowed N asked s) (hw : Works N s) :
    ∃ r o1' o2' g', Completes (fun f => Session.exec mergeW f o1 s) (.ok (r, o1')) ∧ Completes (fun f => Session.exec mergeW f o2 s) (.ok (r, o2')) ∧
      Stands (N.after mergeW s).1 wo ((Asks s ∨ asked) ∧ (N.after mergeW s).1.links = N.links ∧ (N.after mergeW s).1.boundary = N.boundary) g' o1' ∧
      Stands (N.after mergeW s).1 wo ((Asks s ∨ asked') ∧ (N.after mergeW s).1.links = N.links ∧ (N.after mergeW s).1.boundary = N.boundary) g' o2' := by
  by_cases hi : Idle s
  · obtain ⟨r1, p1, c1, s1⟩ := idle_of mergeW h1 ha hi hw
    obtain ⟨r2, p2, c2, s2⟩ := idle_of mergeW h2 (allowed_weak hm ha) hi hw
    have : r1 = r2 := by
      rcases id hi with has | ⟨l, rfl⟩
      · exact same_reply mergeW h1 h2 ha has hw c1 c2
      · obtain ⟨b1, e1⟩ := h1.inv.same
        obtain ⟨b2, e2⟩ := h2.inv.same
        obtain ⟨f1, c1⟩ := c1
        obtain ⟨f2, c2⟩ := c2
        have k1 := c1 f1 (le_refl _)
        have k2 := c2 f2 (le_refl _)
        simp only [Session.exec, e1, e2, Option.some.injEq, Res.ok.injEq, Prod.mk.injEq] at k1 k2
        rw [← k1.1, ← k2.1]
        cases l <;> rfl
    subst this
    rw [after_idle mergeW N hi]
    exact ⟨r1, p1, p2, g, c1, c2, stands_weak s1 fun h => ⟨h, rfl, rfl⟩, stands_weak s2 fun h => ⟨h, rfl, rfl⟩⟩
  · obtain ⟨r1, p1, g1, c1, s1, k1, -⟩ := stmt_steps mergeW h1 ha hw
    obtain ⟨r2, p2, g2, c2, s2, k2, -⟩ := stmt_steps mergeW h2 (allowed_weak hm ha) hw
    have : r1 = r2 := by
      cases s <;> first | exact k1.trans k2.symm | exact (hi (.inl trivial)).elim | exact (hi (.inr ⟨_, rfl⟩)).elim
    subst this
    obtain ⟨m, hm⟩ := exec_turned mergeW hi
    have e1 : p1.graph = turned mergeW m o1.graph := by
      obtain ⟨f, c1⟩ := c1
      exact hm _ _ _ _ (c1 f (le_refl _))
    have e2 : p2.graph = turned mergeW m o2.graph := by
      obtain ⟨f, c2⟩ := c2
      exact hm _ _ _ _ (c2 f (le_refl _))
    have hb : SameBut p2.graph p1.graph := by
      rw [e1, e2]
      exact turned_but mergeW m (but_trans (but_symm h2.inv.same) h1.inv.same)
    exact ⟨r1, p1, p2, g1, c1, c2, s1, stands_but (but_trans s2.inv.same (but_trans hb (but_symm s1.inv.same))) s2⟩

theorem completes_cons [W : Width] {mergeW : ℚ → ℚ → ℚ} {o o' o'' : ObjectD} {s : Stmt} {prog : List Stmt} {r : Reply} {rs : List Reply}
    (h1 : Completes (fun f => Session.exec mergeW f o s) (.ok (r, o'))) (h2 : Completes (fun f => run mergeW f o' prog) (.ok (rs, o''))) :
    Completes (fun f => run mergeW f o (s :: prog)) (.ok (r :: rs, o'')) := by
  obtain ⟨f1, c1⟩ := h1
  obtain ⟨f2, c2⟩ := h2
  refine ⟨max f1 f2, fun f hf => ?_⟩
  have e1 := c1 f (le_trans (le_max_left _ _) hf)
  have e2 := c2 f (le_trans (le_max_right _ _) hf)
  simp only at e1 e2
  simp only [Session.run, e1, e2, Res.bind]

theorem trace_core [W : Width] (mergeW : ℚ → ℚ → ℚ) : ∀ (marked : List (Stmt × Bool)) (N : Net) (wo : Bool) (asked asked' : Prop) (g : UGraph ℚ) (o1 o2 : ObjectD),
    (asked' → asked) → Stands N wo asked g o1 → Stands N wo asked' g o2 → ProperProgram mergeW N asked (marked.map (·.1)) → (∀ m ∈ moments mergeW N (marked.map (·.1)), Works m.1 m.2) →
    (∀ m ∈ marked, m.2 = false → Idle m.1) →
    ∃ rs p1 p2, Completes (fun f => run mergeW f o1 (marked.map (·.1))) (.ok (rs, p1)) ∧ Completes (fun f => run mergeW f o2 (shorter marked)) (.ok (keptOf marked rs, p2)) ∧
      rs.length = marked.length := by
  intro marked
  induction marked with
  | nil => intro N wo asked asked' g o1 o2 _ _ _ _ _ _; exact ⟨[], o1, o2, ⟨0, fun f _ => rfl⟩, ⟨0, fun f _ => rfl⟩, rfl⟩
  | cons m marked ih =>
    intro N wo asked asked' g o1 o2 hm h1 h2 hp hw hd
    obtain ⟨s, b⟩ := m
    obtain ⟨ha, hp⟩ := hp
    have hw1 := hw _ (List.mem_cons_self ..)
    have hws := fun m hm => hw m (List.mem_cons_of_mem _ hm)
    have hds := fun m hm => hd m (List.mem_cons_of_mem _ hm)
    cases b with
    | true =>
      obtain ⟨r, q1, q2, g', c1, c2, s1, s2⟩ := both_of mergeW h1 h2 hm ha hw1
      obtain ⟨rs, p1, p2, d1, d2, hl⟩ := ih _ wo _ _ g' q1 q2 (fun h => ⟨h.1.imp_right hm, h.2⟩) s1 s2 hp hws hds
      refine ⟨r :: rs, p1, p2, completes_cons c1 d1, ?_, by simp [hl]⟩
      simpa [shorter, keptOf] using completes_cons c2 d2
    | false =>
      have hi : Idle s := hd (s, false) (List.mem_cons_self ..) rfl
      obtain ⟨r, q1, c1, s1⟩ := idle_of mergeW h1 ha hi hw1
      have e := after_idle mergeW N hi
      have s1' : Stands (N.after mergeW s).1 wo ((Asks s ∨ asked) ∧ (N.after mergeW s).1.links = N.links ∧ (N.after mergeW s).1.boundary = N.boundary) g q1 := by
        rw [e]
        exact stands_weak s1 fun h => ⟨h, rfl, rfl⟩
      obtain ⟨rs, p1, p2, d1, d2, hl⟩ := ih _ wo _ asked' g q1 o2 (fun h => ⟨.inr (hm h), by rw [e], by rw [e]⟩) s1' (by rw [e]; exact h2) hp hws hds
      refine ⟨r :: rs, p1, p2, completes_cons c1 d1, ?_, by simp [hl]⟩
      simpa [shorter, keptOf] using d2

/-! ## Lemmas: marks -/

theorem kept_append {l1 l2 : List (Stmt × Bool)} {r1 r2 : List Reply} (h : l1.length = r1.length) : keptOf (l1 ++ l2) (r1 ++ r2) = keptOf l1 r1 ++ keptOf l2 r2 := by
  simp [keptOf, List.zip_append h]

theorem kept_all : ∀ (A : List Stmt) (rs : List Reply), A.length = rs.length → keptOf (A.map fun s => (s, true)) rs = rs := by
  intro A
  induction A with
  | nil => intro rs h; cases rs with | nil => rfl | cons => cases h
  | cons s A ih =>
    intro rs h
    cases rs with
    | nil => cases h
    | cons r rs =>
      have := ih rs (Nat.succ.inj h)
      simp only [keptOf] at this
      simp [keptOf, this]

theorem kept_none : ∀ (A : List Stmt) (rs : List Reply), keptOf (A.map fun s => (s, false)) rs = [] := by
  intro A
  induction A with
  | nil => intro rs; rfl
  | cons s A ih =>
    intro rs
    cases rs with
    | nil => rfl
    | cons r rs =>
      have := ih rs
      simp only [keptOf] at this
      simpa [keptOf] using this

theorem kept_cons (s : Stmt) (b : Bool) (l : List (Stmt × Bool)) (r : Reply) (rs : List Reply) : keptOf ((s, b) :: l) (r :: rs) = (if b then [r] else []) ++ keptOf l rs := by
  cases b <;> simp [keptOf]

theorem shorter_of (A B C : List Stmt) (s : Stmt) (b : Bool) :
    shorter (A.map (fun s => (s, true)) ++ (s, b) :: (B.map (fun s => (s, false)) ++ (s, !b) :: C.map fun s => (s, true))) = A ++ s :: C := by
  have h1 : ∀ l : List Stmt, ((l.map fun s => (s, true)).filter (·.2)).map (·.1) = l := by
    intro l; induction l with
    | nil => rfl
    | cons s l ih => simpa using ih
  have h2 : ∀ l : List Stmt, ((l.map fun s => (s, false)).filter (·.2)) = [] := by
    intro l; induction l with
    | nil => rfl
    | cons s l ih => simpa using ih
  cases b <;> simp [shorter, List.filter_append, h1, h2]

theorem split_at {α : Type} {rs : List α} {a b c : Nat} (h : rs.length = a + (1 + (b + (1 + c)))) :
    ∃ rA r1 rB r2 rC, rs = rA ++ r1 :: (rB ++ r2 :: rC) ∧ rA.length = a ∧ rB.length = b ∧ rC.length = c := by
  have e1 : rs = rs.take a ++ rs.drop a := (List.take_append_drop a rs).symm
  cases hd : rs.drop a with
  | nil => have := congrArg List.length hd; simp at this; omega
  | cons r1 t =>
    have ht : t.length = b + (1 + c) := by have := congrArg List.length hd; simp at this; omega
    cases hd2 : t.drop b with
    | nil => have := congrArg List.length hd2; simp at this; omega
    | cons r2 t2 =>
      have ht2 : t2.length = c := by have := congrArg List.length hd2; simp at this; omega
      refine ⟨rs.take a, r1, t.take b, r2, t2, ?_, by simp; omega, by simp; omega, ht2⟩
      conv_lhs => rw [e1, hd, ← List.take_append_drop b t, hd2]

theorem again_core {A B C : List Stmt} {s : Stmt} (hs : Idle s) (hB : ∀ b ∈ B, Idle b) {run1 : List Stmt → Nat → Option (Res (List Reply × ObjectD))}
    (h : ∀ marked : List (Stmt × Bool), marked.map (·.1) = A ++ s :: (B ++ s :: C) → (∀ m ∈ marked, m.2 = false → Idle m.1) →
      ∃ rs p1 p2, Completes (run1 (marked.map (·.1))) (.ok (rs, p1)) ∧ Completes (run1 (shorter marked)) (.ok (keptOf marked rs, p2)) ∧ rs.length = marked.length) :
    ∃ rs o, Completes (run1 (A ++ s :: (B ++ s :: C))) (.ok (rs, o)) ∧ ∃ r, rs[A.length]? = some r ∧ rs[A.length + 1 + B.length]? = some r := by
  have key : ∀ b : Bool, ∃ rs p1 p2, Completes (run1 (A ++ s :: (B ++ s :: C))) (.ok (rs, p1)) ∧
      Completes (run1 (A ++ s :: C)) (.ok (keptOf (A.map (fun s => (s, true)) ++ (s, b) :: (B.map (fun s => (s, false)) ++ (s, !b) :: C.map fun s => (s, true))) rs, p2)) ∧
      rs.length = A.length + (1 + (B.length + (1 + C.length))) := by
    intro b
    have hmap : ∀ (b : Bool) (l : List Stmt), (l.map fun s => (s, b)).map (·.1) = l := by
      intro b l; induction l with
      | nil => rfl
      | cons s l ih => simpa using ih
    have hm : (A.map (fun s => (s, true)) ++ (s, b) :: (B.map (fun s => (s, false)) ++ (s, !b) :: C.map fun s => (s, true))).map (·.1) = A ++ s :: (B ++ s :: C) := by
      simp only [List.map_append, List.map_cons, hmap]
    obtain ⟨rs, p1, p2, c1, c2, hl⟩ := h _ hm (by
      intro m hm hf
      simp only [List.mem_append, List.mem_cons, List.mem_map] at hm
      rcases hm with ⟨x, -, rfl⟩ | rfl | ⟨x, hx, rfl⟩ | rfl | ⟨x, -, rfl⟩
      · cases hf
      · exact hs
      · exact hB x hx
      · exact hs
      · cases hf)
    rw [hm] at c1
    rw [shorter_of] at c2
    refine ⟨rs, p1, p2, c1, c2, ?_⟩
    rw [hl]
    simp
    omega
  obtain ⟨rs, p1, p2, c1, c2, hl⟩ := key true
  obtain ⟨rs', p1', p2', c1', c2', hl'⟩ := key false
  have e := completes_unique c1 c1'
  simp only [Res.ok.injEq, Prod.mk.injEq] at e
  obtain ⟨rfl, -⟩ := e
  have e := completes_unique c2 c2'
  simp only [Res.ok.injEq, Prod.mk.injEq] at e
  have e := e.1
  obtain ⟨rA, r1, rB, r2, rC, rfl, hA, hB', hC⟩ := split_at hl
  rw [kept_append (by simpa using hA.symm), kept_append (by simpa using hA.symm), kept_cons, kept_cons, kept_append (by simpa using hB'.symm),
    kept_append (by simpa using hB'.symm), kept_cons, kept_cons, kept_none, kept_all _ _ hC.symm] at e
  simp at e
  obtain ⟨rfl, -⟩ := e
  refine ⟨_, p1, c1, r1, ?_, ?_⟩
  · rw [← hA]; simp
  · rw [← hA, ← hB', List.getElem?_append_right (by omega)]
    have : rA.length + 1 + rB.length - rA.length = rB.length + 1 := by omega
    rw [this]
    simp

/-! ## Theorems -/

/-- C91: a proper program, and the program without some of its questions and inspections.  Both end, and the remaining statements get exactly the same replies. -/
theorem C91_program (mergeW : ℚ → ℚ → ℚ) (marked : List (Stmt × Bool)) (hd : ∀ m ∈ marked, m.2 = false → Idle m.1)
    (hp : ProperProgram mergeW Net.empty False (marked.map (·.1))) :
    ∃ replies o o', Completes (fun f => run mergeW f Session.new (marked.map (·.1))) (.ok (replies, o)) ∧
      Completes (fun f => run mergeW f Session.new (shorter marked)) (.ok (keptOf marked replies, o')) ∧ replies.length = marked.length :=
  trace_core (W := unbounded) mergeW marked _ _ _ _ _ _ _ id stands_new stands_new hp (fun m _ => works_of m.1 m.2) hd

/-- C91 for the library as compiled, with its 32-bit wrapped radius: if the networks asked about are small enough. -/
theorem C91_program_int32 (mergeW : ℚ → ℚ → ℚ) (marked : List (Stmt × Bool)) (hd : ∀ m ∈ marked, m.2 = false → Idle m.1)
    (hp : ProperProgram mergeW Net.empty False (marked.map (·.1))) (hn : ∀ m ∈ moments mergeW Net.empty (marked.map (·.1)), Asks m.2 → m.1.Small) :
    ∃ replies o o', Completes (fun f => run (W := int32) mergeW f Session.new (marked.map (·.1))) (.ok (replies, o)) ∧
      Completes (fun f => run (W := int32) mergeW f Session.new (shorter marked)) (.ok (keptOf marked replies, o')) ∧ replies.length = marked.length :=
  trace_core (W := int32) mergeW marked _ _ _ _ _ _ _ id stands_new stands_new hp (fun m hm => works_small (hn m hm)) hd

/-- C91: the same question asked twice, with nothing but questions and inspections in between, gets the same reply. -/
theorem C91_again (mergeW : ℚ → ℚ → ℚ) (A B C : List Stmt) (s : Stmt) (hs : Idle s) (hB : ∀ b ∈ B, Idle b)
    (hp : ProperProgram mergeW Net.empty False (A ++ s :: (B ++ s :: C))) :
    ∃ replies o, Completes (fun f => run mergeW f Session.new (A ++ s :: (B ++ s :: C))) (.ok (replies, o)) ∧
      ∃ r, replies[A.length]? = some r ∧ replies[A.length + 1 + B.length]? = some r :=
  again_core hs hB (run1 := fun prog f => run mergeW f Session.new prog) fun marked e hd => C91_program mergeW marked hd (by rw [e]; exact hp)

/-- C91 for the library as compiled. -/
theorem C91_again_int32 (mergeW : ℚ → ℚ → ℚ) (A B C : List Stmt) (s : Stmt) (hs : Idle s) (hB : ∀ b ∈ B, Idle b)
    (hp : ProperProgram mergeW Net.empty False (A ++ s :: (B ++ s :: C))) (hn : ∀ m ∈ moments mergeW Net.empty (A ++ s :: (B ++ s :: C)), Asks m.2 → m.1.Small) :
    ∃ replies o, Completes (fun f => run (W := int32) mergeW f Session.new (A ++ s :: (B ++ s :: C))) (.ok (replies, o)) ∧
      ∃ r, replies[A.length]? = some r ∧ replies[A.length + 1 + B.length]? = some r :=
  again_core hs hB (run1 := fun prog f => run (W := int32) mergeW f Session.new prog) fun marked e hd =>
    C91_program_int32 mergeW marked hd (by rw [e]; exact hp) (by rw [e]; exact hn)

theorem bare_value (rw : Bool) (a : Answer Double) : bare (valueOf rw a) = valueOf false a := by
  cases a <;> cases rw <;> rfl

theorem exec_plain [W : Width] (mergeW : ℚ → ℚ → ℚ) (f : Nat) (o : ObjectD) (s : Stmt) :
    Session.exec mergeW f o (plain s) = (Session.exec mergeW f o s).map fun x => x.bind fun (r, o') => .ok (bare r, o') := by
  have hask : ∀ q rw, Session.ask o f q false = (Session.ask o f q rw).map fun x => x.bind fun (r, o') => .ok (bare r, o') := by
    intro q rw
    simp only [Session.ask]
    cases o.ask f q with
    | none => rfl
    | some x =>
      cases x with
      | ok y => simp [Res.bind, bare_value]
      | _ => rfl
  have hpairs : ∀ events dict, Session.askPairs o f events dict = (Session.askPairs o f events dict).map fun x => x.bind fun (r, o') => .ok (bare r, o') := by
    intro events dict
    simp only [Session.askPairs]
    cases o.ask f (.pairs events) with
    | none => rfl
    | some x =>
      cases x with
      | ub => rfl
      | throws => rfl
      | ok y =>
        obtain ⟨a, o'⟩ := y
        cases a with
        | pairs ps =>
          cases dict
          · simp only [pairsOf, Bool.false_eq_true, if_false]
            cases SB.matchedArray ps <;> rfl
          · simp only [pairsOf, if_true]
            cases SB.matchedDict (fun _ => none) ps <;> rfl
        | _ => rfl
  have hans : ∀ x : Api.After ℚ, (answerOf o x).map Res.ok = ((answerOf o x).map Res.ok).map fun x => x.bind fun (r, o') => .ok (bare r, o') := by
    intro x
    cases x with
    | nanStored => rfl
    | graph g out => cases out <;> rfl
  cases s with
  | addEdge u v a =>
    simp only [plain, Session.exec, Session.addEdge]
    cases oneOf a.faultIds a.qubitId with
    | none => rfl
    | some ids =>
      simp only
      cases toSizes (faultSet ids) with
      | none => rfl
      | some obs => exact hans _
  | addBoundaryEdge u a =>
    simp only [plain, Session.exec, Session.addBoundaryEdge]
    cases toSizes (faultSet a.faultIds) with
    | none => rfl
    | some obs => exact hans _
  | setBoundaryNodes S =>
    simp only [plain, Session.exec, Session.setBoundaryNodes]
    cases toSizes S <;> rfl
  | ensureNumFaultIds n =>
    simp only [plain, Session.exec, Session.ensureNumFaultIds]
    split <;> rfl
  | decode z rw corr =>
    simp only [plain, Session.exec]
    cases Syn.toEvents o.graph.numDetectors o.graph.boundary.card z with
    | none => rfl
    | some events => exact hask _ _
  | decodeBatch ps pp rw corr cols rows => exact hask _ _
  | decodeToEdgesArray z corr =>
    simp only [plain, Session.exec]
    cases Syn.toEvents o.graph.numDetectors o.graph.boundary.card z with
    | none => rfl
    | some events => exact hask _ _
  | matchedArray z =>
    simp only [plain, Session.exec]
    cases Syn.toEvents o.graph.numDetectors o.graph.boundary.card z with
    | none => rfl
    | some events => exact hpairs _ _
  | matchedDict z =>
    simp only [plain, Session.exec]
    cases Syn.toEvents o.graph.numDetectors o.graph.boundary.card z with
    | none => rfl
    | some events => exact hpairs _ _
  | look l =>
    have : ∀ e : Option (UEdge ℚ), bare (dataOf e) = dataOf e := by
      intro e; cases e <;> rfl
    simp only [plain, Session.exec, Option.map_some, Res.bind]
    cases l <;> simp only [Session.look] <;> first | rfl | (split <;> first | rfl | rw [this]) | rw [this]

/-- C91: `return_weight` and `return_weights` add the weights to the replies, and change nothing else: neither predictions, nor exceptions, nor the object.  For every program, proper or not,
on every object. -/
theorem C91_weights [W : Width] (mergeW : ℚ → ℚ → ℚ) (f : Nat) (prog : List Stmt) : ∀ o : ObjectD,
    run mergeW f o (prog.map plain) = (run mergeW f o prog).map fun x => x.bind fun (rs, o') => .ok (rs.map bare, o') := by
  induction prog with
  | nil => intro o; rfl
  | cons s prog ih =>
    intro o
    simp only [List.map_cons, Session.run, exec_plain]
    cases Session.exec mergeW f o s with
    | none => rfl
    | some x =>
      cases x with
      | ub => rfl
      | throws => rfl
      | ok y =>
        obtain ⟨r, o'⟩ := y
        simp only [Option.map_some, Res.bind, ih o']
        cases run mergeW f o' prog with
        | none => rfl
        | some x => cases x <;> simp

/-! ## Rows of a batch -/

/-- A proper program up to some statement. -/
theorem start_of [W : Width] (mergeW : ℚ → ℚ → ℚ) (rest : List Stmt) : ∀ (prog : List Stmt) (N : Net) (wo : Bool) (asked : Prop) (g : UGraph ℚ) (o : ObjectD), Stands N wo asked g o →
    ProperProgram mergeW N asked (prog ++ rest) → (∀ m ∈ moments mergeW N (prog ++ rest), Works m.1 m.2) →
    ∃ asked' g' rs o', Completes (fun f => run mergeW f o prog) (.ok (rs, o')) ∧ Stands (N.afterAll mergeW prog) wo asked' g' o' ∧
      ProperProgram mergeW (N.afterAll mergeW prog) asked' rest ∧ ∀ m ∈ moments mergeW (N.afterAll mergeW prog) rest, Works m.1 m.2 := by
  intro prog
  induction prog with
  | nil => intro N wo asked g o hs hp hw; exact ⟨asked, g, [], o, ⟨0, fun f _ => rfl⟩, hs, hp, hw⟩
  | cons s prog ih =>
    intro N wo asked g o hs hp hw
    obtain ⟨ha, hp⟩ := hp
    obtain ⟨r, o1, g1, c1, s1, -⟩ := stmt_core mergeW hs ha (hw _ (List.mem_cons_self ..))
    obtain ⟨asked', g', rs, o', c2, s2, p2, w2⟩ := ih _ wo _ g1 o1 s1 hp (fun m hm => hw m (List.mem_cons_of_mem _ hm))
    exact ⟨asked', g', r :: rs, o', completes_cons c1 c2, s2, p2, w2⟩

theorem run_append [W : Width] {mergeW : ℚ → ℚ → ℚ} {rest : List Stmt} {rs' : List Reply} {o'' : ObjectD} : ∀ {prog : List Stmt} {o o' : ObjectD} {rs : List Reply},
    Completes (fun f => run mergeW f o prog) (.ok (rs, o')) → Completes (fun f => run mergeW f o' rest) (.ok (rs', o'')) →
    Completes (fun f => run mergeW f o (prog ++ rest)) (.ok (rs ++ rs', o'')) := by
  intro prog o o' rs h1 h2
  obtain ⟨f1, h1⟩ := h1
  obtain ⟨f2, h2⟩ := h2
  refine ⟨max f1 f2, fun f hf => ?_⟩
  have e1 := h1 f (le_trans (le_max_left _ _) hf)
  have e2 := h2 f (le_trans (le_max_right _ _) hf)
  simp only at e1 e2 ⊢
  clear h1 h2
  induction prog generalizing o rs with
  | nil =>
    simp only [Session.run, Option.some.injEq, Res.ok.injEq, Prod.mk.injEq] at e1
    obtain ⟨rfl, rfl⟩ := e1
    exact e2
  | cons s prog ih =>
    simp only [List.cons_append, Session.run] at e1 ⊢
    cases hx : Session.exec mergeW f o s with
    | none => rw [hx] at e1; cases e1
    | some x =>
      cases x with
      | ub => rw [hx] at e1; cases e1
      | throws => rw [hx] at e1; cases e1
      | ok y =>
        rw [hx] at e1
        simp only at e1 ⊢
        cases hr : run mergeW f y.2 prog with
        | none => rw [hr] at e1; cases e1
        | some z =>
          rw [hr] at e1
          cases z with
          | ub => simp [Res.bind] at e1
          | throws => simp [Res.bind] at e1
          | ok w =>
            obtain ⟨rs0, o0⟩ := w
            simp only [Res.bind, Option.some.injEq, Res.ok.injEq, Prod.mk.injEq] at e1
            obtain ⟨rfl, rfl⟩ := e1
            rw [ih hr]
            rfl

theorem bits_of {N : Net} {C : N.Links} {row : List (BitVec 8)} (h : Tells C row) : ObsMask.IsBits row := by
  intro b hb
  obtain ⟨k, hk, rfl⟩ := List.mem_iff_getElem.1 hb
  have := h.2 k (by rw [← h.1]; exact hk)
  rw [List.getElem?_eq_getElem hk, Option.some.injEq] at this
  rw [this]
  split
  · exact .inr rfl
  · exact .inl rfl

theorem written_of {pp : Bool} {row out : List (BitVec 8)} (h : Object.Stored pp row out) (hb : ObsMask.IsBits row) : Written pp row out := by
  cases pp with
  | false => exact h
  | true =>
    obtain ⟨out', e, k⟩ := ObsMask.C34_packed_predictions row hb
    have : some out' = some out := e.symm.trans h
    cases this
    exact k

theorem events_sorted {nd nb : Nat} {z : Syn.Arr} {events : List Nat} (h : Syn.toEvents nd nb z = some events) : events.Pairwise (· < ·) := by
  cases z with
  | d1 z => exact ((Syndrome.C37_one_dim nd nb z).2 events h).1
  | d2 r c z => exact ((Syndrome.C37_two_dim nd nb r c z).2 events h).1
  | other => cases h

theorem read_sorted (ps : Bool) (row : List (BitVec 8)) : (readRow ps row).Pairwise (· < ·) := by
  cases ps
  · exact (ObsMask.C34_unpacked_events row).2
  · exact (ObsMask.C34_packed_events row).2

theorem rows_core [W : Width] (mergeW : ℚ → ℚ → ℚ) {g : UGraph ℚ} {N : Net} {wo : Bool} {asked : Prop} {o : ObjectD} (hs : Stands N wo asked g o) {ps pp corr : Bool} {cols : Nat}
    {rows : List (List (BitVec 8))} {z : Syn.Arr} {i : Nat} {row : List (BitVec 8)} (hi : rows[i]? = some row) (hz : ∀ x, Fires z x ↔ ShotFires ps row x)
    (hsz : Shaped N z) (hsh : ShotsShaped N ps cols) (hp : ProperProgram mergeW N asked [.decodeBatch ps pp true corr cols rows, .decode z true corr])
    (hw : ∀ m ∈ moments mergeW N [.decodeBatch ps pp true corr cols rows, .decode z true corr], Works m.1 m.2) :
    ∃ rb rd o', Completes (fun f => run mergeW f o [.decodeBatch ps pp true corr cols rows, .decode z true corr]) (.ok ([rb, rd], o')) ∧
      ((∃ outs ws out row w, rb = .rowsAndWeights outs ws ∧ outs[i]? = some out ∧ ws[i]? = some w ∧ rd = .pair row w ∧ Written pp row out) ∨ rb = .raised) := by
  obtain ⟨ha, hb, -⟩ := hp
  have hw1 := hw (N, .decodeBatch ps pp true corr cols rows) (by simp [moments])
  have hw2 := hw (N, .decode z true corr) (by simp [moments, Net.after])
  have hpos : ∀ {q : Query}, correlations q = corr → correlations q = true → NonNeg g := fun k2 k3 => nonneg_of (by rw [hs.net]; exact ha.1.2 (k2 ▸ k3))
  have hfit : ∀ c, Fits (intGraph c g) wo (.batch ps pp corr cols rows) := fun c _ row hr d hd => by
    have := ha.2 row hr d ((fires_iff ps row d).1 hd)
    rw [← hs.net] at this
    exact this
  obtain ⟨a, o1, c1, s1, -, k, c, a0, hk, hA, hF, rfl⟩ := question_first (q := .batch ps pp corr cols rows) hs ha.1.1 (hpos rfl) hfit
    (hw1 g hs.wf hs.bnd hs.net ha.1.1 _ rfl (hpos rfl) _ hfit)
  have hdet : o1.graph.numDetectors = g.numDetectors ∧ o1.graph.boundary = g.boundary := by
    obtain ⟨b, e⟩ := s1.inv.same
    rw [e]
    exact ⟨rfl, rfl⟩
  rcases shaped_iff s1.bnd z with ⟨-, k2⟩ | ⟨events, k1, -, k3, k4⟩
  · rw [s1.net] at k2; exact absurd hsz k2
  have hev : events = readRow ps row := ObsMask.sorted_ext (events_sorted k1) (read_sorted ps row) fun x => by rw [k4, hz, fires_iff]
  have hq : queryOf g (.decode z true corr) = some (.decode corr events) := by simp [queryOf, k1]
  obtain ⟨b, o2, c2, s2, -, k', c', b0, hk', hA', hF', rfl⟩ := question_first (q := .decode corr events) s1 ha.1.1 (hpos rfl) (fun _ => k3)
    (hw2 g hs.wf hs.bnd hs.net ha.1.1 _ hq (hpos rfl) _ (fun _ => k3))
  obtain rfl := const_unique hk hk'
  obtain ⟨rd, o2', d2, -, hr⟩ := asks_of mergeW s1 (s := .decode z true corr) ⟨ha.1.1, ha.1.2⟩ trivial hw2
  have d2' : Completes (fun f => Session.exec mergeW f o1 (.decode z true corr)) (.ok (valueOf true (mapWeights (fun w => scaleBack (.num (c' * 2)) (w * 2)) b0), o2)) := by
    have := completes_ask c2 true
    simpa only [Session.exec, hdet.1, hdet.2, k1] using this
  have e := completes_unique d2 d2'
  simp only [Res.ok.injEq, Prod.mk.injEq] at e
  obtain ⟨rfl, rfl⟩ := e
  refine ⟨valueOf true (mapWeights (fun w => scaleBack (.num (c' * 2)) (w * 2)) a0), _, _, completes_cons (o' := o1) ?_ (completes_cons d2' ⟨0, fun f _ => rfl⟩), ?_⟩
  · exact completes_ask c1 true
  · have hshape : Obs.shapeOk ps cols (intGraph c' g).numDetectors (intGraph c' g).nodes.length = true := by
      rw [← hs.net] at hsh
      exact (shots_iff g ps cols).1 hsh
    rcases Object.C55_batch (int_wf hs.wf) (int_bnd hs.bnd) hA hshape with ⟨raws, outs, weights, h1, h2, h3, h4, h5⟩ | ⟨h1, -⟩
    · obtain rfl := fresh1_unique hF h1
      have hil : i < rows.length := (List.getElem?_eq_some_iff.1 hi).1
      have hrow : rows[i] = row := (List.getElem?_eq_some_iff.1 hi).2
      have hout : outs.length = rows.length := by rw [← h4]; exact h2.length_eq.symm
      have h3i := List.forall₂_iff_get.1 h3 |>.2 i hil (by simp; omega)
      have h2i := List.forall₂_iff_get.1 h2 |>.2 i (by omega) (by omega)
      simp only [List.get_eq_getElem, List.getElem_zip, hrow] at h3i h2i
      rw [← hev] at h3i
      obtain rfl := fresh1_unique hF' h3i
      refine .inl ⟨outs, _, outs[i], raws[i], scaleBack (.num (c' * 2)) (weights[i] * 2), rfl, ?_, ?_, rfl, written_of h2i ?_⟩
      · simp
      · rw [List.getElem?_map, List.getElem?_eq_getElem (by omega)]
        rfl
      · rcases hr with ⟨-, -, u, -, ρ, C, r', w', -, -, ht, -, e⟩ | ⟨e, -⟩
        · cases e
          exact bits_of ht
        · cases e
    · obtain rfl := fresh1_unique hF h1
      exact .inr rfl

/-- C91: `decode_batch` gives for each row what `decode` gives for the events of that row, the prediction (packed if wanted) and the weight, at any moment of a proper program, also if there are
several best corrections.  Or it raises an exception (C69 and C90 say when). -/
theorem C91_rows (mergeW : ℚ → ℚ → ℚ) (prog : List Stmt) (ps pp corr : Bool) (cols : Nat) (rows : List (List (BitVec 8))) (z : Syn.Arr) (i : Nat) (row : List (BitVec 8))
    (hi : rows[i]? = some row) (hz : ∀ x, Fires z x ↔ ShotFires ps row x) (hsz : Shaped (Net.empty.afterAll mergeW prog) z) (hsh : ShotsShaped (Net.empty.afterAll mergeW prog) ps cols)
    (hp : ProperProgram mergeW Net.empty False (prog ++ [.decodeBatch ps pp true corr cols rows, .decode z true corr])) :
    ∃ replies rb rd o, Completes (fun f => run mergeW f Session.new (prog ++ [.decodeBatch ps pp true corr cols rows, .decode z true corr])) (.ok (replies ++ [rb, rd], o)) ∧
      ((∃ outs ws out row w, rb = .rowsAndWeights outs ws ∧ outs[i]? = some out ∧ ws[i]? = some w ∧ rd = .pair row w ∧ Written pp row out) ∨ rb = .raised) := by
  obtain ⟨asked, g, rs, o, c1, hs, hp, hw⟩ := start_of (W := unbounded) mergeW _ prog _ _ _ _ _ stands_new hp fun m _ => works_of m.1 m.2
  obtain ⟨rb, rd, o', c2, h⟩ := rows_core (W := unbounded) mergeW hs hi hz hsz hsh hp hw
  exact ⟨rs, rb, rd, o', run_append c1 c2, h⟩

/-- C91 for the library as compiled. -/
theorem C91_rows_int32 (mergeW : ℚ → ℚ → ℚ) (prog : List Stmt) (ps pp corr : Bool) (cols : Nat) (rows : List (List (BitVec 8))) (z : Syn.Arr) (i : Nat) (row : List (BitVec 8))
    (hi : rows[i]? = some row) (hz : ∀ x, Fires z x ↔ ShotFires ps row x) (hsz : Shaped (Net.empty.afterAll mergeW prog) z) (hsh : ShotsShaped (Net.empty.afterAll mergeW prog) ps cols)
    (hp : ProperProgram mergeW Net.empty False (prog ++ [.decodeBatch ps pp true corr cols rows, .decode z true corr]))
    (hn : ∀ m ∈ moments mergeW Net.empty (prog ++ [.decodeBatch ps pp true corr cols rows, .decode z true corr]), Asks m.2 → m.1.Small) :
    ∃ replies rb rd o, Completes (fun f => run (W := int32) mergeW f Session.new (prog ++ [.decodeBatch ps pp true corr cols rows, .decode z true corr])) (.ok (replies ++ [rb, rd], o)) ∧
      ((∃ outs ws out row w, rb = .rowsAndWeights outs ws ∧ outs[i]? = some out ∧ ws[i]? = some w ∧ rd = .pair row w ∧ Written pp row out) ∨ rb = .raised) := by
  obtain ⟨asked, g, rs, o, c1, hs, hp, hw⟩ := start_of (W := int32) mergeW _ prog _ _ _ _ _ stands_new hp fun m hm => works_small (hn m hm)
  obtain ⟨rb, rd, o', c2, h⟩ := rows_core (W := int32) mergeW hs hi hz hsz hsh hp hw
  exact ⟨rs, rb, rd, o', run_append (W := int32) c1 c2, h⟩

/-! ## Examples -/

/-- Four edges of weight 1 in a circle, the first with fault id 0: opposite corners can be joined in two ways. -/
def ring : Net := ⟨4, [⟨0, some 1, {0}, 1, -1, ∅⟩, ⟨1, some 2, ∅, 1, -1, ∅⟩, ⟨2, some 3, ∅, 1, -1, ∅⟩, ⟨3, some 0, ∅, 1, -1, ∅⟩], ∅, 1⟩

def ringBuild : List Stmt := [.addEdge 0 1 { faultIds := .int 0 }, .addEdge 1 2 { }, .addEdge 2 3 { }, .addEdge 3 0 { }]

theorem ring_fine : ring.Fine := fine_of (by decide +kernel) (by decide +kernel) (by decide +kernel) (by decide +kernel) (by decide +kernel) (by decide +kernel) (by decide +kernel)

theorem ring_built {rest : List Stmt} (h : ∀ asked, ProperProgram (fun a _ => a) ring asked rest) : ProperProgram (fun a _ => a) Net.empty False (ringBuild ++ rest) := by
  refine proper_step (N' := ⟨2, ring.links.take 1, ∅, 1⟩) (by decide +kernel) (fun h => by cases h) fun _ => ?_
  refine proper_step (N' := ⟨3, ring.links.take 2, ∅, 1⟩) (by decide +kernel) (fun h => by cases h) fun _ => ?_
  refine proper_step (N' := ⟨4, ring.links.take 3, ∅, 1⟩) (by decide +kernel) (fun h => by cases h) fun _ => ?_
  exact proper_step (N' := ring) (by decide +kernel) (fun h => by cases h) h

/-- The same question twice; in between other syndromes are decoded, matched pairs are asked for, and edges are looked at. -/
def between : List Stmt := [.decode (.d1 [1, 1, 0, 0]) true false, .matchedArray (.d1 [0, 1, 0, 1]), .decodeToEdgesArray (.d1 [1, 1, 1, 1]) false, .look .edges]

theorem ring_proper : ProperProgram (fun a _ => a) Net.empty False
    (ringBuild ++ .decode (.d1 [1, 0, 1, 0]) false false :: (between ++ .decode (.d1 [1, 0, 1, 0]) false false :: [.setBoundaryNodes {3}])) := by
  refine ring_built fun _ => ?_
  refine proper_step (N' := ring) rfl (ready_plain ring_fine) fun _ => ?_
  refine proper_step (N' := ring) rfl (ready_plain ring_fine) fun _ => ?_
  refine proper_step (N' := ring) rfl ring_fine fun _ => ?_
  refine proper_step (N' := ring) rfl (ready_plain ring_fine) fun _ => ?_
  refine proper_step (N' := ring) rfl trivial fun _ => ?_
  refine proper_step (N' := ring) rfl (ready_plain ring_fine) fun _ => ?_
  exact ⟨trivial, trivial⟩

theorem between_idle : ∀ b ∈ between, Idle b := by
  intro b hb
  simp only [between, List.mem_cons, List.not_mem_nil, or_false] at hb
  rcases hb with rfl | rfl | rfl | rfl
  exacts [.inl trivial, .inl trivial, .inl trivial, .inr ⟨_, rfl⟩]

theorem ring_small : ∀ m ∈ moments (fun a _ => a) Net.empty
    (ringBuild ++ .decode (.d1 [1, 0, 1, 0]) false false :: (between ++ .decode (.d1 [1, 0, 1, 0]) false false :: [.setBoundaryNodes {3}])), Asks m.2 → m.1.Small := by
  have h : ∀ N ∈ (moments (fun a _ => a) Net.empty
    (ringBuild ++ .decode (.d1 [1, 0, 1, 0]) false false :: (between ++ .decode (.d1 [1, 0, 1, 0]) false false :: [.setBoundaryNodes {3}]))).map Prod.fst, N.nodes ≤ 65 := by decide +kernel
  exact fun m hm _ => .inl (h m.1 (List.mem_map_of_mem hm))

example := C91_again _ ringBuild between [.setBoundaryNodes {3}] (.decode (.d1 [1, 0, 1, 0]) false false) (.inl trivial) between_idle ring_proper
example := C91_again_int32 _ ringBuild between [.setBoundaryNodes {3}] (.decode (.d1 [1, 0, 1, 0]) false false) (.inl trivial) between_idle ring_proper ring_small

/-- The same program with its questions in between dropped. -/
def ringMarked : List (Stmt × Bool) :=
  ringBuild.map (fun s => (s, true)) ++ (.decode (.d1 [1, 0, 1, 0]) false false, false) :: (between.map (fun s => (s, false)) ++ (.decode (.d1 [1, 0, 1, 0]) false false, true) :: [(.setBoundaryNodes {3}, true)])

theorem ring_idle : ∀ m ∈ ringMarked, m.2 = false → Idle m.1 := by
  intro m hm hf
  simp only [ringMarked, List.mem_append, List.mem_cons, List.mem_map, List.not_mem_nil, or_false] at hm
  rcases hm with ⟨x, -, rfl⟩ | rfl | ⟨x, hx, rfl⟩ | rfl | rfl
  · cases hf
  · exact .inl trivial
  · exact between_idle x hx
  · cases hf
  · cases hf

example := C91_program (fun a _ => a) ringMarked ring_idle ring_proper
example := C91_program_int32 (fun a _ => a) ringMarked ring_idle ring_proper ring_small

theorem rows_proper : ProperProgram (fun a _ => a) Net.empty False
    (ringBuild ++ [.decodeBatch true true true false 1 [[3#8], [5#8]], .decode (.d1 [1, 0, 1, 0]) true false]) := by
  refine ring_built fun _ => ?_
  refine proper_step (N' := ring) rfl ⟨ready_plain ring_fine, ?_⟩ fun _ => ?_
  · intro row hr x hx
    have : ∀ row ∈ [[3#8], [5#8]], ∀ x ∈ readRow true row, x < 4 := by decide +kernel
    exact this row hr x ((fires_iff true row x).2 hx)
  exact proper_step (N' := ring) rfl (ready_plain ring_fine) fun _ => trivial

theorem ring_after : Net.empty.afterAll (fun a _ => a) ringBuild = ring := by decide +kernel

theorem row_events : ∀ x, Fires (.d1 [1, 0, 1, 0]) x ↔ ShotFires true [5#8] x := by
  intro x
  rw [← fires_iff]
  have h : readRow true [5#8] = [0, 2] := by decide +kernel
  rw [h]
  simp only [Fires]
  rcases x with _ | _ | _ | _ | x <;> simp

example := C91_rows (fun a _ => a) ringBuild true true false 1 [[3#8], [5#8]] (.d1 [1, 0, 1, 0]) 1 [5#8] rfl row_events (by rw [ring_after]; unfold Shaped; decide +kernel) (by rw [ring_after]; unfold ShotsShaped; decide +kernel) rows_proper

example := C91_rows_int32 (fun a _ => a) ringBuild true true false 1 [[3#8], [5#8]] (.d1 [1, 0, 1, 0]) 1 [5#8] rfl row_events (by rw [ring_after]; unfold Shaped; decide +kernel)
  (by rw [ring_after]; unfold ShotsShaped; decide +kernel) rows_proper (by
    have h : ∀ N ∈ (moments (fun a _ => a) Net.empty (ringBuild ++ [.decodeBatch true true true false 1 [[3#8], [5#8]], .decode (.d1 [1, 0, 1, 0]) true false])).map Prod.fst, N.nodes ≤ 65 := by
      decide +kernel
    exact fun m hm _ => .inl (h m.1 (List.mem_map_of_mem hm)))

/-- Here the batch is answered: both predictions are packed into a byte, and both weights are returned. -/
example : (match run (fun a _ => a) 20 Session.new (ringBuild ++ [.decodeBatch true true true false 1 [[3#8], [5#8]], .decode (.d1 [1, 0, 1, 0]) true false]) with
    | some (.ok ([_, _, _, _, .rowsAndWeights outs _, .pair row _], _)) => some (outs, row)
    | _ => none) = some ([[1#8], [1#8]], [1#8]) := by decide +kernel

example : (run (fun a _ => a) 20 Session.new ((ringBuild ++ [Stmt.decode (.d1 [1, 0, 1, 0]) true false]).map plain)) =
    (run (fun a _ => a) 20 Session.new (ringBuild ++ [.decode (.d1 [1, 0, 1, 0]) true false])).map fun x => x.bind fun (rs, o') => .ok (rs.map bare, o') :=
  C91_weights _ _ _ _

end Verif.Props.Trace
