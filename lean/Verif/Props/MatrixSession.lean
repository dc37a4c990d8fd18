import Verif.Props.Session
import Verif.Props.Python

/-!
# C73, C74: programs that start with a check matrix
-/

namespace Verif.Props.MatrixSession

open Verif Verif.SB Verif.UG Verif.Obj Verif.Dbl Verif.ConvD Verif.ObjD Verif.Session Verif.CM
open Verif.Props.UserEdges Verif.Props.UserGraph Verif.Props.Answers
open Verif.Props.Object Verif.Props.Double Verif.Props.Discretise Verif.Props.DoubleHistory Verif.Props.CheckMatrix
open Verif.Props.MatrixDecode (Problem Given History Loaded loads changes weightOf size flipped Accounts covered noGain in_rows in_faults)
open Verif.Props.Session (Link Net moments ProperProgram Clean netOf place_of Stands program_core)
open Verif.Props.Edges (Completes)
open Verif.Props.Python (Describes Shape Causes In Fine Tol Likely Tells Weighs Near32 events_of history_for no_history weights_in C66_arguments)
open Verif.Sch (Res)
open Verif.Api (strategyOf)

/-! ## Specification -/

/-- The link of a column in repetition `t`.  A column with a single one is a link to the boundary: to the virtual one, or to an additional node. -/
def colLinks (P : Problem ℚ) (virt : Bool) (t : Nat) (c : Fin P.n) : List Link :=
  match P.col c with
  | [i, j] => [⟨i + P.rows * t, some (j + P.rows * t), (P.fault c).toFinset, P.weight c, P.prob c, ∅⟩]
  | [i] => [⟨i + P.rows * t, if virt then none else some (P.rows * P.reps), (P.fault c).toFinset, P.weight c, P.prob c, ∅⟩]
  | _ => []

/-- The links of the columns, repetition by repetition, and then the links from each row to the same row in the next repetition. -/
def matrixLinks (P : Problem ℚ) (virt : Bool) : List Link :=
  ((List.range P.reps).flatMap fun t => (List.finRange P.n).flatMap (colLinks P virt t)) ++
  (List.range (P.reps - 1)).flatMap fun t => (List.finRange P.rows).map fun r =>
    ⟨r.val + P.rows * t, some (r.val + P.rows * (t + 1)), ∅, P.timelike r, P.misprob r, ∅⟩

/-- Adding links one after the other; `none`: one of them is not allowed. -/
def placeAll (mergeW : ℚ → ℚ → ℚ) (s : Strategy) : Net → List Link → Option Net
  | N, [] => some N
  | N, l :: ls =>
    match N.place mergeW l s with
    | (N', .nothing) => placeAll mergeW s N' ls
    | _ => none

/-- The network of a check matrix; `none`: an exception. -/
def matrixNet (mergeW : ℚ → ℚ → ℚ) (P : Problem ℚ) (virt : Bool) (s : Strategy) : Option Net :=
  (placeAll mergeW s ⟨P.rows * P.reps, [], ∅, P.faults⟩ (matrixLinks P virt)).map fun N =>
    if virt = false ∧ 0 < P.reps ∧ ∃ c, (P.col c).length = 1 then { N with nodes := max N.nodes (P.rows * P.reps + 1), boundary := {P.rows * P.reps} } else N

/-! ## Lemmas -/

/-- The call that adds the link. -/
def Adds (s : Strategy) (c : Call ℚ) (l : Link) : Prop := l.rules = ∅ ∧ ∃ obs : List Nat, obs.Nodup ∧ obs.toFinset = l.faults ∧ c = .add l.a l.b obs l.weight l.prob s

theorem place_calls (mergeW : ℚ → ℚ → ℚ) (s : Strategy) {cs : List (Call ℚ)} {ls : List Link} (h : List.Forall₂ (Adds s) cs ls) : ∀ {g : UGraph ℚ}, WF g → Clean g →
    (accepted mergeW g cs ∧ WF (UserGraph.run mergeW g cs) ∧ Clean (UserGraph.run mergeW g cs) ∧ placeAll mergeW s (netOf g) ls = some (netOf (UserGraph.run mergeW g cs))) ∨
    (¬ accepted mergeW g cs ∧ placeAll mergeW s (netOf g) ls = none) := by
  induction h with
  | nil => exact fun hw hc => .inl ⟨trivial, hw, hc, rfl⟩
  | @cons c l cs ls hcl _ ih =>
    intro g hw hc
    obtain ⟨h3, obs, h1, h2, rfl⟩ := hcl
    obtain ⟨k1, k2⟩ := place_of mergeW hw hc l.a l.b h1 l.weight l.prob s
    rw [h2] at k2
    have hl : (⟨l.a, l.b, l.faults, l.weight, l.prob, ∅⟩ : Link) = l := by rw [← h3]
    rw [hl] at k2
    simp only [placeAll, k2]
    by_cases hacc : (UserGraph.exec mergeW g (.add l.a l.b obs l.weight l.prob s)).2 = true
    · rw [if_pos hacc]
      rcases ih (wf_exec mergeW hw _) k1 with ⟨j1, j2⟩ | ⟨j1, j2⟩
      · exact .inl ⟨⟨hacc, j1⟩, j2⟩
      · exact .inr ⟨fun h => j1 h.2, j2⟩
    · rw [if_neg hacc]
      exact .inr ⟨fun h => hacc h.1, rfl⟩

theorem forall2_flatMap {α β γ : Type} {R : β → γ → Prop} {f : α → List β} {g : α → List γ} {l : List α} (h : ∀ x ∈ l, List.Forall₂ R (f x) (g x)) :
    List.Forall₂ R (l.flatMap f) (l.flatMap g) := by
  induction l with
  | nil => exact .nil
  | cons a l ih =>
    rw [List.flatMap_cons, List.flatMap_cons]
    exact List.rel_append (h a (by simp)) (ih fun x hx => h x (by simp [hx]))

variable {P : Problem ℚ}

theorem columns_eq {a : Args ℚ} (hg : Given P a) :
    columnsOf a (List.ofFn P.col) (List.ofFn P.fault) = (List.finRange P.n).map fun c => (P.col c, P.fault c, P.weight c, P.prob c) := by
  refine List.ext_getElem (by simp [columnsOf, hg.weights, hg.probs]) fun i h1 h2 => ?_
  simp [columnsOf, hg.weights, hg.probs]

theorem space_adds {a : Args ℚ} (hg : Given P a) (hF : ∀ c, (P.fault c).Nodup) : List.Forall₂ (Adds a.strategy)
    (spaceCalls a.H.numRows a.reps a.virtualBoundary a.strategy (columnsOf a (List.ofFn P.col) (List.ofFn P.fault)))
    ((List.range P.reps).flatMap fun t => (List.finRange P.n).flatMap (colLinks P a.virtualBoundary t)) := by
  unfold spaceCalls
  rw [columns_eq hg, hg.rows, hg.reps]
  refine forall2_flatMap fun t _ => ?_
  rw [List.flatMap_map]
  refine forall2_flatMap fun c _ => ?_
  unfold columnCall colLinks
  split
  · rename_i h; simp only [Prod.mk.injEq] at h
    obtain ⟨h1, rfl, rfl, rfl⟩ := h
    rw [h1]
    exact .cons ⟨rfl, _, hF c, rfl, rfl⟩ .nil
  · rename_i h; simp only [Prod.mk.injEq] at h
    obtain ⟨h1, rfl, rfl, rfl⟩ := h
    rw [h1]
    exact .cons ⟨rfl, _, hF c, rfl, rfl⟩ .nil
  · rename_i h1 h2
    split
    · rename_i i j h
      exact absurd (by rw [h]) (h1 i j (P.fault c) (P.weight c) (P.prob c))
    · rename_i i h
      exact absurd (by rw [h]) (h2 i (P.fault c) (P.weight c) (P.prob c))
    · exact .nil

theorem time_adds {a : Args ℚ} (hg : Given P a) : List.Forall₂ (Adds a.strategy)
    (timeCalls a.H.numRows a.reps a.strategy ((List.ofFn P.timelike).zip (List.ofFn P.misprob)))
    ((List.range (P.reps - 1)).flatMap fun t => (List.finRange P.rows).map fun r => (⟨r.val + P.rows * t, some (r.val + P.rows * (t + 1)), ∅, P.timelike r, P.misprob r, ∅⟩ : Link)) := by
  unfold timeCalls
  rw [hg.rows, hg.reps]
  refine forall2_flatMap fun t _ => ?_
  rw [List.forall₂_iff_get]
  refine ⟨by simp, fun i h1 h2 => ⟨by simp, [], List.nodup_nil, by simp, ?_⟩⟩
  simp [Nat.mul_comm]

theorem boundary_net (g : UGraph ℚ) (n : Nat) : netOf (g.setBoundary [n]) = { netOf g with nodes := max (netOf g).nodes (n + 1), boundary := {n} } := by
  simp [netOf, UGraph.setBoundary, markBoundary, grow_len]

theorem matrix_stands {a : Args ℚ} (hg : Given P a) (h2 : ∀ c, (P.col c).length ≤ 2) (hF : ∀ c, (P.fault c).Nodup) (mergeW : ℚ → ℚ → ℚ) :
    (∃ N g, matrixNet mergeW P a.virtualBoundary a.strategy = some N ∧ loadCheckMatrix mergeW a = .ok g ∧ Stands N false False g (ObjectD.of g false)) ∨
    (matrixNet mergeW P a.virtualBoundary a.strategy = none ∧ loadCheckMatrix mergeW a = .raise) := by
  have hl := C23_load mergeW (MatrixDecode.fits hg) (by
    intro c hc
    obtain ⟨i, rfl⟩ := List.mem_ofFn.1 hc
    exact h2 i) (MatrixDecode.time_data hg)
  have hall := List.rel_append (space_adds hg hF) (time_adds hg)
  have hN0 : netOf (UGraph.new (a.H.numRows * a.reps) a.F.numRows) = ⟨P.rows * P.reps, [], ∅, P.faults⟩ := by
    simp [netOf, UGraph.new, hg.rows, hg.reps, hg.faults]
  have hone : (∃ c ∈ List.ofFn P.col, c.length = 1) ↔ ∃ c, (P.col c).length = 1 := by simp [List.mem_ofFn]
  rcases place_calls mergeW a.strategy hall (g := UGraph.new (a.H.numRows * a.reps) a.F.numRows) (wf_new _ _) (fun e he => by cases he) with ⟨h3, h4, h5, h6⟩ | ⟨h3, h4⟩
  · left
    rw [hN0] at h6
    have hbn := Props.Convert.bndOk_run mergeW (Props.Convert.bndOk_new (K := ℚ) (a.H.numRows * a.reps) a.F.numRows)
      (meaning a (List.ofFn P.col) (List.ofFn P.fault) ((List.ofFn P.timelike).zip (List.ofFn P.misprob)))
    have hwf := wf_run mergeW (wf_new (K := ℚ) (a.H.numRows * a.reps) a.F.numRows)
      (meaning a (List.ofFn P.col) (List.ofFn P.fault) ((List.ofFn P.timelike).zip (List.ofFn P.misprob)))
    have hacc : accepted mergeW (UGraph.new (a.H.numRows * a.reps) a.F.numRows) (meaning a (List.ofFn P.col) (List.ofFn P.fault) ((List.ofFn P.timelike).zip (List.ofFn P.misprob))) := by
      unfold meaning
      rw [accepted_append]
      refine ⟨h3, ?_⟩
      unfold boundaryCalls
      split <;> simp [accepted, UserGraph.exec]
    rw [if_pos hacc] at hl
    have key : Clean (UserGraph.run mergeW (UGraph.new (a.H.numRows * a.reps) a.F.numRows) (meaning a (List.ofFn P.col) (List.ofFn P.fault) ((List.ofFn P.timelike).zip (List.ofFn P.misprob)))) ∧
        matrixNet mergeW P a.virtualBoundary a.strategy = some (netOf (UserGraph.run mergeW (UGraph.new (a.H.numRows * a.reps) a.F.numRows)
          (meaning a (List.ofFn P.col) (List.ofFn P.fault) ((List.ofFn P.timelike).zip (List.ofFn P.misprob))))) := by
      unfold meaning matrixNet matrixLinks boundaryCalls
      rw [run_append, h6, Option.map_some, ← hg.reps]
      by_cases hb : a.virtualBoundary = false ∧ 0 < a.reps ∧ ∃ c, (P.col c).length = 1
      · rw [if_pos hb, if_pos ⟨hb.1, hb.2.1, hone.2 hb.2.2⟩]
        refine ⟨h5, ?_⟩
        show _ = some (netOf ((UserGraph.run mergeW _ _).setBoundary _))
        rw [boundary_net, hg.rows]
      · rw [if_neg hb, if_neg fun h => hb ⟨h.1, h.2.1, hone.1 h.2.2⟩]
        exact ⟨h5, rfl⟩
    exact ⟨_, _, key.2, hl, ⟨hwf, hbn, key.1, rfl, invD_of _ _, fun h => by simp [ObjectD.of] at h⟩⟩
  · right
    rw [hN0] at h4
    refine ⟨by unfold matrixNet matrixLinks; rw [h4]; rfl, ?_⟩
    rw [hl, if_neg]
    unfold meaning
    rw [accepted_append]
    exact fun h => h3 h.1

/-! ## Theorems: programs -/

/-- C73: `Matching(H, ...)` or `load_from_check_matrix(H, ...)` with one of the merge strategies, followed by any proper program.  Either both raise, and one of the links of the
matrix is not allowed; or the object stands for the network of the matrix, and the program gets right replies, about the network of that moment (see C69). -/
theorem C73_program {c : Py.Call ℚ} (hc : Describes c P) {s : Strategy} (hs : strategyOf c.mergeStrategy = some s) (h2 : ∀ i, (P.col i).length ≤ 2)
    (hF : ∀ i, (P.fault i).Nodup) (mergeW : ℚ → ℚ → ℚ) :
    (matrixNet mergeW P c.virtualBoundary s = none ∧ Py.construct mergeW c = .raise ∧ Py.load mergeW c = .raise) ∨
    ∃ N g, matrixNet mergeW P c.virtualBoundary s = some N ∧ Py.construct mergeW c = .ok g ∧ Py.load mergeW c = .ok g ∧
      ∀ prog, ProperProgram mergeW N False prog → ∃ replies o, Completes (fun f => Session.run mergeW f (ObjectD.of g false) prog) (.ok (replies, o)) ∧
        List.Forall₂ (fun (m : Net × Stmt) r => Session.Right mergeW false m.1 m.2 r) (moments mergeW N prog) replies := by
  obtain ⟨a, hg, rfl, hv, hload⟩ := Python.arguments_of hc hs
  obtain ⟨l1, l2⟩ := hload mergeW
  rw [l1, l2, ← hv]
  rcases matrix_stands hg h2 hF mergeW with ⟨N, g, h3, h4, h5⟩ | ⟨h3, h4⟩
  · exact .inr ⟨N, g, h3, h4, h4, fun prog hp => program_core (W := unbounded) mergeW prog _ _ _ _ _ h5 hp fun m _ => Session.works_of m.1 m.2⟩
  · exact .inl ⟨h3, h4, h4⟩

/-- C73 for the library as compiled, with its 32-bit wrapped radius. -/
theorem C73_program_int32 {c : Py.Call ℚ} (hc : Describes c P) {s : Strategy} (hs : strategyOf c.mergeStrategy = some s) (h2 : ∀ i, (P.col i).length ≤ 2)
    (hF : ∀ i, (P.fault i).Nodup) (mergeW : ℚ → ℚ → ℚ) :
    (matrixNet mergeW P c.virtualBoundary s = none ∧ Py.construct mergeW c = .raise ∧ Py.load mergeW c = .raise) ∨
    ∃ N g, matrixNet mergeW P c.virtualBoundary s = some N ∧ Py.construct mergeW c = .ok g ∧ Py.load mergeW c = .ok g ∧
      ∀ prog, ProperProgram mergeW N False prog → (∀ m ∈ moments mergeW N prog, Session.Asks m.2 → m.1.Small) →
        ∃ replies o, Completes (fun f => Session.run (W := int32) mergeW f (ObjectD.of g false) prog) (.ok (replies, o)) ∧
          List.Forall₂ (fun (m : Net × Stmt) r => Session.Right mergeW false m.1 m.2 r) (moments mergeW N prog) replies := by
  obtain ⟨a, hg, rfl, hv, hload⟩ := Python.arguments_of hc hs
  obtain ⟨l1, l2⟩ := hload mergeW
  rw [l1, l2, ← hv]
  rcases matrix_stands hg h2 hF mergeW with ⟨N, g, h3, h4, h5⟩ | ⟨h3, h4⟩
  · exact .inr ⟨N, g, h3, h4, h4, fun prog hp hn => program_core (W := int32) mergeW prog _ _ _ _ _ h5 hp fun m hm => Session.works_small (hn m hm)⟩
  · exact .inl ⟨h3, h4, h4⟩

/-! ## Specification: only questions -/

/-- An array that cannot be meant as a syndrome. -/
def Misshapen (P : Problem ℚ) : Syn.Arr → Prop
  | .d1 z => z.length < P.rows * P.reps ∨ P.rows * P.reps + 1 < z.length
  | .d2 r c _ => r * c ≠ P.rows * P.reps
  | .other => True

/-- The number of columns of an array of shots: one per row and repetition; or one per eight of them, if the shots are packed. -/
def ShotsFit (P : Problem ℚ) (packed : Bool) (cols : Nat) : Prop := cols = if packed then (P.rows * P.reps + 7) / 8 else P.rows * P.reps

/-- A number of columns that cannot be meant. -/
def ShotsUnfit (P : Problem ℚ) (packed : Bool) (cols : Nat) : Prop :=
  if packed then 8 * cols < P.rows * P.reps ∨ P.rows * P.reps + 8 < 8 * cols else cols < P.rows * P.reps ∨ P.rows * P.reps + 1 < cols

/-- The shot shows the changes that the history causes. -/
def CausesShot (E : History P) (packed : Bool) (row : List (BitVec 8)) : Prop :=
  ∀ t r, t < P.reps → r < P.rows → (Session.ShotFires packed row (t * P.rows + r) ↔ changes E t r)

/-- `Likely` for a shot. -/
def LikelyShot (u : ℚ) (E : History P) (packed : Bool) (row : List (BitVec 8)) : Prop :=
  CausesShot E packed row ∧ ∀ E' : History P, CausesShot E' packed row → weightOf E ≤ weightOf E' + (size E + size E' : ℕ) * (1 / 2 + 1 / 2 ^ 27) * u

/-- The row of predictions says which fault ids are flipped; `packed`: in one bit each. -/
def TellsIn (packed : Bool) (E : History P) (out : List (BitVec 8)) : Prop :=
  if packed then out.length = (P.faults + 7) / 8 ∧
    ∀ k, k < 8 * out.length → ∃ b, out[k / 8]? = some b ∧ (b.getLsbD (k % 8) = true ↔ k < P.faults ∧ flipped E k % 2 = 1)
  else Tells E out

/-- The two ends of a column in repetition `t`: its rows, or one row and the boundary `none`. -/
def colEnds (P : Problem ℚ) (t : Nat) (c : Fin P.n) : Option (Sym2 (Option Nat)) :=
  match P.col c with
  | [i, j] => some s(some (t * P.rows + i), some (t * P.rows + j))
  | [i] => some s(some (t * P.rows + i), none)
  | _ => none

/-- The array lists what happened, each pair of ends once: the ends of the errors, and the two repetitions of the wrong measurements. -/
def Lists (E : History P) (es : List (Nat × Option Nat)) : Prop :=
  (es.map fun e => s(some e.1, e.2)).Nodup ∧ ∀ z, z ∈ es.map (fun e => s(some e.1, e.2)) ↔ ¬ z.IsDiag ∧
    ((∃ x ∈ E.flips, colEnds P x.1 x.2 = some z) ∨ ∃ x ∈ E.wrong, s(some (x.1.val * P.rows + x.2.val), some ((x.1.val + 1) * P.rows + x.2.val)) = z)

/-- A statement that does not modify the object, with arguments of a sensible shape, or of a shape that cannot be meant.  Shots have no events beyond the rows. -/
def Use (P : Problem ℚ) : Stmt → Prop
  | .decode z _ corr | .decodeToEdgesArray z corr => corr = false ∧ (Shape P z ∨ Misshapen P z)
  | .matchedArray z | .matchedDict z => Shape P z ∨ Misshapen P z
  | .decodeBatch ps _ _ corr cols rows => corr = false ∧ ((ShotsFit P ps cols ∧ ∀ row ∈ rows, ∀ x, Session.ShotFires ps row x → x < P.rows * P.reps) ∨ ShotsUnfit P ps cols)
  | .look _ => True
  | _ => False

/-- What the statement should reply. -/
def Reports (P : Problem ℚ) (u : ℚ) : Stmt → Reply → Prop
  | .decode z rw _, r =>
    (Shape P z ∧ ∃ (E : History P) (row : List (BitVec 8)) (x : Double), Likely u E z ∧ Tells E row ∧ Weighs u E x ∧ r = if rw then .pair row x else .array row) ∨
    (r = .raised ∧ (Shape P z → ∀ E : History P, ¬ Causes E z))
  | .decodeBatch ps pp rw _ cols rows, r =>
    (ShotsFit P ps cols ∧ ∃ outs ws, outs.length = rows.length ∧ ws.length = rows.length ∧
      List.Forall₂ (fun row (y : List (BitVec 8) × Double) => ∃ E : History P, LikelyShot u E ps row ∧ TellsIn pp E y.1 ∧ Weighs u E y.2) rows (outs.zip ws) ∧
      r = if rw then .rowsAndWeights outs ws else .rows outs) ∨
    (r = .raised ∧ (ShotsFit P ps cols → ∃ row ∈ rows, ∀ E : History P, ¬ CausesShot E ps row))
  | .decodeToEdgesArray z _, r => (Shape P z ∧ ∃ (E : History P) (es : List (Nat × Option Nat)), Likely u E z ∧ Lists E es ∧ r = .edges es) ∨ (r = .raised ∧ (Shape P z → ∀ E : History P, ¬ Causes E z))
  | .matchedArray z, r => (Shape P z ∧ ∃ ps, r = .pairs ps) ∨ (r = .raised ∧ (Shape P z → (∃ w, In P w ∧ w < 0) ∨ ∀ E : History P, ¬ Causes E z))
  | .matchedDict z, r => (Shape P z ∧ ∃ d, r = .mates d) ∨ (r = .raised ∧ (Shape P z → (∃ w, In P w ∧ w < 0) ∨ ∀ E : History P, ¬ Causes E z))
  | .look .numDetectors, r => r = .number (P.rows * P.reps)
  | .look .numFaultIds, r => r = .number P.faults
  | _, _ => True

/-! ## Lemmas: only questions -/

/-- What is needed of the decoder for a question about the graph. -/
def Able [W : Width] (g : UGraph ℚ) : Prop :=
  ∀ wo q, AskableD g wo q → ∀ k c, Const g k c → AskOne (intGraph c g) wo q

theorem able_of {g : UGraph ℚ} (hw : WF g) (hB : Props.Convert.BndOk g) : Able (W := unbounded) g := by
  intro wo q hA k c hk o hi
  obtain ⟨a, o', q1, q2, q3⟩ := ask_one (int_wf hw) (int_bnd hB) (askable_int hA hk) hi
  exact ⟨a, o', q1, q2, q3, q3⟩

theorem able_near {g : UGraph ℚ} (hw : WF g) (hB : Props.Convert.BndOk g) (hn : ∀ k c, Const g k c → Narrow.Near (intGraph c g)) : Able (W := int32) g := by
  intro wo q hA k c hk o hi
  have hA := askable_int hA hk
  obtain ⟨a, o', q1, q2, q3⟩ := ask_one (int_wf hw) (int_bnd hB) hA hi
  exact ⟨a, o', (Narrow.ask_agree (int_wf hw) (int_bnd hB) (hn k c hk) hA hi).completes q1, q2,
    (Narrow.fresh1_int32 (int_wf hw) (int_bnd hB) (hn k c hk) hA a).2 q3, q3⟩

section
variable {virt : Bool} {g : UGraph ℚ} (hl : Loaded P virt g) (hin : ∀ c, ∀ r ∈ P.col c, r < P.rows) (hfa : ∀ c, ∀ o ∈ P.fault c, o < P.faults) (hf : Fine P)
include hl hin hfa hf

theorem loaded_first [W : Width] (hone : Able g) {o : ObjectD} (hi : InvD g false o) {q : Query} (ha : correlations q = false) (hq : ∀ c, Fits (intGraph c g) false q) :
    ∃ a o', Completes (fun f => o.ask f q) (.ok (a, o')) ∧ InvD g false o' ∧ FirstAnswer g false q a := by
  have hw := hl.kept.wf
  have hcov := covered hl hf.mild.two hfa
  have hA : AskableD g false q := ⟨Python.usable hl hf, C65_builds hw hl.bndOk hcov (Python.usable hl hf) (Python.no_rules hl) false, hcov, fun c _ => hq c,
    fun h => by rw [ha] at h; cases h⟩
  obtain ⟨k, c, h⟩ := const_of hA.usable.rules hA.usable.le hA.usable.big
  obtain ⟨a, o1, c1, hi1, hfr, hfr'⟩ := askD_one hw hl.bndOk hcov h hA.builds (hone _ q hA k c h) hi
  exact ⟨_, o1, c1, hi1, ask_int hw hl.bndOk hcov h hA.builds hfr, k, c, a, h, askable_int hA h, hfr', rfl⟩

theorem loaded_asks [W : Width] (hone : Able g) {o : ObjectD} (hi : InvD g false o) {q : Query} (ha : About false q) (hq : ∀ c, Fits (intGraph c g) false q) :
    ∃ a o', Completes (fun f => o.ask f q) (.ok (a, o')) ∧ InvD g false o' ∧ ∃ s, Step g s ∧ MeansD g s q a := by
  obtain ⟨a, o1, c1, h1, h2⟩ := loaded_first hl hin hfa hf hone hi (q := q) (by cases q <;> first | exact ha | cases ha) hq
  exact ⟨a, o1, c1, h1, means_first hl.kept.wf hl.bndOk h2 ha (noGain hl hin hf.mild.two) (lt_of_lt_of_le (Python.edges_few hl hf) (by norm_num))⟩

end

theorem accounts_shot (E : History P) (ps : Bool) (row : List (BitVec 8)) : Accounts E (readRow ps row) ↔ CausesShot E ps row := by
  refine forall_congr' fun t => forall_congr' fun r => forall_congr' fun _ => forall_congr' fun _ => ?_
  rw [Session.fires_iff]

theorem tells_in {E : History P} {row out : List (BitVec 8)} {pp : Bool} (h : Tells E row) (hs : Stored pp row out) : TellsIn pp E out := by
  cases pp
  · rw [show out = row from hs]
    exact h
  · have hbits : ObsMask.IsBits row := by
      intro b hb
      obtain ⟨k, hk, rfl⟩ := List.getElem_of_mem hb
      have := h.2 k (h.1 ▸ hk)
      rw [List.getElem?_eq_getElem hk, Option.some_inj] at this
      rw [this]
      split
      · exact .inr rfl
      · exact .inl rfl
    obtain ⟨out', h1, h2, h3⟩ := ObsMask.C34_packed_predictions row hbits
    have e : Obs.packRow row = some out := hs
    rw [h1, Option.some_inj] at e
    subst e
    refine ⟨by rw [h2, h.1], fun k hk => ?_⟩
    obtain ⟨b, hb, hiff⟩ := h3 k hk
    refine ⟨b, hb, hiff.trans ?_⟩
    by_cases hlt : k < P.faults
    · rw [h.2 k hlt]
      by_cases ho : flipped E k % 2 = 1
      · simp [hlt, ho]
      · simp [ho]
    · rw [List.getElem?_eq_none (by rw [h.1]; omega)]
      simp [hlt]

theorem rows_in {R : List (BitVec 8) → History P → Prop} {S : History P → Double → Prop} {pp : Bool} {raws outs : List (List (BitVec 8))} (h : List.Forall₂ (Stored pp) raws outs) :
    ∀ {rows : List (List (BitVec 8))} {ws : List Double},
    List.Forall₂ (fun row (y : List (BitVec 8) × Double) => ∃ E : History P, R row E ∧ Tells E y.1 ∧ S E y.2) rows (raws.zip ws) →
    List.Forall₂ (fun row (y : List (BitVec 8) × Double) => ∃ E : History P, R row E ∧ TellsIn pp E y.1 ∧ S E y.2) rows (outs.zip ws) := by
  induction h with
  | nil => intro rows ws h; cases h; exact .nil
  | cons h1 h2 ih =>
    intro rows ws h
    cases ws with
    | nil => cases h; exact .nil
    | cons w ws =>
      cases h with
      | cons k1 k2 =>
        obtain ⟨C, c1, c2, c3⟩ := k1
        exact .cons ⟨C, c1, tells_in c2 h1, c3⟩ (ih k2)

theorem misshapen_none {virt : Bool} {g : UGraph ℚ} (hl : Loaded P virt g) {z : Syn.Arr} (hz : Misshapen P z) : Syn.toEvents g.numDetectors g.boundary.card z = none := by
  have hcard : g.boundary.card ≤ 1 := Finset.card_le_one.2 fun x hx y hy => (hl.last x hx).trans (hl.last y hy).symm
  cases z with
  | d1 z =>
    rw [(Syndrome.C37_one_dim _ _ z).1, hl.detectors]
    simp only [Misshapen] at hz
    omega
  | d2 r c z =>
    rw [(Syndrome.C37_two_dim _ _ r c z).1, hl.detectors]
    exact hz
  | other => rfl

theorem misshapen_not {z : Syn.Arr} (h : Misshapen P z) : ¬ Shape P z := by
  intro hs
  cases z with
  | d1 z => simp only [Misshapen, Python.Shape] at h hs; omega
  | d2 r c z =>
    obtain ⟨rfl, rfl⟩ := hs
    exact h rfl
  | other => exact hs

theorem unfit_not {ps : Bool} {cols : Nat} (h : ShotsUnfit P ps cols) : ¬ ShotsFit P ps cols := by
  unfold ShotsUnfit at h
  unfold ShotsFit
  cases ps <;> simp at h ⊢ <;> omega

theorem nodes_le {virt : Bool} {g : UGraph ℚ} (hl : Loaded P virt g) : P.rows * P.reps ≤ g.nodes.length ∧ g.nodes.length ≤ P.rows * P.reps + 1 := by
  have hcard : g.boundary.card ≤ 1 := Finset.card_le_one.2 fun x hx y hy => (hl.last x hx).trans (hl.last y hy).symm
  rw [hl.count, hl.detectors]
  omega

theorem seen_key {g : UGraph ℚ} {e e' : UEdge ℚ} (h : e.key = e'.key) : EndToEnd.seenAs g e = EndToEnd.seenAs g e' := by
  obtain ⟨a, b, _, _, _, _⟩ := e
  obtain ⟨a', b', _, _, _, _⟩ := e'
  cases b <;> cases b' <;> simp only [UEdge.key, UG.key, Prod.mk.injEq, Option.some.injEq, reduceCtorEq, and_false, and_true] at h
  · rw [EndToEnd.seenAs, EndToEnd.seenAs, h]
  · rename_i b b'
    have : a = a' ∧ b = b' ∨ a = b' ∧ b = a' := by omega
    rcases this with ⟨rfl, rfl⟩ | ⟨rfl, rfl⟩
    · rfl
    · simp only [EndToEnd.seenAs, Option.bind_some]
      exact Sym2.eq_swap

section
variable {virt : Bool} {g : UGraph ℚ} (hl : Loaded P virt g) (hin : ∀ c, ∀ r ∈ P.col c, r < P.rows) (h2 : ∀ c, (P.col c).length ≤ 2)
include hl hin h2

theorem not_boundary {t r : Nat} (ht : t < P.reps) (hr : r < P.rows) : r + P.rows * t ∉ g.boundary := by
  refine (hl.inside _ ?_).2
  calc r + P.rows * t < P.rows * (t + 1) := by rw [Nat.mul_add]; omega
    _ ≤ P.rows * P.reps := Nat.mul_le_mul_left _ ht

omit hl hin h2 in
theorem seen_two {e : UEdge ℚ} {x y : Nat} (h1 : e.node1 = x) (h2 : e.node2 = some y) (hx : x ∉ g.boundary) (hy : y ∉ g.boundary) : EndToEnd.seenAs g e = s(some x, some y) := by
  unfold EndToEnd.seenAs
  rw [h2, Option.bind_some, if_neg hy, if_neg (by rw [h1]; exact hx), h1]

omit hl hin h2 in
theorem seen_one {e : UEdge ℚ} {x : Nat} (h1 : e.node1 = x) (h2 : ∀ v, e.node2 = some v → v ∈ g.boundary) (hx : x ∉ g.boundary) : EndToEnd.seenAs g e = s(some x, none) := by
  unfold EndToEnd.seenAs
  rw [if_neg (by rw [h1]; exact hx), h1]
  cases h : e.node2 with
  | none => rfl
  | some v => rw [Option.bind_some, if_pos (h2 v h)]

theorem seen_flip {t : Fin P.reps} {c : Fin P.n} (hi : P.col c ≠ []) : some (EndToEnd.seenAs g (MatrixDecode.item P virt (.inl (t, c)))) = colEnds P t c := by
  have hr := hin c
  have h3 := h2 c
  match hc : P.col c with
  | [] => exact absurd hc hi
  | [i] =>
    rw [hc] at hr
    have hb := not_boundary hl hin h2 t.2 (hr i (by simp))
    rw [seen_one (x := i + P.rows * t.val) (by simp [MatrixDecode.item, hc]) (fun v hv => ?_) hb]
    · simp only [colEnds, hc]
      rw [Nat.mul_comm P.rows t.val, Nat.add_comm i]
    · simp only [MatrixDecode.item, hc] at hv
      cases hvirt : virt
      · rw [hvirt] at hv
        simp only [Bool.false_eq_true, if_false, Option.some_inj] at hv
        rw [← hv]
        exact hl.node hvirt ⟨c, by rw [hc]; rfl⟩ (by have := t.2; omega)
      · rw [hvirt] at hv; cases hv
  | [i, j] =>
    rw [hc] at hr
    rw [seen_two (x := i + P.rows * t.val) (y := j + P.rows * t.val) (by simp [MatrixDecode.item, hc]) (by simp [MatrixDecode.item, hc])
      (not_boundary hl hin h2 t.2 (hr i (by simp))) (not_boundary hl hin h2 t.2 (hr j (by simp)))]
    simp only [colEnds, hc]
    rw [Nat.mul_comm P.rows t.val, Nat.add_comm i, Nat.add_comm j]
  | _ :: _ :: _ :: _ => rw [hc] at h3; simp at h3

theorem seen_wrong (t : Fin (P.reps - 1)) (r : Fin P.rows) :
    EndToEnd.seenAs g (MatrixDecode.item P virt (.inr (t, r))) = s(some (t.val * P.rows + r.val), some ((t.val + 1) * P.rows + r.val)) := by
  have h0 := t.2
  have e1 := not_boundary hl hin h2 (t := t.val) (by omega) r.2
  have e2 := not_boundary hl hin h2 (t := t.val + 1) (by omega) r.2
  rw [Nat.mul_comm] at e1 e2
  rw [seen_two (x := r.val + t.val * P.rows) (y := r.val + (t.val + 1) * P.rows) rfl rfl e1 e2, Nat.add_comm r.val, Nat.add_comm r.val]

theorem lists_of {C : EndToEnd.Choice g} {E : History P} (h5 : ∀ i ∈ MatrixDecode.causes E, i ∈ MatrixDecode.items P)
    (h6 : ∀ κ, (∃ j ∈ C, g.edges[j].key = κ) ↔ ∃ i ∈ MatrixDecode.causes E, (MatrixDecode.item P virt i).key = κ) {es : List (Nat × Option Nat)} (h : Returned es C) : Lists E es := by
  refine ⟨h.1, fun z => (h.2 z).trans ?_⟩
  constructor
  · rintro ⟨j, hj, hd, rfl⟩
    refine ⟨hd, ?_⟩
    obtain ⟨i, hi, hk⟩ := (h6 _).1 ⟨j, hj, rfl⟩
    rw [← seen_key hk]
    rcases i with ⟨t, c⟩ | ⟨t, r⟩
    · exact .inl ⟨(t, c), Finset.inl_mem_disjSum.1 hi, (seen_flip hl hin h2 ((MatrixDecode.mem_left t c).1 (h5 _ hi))).symm⟩
    · exact .inr ⟨(t, r), Finset.inr_mem_disjSum.1 hi, (seen_wrong hl hin h2 t r).symm⟩
  · rintro ⟨hd, ⟨⟨t, c⟩, hx, hz⟩ | ⟨⟨t, r⟩, hx, hz⟩⟩
    · have hi : Sum.inl (t, c) ∈ MatrixDecode.causes E := Finset.inl_mem_disjSum.2 hx
      obtain ⟨j, hj, hk⟩ := (h6 _).2 ⟨_, hi, rfl⟩
      rw [← seen_flip hl hin h2 ((MatrixDecode.mem_left t c).1 (h5 _ hi)), ← seen_key hk, Option.some_inj] at hz
      exact ⟨j, hj, by rw [hz]; exact hd, hz⟩
    · have hi : Sum.inr (t, r) ∈ MatrixDecode.causes E := Finset.inr_mem_disjSum.2 hx
      obtain ⟨j, hj, hk⟩ := (h6 _).2 ⟨_, hi, rfl⟩
      rw [← seen_wrong hl hin h2 t r, ← seen_key hk] at hz
      exact ⟨j, hj, by rw [hz]; exact hd, hz⟩

end

section
variable {virt : Bool} {g : UGraph ℚ} (hl : Loaded P virt g) (hin : ∀ c, ∀ r ∈ P.col c, r < P.rows) (hfa : ∀ c, ∀ o ∈ P.fault c, o < P.faults) (hf : Fine P)
include hl hin hfa hf

theorem reports_of [W : Width] (mergeW : ℚ → ℚ → ℚ) (hone : Able g) {u : ℚ} (hu : Tol P u) {o : ObjectD} (hi : InvD g false o) {s : Stmt} (hs : Use P s) :
    ∃ r o', Completes (fun f => Session.exec mergeW f o s) (.ok (r, o')) ∧ InvD g false o' ∧ Reports P u s r := by
  have hdet : o.graph.numDetectors = g.numDetectors ∧ o.graph.boundary = g.boundary ∧ o.graph.nodes.length = g.nodes.length ∧ o.graph.numObs = g.numObs := by
    obtain ⟨b, e⟩ := hi.same
    rw [e]
    exact ⟨rfl, rfl, rfl, rfl⟩
  obtain ⟨hdet, hbd, hnodes, hobs⟩ := hdet
  cases s with
  | decode z rw corr =>
    obtain ⟨rfl, hs⟩ := hs
    simp only [Session.exec, hdet, hbd]
    rcases hs with hz | hz
    · obtain ⟨events, he, hnd, hev, hz'⟩ := events_of hl hz
      obtain ⟨a, o', c1, hi', st, hst, hM⟩ := loaded_asks hl hin hfa hf hone hi (q := .decode false events) rfl fun _ => ⟨hnd, hev⟩
      rw [he]
      refine ⟨_, o', Session.completes_ask c1 rw, hi', ?_⟩
      rcases hM with ⟨row, x, rfl, C, h1, h2, h3⟩ | ⟨rfl, h⟩
      · obtain ⟨E, k1, k2, k3, k4, -⟩ := history_for hl hin hf hst hu hev h1
        exact .inl ⟨hz, E, row, x, ⟨(hz' E).1 k1, fun E' hE' => k2 E' ((hz' E').2 hE')⟩, k3 row h2, k4 x h3, rfl⟩
      · exact .inr ⟨rfl, fun _ E hE => no_history hl hin hf hev h E ((hz' E).2 hE)⟩
    · rw [misshapen_none hl hz]
      exact ⟨_, o, ⟨0, fun f _ => rfl⟩, hi, .inr ⟨rfl, fun h => absurd h (misshapen_not hz)⟩⟩
  | decodeToEdgesArray z corr =>
    obtain ⟨rfl, hs⟩ := hs
    simp only [Session.exec, hdet, hbd]
    rcases hs with hz | hz
    · obtain ⟨events, he, hnd, hev, hz'⟩ := events_of hl hz
      obtain ⟨a, o', c1, hi', st, hst, hM⟩ := loaded_asks hl hin hfa hf hone hi (q := .edges false events) rfl fun _ => ⟨hnd, hev⟩
      rw [he]
      refine ⟨_, o', Session.completes_ask c1 false, hi', ?_⟩
      rcases hM with ⟨es, rfl, C, h1, h2⟩ | ⟨rfl, h⟩
      · obtain ⟨E, k1, k2, -, -, k5, k6⟩ := history_for hl hin hf hst hu hev h1
        exact .inl ⟨hz, E, es, ⟨(hz' E).1 k1, fun E' hE' => k2 E' ((hz' E').2 hE')⟩, lists_of hl hin hf.mild.two k5 k6 h2, rfl⟩
      · exact .inr ⟨rfl, fun _ E hE => no_history hl hin hf hev h E ((hz' E).2 hE)⟩
    · rw [misshapen_none hl hz]
      exact ⟨_, o, ⟨0, fun f _ => rfl⟩, hi, .inr ⟨rfl, fun h => absurd h (misshapen_not hz)⟩⟩
  | matchedArray z =>
    simp only [Session.exec, hdet, hbd]
    rcases hs with hz | hz
    · obtain ⟨events, he, hnd, hev, hz'⟩ := events_of hl hz
      obtain ⟨a, o', c1, hi', hfa⟩ := loaded_first hl hin hfa hf hone hi (q := .pairs events) rfl fun _ => ⟨hnd, hev⟩
      obtain ⟨st, hst, hM⟩ := PairsD.pairs_first hl.kept.wf hl.bndOk hfa (noGain hl hin hf.mild.two)
      rw [he]
      rcases hM with ⟨ps, rfl, hM⟩ | ⟨rfl, hno⟩
      · refine ⟨_, o', Session.completes_pairs c1 (dict := false) (r := .pairs ((ps.map Session.pairOf).map Session.rowOf)) ?_, hi', .inl ⟨hz, _, rfl⟩⟩
        simp [Session.pairsOf, Session.array_of hM.first]
      · refine ⟨_, o', Session.completes_pairs c1 (dict := false) rfl, hi', .inr ⟨rfl, fun _ => ?_⟩⟩
        rcases hno with ⟨e, h1, h2⟩ | h
        · exact .inl ⟨_, MatrixDecode.weights_from hl hf.mild.two e h1, h2⟩
        · exact .inr fun E hE => no_history hl hin hf hev h E ((hz' E).2 hE)
    · rw [misshapen_none hl hz]
      exact ⟨_, o, ⟨0, fun f _ => rfl⟩, hi, .inr ⟨rfl, fun h => absurd h (misshapen_not hz)⟩⟩
  | matchedDict z =>
    simp only [Session.exec, hdet, hbd]
    rcases hs with hz | hz
    · obtain ⟨events, he, hnd, hev, hz'⟩ := events_of hl hz
      obtain ⟨a, o', c1, hi', hfa⟩ := loaded_first hl hin hfa hf hone hi (q := .pairs events) rfl fun _ => ⟨hnd, hev⟩
      obtain ⟨st, hst, hM⟩ := PairsD.pairs_first hl.kept.wf hl.bndOk hfa (noGain hl hin hf.mild.two)
      rw [he]
      rcases hM with ⟨ps, rfl, hM⟩ | ⟨rfl, hno⟩
      · obtain ⟨d, k1, k2⟩ := Session.dict_of hM.first hM.once
        refine ⟨_, o', Session.completes_pairs c1 (dict := true) (r := .mates d) ?_, hi', .inl ⟨hz, _, rfl⟩⟩
        simp [Session.pairsOf, k1]
      · refine ⟨_, o', Session.completes_pairs c1 (dict := true) rfl, hi', .inr ⟨rfl, fun _ => ?_⟩⟩
        rcases hno with ⟨e, h1, h2⟩ | h
        · exact .inl ⟨_, MatrixDecode.weights_from hl hf.mild.two e h1, h2⟩
        · exact .inr fun E hE => no_history hl hin hf hev h E ((hz' E).2 hE)
    · rw [misshapen_none hl hz]
      exact ⟨_, o, ⟨0, fun f _ => rfl⟩, hi, .inr ⟨rfl, fun h => absurd h (misshapen_not hz)⟩⟩
  | decodeBatch ps pp rw corr cols rows =>
    obtain ⟨rfl, hs⟩ := hs
    simp only [Session.exec]
    obtain ⟨n1, n2⟩ := nodes_le hl
    rcases hs with ⟨hc, hev⟩ | hc
    · have hev' : ∀ row ∈ rows, ∀ d ∈ readRow ps row, d < g.nodes.length := fun row hr d hd => lt_of_lt_of_le (hev row hr d ((Session.fires_iff ps row d).1 hd)) n1
      have hsh : Obs.shapeOk ps cols g.numDetectors g.nodes.length = true := by
        unfold ShotsFit at hc
        rw [hl.detectors]
        unfold Obs.shapeOk
        cases ps <;> simp [Obs.numBytes, Obs.shiftRight3] at hc ⊢ <;> omega
      obtain ⟨a, o', c1, hi', st, hst, hM⟩ := loaded_asks hl hin hfa hf hone hi (q := .batch ps pp false cols rows) rfl fun _ _ => hev'
      refine ⟨_, o', Session.completes_ask c1 rw, hi', ?_⟩
      rcases hM with ⟨raws, outs, ws, rfl, k1, k2, k3, k4⟩ | ⟨rfl, hno⟩
      · refine .inl ⟨hc, outs, ws, by rw [← k1.length_eq, k2], k3, rows_in k1 ?_, rfl⟩
        rw [List.forall₂_iff_get] at k4 ⊢
        refine ⟨k4.1, fun i h1 h2 => ?_⟩
        obtain ⟨C, j1, j2, j3⟩ := k4.2 i h1 h2
        obtain ⟨E, e1, e2, e3, e4, -⟩ := history_for hl hin hf hst hu (hev' _ (List.get_mem ..)) j1
        exact ⟨E, ⟨(accounts_shot ..).1 e1, fun E' hE' => e2 E' ((accounts_shot ..).2 hE')⟩, e3 _ j2, e4 _ j3⟩
      · refine .inr ⟨rfl, fun _ => ?_⟩
        rcases hno with h | ⟨row, hr, h⟩
        · rw [hsh] at h; cases h
        · exact ⟨row, hr, fun E hE => no_history hl hin hf (hev' row hr) h E ((accounts_shot ..).2 hE)⟩
    · refine ⟨.raised, o, ⟨0, fun f _ => ?_⟩, hi, .inr ⟨rfl, fun h => absurd h (unfit_not hc)⟩⟩
      have hr : refuses o.graph (.batch ps pp false cols rows) = true := by
        simp only [refuses, hdet, hnodes, hl.detectors]
        unfold ShotsUnfit at hc
        unfold Obs.shapeOk
        cases ps <;> simp [Obs.numBytes, Obs.shiftRight3] at hc ⊢ <;> omega
      simp only [Session.ask, ObjectD.ask, hr, if_true]
      rfl
  | look l =>
    refine ⟨Session.look o.graph l, o, ⟨0, fun f _ => rfl⟩, hi, ?_⟩
    cases l <;> first | trivial | skip
    · show Reply.number _ = _
      rw [hobs, hl.numObs]
    · show Reply.number _ = _
      rw [hdet, hl.detectors]
  | _ => exact absurd hs id

theorem uses_core [W : Width] (mergeW : ℚ → ℚ → ℚ) (hone : Able g) {u : ℚ} (hu : Tol P u) : ∀ (prog : List Stmt) (o : ObjectD), InvD g false o → (∀ s ∈ prog, Use P s) →
    ∃ rs o', Completes (fun f => Session.run mergeW f o prog) (.ok (rs, o')) ∧ List.Forall₂ (Reports P u) prog rs := by
  intro prog
  induction prog with
  | nil => intro o _ _; exact ⟨[], o, ⟨0, fun f _ => rfl⟩, .nil⟩
  | cons s prog ih =>
    intro o hi hp
    obtain ⟨r, o1, ⟨f1, h1⟩, hi1, hr⟩ := reports_of hl hin hfa hf mergeW hone hu hi (hp s (by simp))
    obtain ⟨rs, o2, ⟨f2, h2⟩, hrs⟩ := ih o1 hi1 fun s hs => hp s (by simp [hs])
    refine ⟨r :: rs, o2, ⟨max f1 f2, fun f hf => ?_⟩, .cons hr hrs⟩
    have e1 := h1 f (by omega)
    have e2 := h2 f (by omega)
    simp only at e1 e2
    simp only [Session.run, e1, e2]
    rfl

end

/-! ## Theorems: only questions -/

/-- C74: `Matching(H, ...)` with the default merge strategy, and then any sequence of statements that do not modify the object.  Each reply is right, in terms of the matrices and
weights given, and whatever was asked before. -/
theorem C74_questions {c : Py.Call ℚ} (hc : Python.Asks c P) (hf : Fine P) {u : ℚ} (hu : Tol P u) (mergeW : ℚ → ℚ → ℚ) :
    ∃ g, Py.construct mergeW c = .ok g ∧ Py.load mergeW c = .ok g ∧ ∀ prog, (∀ s ∈ prog, Use P s) → ∃ replies o,
      Completes (fun f => Session.run mergeW f (ObjectD.of g false) prog) (.ok (replies, o)) ∧ List.Forall₂ (Reports P u) prog replies := by
  obtain ⟨a, hg, hs, hv, hload⟩ := C66_arguments hc
  obtain ⟨g, hgo, hl⟩ := loads hg hf.mild.two hs mergeW
  refine ⟨g, by rw [(hload mergeW).2, hgo], by rw [(hload mergeW).1, hgo], fun prog hp => ?_⟩
  exact uses_core (W := unbounded) hl (in_rows hg) (in_faults hg) hf mergeW (able_of hl.kept.wf hl.bndOk) hu prog _ (invD_of g false) hp

/-- C74 for the library as compiled, with its 32-bit wrapped radius. -/
theorem C74_questions_int32 {c : Py.Call ℚ} (hc : Python.Asks c P) (hf : Fine P) (hn : Near32 P) {u : ℚ} (hu : Tol P u) (mergeW : ℚ → ℚ → ℚ) :
    ∃ g, Py.construct mergeW c = .ok g ∧ Py.load mergeW c = .ok g ∧ ∀ prog, (∀ s ∈ prog, Use P s) → ∃ replies o,
      Completes (fun f => Session.run (W := int32) mergeW f (ObjectD.of g false) prog) (.ok (replies, o)) ∧ List.Forall₂ (Reports P u) prog replies := by
  obtain ⟨a, hg, hs, hv, hload⟩ := C66_arguments hc
  obtain ⟨g, hgo, hl⟩ := loads hg hf.mild.two hs mergeW
  refine ⟨g, by rw [(hload mergeW).2, hgo], by rw [(hload mergeW).1, hgo], fun prog hp => ?_⟩
  refine uses_core (W := int32) hl (in_rows hg) (in_faults hg) hf mergeW (able_near hl.kept.wf hl.bndOk fun k c hk => ?_) hu prog _ (invD_of g false) hp
  refine C65_near hl.kept.wf (Python.usable hl hf) ?_ c hk.norm
  have hnodes := (nodes_le hl).2
  rcases hn with h | ⟨hi, M, h1, h2⟩
  · exact .inl (by omega)
  · exact .inr ⟨fun w hw => hi w (weights_in hl hf.mild.two hw), M, fun e he => h1 _ (MatrixDecode.weights_from hl hf.mild.two e he), (Nat.mul_le_mul_left _ hnodes).trans h2⟩

/-! ## Examples -/

/-- `Matching([[1, 1]], weights=[1, 2], merge_strategy=...)`. -/
def twoCall (strategy : String) : Py.Call ℚ where
  checkMatrix := some (Py.dense 1 2 fun _ _ => 1)
  weights := .array [1, 2]
  mergeStrategy := strategy

def twoProblem : Problem ℚ where
  rows := 1
  faults := 2
  n := 2
  reps := 1
  col := ![[0], [0]]
  fault := ![[0], [1]]
  weight := ![1, 2]
  prob := fun _ => -1
  timelike := fun _ => 1
  misprob := fun _ => -1

theorem two_describes (s : String) : Describes (twoCall s) twoProblem where
  matrix := ⟨_, .inl rfl, rfl, by simp only [Py.dense]; decide, by simp only [Py.dense]; decide⟩
  weights := .inl ⟨rfl, rfl⟩
  probs := ⟨rfl, fun _ => by simp [twoCall]⟩
  reps := .inr ⟨rfl, rfl⟩
  time := fun h => absurd h (by decide)
  faults := .inl ⟨rfl, rfl, by decide⟩

theorem two_cols : ∀ i, (twoProblem.col i).length ≤ 2 := by
  show ∀ i : Fin 2, ((![[0], [0]] : Fin 2 → List Nat) i).length ≤ 2
  decide

theorem two_faults : ∀ i, (twoProblem.fault i).Nodup := by
  show ∀ i : Fin 2, ((![[0], [1]] : Fin 2 → List Nat) i).Nodup
  decide

/-- Both columns are links from row 0 to the boundary.  That is not allowed; or the first one stays; or the second one. -/
example : matrixNet (fun a _ => a) twoProblem false .disallow = none ∧
    matrixNet (fun a _ => a) twoProblem false .keepOriginal = some ⟨2, [⟨0, some 1, {0}, 1, -1, ∅⟩], {1}, 2⟩ ∧
    matrixNet (fun a _ => a) twoProblem true .replace = some ⟨1, [⟨0, none, {1}, 2, -1, ∅⟩], ∅, 2⟩ := by decide +kernel

example := C73_program (two_describes "disallow") rfl two_cols two_faults fun a _ => a
example := C73_program_int32 (two_describes "replace") rfl two_cols two_faults fun a _ => a

/-- A proper program that goes on from there. -/
example : ∃ N, matrixNet (fun a _ => a) twoProblem false .keepOriginal = some N ∧
    ProperProgram (fun a _ => a) N False [.decode (.d1 [1]) true false, .look .edges, .addEdge 0 2 { weight := .fin 4, faultIds := .int 5 }, .decodeToEdgesArray (.d1 [1, 0, 1]) false] := by
  refine ⟨⟨2, [⟨0, some 1, {0}, 1, -1, ∅⟩], {1}, 2⟩, by decide +kernel, ?_⟩
  refine Session.proper_step (N' := ⟨2, [⟨0, some 1, {0}, 1, -1, ∅⟩], {1}, 2⟩) rfl
    (Session.ready_plain (Session.fine_of (by decide +kernel) (by decide +kernel) (by decide +kernel) (by decide +kernel) (by decide +kernel) (by decide +kernel) (by decide +kernel))) fun _ => ?_
  refine Session.proper_step (N' := ⟨2, [⟨0, some 1, {0}, 1, -1, ∅⟩], {1}, 2⟩) rfl trivial fun _ => ?_
  refine Session.proper_step (N' := ⟨3, [⟨0, some 1, {0}, 1, -1, ∅⟩, ⟨0, some 2, {5}, 4, -1, ∅⟩], {1}, 6⟩) (by decide +kernel) (fun h => by cases h) fun _ => ?_
  exact Session.proper_step (N' := ⟨3, [⟨0, some 1, {0}, 1, -1, ∅⟩, ⟨0, some 2, {5}, 4, -1, ∅⟩], {1}, 6⟩) rfl
    (Session.ready_plain (Session.fine_of (by decide +kernel) (by decide +kernel) (by decide +kernel) (by decide +kernel) (by decide +kernel) (by decide +kernel) (by decide +kernel))) fun _ => trivial

/-- C74, for the call of C66 with three rows and two repetitions: questions of all kinds, shots in bytes and in bits, and arrays of a wrong shape. -/
def questions : List Stmt := [
  .decode (.d2 3 2 fun r t => if r = 0 ∧ t = 1 then 1 else 0) true false,
  .decodeBatch false true true false 6 [[0, 1, 0, 0, 0, 1], [0, 0, 0, 0, 0, 0]],
  .decodeBatch true false false false 1 [[0b100010#8], [0b1#8]],
  .look .numDetectors,
  .decode (.d1 [1, 0]) false false,
  .matchedDict (.d1 [1, 0, 0, 1, 0, 0]),
  .decodeBatch true false false false 3 []]

theorem questions_use : ∀ s ∈ questions, Use Python.oldProblem s := by
  have hb : ∀ (l : List (BitVec 8)) (n : Nat), (∀ x ∈ readRow false l, x < n) → ∀ x, Session.ShotFires false l x → x < n := fun l n h x hx => h x ((Session.fires_iff _ _ _).2 hx)
  have hp : ∀ (l : List (BitVec 8)) (n : Nat), (∀ x ∈ readRow true l, x < n) → ∀ x, Session.ShotFires true l x → x < n := fun l n h x hx => h x ((Session.fires_iff _ _ _).2 hx)
  intro s hs
  simp only [questions, List.mem_cons, List.not_mem_nil, or_false] at hs
  rcases hs with rfl | rfl | rfl | rfl | rfl | rfl | rfl
  · exact ⟨rfl, .inl ⟨rfl, rfl⟩⟩
  · refine ⟨rfl, .inl ⟨rfl, fun row hr => hb row _ ?_⟩⟩
    have : ∀ row ∈ ([[0, 1, 0, 0, 0, 1], [0, 0, 0, 0, 0, 0]] : List (List (BitVec 8))), ∀ x ∈ readRow false row, x < 3 * 2 := by decide +kernel
    exact this row hr
  · refine ⟨rfl, .inl ⟨rfl, fun row hr => hp row _ ?_⟩⟩
    have : ∀ row ∈ ([[0b100010#8], [0b1#8]] : List (List (BitVec 8))), ∀ x ∈ readRow true row, x < 3 * 2 := by decide +kernel
    exact this row hr
  · trivial
  · exact ⟨rfl, .inr (.inl (by decide))⟩
  · exact .inl (by show _ = 3 * 2; decide)
  · exact ⟨rfl, .inr (.inr (by decide))⟩

example := (C74_questions Python.old_asks Python.old_hyps.2.1 Python.old_hyps.2.2.2.1 fun a _ => a)
example := (C74_questions_int32 Python.old_asks Python.old_hyps.2.1 Python.old_hyps.2.2.1 Python.old_hyps.2.2.2.1 fun a _ => a)

end Verif.Props.MatrixSession
