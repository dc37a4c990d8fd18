import Verif.Blossom.Inserted
import Verif.Blossom.Buildable
import Verif.Props.CheckMatrix
import Verif.Props.Answers
import Verif.Props.Narrow
import Verif.Props.Syndrome
import Mathlib.Data.Finset.Sum
import Mathlib.Algebra.BigOperators.Field

/-!
# C62: decoding a check matrix

What a user of `Matching(H, weights, faults_matrix=F, repetitions=T)` relies on: `decode(z)` returns `F c` for a set of errors `c` that explains
`z` and is of least weight.  Nothing in the statements mentions edges.
-/

namespace Verif.Props.MatrixDecode

open Verif Verif.UG Verif.CM Verif.Conv Verif.Obj Verif.SB
open Verif.Props.UserGraph Verif.Props.CheckMatrix Verif.Props.EndToEnd Verif.Props.UserEdges Verif.Props.Object Verif.Props.Answers
open Verif.Inserted (callOf Kept)

variable {K : Type} [Field K] [LinearOrder K] [IsStrictOrderedRing K] [FloorRing K]

/-! ## Specification -/

/-- A check matrix with `n` columns and a faults matrix, by the positions of their ones, the weight and probability of each column, and the weight
and probability of a wrong measurement of each row. -/
structure Problem (K : Type) where
  rows : Nat
  faults : Nat
  n : Nat
  reps : Nat
  col : Fin n → List Nat
  fault : Fin n → List Nat
  weight : Fin n → K
  prob : Fin n → K
  timelike : Fin rows → K
  misprob : Fin rows → K

/-- The arguments of the loader say this. -/
structure Given (P : Problem K) (a : Args K) : Prop where
  H : Represents a.H (List.ofFn P.col)
  rows : a.H.numRows = P.rows
  F : Represents a.F (List.ofFn P.fault)
  faults : a.F.numRows = P.faults
  weights : a.weights = List.ofFn P.weight
  probs : a.probs = List.ofFn P.prob
  reps : a.reps = P.reps
  time : 1 < P.reps → a.timelike = some (List.ofFn P.timelike) ∧ a.measProbs = some (List.ofFn P.misprob)

/-- What happened: which errors in which repetition, and which rows were measured wrongly in which repetition (the last is measured without errors). -/
structure History (P : Problem K) where
  flips : Finset (Fin P.reps × Fin P.n)
  wrong : Finset (Fin (P.reps - 1) × Fin P.rows)

variable {P : Problem K}

/-- The value of row `r` measured in repetition `t` (its parity): the errors so far that flip it, and a wrong measurement. -/
def measured (E : History P) (t r : Nat) : Nat :=
  (∑ x ∈ E.flips.filter (fun x => x.1.val ≤ t), (P.col x.2).count r) + (E.wrong.filter fun x => x.1.val = t ∧ x.2.val = r).card

/-- The measured value differs from that of the repetition before. -/
def changes (E : History P) (t r : Nat) : Prop := (measured E t r + if t = 0 then 0 else measured E (t - 1) r) % 2 = 1

/-- The detection events are the changes. -/
def Accounts (E : History P) (events : List Nat) : Prop := ∀ t r, t < P.reps → r < P.rows → (t * P.rows + r ∈ events ↔ changes E t r)

/-- A weight, scaled and rounded to an even integer. -/
def whole (scale w : K) : Int := disc (scale / 2) w

/-- Total rounded weight of what happened. -/
def cost (scale : K) (E : History P) : Int := (∑ x ∈ E.flips, whole scale (P.weight x.2)) + ∑ x ∈ E.wrong, whole scale (P.timelike x.2)

/-- Least cost among all that account for the events. -/
def Cheapest (scale : K) (E : History P) (events : List Nat) : Prop :=
  Accounts E events ∧ ∀ E' : History P, Accounts E' events → cost scale E ≤ cost scale E'

/-- Number of times fault id `k` is flipped. -/
def flipped (E : History P) (k : Nat) : Nat := ∑ x ∈ E.flips, (P.fault x.2).count k

/-- The condition: at most two ones in each column; no two equal columns whose weights have a negative sum; no zero column of negative weight. -/
structure Mild (P : Problem K) : Prop where
  two : ∀ c, (P.col c).length ≤ 2
  pair : ∀ c c', c ≠ c' → (P.col c).Perm (P.col c') → 0 ≤ P.weight c + P.weight c'
  zero : ∀ c, P.col c = [] → 0 ≤ P.weight c

/-- No weight is beyond the limit of `2^24 - 1`. -/
structure Small (P : Problem K) : Prop where
  col : ∀ c, |P.weight c| ≤ (2 ^ 24 - 1 : Nat)
  time : 1 < P.reps → ∀ r, |P.timelike r| ≤ (2 ^ 24 - 1 : Nat)

/-- The array is `F c` for a cheapest history `c`, and `w` is its cost, scaled back. -/
def Gives (P : Problem K) (scale : K) (events : List Nat) (row : List (BitVec 8)) (w : K) : Prop :=
  ∃ E : History P, Cheapest scale E events ∧ row.length = P.faults ∧
    (∀ k, k < P.faults → row[k]? = some (if flipped E k % 2 = 1 then 1#8 else 0#8)) ∧ w = (cost scale E : K) / scale

/-- What is returned is right; or there is an exception and nothing accounts for the events. -/
def Right (P : Problem K) (scale : K) (events : List Nat) (a : Answer K) : Prop :=
  (∃ row w, a = .predictions row w ∧ Gives P scale events row w) ∨ (a = .exception ∧ ∀ E : History P, ¬ Accounts E events)

/-- The same for a batch. -/
def RightBatch (P : Problem K) (scale : K) (ps pp : Bool) (rows : List (List (BitVec 8))) (a : Answer K) : Prop :=
  (∃ raws outs weights, a = .batch outs weights ∧ List.Forall₂ (Stored pp) raws outs ∧ raws.length = rows.length ∧ weights.length = rows.length ∧
    List.Forall₂ (fun row (x : List (BitVec 8) × K) => Gives P scale (readRow ps row) x.1 x.2) rows (raws.zip weights)) ∨
  (a = .exception ∧ ∃ row ∈ rows, ∀ E : History P, ¬ Accounts E (readRow ps row))

/-- Weight of what happened, not rounded. -/
def weightOf (E : History P) : K := (∑ x ∈ E.flips, P.weight x.2) + ∑ x ∈ E.wrong, P.timelike x.2

/-- Number of things that happened. -/
def size (E : History P) : Nat := E.flips.card + E.wrong.card

/-! ## Lemmas: the inserted edges -/

/-- What may happen: an error, or a wrong measurement. -/
abbrev Cause (P : Problem K) := (Fin P.reps × Fin P.n) ⊕ (Fin (P.reps - 1) × Fin P.rows)

/-- The edge for it. -/
def item (P : Problem K) (virt : Bool) : Cause P → UEdge K
  | .inl (t, c) => match P.col c with
    | [i, j] => ⟨i + P.rows * t, some (j + P.rows * t), P.fault c, P.weight c, P.prob c, []⟩
    | [i] => ⟨i + P.rows * t, if virt then none else some (P.rows * P.reps), P.fault c, P.weight c, P.prob c, []⟩
    | _ => ⟨0, some 0, [], 0, 0, []⟩
  | .inr (t, r) => ⟨r + t * P.rows, some (r + (t + 1) * P.rows), [], P.timelike r, P.misprob r, []⟩

/-- All that are inserted. -/
def items (P : Problem K) : List (Cause P) :=
  ((List.finRange P.reps).flatMap fun t => ((List.finRange P.n).filter fun c => P.col c ≠ []).map fun c => .inl (t, c)) ++
    (List.finRange (P.reps - 1)).flatMap fun t => (List.finRange P.rows).map fun r => .inr (t, r)

omit [LinearOrder K] [IsStrictOrderedRing K] [FloorRing K] [Field K] in
theorem mem_left (t : Fin P.reps) (c : Fin P.n) : (Sum.inl (t, c) : Cause P) ∈ items P ↔ P.col c ≠ [] := by
  simp [items]

omit [LinearOrder K] [IsStrictOrderedRing K] [FloorRing K] [Field K] in
theorem mem_right (t : Fin (P.reps - 1)) (r : Fin P.rows) : (Sum.inr (t, r) : Cause P) ∈ items P := by
  simp [items]

theorem range_eq (n : Nat) : List.range n = (List.finRange n).map Fin.val := by
  refine List.ext_getElem (by simp) ?_
  simp

theorem flatMap_one {α β : Type} (p : α → Bool) (F : α → List β) (G : α → β) (l : List α) (h : ∀ a ∈ l, F a = if p a then [G a] else []) :
    l.flatMap F = (l.filter p).map G := by
  induction l with
  | nil => rfl
  | cons a l ih =>
    rw [List.flatMap_cons, ih (fun b hb => h b (List.mem_cons_of_mem _ hb)), h a (by simp)]
    cases hp : p a <;> simp [hp]

section
variable {a : Args K} (hg : Given P a)
include hg

omit [LinearOrder K] [IsStrictOrderedRing K] [FloorRing K] [Field K] in
theorem fits : CheckMatrix.Fits a (List.ofFn P.col) (List.ofFn P.fault) :=
  ⟨hg.H, hg.F, by simp, by simp [hg.weights], by simp [hg.probs]⟩

omit [LinearOrder K] [IsStrictOrderedRing K] [FloorRing K] [Field K] in
theorem in_rows (c : Fin P.n) : ∀ r ∈ P.col c, r < P.rows := by
  intro r hr
  rw [← hg.rows]
  exact hg.H.2.2.2.2 (P.col c) (by rw [List.mem_ofFn]; exact ⟨c, rfl⟩) r hr

omit [LinearOrder K] [IsStrictOrderedRing K] [FloorRing K] [Field K] in
theorem in_faults (c : Fin P.n) : ∀ o ∈ P.fault c, o < P.faults := by
  intro r hr
  rw [← hg.faults]
  exact hg.F.2.2.2.2 (P.fault c) (by rw [List.mem_ofFn]; exact ⟨c, rfl⟩) r hr

omit [LinearOrder K] [IsStrictOrderedRing K] [FloorRing K] [Field K] in
theorem columns_eq : columnsOf a (List.ofFn P.col) (List.ofFn P.fault) =
    (List.finRange P.n).map fun c => (P.col c, P.fault c, P.weight c, P.prob c) := by
  unfold columnsOf
  rw [hg.weights, hg.probs]
  refine List.ext_getElem (by simp) ?_
  intro i h1 h2
  simp

omit [LinearOrder K] [IsStrictOrderedRing K] [FloorRing K] [Field K] in
theorem time_data : TimeData a ((List.ofFn P.timelike).zip (List.ofFn P.misprob)) := by
  by_cases h : 1 < P.reps
  · obtain ⟨h1, h2⟩ := hg.time h
    exact .inr ⟨_, _, h1, h2, by simp [hg.rows], by simp [hg.rows], rfl⟩
  · exact .inl (by rw [hg.reps]; omega)

omit [LinearOrder K] [IsStrictOrderedRing K] [FloorRing K] in
theorem space_eq (hm : ∀ c, (P.col c).length ≤ 2) (virt : Bool) (s : Strategy) :
    spaceCalls P.rows P.reps virt s (columnsOf a (List.ofFn P.col) (List.ofFn P.fault)) =
      ((List.finRange P.reps).flatMap fun t => ((List.finRange P.n).filter fun c => P.col c ≠ []).map fun c => (.inl (t, c) : Cause P)).map
        fun i => callOf s (item P virt i) := by
  unfold spaceCalls
  rw [columns_eq hg, range_eq, List.flatMap_map, List.map_flatMap]
  congr 1
  funext t
  rw [List.flatMap_map, List.map_map]
  refine flatMap_one (fun c => decide (P.col c ≠ [])) _ _ _ fun c _ => ?_
  have h2 := hm c
  simp only [Function.comp_apply, item]
  rcases hc : P.col c with _ | ⟨i, _ | ⟨j, _ | ⟨k, l⟩⟩⟩
  · simp [columnCall]
  · simp [columnCall, callOf]
  · simp [columnCall, callOf]
  · rw [hc] at h2; simp at h2

omit [LinearOrder K] [IsStrictOrderedRing K] [FloorRing K] hg in
theorem time_eq (virt : Bool) (s : Strategy) : timeCalls P.rows P.reps s ((List.ofFn P.timelike).zip (List.ofFn P.misprob)) =
    ((List.finRange (P.reps - 1)).flatMap fun t => (List.finRange P.rows).map fun r => (.inr (t, r) : Cause P)).map
        fun i => callOf s (item P virt i) := by
  unfold timeCalls
  rw [range_eq, List.flatMap_map, List.map_flatMap]
  congr 1
  funext t
  rw [List.map_map]
  have : ((List.ofFn P.timelike).zip (List.ofFn P.misprob)).zipIdx = (List.finRange P.rows).map fun r => ((P.timelike r, P.misprob r), r.val) := by
    refine List.ext_getElem (by simp) ?_
    intro i h1 h2
    simp
  rw [this, List.map_map]
  rfl

omit [LinearOrder K] [IsStrictOrderedRing K] [FloorRing K] in
theorem meaning_eq (hm : ∀ c, (P.col c).length ≤ 2) :
    meaning a (List.ofFn P.col) (List.ofFn P.fault) ((List.ofFn P.timelike).zip (List.ofFn P.misprob)) =
      (items P).map (fun i => callOf a.strategy (item P a.virtualBoundary i)) ++ boundaryCalls P.rows P.reps a.virtualBoundary (List.ofFn P.col) := by
  unfold meaning
  rw [hg.rows, hg.reps, space_eq hg hm, time_eq a.virtualBoundary, ← List.map_append]
  rfl

end

/-! ## Lemmas: the loaded graph -/

/-- What the loader gives. -/
structure Loaded (P : Problem K) (virt : Bool) (g : UGraph K) : Prop where
  kept : Kept (item P virt) (items P) g
  bndOk : Props.Convert.BndOk g
  numObs : g.numObs = P.faults
  inside : ∀ d, d < P.rows * P.reps → d < g.nodes.length ∧ d ∉ g.boundary
  outside : ∀ d, d < g.nodes.length → d ∉ g.boundary → d < P.rows * P.reps
  none : virt = true → g.boundary = ∅
  last : ∀ b ∈ g.boundary, b = P.rows * P.reps
  node : virt = false → (∃ c, (P.col c).length = 1) → 0 < P.reps → P.rows * P.reps ∈ g.boundary
  detectors : g.numDetectors = P.rows * P.reps
  count : g.nodes.length = g.numDetectors + g.boundary.card

omit [IsStrictOrderedRing K] [FloorRing K] in
theorem accepted_items (mergeW : K → K → K) {ι : Type} {f : ι → UEdge K} (L' : List ι) : ∀ {L : List ι} {g : UGraph K}, Kept f L g →
    accepted mergeW g (L'.map fun i => callOf .smallestWeight (f i)) := by
  induction L' with
  | nil => intro L g h; trivial
  | cons i L' ih =>
    intro L g h
    have := Inserted.kept_add mergeW h i
    exact ⟨this.2, ih this.1⟩

theorem bumpObs_same {n : Nat} {obs : List Nat} (h : ∀ o ∈ obs, o < n) : bumpObs n obs = n := by
  unfold bumpObs
  induction obs with
  | nil => rfl
  | cons o obs ih =>
    rw [List.foldl_cons, if_neg (by have := h o (by simp); omega)]
    exact ih fun o ho => h o (List.mem_cons_of_mem _ ho)

omit [IsStrictOrderedRing K] [FloorRing K] in
theorem numObs_items (mergeW : K → K → K) {ι : Type} {f : ι → UEdge K} (L' : List ι) : ∀ {g : UGraph K}, WF g → (∀ i ∈ L', ∀ o ∈ (f i).obs, o < g.numObs) →
    (run mergeW g (L'.map fun i => callOf .smallestWeight (f i))).numObs = g.numObs := by
  induction L' with
  | nil => intro g _ _; rfl
  | cons i L' ih =>
    intro g hw h
    have e : (exec mergeW g (callOf .smallestWeight (f i))).1.numObs = g.numObs := by
      unfold callOf
      rcases add_cases mergeW hw (f i).node1 (f i).node2 (f i).obs (f i).weight (f i).prob .smallestWeight with ⟨g', e, -, -, -, hn, -⟩ | ⟨ei, hei, hk, e⟩
      · rw [e, hn, bumpObs_same (h i (by simp))]
      · rw [e]
        rcases mergeEdge_cases mergeW hw ei hei (f i).obs (f i).weight (f i).prob .smallestWeight with ⟨-, e⟩ | ⟨-, g', e', e, -, -, -, -, hn, -⟩
        · rw [e]
        · rw [e, hn]
    have := ih (g := (exec mergeW g (callOf .smallestWeight (f i))).1) (wf_exec mergeW hw _) (by
      intro i' hi' o ho
      rw [e]
      exact h i' (List.mem_cons_of_mem _ hi') o ho)
    rw [e] at this
    exact this

omit [IsStrictOrderedRing K] [FloorRing K] in
theorem loads {a : Args K} (hg : Given P a) (hm : ∀ c, (P.col c).length ≤ 2) (hs : a.strategy = .smallestWeight) (mergeW : K → K → K) :
    ∃ g, loadCheckMatrix mergeW a = .ok g ∧ Loaded P a.virtualBoundary g := by
  have h2 : ∀ c ∈ List.ofFn P.col, c.length ≤ 2 := by
    intro c hc
    obtain ⟨i, rfl⟩ := List.mem_ofFn.1 hc
    exact hm i
  have hl := C23_load mergeW (fits hg) h2 (time_data hg)
  have hme := meaning_eq hg hm
  rw [hs] at hme
  set g0 : UGraph K := UGraph.new (a.H.numRows * a.reps) a.F.numRows with hg0
  have hk0 : Kept (item P a.virtualBoundary) [] g0 := Inserted.kept_new _ _
  have hk := Inserted.kept_run mergeW (items P) hk0
  have hacc : accepted mergeW g0 (meaning a (List.ofFn P.col) (List.ofFn P.fault) ((List.ofFn P.timelike).zip (List.ofFn P.misprob))) := by
    rw [hme, accepted_append]
    refine ⟨accepted_items mergeW _ hk0, ?_⟩
    unfold boundaryCalls
    split <;> simp [accepted, exec]
  rw [if_pos hacc] at hl
  refine ⟨_, hl, ?_⟩
  obtain ⟨s1, s2, s3⟩ := C23_shape mergeW (fits hg) h2 (time_data hg) hl
  have hcounts := Convert.C35_counts mergeW (a.H.numRows * a.reps) a.F.numRows
    (meaning a (List.ofFn P.col) (List.ofFn P.fault) ((List.ofFn P.timelike).zip (List.ofFn P.misprob)))
  have hbnd := Props.Convert.bndOk_run mergeW (Props.Convert.bndOk_new (K := K) (a.H.numRows * a.reps) a.F.numRows)
    (meaning a (List.ofFn P.col) (List.ofFn P.fault) ((List.ofFn P.timelike).zip (List.ofFn P.misprob)))
  have hkept : Kept (item P a.virtualBoundary) (items P) (run mergeW g0 (meaning a (List.ofFn P.col) (List.ofFn P.fault)
      ((List.ofFn P.timelike).zip (List.ofFn P.misprob)))) ∧ (run mergeW g0 (meaning a (List.ofFn P.col) (List.ofFn P.fault)
      ((List.ofFn P.timelike).zip (List.ofFn P.misprob)))).numObs = P.faults := by
    have hno := numObs_items mergeW (f := item P a.virtualBoundary) (items P) (g := g0) (wf_new _ _) (by
      intro i hi o ho
      show o < a.F.numRows
      rw [hg.faults]
      rcases i with ⟨t, c⟩ | ⟨t, r⟩
      · simp only [item] at ho
        split at ho
        · exact in_faults hg c o ho
        · exact in_faults hg c o ho
        · cases ho
      · cases ho)
    rw [hme, run_append]
    unfold boundaryCalls
    split
    · refine ⟨Inserted.kept_boundary hk _ mergeW, ?_⟩
      show (run mergeW g0 _).numObs = _
      rw [hno]
      exact hg.faults
    · refine ⟨hk, ?_⟩
      show (run mergeW g0 _).numObs = _
      rw [hno]
      exact hg.faults
  rw [hg.rows, hg.reps] at s1 s2 s3
  rw [← hg0] at hcounts hbnd
  generalize run mergeW g0 (meaning a (List.ofFn P.col) (List.ofFn P.fault) ((List.ofFn P.timelike).zip (List.ofFn P.misprob))) = g at *
  have hlast : ∀ b ∈ g.boundary, b = P.rows * P.reps := by
    intro b hb
    rw [s2] at hb
    split at hb
    · simpa using hb
    · simp at hb
  refine ⟨hkept.1, hbnd, hkept.2, ?_, ?_, ?_, hlast, ?_, s1, hcounts.1.symm⟩
  · intro d hd
    refine ⟨by have := hcounts.1; omega, fun hb => ?_⟩
    have := hlast d hb
    omega
  · intro d hd hb
    have h1 := s3 d
    rw [hcounts.2 d hd] at h1
    by_contra hge
    rw [if_neg hge] at h1
    split at h1
    · simp [hb] at h1
    · cases h1
  · intro hv
    rw [s2, if_neg (by simp [hv])]
  · intro hv hc hr
    obtain ⟨c, hc⟩ := hc
    rw [s2, if_pos ⟨hv, hr, _, List.mem_ofFn.2 ⟨c, rfl⟩, hc⟩]
    simp

/-! ## Lemmas: what the edges do -/

theorem pos_eq {rows r r' t t' : Nat} (hr : r < rows) (hr' : r' < rows) : r' + rows * t' = t * rows + r ↔ t' = t ∧ r' = r := by
  constructor
  · intro h
    have h1 : (r' + rows * t') / rows = (t * rows + r) / rows := by rw [h]
    have h2 : (r' + rows * t') % rows = (t * rows + r) % rows := by rw [h]
    rw [Nat.add_mul_div_left _ _ (by omega), Nat.div_eq_of_lt hr', Nat.add_comm (t * rows), Nat.add_mul_div_right _ _ (by omega), Nat.div_eq_of_lt hr] at h1
    rw [Nat.add_mul_mod_self_left, Nat.mod_eq_of_lt hr', Nat.add_comm (t * rows), Nat.add_mul_mod_self_right, Nat.mod_eq_of_lt hr] at h2
    exact ⟨by omega, h2⟩
  · rintro ⟨rfl, rfl⟩
    ring

theorem pos_lt {rows reps r t : Nat} (hr : r < rows) (ht : t < reps) : t * rows + r < rows * reps := by
  calc t * rows + r < t * rows + rows := by omega
    _ = (t + 1) * rows := by ring
    _ ≤ reps * rows := Nat.mul_le_mul_right _ ht
    _ = rows * reps := Nat.mul_comm _ _

omit [LinearOrder K] [IsStrictOrderedRing K] [FloorRing K] in
theorem item_one (virt : Bool) (t : Fin P.reps) {c : Fin P.n} {i : Nat} (h : P.col c = [i]) : item P virt (.inl (t, c)) =
    ⟨i + P.rows * t, if virt then none else some (P.rows * P.reps), P.fault c, P.weight c, P.prob c, []⟩ := by
  simp only [item, h]

omit [LinearOrder K] [IsStrictOrderedRing K] [FloorRing K] in
theorem item_two (virt : Bool) (t : Fin P.reps) {c : Fin P.n} {i j : Nat} (h : P.col c = [i, j]) : item P virt (.inl (t, c)) =
    ⟨i + P.rows * t, some (j + P.rows * t), P.fault c, P.weight c, P.prob c, []⟩ := by
  simp only [item, h]

omit [LinearOrder K] [IsStrictOrderedRing K] [FloorRing K] in
theorem item_time (virt : Bool) (t : Fin (P.reps - 1)) (r : Fin P.rows) : item P virt (.inr (t, r)) =
    ⟨r + P.rows * t, some (r + P.rows * (t + 1)), [], P.timelike r, P.misprob r, []⟩ := by
  simp only [item, Nat.mul_comm]

omit [LinearOrder K] [IsStrictOrderedRing K] [FloorRing K] in
theorem ends_left (hin : ∀ c, ∀ r ∈ P.col c, r < P.rows) (h2 : ∀ c, (P.col c).length ≤ 2) (virt : Bool) (t' : Fin P.reps) (c : Fin P.n)
    (hc : P.col c ≠ []) {t r : Nat} (ht : t < P.reps) (hr : r < P.rows) :
    endsAt (item P virt (.inl (t', c))) (t * P.rows + r) = if t'.val = t then (P.col c).count r else 0 := by
  have hlt := pos_lt hr ht
  have h := hin c
  have hlen := h2 c
  have p : ∀ i, i < P.rows → (i + P.rows * t'.val = t * P.rows + r ↔ t'.val = t ∧ i = r) := fun i hi => pos_eq hr hi
  rcases hcc : P.col c with _ | ⟨i, _ | ⟨j, _ | ⟨k, l⟩⟩⟩
  · exact absurd hcc hc
  · rw [hcc] at h
    rw [item_one virt t' hcc]
    unfold endsAt
    simp only [p i (h i (by simp)), List.count_singleton]
    have : ¬ (if virt = true then none else some (P.rows * P.reps)) = some (t * P.rows + r) := by
      cases virt
      · simp; omega
      · simp
    simp only [if_neg this, Nat.add_zero]
    by_cases h1 : t'.val = t
    · simp [h1]
    · simp [h1]
  · rw [hcc] at h
    rw [item_two virt t' hcc]
    unfold endsAt
    simp only [p i (h i (by simp)), Option.some.injEq, p j (h j (by simp))]
    by_cases h1 : t'.val = t
    · simp only [h1, true_and, if_true, List.count_cons, List.count_nil, beq_iff_eq]
      omega
    · simp [h1]
  · rw [hcc] at hlen; simp at hlen

omit [LinearOrder K] [IsStrictOrderedRing K] [FloorRing K] in
theorem ends_right (virt : Bool) (t' : Fin (P.reps - 1)) (r' : Fin P.rows) {t r : Nat} (hr : r < P.rows) :
    endsAt (item P virt (.inr (t', r'))) (t * P.rows + r) =
      (if t'.val = t ∧ r'.val = r then 1 else 0) + if t'.val + 1 = t ∧ r'.val = r then 1 else 0 := by
  rw [item_time]
  unfold endsAt
  simp only [Option.some.injEq, pos_eq hr r'.2]

/-- Ends of edges at a detector. -/
def happen (E : History P) (t r : Nat) : Nat :=
  (∑ x ∈ E.flips, if x.1.val = t then (P.col x.2).count r else 0) +
    ∑ x ∈ E.wrong, ((if x.1.val = t ∧ x.2.val = r then 1 else 0) + if x.1.val + 1 = t ∧ x.2.val = r then 1 else 0)

omit [LinearOrder K] [IsStrictOrderedRing K] [FloorRing K] [Field K] in
theorem changes_iff (E : History P) (t r : Nat) : changes E t r ↔ happen E t r % 2 = 1 := by
  unfold changes measured happen
  simp only [Finset.sum_filter, Finset.card_filter]
  cases t with
  | zero => simp
  | succ s =>
    have e1 : ∑ x ∈ E.flips, (if x.1.val ≤ s + 1 then (P.col x.2).count r else 0) =
        (∑ x ∈ E.flips, if x.1.val = s + 1 then (P.col x.2).count r else 0) + ∑ x ∈ E.flips, if x.1.val ≤ s then (P.col x.2).count r else 0 := by
      rw [← Finset.sum_add_distrib]
      refine Finset.sum_congr rfl fun x _ => ?_
      by_cases h1 : x.1.val ≤ s
      · rw [if_pos (by omega), if_neg (by omega), if_pos h1]; simp
      · by_cases h2 : x.1.val = s + 1
        · rw [if_pos (by omega), if_pos h2, if_neg h1]; simp
        · rw [if_neg (by omega), if_neg h2, if_neg h1]
    rw [e1, if_neg (by omega), Finset.sum_add_distrib]
    simp only [Nat.add_sub_cancel, Nat.add_right_cancel_iff]
    omega

/-- As a set of causes. -/
def causes (E : History P) : Finset (Cause P) := E.flips.disjSum E.wrong

/-- A set of causes. -/
def ofCauses (S : Finset (Cause P)) : History P := ⟨S.toLeft, S.toRight⟩

omit [LinearOrder K] [IsStrictOrderedRing K] [FloorRing K] [Field K] in
theorem causes_of (S : Finset (Cause P)) : causes (ofCauses S) = S := Finset.toLeft_disjSum_toRight

open Classical in
/-- Without zero columns. -/
noncomputable def reduced (E : History P) : Finset (Cause P) := (causes E).filter (· ∈ items P)

section
variable (hin : ∀ c, ∀ r ∈ P.col c, r < P.rows) (h2 : ∀ c, (P.col c).length ≤ 2) (virt : Bool) (E : History P)

omit [LinearOrder K] [IsStrictOrderedRing K] [FloorRing K] in
include hin h2 in
theorem reduced_ends {t r : Nat} (ht : t < P.reps) (hr : r < P.rows) :
    ∑ i ∈ reduced E, endsAt (item P virt i) (t * P.rows + r) = happen E t r := by
  unfold reduced causes happen
  rw [Finset.sum_filter, Finset.sum_disjSum]
  congr 1
  · refine Finset.sum_congr rfl fun x _ => ?_
    obtain ⟨t', c⟩ := x
    rw [mem_left]
    by_cases hc : P.col c = []
    · simp [hc]
    · rw [if_pos hc, ends_left hin h2 virt t' c hc ht hr]
  · refine Finset.sum_congr rfl fun x _ => ?_
    obtain ⟨t', c⟩ := x
    rw [if_pos (mem_right t' c), ends_right virt t' c hr]

omit [LinearOrder K] [IsStrictOrderedRing K] [FloorRing K] [Field K] in
theorem reduced_eq (S : Finset (Cause P)) (hS : ∀ i ∈ S, i ∈ items P) : reduced (ofCauses S) = S := by
  classical
  unfold reduced
  rw [causes_of]
  exact Finset.filter_true_of_mem hS

omit [LinearOrder K] [IsStrictOrderedRing K] [FloorRing K] in
include h2 in
theorem item_weight {i : Cause P} (hi : i ∈ items P) : (item P virt i).weight = (match i with | .inl x => P.weight x.2 | .inr x => P.timelike x.2) ∧
    (item P virt i).obs = (match i with | .inl x => P.fault x.2 | .inr _ => []) := by
  rcases i with ⟨t, c⟩ | ⟨t, r⟩
  · rw [mem_left] at hi
    have := h2 c
    simp only [item]
    rcases hc : P.col c with _ | ⟨i, _ | ⟨j, _ | ⟨k, l⟩⟩⟩
    · exact absurd hc hi
    · exact ⟨rfl, rfl⟩
    · exact ⟨rfl, rfl⟩
    · rw [hc] at this; simp at this
  · exact ⟨rfl, rfl⟩

end

section
variable (hin : ∀ c, ∀ r ∈ P.col c, r < P.rows) (hm : Mild P) (virt : Bool)

theorem whole_nonneg {scale : K} (hs : 0 < scale) {w : K} (h : 0 ≤ w) : 0 ≤ whole scale w :=
  (Discretise.C19_monotone_odd (scale / 2) (by linarith) 0 w).2.2 h

include hm in
theorem reduced_cost {scale : K} (hs : 0 < scale) (E : History P) : ∑ i ∈ reduced E, rounded scale (item P virt i) ≤ cost scale E := by
  classical
  unfold reduced causes cost
  rw [Finset.sum_filter, Finset.sum_disjSum]
  refine add_le_add (Finset.sum_le_sum fun x _ => ?_) (Finset.sum_le_sum fun x _ => ?_)
  · obtain ⟨t, c⟩ := x
    split
    · rename_i hi
      unfold rounded
      rw [(item_weight hm.two virt hi).1]
      exact le_refl _
    · rename_i hi
      rw [mem_left, not_not] at hi
      exact whole_nonneg hs (hm.zero c hi)
  · obtain ⟨t, r⟩ := x
    rw [if_pos (mem_right t r)]
    unfold rounded
    rw [(item_weight hm.two virt (mem_right t r)).1]
    exact le_refl _

omit [IsStrictOrderedRing K] in
include hm in
theorem cost_of {scale : K} {S : Finset (Cause P)} (hS : ∀ i ∈ S, i ∈ items P) :
    cost scale (ofCauses S) = ∑ i ∈ S, rounded scale (item P virt i) := by
  conv_rhs => rw [← causes_of S]
  unfold cost causes
  rw [Finset.sum_disjSum]
  congr 1
  refine Finset.sum_congr rfl fun x hx => ?_
  have hi := hS _ (Finset.mem_toLeft.1 hx)
  unfold rounded
  rw [(item_weight hm.two virt hi).1]
  rfl

omit [IsStrictOrderedRing K] [FloorRing K] in
include hm in
theorem flipped_of {S : Finset (Cause P)} (hS : ∀ i ∈ S, i ∈ items P) (k : Nat) :
    flipped (ofCauses S) k = ∑ i ∈ S, (item P virt i).obs.count k := by
  conv_rhs => rw [← causes_of S]
  unfold flipped causes
  rw [Finset.sum_disjSum, ← Nat.add_zero (∑ x ∈ (ofCauses S).flips, _)]
  congr 1
  · refine Finset.sum_congr rfl fun x hx => ?_
    have hi := hS _ (Finset.mem_toLeft.1 hx)
    rw [(item_weight hm.two virt hi).2]
  · symm
    refine Finset.sum_eq_zero fun x hx => ?_
    have hi := hS _ (Finset.mem_toRight.1 hx)
    rw [(item_weight hm.two virt hi).2]
    rfl

omit [IsStrictOrderedRing K] [FloorRing K] in
include hin hm in
/-- Only equal columns give edges with the same ends. -/
theorem same_ends {i i' : Cause P} (hi : i ∈ items P) (hi' : i' ∈ items P) (hne : i ≠ i') (hk : (item P virt i).key = (item P virt i').key) :
    0 ≤ (item P virt i).weight + (item P virt i').weight := by
  have he := Inserted.ends_of_key hk
  have mixed : ∀ (t : Fin P.reps) (c : Fin P.n) (t' : Fin (P.reps - 1)) (r' : Fin P.rows), P.col c ≠ [] →
      ¬ ∀ x, endsAt (item P virt (.inl (t, c))) x = endsAt (item P virt (.inr (t', r'))) x := by
    intro t c t' r' hc h
    have h1 := h (t' * P.rows + r')
    have h2 := h ((t' + 1) * P.rows + r')
    rw [ends_left hin hm.two virt t c hc (by omega) r'.2, ends_right virt t' r' r'.2] at h1 h2
    simp only [and_true, if_true, and_self] at h1 h2
    rw [if_neg (by omega : ¬ t'.val + 1 = t'.val), Nat.add_zero] at h1
    rw [if_neg (by omega : ¬ t'.val = t'.val + 1), Nat.zero_add] at h2
    split at h1
    · split at h2
      · omega
      · cases h2
    · cases h1
  rcases i with ⟨t, c⟩ | ⟨t, r⟩ <;> rcases i' with ⟨t', c'⟩ | ⟨t', r'⟩
  · have hc := (mem_left t c).1 hi
    have hc' := (mem_left t' c').1 hi'
    have hcount : ∀ s r, s < P.reps → r < P.rows → (if t.val = s then (P.col c).count r else 0) = if t'.val = s then (P.col c').count r else 0 := by
      intro s r hs hr
      rw [← ends_left hin hm.two virt t c hc hs hr, ← ends_left hin hm.two virt t' c' hc' hs hr]
      exact he _
    obtain ⟨r0, hr0⟩ := List.exists_mem_of_ne_nil _ hc
    have ht : t'.val = t.val := by
      have := hcount t r0 t.2 (hin c r0 hr0)
      rw [if_pos rfl] at this
      have hpos : 0 < (P.col c).count r0 := List.count_pos_iff.2 hr0
      split at this
      · assumption
      · omega
    have hperm : (P.col c).Perm (P.col c') := by
      rw [List.perm_iff_count]
      intro r
      by_cases hr : r < P.rows
      · have := hcount t r t.2 hr
        rwa [if_pos rfl, if_pos ht] at this
      · rw [List.count_eq_zero.2 (fun h => hr (hin c r h)), List.count_eq_zero.2 (fun h => hr (hin c' r h))]
    have hcc : c ≠ c' := by
      rintro rfl
      exact hne (by rw [Fin.ext ht])
    rw [(item_weight hm.two virt hi).1, (item_weight hm.two virt hi').1]
    exact hm.pair c c' hcc hperm
  · exact absurd he (mixed t c t' r' ((mem_left t c).1 hi))
  · exact absurd (fun x => (he x).symm) (mixed t' c' t r ((mem_left t' c').1 hi'))
  · exfalso
    have h1 := he (t * P.rows + r)
    have h2 := he ((t + 1) * P.rows + r)
    rw [ends_right virt t r r.2, ends_right virt t' r' r.2] at h1 h2
    simp only [and_true, if_true, and_self] at h1 h2
    rw [if_neg (by omega : ¬ t.val + 1 = t.val), Nat.add_zero] at h1
    rw [if_neg (by omega : ¬ t.val = t.val + 1), Nat.zero_add] at h2
    apply hne
    have : t'.val = t.val ∧ r'.val = r.val := by
      by_cases e1 : t'.val = t.val ∧ r'.val = r.val
      · exact e1
      · rw [if_neg e1] at h1
        split at h1
        · split at h2 <;> split at h2 <;> omega
        · cases h1
    rw [Fin.ext this.1, Fin.ext this.2]

end

section
variable {virt : Bool} {g : UGraph K} (hl : Loaded P virt g)
include hl

omit [IsStrictOrderedRing K] [FloorRing K] in
theorem explains_iff {C : Choice g} {E : History P} (h : ∀ t r, t < P.reps → r < P.rows → degree C (t * P.rows + r) % 2 = happen E t r % 2)
    {events : List Nat} (hev : ∀ d ∈ events, d < g.nodes.length) : EndToEnd.Explains C events ↔ Accounts E events := by
  constructor
  · intro hE t r ht hr
    rw [changes_iff, ← h t r ht hr]
    exact hE _ (hl.inside _ (pos_lt hr ht)).2
  · intro hA x hx
    by_cases hlt : x < P.rows * P.reps
    · have hrows : 0 < P.rows := by
        rcases Nat.eq_zero_or_pos P.rows with h0 | h0
        · rw [h0] at hlt; omega
        · exact h0
      have hr : x % P.rows < P.rows := Nat.mod_lt _ hrows
      have ht : x / P.rows < P.reps := Nat.div_lt_of_lt_mul hlt
      have := hA _ _ ht hr
      rw [changes_iff, ← h _ _ ht hr, Nat.mul_comm, Nat.div_add_mod] at this
      exact this
    · have hnode : ¬ x < g.nodes.length := fun h => hlt (hl.outside x h hx)
      have h0 : degree C x = 0 := by
        unfold degree
        refine Finset.sum_eq_zero fun j _ => ?_
        unfold endsAt
        obtain ⟨n, hn, -⟩ := hl.kept.wf.fwd1 j j.2
        have hn1 := (List.getElem?_eq_some_iff.1 hn).1
        have e1 : ¬ g.edges[j].node1 = x := fun h => hnode (by rw [← h]; exact hn1)
        have e2 : ¬ g.edges[j].node2 = some x := by
          intro h
          obtain ⟨n, hn, -⟩ := hl.kept.wf.fwd2 j j.2 x h (fun h => e1 h.symm)
          exact hnode (List.getElem?_eq_some_iff.1 hn).1
        simp only [e1, e2, if_false, Nat.add_zero]
      rw [h0]
      constructor
      · intro hx; exact absurd (hev x hx) hnode
      · intro h; cases h

variable (hin : ∀ c, ∀ r ∈ P.col c, r < P.rows) (hm : Mild P)
include hin hm

/-- A best set of edges is a cheapest history. -/
theorem translate {scale : K} (hs : 0 < scale) {events : List Nat} (hev : ∀ d ∈ events, d < g.nodes.length) {C : Choice g} (hC : Best scale C events) :
    ∃ E : History P, Cheapest scale E events ∧ total scale C = cost scale E ∧ ∀ k, EndToEnd.crossed C k = flipped E k := by
  have hS := Inserted.expand_mem hl.kept C
  refine ⟨ofCauses (Inserted.expand hl.kept C), ⟨?_, ?_⟩, ?_, ?_⟩
  · refine (explains_iff hl (C := C) (fun t r ht hr => ?_) hev).1 hC.1
    rw [← reduced_ends hin hm.two virt _ ht hr, reduced_eq _ hS, Inserted.expand_degree]
  · intro E' hE'
    rw [cost_of hm virt hS, Inserted.expand_total]
    have hR : ∀ i ∈ reduced E', i ∈ items P := by
      classical
      intro i hi
      exact (Finset.mem_filter.1 hi).2
    refine (hC.2 (Inserted.collapse (item P virt) g (reduced E')) ?_).trans
      ((Inserted.collapse_total hl.kept hR hs fun i hi i' hi' hne hk => same_ends hin hm virt hi hi' hne hk).trans (reduced_cost hm virt hs E'))
    refine (explains_iff hl (fun t r ht hr => ?_) hev).2 hE'
    rw [Inserted.collapse_degree hl.kept hR, reduced_ends hin hm.two virt _ ht hr]
  · rw [cost_of hm virt hS, Inserted.expand_total]
  · intro k
    rw [flipped_of hm virt hS, Inserted.expand_crossed]

omit [IsStrictOrderedRing K] [FloorRing K] in
/-- What accounts for the events is explained by edges. -/
theorem explained {events : List Nat} (hev : ∀ d ∈ events, d < g.nodes.length) {E : History P} (hE : Accounts E events) :
    ∃ C : Choice g, EndToEnd.Explains C events := by
  have hR : ∀ i ∈ reduced E, i ∈ items P := by
    classical
    intro i hi
    exact (Finset.mem_filter.1 hi).2
  refine ⟨Inserted.collapse (item P virt) g (reduced E), (explains_iff hl (fun t r ht hr => ?_) hev).2 hE⟩
  rw [Inserted.collapse_degree hl.kept hR, reduced_ends hin hm.two virt _ ht hr]

end

section
variable {virt : Bool} {g : UGraph K} (hl : Loaded P virt g) (hin : ∀ c, ∀ r ∈ P.col c, r < P.rows) (h2 : ∀ c, (P.col c).length ≤ 2)
include hl hin h2

omit hl [IsStrictOrderedRing K] [FloorRing K] in
/-- The first end of an inserted edge is a detector; with a boundary node, so is the second, or it is the boundary node. -/
theorem item_ends {i : Cause P} (hi : i ∈ items P) : (item P virt i).node1 < P.rows * P.reps ∧
    (virt = false → ∃ v, (item P virt i).node2 = some v) := by
  rcases i with ⟨t, c⟩ | ⟨t, r⟩
  · have hc := (mem_left t c).1 hi
    have hlen := h2 c
    have h := hin c
    have hlt : ∀ i, i < P.rows → i + P.rows * t < P.rows * P.reps := by
      intro i hi
      have := pos_lt hi t.2
      rw [Nat.mul_comm] at this
      omega
    rcases hcc : P.col c with _ | ⟨i, _ | ⟨j, _ | ⟨k, l⟩⟩⟩
    · exact absurd hcc hc
    · rw [hcc] at h
      rw [item_one virt t hcc]
      exact ⟨hlt i (h i (by simp)), fun h => ⟨_, by rw [h]; rfl⟩⟩
    · rw [hcc] at h
      rw [item_two virt t hcc]
      exact ⟨hlt i (h i (by simp)), fun _ => ⟨_, rfl⟩⟩
    · rw [hcc] at hlen; simp at hlen
  · rw [item_time]
    refine ⟨?_, fun _ => ⟨_, rfl⟩⟩
    have := pos_lt r.2 (by omega : t.val < P.reps)
    rw [Nat.mul_comm] at this
    show r.val + P.rows * t < _
    omega

omit [IsStrictOrderedRing K] [FloorRing K] in
theorem noGain : NoGain g := by
  have hsrc : ∀ j : Fin g.edges.length, ∃ i ∈ items P, g.edges[j].key = (item P virt i).key := by
    intro j
    obtain ⟨i, hi, hk, -⟩ := hl.kept.src j j.2
    exact ⟨i, hi, hk⟩
  constructor
  · intro i j hij u hi hj
    exfalso
    apply hij
    refine Fin.ext (hl.kept.wf.uniq i j i.2 j.2 ?_)
    -- both edges connect `u` with the same boundary
    have one : ∀ j : Fin g.edges.length, Leaves g u g.edges[j] → g.edges[j].key = key u (if virt then none else some (P.rows * P.reps)) := by
      intro j hj
      obtain ⟨k, hk, hkk⟩ := hsrc j
      obtain ⟨h1, hsnd⟩ := item_ends (virt := virt) hin h2 hk
      obtain ⟨-, ⟨e1, e2 | ⟨v, e2, hv⟩⟩ | ⟨e1, e2⟩⟩ := hj
      · cases hv : virt with
        | true => simp only [UEdge.key, e1, e2, if_true]
        | false =>
          obtain ⟨v, hvv⟩ := hsnd hv
          unfold UEdge.key at hkk
          rw [e2, hvv, key_eq_iff] at hkk
          rcases hkk with ⟨-, h⟩ | ⟨w, -, h, -⟩ <;> cases h
      · cases hvirt : virt with
        | true => rw [hl.none hvirt] at hv; simp at hv
        | false => simp only [UEdge.key, e1, e2, hl.last v hv]; rfl
      · cases hvirt : virt with
        | true => rw [hl.none hvirt] at e2; simp at e2
        | false =>
          simp only [UEdge.key, e1, hl.last _ e2]
          rw [key_eq_iff]
          exact .inr ⟨_, rfl, rfl, rfl⟩
    exact (one i hi).trans (one j hj).symm
  · intro j ho
    exfalso
    obtain ⟨k, hk, hkk⟩ := hsrc j
    obtain ⟨h1, -⟩ := item_ends (virt := virt) hin h2 hk
    unfold UEdge.key at hkk
    rw [key_eq_iff] at hkk
    have hb : (item P virt k).node1 ∈ g.boundary := by
      rcases hkk with ⟨h, -⟩ | ⟨v, -, h, -⟩
      · rw [← h]; exact ho.1
      · exact ho.2 _ h
    have := hl.last _ hb
    omega

omit hin [IsStrictOrderedRing K] [FloorRing K] in
theorem covered (hf : ∀ c, ∀ o ∈ P.fault c, o < P.faults) : Covered g := by
  intro e he o ho
  obtain ⟨j, hj, rfl⟩ := List.getElem_of_mem he
  obtain ⟨i, hi, -, hobs, -⟩ := hl.kept.src j hj
  rw [hl.numObs]
  rw [hobs, (item_weight h2 virt hi).2] at ho
  rcases i with ⟨t, c⟩ | ⟨t, r⟩
  · exact hf c o ho
  · cases ho

omit hin [IsStrictOrderedRing K] [FloorRing K] in
/-- Every weight of the graph is one of those given. -/
theorem weights_from : ∀ e ∈ g.edges, (∃ c, e.weight = P.weight c) ∨ (1 < P.reps ∧ ∃ r, e.weight = P.timelike r) := by
  intro e he
  obtain ⟨j, hj, rfl⟩ := List.getElem_of_mem he
  obtain ⟨i, hi, -, -, hw, -⟩ := hl.kept.src j hj
  rw [hw, (item_weight h2 virt hi).1]
  rcases i with ⟨t, c⟩ | ⟨t, r⟩
  · exact .inl ⟨c, rfl⟩
  · have := t.2
    exact .inr ⟨by omega, r, rfl⟩

theorem buildable (hf : ∀ c, ∀ o ∈ P.fault c, o < P.faults) (hsm : Small P) (without : Bool) : ∃ d, toMwpm g without true = some d := by
  refine Buildable.builds_small hl.kept.wf hl.bndOk ?_ (covered hl h2 hf) ?_ without
  · intro e he
    obtain ⟨j, hj, rfl⟩ := List.getElem_of_mem he
    obtain ⟨i, hi, -, -, -, h⟩ := hl.kept.src j hj
    exact h
  · intro e he
    rcases weights_from hl h2 e he with ⟨c, h⟩ | ⟨h1, r, h⟩
    · rw [h]; exact hsm.col c
    · rw [h]; exact hsm.time h1 r

end

section
variable {virt : Bool} {g : UGraph K} (hl : Loaded P virt g) (hin : ∀ c, ∀ r ∈ P.col c, r < P.rows) (hm : Mild P)
include hl hin hm

theorem gives {scale : K} (hs : 0 < scale) {events : List Nat} (hev : ∀ d ∈ events, d < g.nodes.length) {C : Choice g} {n : Int} {row : List (BitVec 8)} {w : K}
    (hC : best g scale events C n) (hR : Row scale C n row w) : Gives P scale events row w := by
  obtain ⟨hb, rfl⟩ := hC
  obtain ⟨E, h1, h2, h3⟩ := translate hl hin hm hs hev hb
  obtain ⟨r1, r2, r3⟩ := hR
  rw [hl.numObs] at r1 r2
  refine ⟨E, h1, r1, fun k hk => ?_, ?_⟩
  · rw [r2 k hk, h3]
  · rw [r3, h2]

end

theorem scale_pos {g : UGraph K} {scale : K} (h : Scale g scale) : 0 < scale := by
  obtain ⟨c, hc, rfl⟩ := h
  have hpos : 0 < c := by
    by_cases hall : ∀ w ∈ Discretise.allWeights g, Discretise.IsInt w
    · rw [((Discretise.C19_constant g numDistinctWeights).2 c hc).1 hall]; exact one_pos
    · push Not at hall
      obtain ⟨wmax, hw, -⟩ := ((Discretise.C19_constant g numDistinctWeights).2 c hc).2 hall
      exact (Discretise.C19_weights g c hc wmax hw).1
  linarith

/-! ## C62 -/

omit [IsStrictOrderedRing K] [FloorRing K] in
/-- C62 (loading).  Every check matrix with at most two ones per column is loaded, with merge strategy "smallest-weight". -/
theorem C62_loads {a : Args K} (hg : Given P a) (h2 : ∀ c, (P.col c).length ≤ 2) (hs : a.strategy = .smallestWeight) (mergeW : K → K → K) :
    ∃ g, loadCheckMatrix mergeW a = .ok g ∧ g.numObs = P.faults ∧ g.numDetectors = P.rows * P.reps := by
  obtain ⟨g, h, hl⟩ := loads hg h2 hs mergeW
  exact ⟨g, h, hl.numObs, hl.detectors⟩

section
variable {a : Args K} (hg : Given P a) (hm : Mild P) (hs : a.strategy = .smallestWeight) (mergeW : K → K → K) {g : UGraph K} (hload : loadCheckMatrix mergeW a = .ok g)
include hg hm hs hload

omit [IsStrictOrderedRing K] [FloorRing K] in
theorem loaded : Loaded P a.virtualBoundary g := by
  obtain ⟨g', h, hl⟩ := loads hg hm.two hs mergeW
  rw [hload] at h
  cases h
  exact hl

theorem right_of {scale : K} (hsc : Scale g scale) {events : List Nat} (hev : ∀ d ∈ events, d < g.nodes.length) {ans : Answer K}
    (h : Means g scale (best g scale) (.decode false events) ans) : Right P scale events ans := by
  have hl := loaded hg hm hs mergeW hload
  rcases h with ⟨row, w, rfl, C, n, h1, h2⟩ | ⟨rfl, h⟩
  · exact .inl ⟨row, w, rfl, gives hl (in_rows hg) hm (scale_pos hsc) hev h1 h2⟩
  · refine .inr ⟨rfl, fun E hE => ?_⟩
    obtain ⟨C, hC⟩ := explained hl (in_rows hg) hm hev hE
    exact h C hC

theorem rightBatch_of {scale : K} (hsc : Scale g scale) {ps pp : Bool} {cols : Nat} {rows : List (List (BitVec 8))}
    (hshape : Obs.shapeOk ps cols g.numDetectors g.nodes.length = true) (hev : ∀ row ∈ rows, ∀ d ∈ readRow ps row, d < g.nodes.length) {ans : Answer K}
    (h : Means g scale (best g scale) (.batch ps pp false cols rows) ans) : RightBatch P scale ps pp rows ans := by
  have hl := loaded hg hm hs mergeW hload
  rcases h with ⟨raws, outs, weights, rfl, h1, h2, h3, h4⟩ | ⟨rfl, h⟩
  · refine .inl ⟨raws, outs, weights, rfl, h1, h2, h3, ?_⟩
    rw [List.forall₂_iff_get] at h4 ⊢
    refine ⟨h4.1, fun i hi hi' => ?_⟩
    obtain ⟨C, n, k1, k2⟩ := h4.2 i hi hi'
    exact gives hl (in_rows hg) hm (scale_pos hsc) (hev _ (List.get_mem _ _)) k1 k2
  · refine .inr ⟨rfl, ?_⟩
    rcases h with h | ⟨row, hrow, h⟩
    · rw [hshape] at h; cases h
    · refine ⟨row, hrow, fun E hE => ?_⟩
      obtain ⟨C, hC⟩ := explained hl (in_rows hg) hm (hev row hrow) hE
      exact h C hC

variable (hsm : Small P) (without : Bool)
include hsm

theorem askable {q : Query} (hfit : Object.Fits g without q) (hq : About false q) : Askable g without q := by
  have hl := loaded hg hm hs mergeW hload
  refine ⟨buildable hl (in_rows hg) hm.two (in_faults hg) hsm without, covered hl hm.two (in_faults hg), hfit, ?_⟩
  intro h
  cases q <;> simp only [About, correlations] at hq h
  all_goals (rw [hq] at h; cases h)

/-- C62.  Load a check matrix and decode: the call returns, and what it returns is `F c` for a history `c` of errors and wrong measurements that
accounts for the detection events and has the least rounded weight of all that do; the returned weight is its weight.  There is an exception only if
nothing accounts for the events. -/
theorem C62_decode (events : List Nat) (hnd : events.Nodup) (hev : ∀ d ∈ events, d < g.nodes.length) :
    ∃ ans scale, Fresh1 g without (.decode false events) ans ∧ Scale g scale ∧ Right P scale events ans := by
  have hl := loaded hg hm hs mergeW hload
  have hq : Askable g without (.decode false events) := askable hg hm hs mergeW hload hsm without ⟨hnd, hev⟩ rfl
  obtain ⟨ans, o, -, -, hf⟩ := ask_one hl.kept.wf hl.bndOk hq (inv_of g without)
  obtain ⟨scale, hsc, hM⟩ := C58_new hl.kept.wf hl.bndOk hq rfl (noGain hl (in_rows hg) hm.two) hf
  exact ⟨ans, scale, hf, hsc, right_of hg hm hs mergeW hload hsc hev hM⟩

/-- C62 (batches). -/
theorem C62_batch (ps pp : Bool) (cols : Nat) (rows : List (List (BitVec 8))) (hshape : Obs.shapeOk ps cols g.numDetectors g.nodes.length = true)
    (hev : ∀ row ∈ rows, ∀ d ∈ readRow ps row, d < g.nodes.length) :
    ∃ ans scale, Fresh1 g without (.batch ps pp false cols rows) ans ∧ Scale g scale ∧ RightBatch P scale ps pp rows ans := by
  have hl := loaded hg hm hs mergeW hload
  have hq : Askable g without (.batch ps pp false cols rows) := askable hg hm hs mergeW hload hsm without (fun _ => hev) rfl
  obtain ⟨ans, o, -, -, hf⟩ := ask_one hl.kept.wf hl.bndOk hq (inv_of g without)
  obtain ⟨scale, hsc, hM⟩ := C58_new hl.kept.wf hl.bndOk hq rfl (noGain hl (in_rows hg) hm.two) hf
  exact ⟨ans, scale, hf, hsc, rightBatch_of hg hm hs mergeW hload hsc hshape hev hM⟩

/-- C62 with the 32-bit wrapped radius of the code, on graphs in which connected detectors are near (see C61). -/
theorem C62_decode_int32 (hn : Narrow.Near g) (events : List Nat) (hnd : events.Nodup) (hev : ∀ d ∈ events, d < g.nodes.length) :
    ∃ ans scale, Fresh1 (W := int32) g without (.decode false events) ans ∧ Scale g scale ∧ Right P scale events ans := by
  have hl := loaded hg hm hs mergeW hload
  have hq : Askable g without (.decode false events) := askable hg hm hs mergeW hload hsm without ⟨hnd, hev⟩ rfl
  obtain ⟨ans, scale, h1, h2, h3⟩ := C62_decode hg hm hs mergeW hload hsm without events hnd hev
  exact ⟨ans, scale, (Narrow.fresh1_int32 hl.kept.wf hl.bndOk hn hq ans).2 h1, h2, h3⟩

omit hsm in
/-- C62 (at any time).  Whatever was done with the object before: if its graph is still the loaded one, the answer is right. -/
theorem C62_any_time (ops : List (Op K)) (hp : Object.Proper mergeW without g False ops) :
    ∃ as o, Edges.Completes (fun f => (Object.of g without).history mergeW f ops) (.ok (as, o)) ∧
      List.Forall₂ (fun (p : UGraph K × Query) ans => p.1 = g → ∀ events, p.2 = .decode false events → (∀ d ∈ events, d < g.nodes.length) →
        ∃ scale, Scale g scale ∧ Right P scale events ans) (questions mergeW g ops) as := by
  have hl := loaded hg hm hs mergeW hload
  obtain ⟨as, o, c, h⟩ := C58_any_time mergeW without g hl.kept.wf hl.bndOk ops hp
  refine ⟨as, o, c, ?_⟩
  rw [List.forall₂_iff_get] at h ⊢
  refine ⟨h.1, fun i hi hi' e1 events e2 hev => ?_⟩
  have := h.2 i hi hi'
  rw [e1, e2] at this
  obtain ⟨scale, hsc, hM⟩ := this rfl (noGain hl (in_rows hg) hm.two)
  exact ⟨scale, hsc, right_of hg hm hs mergeW hload hsc hev hM⟩

/-- C62 (two dimensions).  The recipe of the documentation: `decode(z)` for an array `z` with one row per row of the check matrix and one column per
repetition, where `z[r, t]` tells whether the measured value of row `r` changed in repetition `t`. -/
theorem C62_syndrome_history (z : Nat → Nat → Nat) :
    ∃ events, Syn.toEvents g.numDetectors g.boundary.card (.d2 P.rows P.reps z) = some events ∧
      (∀ E : History P, Accounts E events ↔ ∀ t r, t < P.reps → r < P.rows → (z r t ≠ 0 ↔ changes E t r)) ∧
      ∃ ans scale, Fresh1 g without (.decode false events) ans ∧ Scale g scale ∧ Right P scale events ans := by
  have hl := loaded hg hm hs mergeW hload
  obtain ⟨h1, h2⟩ := Syndrome.C37_two_dim g.numDetectors g.boundary.card P.rows P.reps z
  cases he : Syn.toEvents g.numDetectors g.boundary.card (.d2 P.rows P.reps z) with
  | none => exact absurd hl.detectors.symm (h1.1 he)
  | some events =>
    obtain ⟨k1, k2, k3⟩ := h2 events he
    refine ⟨events, rfl, fun E => ?_, C62_decode hg hm hs mergeW hload hsm without events (k1.imp fun h => Nat.ne_of_lt h)
      fun d hd => (hl.inside d (by rw [← hl.detectors]; exact k2 d hd)).1⟩
    exact forall_congr' fun t => forall_congr' fun r => forall_congr' fun ht => forall_congr' fun hr => by rw [k3 r t hr ht]

end

/-! ### One repetition, and the identity as faults matrix -/

/-- The set `x` of columns has syndrome `events`: `H x = z`. -/
def Solves (P : Problem K) (x : Finset (Fin P.n)) (events : List Nat) : Prop :=
  ∀ r, r < P.rows → (r ∈ events ↔ (∑ c ∈ x, (P.col c).count r) % 2 = 1)

/-- Rounded weight of a set of columns. -/
def price (P : Problem K) (scale : K) (x : Finset (Fin P.n)) : Int := ∑ c ∈ x, whole scale (P.weight c)

/-- A column, in the only repetition. -/
def first (h : P.reps = 1) : Fin P.n ↪ Fin P.reps × Fin P.n := ⟨fun c => (⟨0, by omega⟩, c), fun _ _ e => (Prod.mk.inj e).2⟩

omit [LinearOrder K] [IsStrictOrderedRing K] [FloorRing K] [Field K] in
theorem first_apply (h : P.reps = 1) (c : Fin P.n) : first h c = (⟨0, by omega⟩, c) := rfl

/-- In one repetition. -/
def once (h : P.reps = 1) (x : Finset (Fin P.n)) : History P := ⟨x.map (first h), ∅⟩

omit [LinearOrder K] [IsStrictOrderedRing K] [FloorRing K] [Field K] in
theorem once_surj (h : P.reps = 1) (E : History P) : ∃ x, E = once h x := by
  classical
  refine ⟨E.flips.image Prod.snd, ?_⟩
  have h1 : E.flips = (E.flips.image Prod.snd).map (first h) := by
    ext ⟨t, c⟩
    have hz : ∀ t : Fin P.reps, t = ⟨0, by omega⟩ := fun t => Fin.ext (by have := t.2; show t.val = 0; omega)
    rw [Finset.mem_map]
    constructor
    · intro h'
      exact ⟨c, Finset.mem_image.2 ⟨_, h', rfl⟩, by rw [first_apply, hz t]⟩
    · rintro ⟨c', h', e⟩
      rw [first_apply, Prod.mk.injEq] at e
      obtain ⟨⟨t', c''⟩, h'', rfl⟩ := Finset.mem_image.1 h'
      rw [← e.2, hz t, ← hz t']
      exact h''
  have h2 : E.wrong = ∅ := by
    ext ⟨t, r⟩
    have := t.2
    omega
  unfold once
  rw [← h1, ← h2]

omit [LinearOrder K] [IsStrictOrderedRing K] [FloorRing K] [Field K] in
theorem once_accounts (h : P.reps = 1) (x : Finset (Fin P.n)) (events : List Nat) : Accounts (once h x) events ↔ Solves P x events := by
  have key : ∀ r, measured (once h x) 0 r = ∑ c ∈ x, (P.col c).count r := by
    intro r
    unfold measured once
    rw [Finset.filter_true_of_mem (by intro y hy; obtain ⟨c, -, rfl⟩ := Finset.mem_map.1 hy; simp [first_apply]), Finset.sum_map]
    simp [first_apply]
  constructor
  · intro hA r hr
    have := hA 0 r (by omega) hr
    unfold changes at this
    rw [if_pos rfl, key, Nat.zero_mul, Nat.zero_add, Nat.add_zero] at this
    exact this
  · intro hS t r ht hr
    have : t = 0 := by omega
    subst this
    unfold changes
    rw [if_pos rfl, key, Nat.zero_mul, Nat.zero_add, Nat.add_zero]
    exact hS r hr

omit [IsStrictOrderedRing K] in
theorem once_cost (h : P.reps = 1) (scale : K) (x : Finset (Fin P.n)) : cost scale (once h x) = price P scale x := by
  unfold cost once price
  rw [Finset.sum_map]
  simp [first_apply]

omit [LinearOrder K] [IsStrictOrderedRing K] [FloorRing K] [Field K] in
theorem once_flipped (h : P.reps = 1) (x : Finset (Fin P.n)) (k : Nat) : flipped (once h x) k = ∑ c ∈ x, (P.fault c).count k := by
  unfold flipped once
  rw [Finset.sum_map]
  rfl

/-- C62 (one repetition, identity as faults matrix).  `x = decode(z)` satisfies `H x = z` and has the least rounded weight of all `x` that do; there is
an exception only if there is none. -/
theorem C62_solution {a : Args K} (hg : Given P a) (hm : Mild P) (hs : a.strategy = .smallestWeight) (mergeW : K → K → K) {g : UGraph K}
    (hload : loadCheckMatrix mergeW a = .ok g) (hsm : Small P) (without : Bool) (h1 : P.reps = 1) (hn : P.faults = P.n) (hid : ∀ c, P.fault c = [c.val])
    (events : List Nat) (hnd : events.Nodup) (hev : ∀ d ∈ events, d < g.nodes.length) :
    ∃ ans scale, Fresh1 g without (.decode false events) ans ∧ Scale g scale ∧
      ((∃ x : Finset (Fin P.n), Solves P x events ∧ (∀ x', Solves P x' events → price P scale x ≤ price P scale x') ∧
          ans = .predictions (List.ofFn fun c => if c ∈ x then 1#8 else 0#8) ((price P scale x : K) / scale)) ∨
        (ans = .exception ∧ ∀ x : Finset (Fin P.n), ¬ Solves P x events)) := by
  obtain ⟨ans, scale, hf, hsc, hR⟩ := C62_decode hg hm hs mergeW hload hsm without events hnd hev
  refine ⟨ans, scale, hf, hsc, ?_⟩
  rcases hR with ⟨row, w, rfl, E, ⟨hA, hmin⟩, hlen, hrow, hw⟩ | ⟨rfl, hno⟩
  · obtain ⟨x, rfl⟩ := once_surj h1 E
    refine .inl ⟨x, (once_accounts h1 x events).1 hA, fun x' hx' => ?_, ?_⟩
    · rw [← once_cost h1, ← once_cost h1]
      exact hmin _ ((once_accounts h1 x' events).2 hx')
    · rw [hw, once_cost]
      congr 1
      refine List.ext_getElem (by rw [hlen, hn]; simp) fun k hk hk' => ?_
      have hkn : k < P.n := by rw [← hn, ← hlen]; exact hk
      have := hrow k (by omega)
      rw [List.getElem?_eq_getElem hk, Option.some.injEq] at this
      rw [this, once_flipped, List.getElem_ofFn]
      have hsum : ∑ c ∈ x, (P.fault c).count k = if (⟨k, hkn⟩ : Fin P.n) ∈ x then 1 else 0 := by
        simp only [hid, List.count_singleton, beq_iff_eq]
        rw [← Finset.sum_ite_eq' x (⟨k, hkn⟩ : Fin P.n) (fun _ => 1)]
        refine Finset.sum_congr rfl fun c _ => ?_
        by_cases hc : c = ⟨k, hkn⟩
        · simp [hc]
        · rw [if_neg (fun h => hc (Fin.ext h)), if_neg hc]
      rw [hsum]
      by_cases hx : (⟨k, hkn⟩ : Fin P.n) ∈ x <;> simp [hx]
  · exact .inr ⟨rfl, fun x hx => hno _ ((once_accounts h1 x events).2 hx)⟩

/-! ### The same with the 32-bit wrapped radius of the code -/

section
variable {a : Args K} (hg : Given P a) (hm : Mild P) (hs : a.strategy = .smallestWeight) (mergeW : K → K → K) {g : UGraph K}
  (hload : loadCheckMatrix mergeW a = .ok g) (hsm : Small P) (without : Bool) (hn : Narrow.Near g)
include hg hm hs hload hsm hn

/-- C62 (batches), 32-bit. -/
theorem C62_batch_int32 (ps pp : Bool) (cols : Nat) (rows : List (List (BitVec 8))) (hshape : Obs.shapeOk ps cols g.numDetectors g.nodes.length = true)
    (hev : ∀ row ∈ rows, ∀ d ∈ readRow ps row, d < g.nodes.length) :
    ∃ ans scale, Fresh1 (W := int32) g without (.batch ps pp false cols rows) ans ∧ Scale g scale ∧ RightBatch P scale ps pp rows ans := by
  have hl := loaded hg hm hs mergeW hload
  have hq : Askable g without (.batch ps pp false cols rows) := askable hg hm hs mergeW hload hsm without (fun _ => hev) rfl
  obtain ⟨ans, scale, h1, h2, h3⟩ := C62_batch hg hm hs mergeW hload hsm without ps pp cols rows hshape hev
  exact ⟨ans, scale, (Narrow.fresh1_int32 hl.kept.wf hl.bndOk hn hq ans).2 h1, h2, h3⟩

/-- C62 (two dimensions), 32-bit. -/
theorem C62_syndrome_history_int32 (z : Nat → Nat → Nat) :
    ∃ events, Syn.toEvents g.numDetectors g.boundary.card (.d2 P.rows P.reps z) = some events ∧
      (∀ E : History P, Accounts E events ↔ ∀ t r, t < P.reps → r < P.rows → (z r t ≠ 0 ↔ changes E t r)) ∧
      ∃ ans scale, Fresh1 (W := int32) g without (.decode false events) ans ∧ Scale g scale ∧ Right P scale events ans := by
  have hl := loaded hg hm hs mergeW hload
  obtain ⟨events, h1, h2, -⟩ := C62_syndrome_history hg hm hs mergeW hload hsm without z
  obtain ⟨k1, k2, -⟩ := (Syndrome.C37_two_dim g.numDetectors g.boundary.card P.rows P.reps z).2 events h1
  exact ⟨events, h1, h2, C62_decode_int32 hg hm hs mergeW hload hsm without hn events (k1.imp fun h => Nat.ne_of_lt h)
    fun d hd => (hl.inside d (by rw [← hl.detectors]; exact k2 d hd)).1⟩

/-- C62 (one repetition), 32-bit. -/
theorem C62_solution_int32 (h1 : P.reps = 1) (hf : P.faults = P.n) (hid : ∀ c, P.fault c = [c.val])
    (events : List Nat) (hnd : events.Nodup) (hev : ∀ d ∈ events, d < g.nodes.length) :
    ∃ ans scale, Fresh1 (W := int32) g without (.decode false events) ans ∧ Scale g scale ∧
      ((∃ x : Finset (Fin P.n), Solves P x events ∧ (∀ x', Solves P x' events → price P scale x ≤ price P scale x') ∧
          ans = .predictions (List.ofFn fun c => if c ∈ x then 1#8 else 0#8) ((price P scale x : K) / scale)) ∨
        (ans = .exception ∧ ∀ x : Finset (Fin P.n), ¬ Solves P x events)) := by
  have hl := loaded hg hm hs mergeW hload
  have hq : Askable g without (.decode false events) := askable hg hm hs mergeW hload hsm without ⟨hnd, hev⟩ rfl
  obtain ⟨ans, scale, h1, h2, h3⟩ := C62_solution hg hm hs mergeW hload hsm without h1 hf hid events hnd hev
  exact ⟨ans, scale, (Narrow.fresh1_int32 hl.kept.wf hl.bndOk hn hq ans).2 h1, h2, h3⟩

omit hsm hn in
/-- C62 (at any time), 32-bit. -/
theorem C62_any_time_int32 (ops : List (Op K)) (hp : Object.Proper mergeW without g False ops) (hn : ∀ p ∈ questions mergeW g ops, Narrow.Near p.1) :
    ∃ as o, Edges.Completes (fun f => (Object.of g without).history (W := int32) mergeW f ops) (.ok (as, o)) ∧
      List.Forall₂ (fun (p : UGraph K × Query) ans => p.1 = g → ∀ events, p.2 = .decode false events → (∀ d ∈ events, d < g.nodes.length) →
        ∃ scale, Scale g scale ∧ Right P scale events ans) (questions mergeW g ops) as := by
  have hl := loaded hg hm hs mergeW hload
  obtain ⟨as, o, h1, h2⟩ := C62_any_time hg hm hs mergeW hload without ops hp
  obtain ⟨as', o', h3, h4⟩ := Narrow.C61_same_partial mergeW without g hl.kept.wf hl.bndOk ops hp hn
  cases Edges.completes_unique h1 h4
  exact ⟨as, o, h3, h2⟩

end

/-! ### Weights before rounding -/

theorem whole_close {scale : K} (hs : 0 < scale) (w : K) : |(whole scale w : K) / scale - w| ≤ 1 / scale := by
  have h := Discretise.cround_spec (w * (scale / 2))
  have e : (whole scale w : K) / scale - w = (((cround (w * (scale / 2)) : Int) : K) - w * (scale / 2)) * (2 / scale) := by
    unfold whole disc
    push_cast
    field_simp
  rw [e, abs_mul, abs_of_pos (by positivity : (0 : K) < 2 / scale)]
  calc _ ≤ 1 / 2 * (2 / scale) := mul_le_mul_of_nonneg_right h (by positivity)
    _ = 1 / scale := by field_simp

theorem cost_close {scale : K} (hs : 0 < scale) (E : History P) : |(cost scale E : K) / scale - weightOf E| ≤ size E / scale := by
  have h : (cost scale E : K) / scale - weightOf E = (∑ x ∈ E.flips, ((whole scale (P.weight x.2) : K) / scale - P.weight x.2)) +
      ∑ x ∈ E.wrong, ((whole scale (P.timelike x.2) : K) / scale - P.timelike x.2) := by
    unfold cost weightOf
    push_cast
    rw [Finset.sum_sub_distrib, Finset.sum_sub_distrib, ← Finset.sum_div, ← Finset.sum_div]
    ring
  rw [h]
  refine (abs_add_le _ _).trans ?_
  unfold size
  push_cast
  rw [add_div]
  refine add_le_add ?_ ?_
  · refine (Finset.abs_sum_le_sum_abs _ _).trans ((Finset.sum_le_card_nsmul _ _ _ fun x _ => whole_close hs _).trans ?_)
    rw [nsmul_eq_mul, mul_one_div]
  · refine (Finset.abs_sum_le_sum_abs _ _).trans ((Finset.sum_le_card_nsmul _ _ _ fun x _ => whole_close hs _).trans ?_)
    rw [nsmul_eq_mul, mul_one_div]

/-- C62 (rounding).  The weight of the history that is found, not rounded, exceeds that of no other one that accounts for the events by more than
the rounding of the weights: one half unit for each of their members. -/
theorem C62_almost {scale : K} (hs : 0 < scale) {events : List Nat} {E E' : History P} (hE : Cheapest scale E events) (hE' : Accounts E' events) :
    weightOf E ≤ weightOf E' + (size E + size E' : Nat) / scale := by
  have h1 := abs_le.1 (cost_close hs E)
  have h2 := abs_le.1 (cost_close hs E')
  have h3 : (cost scale E : K) / scale ≤ (cost scale E' : K) / scale :=
    div_le_div_of_nonneg_right (Int.cast_le.2 (hE.2 E' hE')) hs.le
  push_cast
  rw [add_div]
  linarith [h1.1, h2.2]

/-- All weights of the graph are integers if those given are. -/
theorem all_int {a : Args K} (hg : Given P a) (h2 : ∀ c, (P.col c).length ≤ 2) (hs : a.strategy = .smallestWeight) (mergeW : K → K → K) {g : UGraph K}
    (hload : loadCheckMatrix mergeW a = .ok g) (hi : ∀ c, Discretise.IsInt (P.weight c)) (ht : ∀ r, Discretise.IsInt (P.timelike r)) :
    Loaded P a.virtualBoundary g ∧ ∀ w ∈ Discretise.allWeights g, Discretise.IsInt w := by
  have hl : Loaded P a.virtualBoundary g := by
    obtain ⟨g', h', hl⟩ := loads hg h2 hs mergeW
    rw [hload] at h'
    cases h'
    exact hl
  refine ⟨hl, fun w hw => ?_⟩
  unfold Discretise.allWeights at hw
  rw [List.mem_flatMap] at hw
  obtain ⟨e, he, hw⟩ := hw
  rcases List.mem_cons.1 hw with rfl | hw
  · rcases weights_from hl h2 e he with ⟨c, h⟩ | ⟨-, r, h⟩
    · rw [h]; exact hi c
    · rw [h]; exact ht r
  · obtain ⟨j, hj, rfl⟩ := List.getElem_of_mem he
    obtain ⟨i, -, -, -, -, him⟩ := hl.kept.src j hj
    rw [him] at hw
    cases hw

/-- C62 (integers).  If all weights are integers, nothing is rounded: the history that is found has the least weight, and the cost is its weight. -/
theorem C62_integers {a : Args K} (hg : Given P a) (h2 : ∀ c, (P.col c).length ≤ 2) (hs : a.strategy = .smallestWeight) (mergeW : K → K → K) {g : UGraph K}
    (hload : loadCheckMatrix mergeW a = .ok g) (hi : ∀ c, Discretise.IsInt (P.weight c)) (ht : ∀ r, Discretise.IsInt (P.timelike r)) {scale : K}
    (hsc : Scale g scale) : scale = 2 ∧ ∀ E : History P, (cost scale E : K) / scale = weightOf E := by
  obtain ⟨hl, hall⟩ := all_int hg h2 hs mergeW hload hi ht
  have h3 : scale = 2 := by
    obtain ⟨c, hc, rfl⟩ := hsc
    rw [((Discretise.C19_constant g numDistinctWeights).2 c hc).1 hall, mul_one]
  refine ⟨h3, fun E => ?_⟩
  subst h3
  have hw : ∀ w : K, Discretise.IsInt w → ((whole 2 w : Int) : K) = w * 2 := by
    rintro w ⟨z, rfl⟩
    unfold whole disc
    rw [div_self two_ne_zero, mul_one, Discretise.cround_int]
    push_cast
    ring
  unfold cost weightOf
  push_cast
  rw [Finset.sum_congr rfl fun x _ => hw _ (hi x.2), Finset.sum_congr rfl fun x _ => hw _ (ht x.2), ← Finset.sum_mul, ← Finset.sum_mul, ← add_mul]
  field_simp

/-- C62 (when the 32-bit version applies).  Integer weights of absolute value at most `M`, and `M (rows * repetitions + 1) ≤ 2^30`. -/
theorem C62_near {a : Args K} (hg : Given P a) (h2 : ∀ c, (P.col c).length ≤ 2) (hs : a.strategy = .smallestWeight) (mergeW : K → K → K) {g : UGraph K}
    (hload : loadCheckMatrix mergeW a = .ok g) (hi : ∀ c, Discretise.IsInt (P.weight c)) (ht : ∀ r, Discretise.IsInt (P.timelike r)) (M : Nat)
    (hM : ∀ c, |P.weight c| ≤ M) (hMt : ∀ r, |P.timelike r| ≤ M) (h : M * (P.rows * P.reps + 1) ≤ 2 ^ 30) : Narrow.Near g := by
  obtain ⟨hl, hall⟩ := all_int hg h2 hs mergeW hload hi ht
  refine Narrow.C61_near_integers hl.kept.wf hall M (fun e he => ?_) (le_trans (Nat.mul_le_mul_left _ ?_) h)
  · rcases weights_from hl h2 e he with ⟨c, h⟩ | ⟨-, r, h⟩
    · rw [h]; exact hM c
    · rw [h]; exact hMt r
  · rw [hl.count, hl.detectors]
    have : g.boundary.card ≤ 1 := Finset.card_le_one.2 fun x hx y hy => (hl.last x hx).trans (hl.last y hy).symm
    omega

/-! ## Examples -/

/-- The repetition code of the documentation, with two repetitions. -/
def sample (reps : Nat) : Problem ℚ where
  rows := 3
  faults := 4
  n := 4
  reps := reps
  col := ![[0], [0, 1], [1, 2], [2]]
  fault := fun c => [c.val]
  weight := fun _ => 1
  prob := fun _ => -1
  timelike := fun _ => 1
  misprob := fun _ => -1

/-- The arguments of the loader for it. -/
def sampleArgs (reps : Nat) (virt : Bool) : Args ℚ where
  H := ⟨[1, 1, 1, 1, 1, 1], [0, 0, 1, 1, 2, 2], [0, 1, 3, 5, 6], 3, 4⟩
  F := identity 4
  weights := [1, 1, 1, 1]
  probs := [-1, -1, -1, -1]
  strategy := .smallestWeight
  virtualBoundary := virt
  reps := reps
  timelike := some [1, 1, 1]
  measProbs := some [-1, -1, -1]

theorem sample_given (reps : Nat) (virt : Bool) : Given (sample reps) (sampleArgs reps virt) where
  H := by
    refine ⟨rfl, rfl, rfl, rfl, ?_⟩
    show ∀ c ∈ [[0], [0, 1], [1, 2], [2]], ∀ r ∈ c, r < 3
    decide
  rows := rfl
  F := by
    refine ⟨rfl, rfl, rfl, rfl, ?_⟩
    show ∀ c ∈ [[0], [1], [2], [3]], ∀ r ∈ c, r < 4
    decide
  faults := rfl
  weights := rfl
  probs := rfl
  reps := rfl
  time := fun _ => ⟨rfl, rfl⟩

theorem sample_mild (reps : Nat) : Mild (sample reps) where
  two := by
    show ∀ c : Fin 4, ((![[0], [0, 1], [1, 2], [2]] : Fin 4 → List Nat) c).length ≤ 2
    decide
  pair := by intro c c' _ _; show (0 : ℚ) ≤ 1 + 1; norm_num
  zero := by intro c _; show (0 : ℚ) ≤ 1; norm_num

theorem sample_small (reps : Nat) : Small (sample reps) where
  col := by intro c; show |(1 : ℚ)| ≤ _; norm_num
  time := by intro _ r; show |(1 : ℚ)| ≤ _; norm_num

/-- The hypotheses of C62 hold for it, with any number of repetitions, and with both kinds of boundary. -/
example (reps : Nat) (virt : Bool) : ∃ g, loadCheckMatrix (fun a _ => a) (sampleArgs reps virt) = .ok g ∧ Given (sample reps) (sampleArgs reps virt) ∧
    Mild (sample reps) ∧ Small (sample reps) ∧ (sampleArgs reps virt).strategy = .smallestWeight := by
  obtain ⟨g, h, -⟩ := C62_loads (sample_given reps virt) (sample_mild reps).two rfl (fun a _ => a)
  exact ⟨g, h, sample_given reps virt, sample_mild reps, sample_small reps, rfl⟩

/-- The 32-bit version applies to it with up to 300 million repetitions. -/
example (reps : Nat) (virt : Bool) (h : reps ≤ 300000000) : ∃ g, loadCheckMatrix (fun a _ => a) (sampleArgs reps virt) = .ok g ∧ Narrow.Near g := by
  obtain ⟨g, hl, -⟩ := C62_loads (sample_given reps virt) (sample_mild reps).two rfl (fun a _ => a)
  refine ⟨g, hl, C62_near (sample_given reps virt) (sample_mild reps).two rfl _ hl (fun _ => ⟨1, ?_⟩) (fun _ => ⟨1, ?_⟩) 1 (fun _ => ?_) (fun _ => ?_) ?_⟩
  · show ((1 : Int) : ℚ) = 1; norm_num
  · show ((1 : Int) : ℚ) = 1; norm_num
  · show |(1 : ℚ)| ≤ _; norm_num
  · show |(1 : ℚ)| ≤ _; norm_num
  · show 1 * (3 * reps + 1) ≤ _; omega

/-- An object that is asked twice (`C62_any_time`). -/
example (reps : Nat) (virt : Bool) (hr : 0 < reps) : ∃ g, loadCheckMatrix (fun a _ => a) (sampleArgs reps virt) = .ok g ∧
    Object.Proper (fun a _ => a) false g False [.ask (.decode false [0, 1]), .ask (.decode false [2])] := by
  obtain ⟨g, hl, -⟩ := C62_loads (sample_given reps virt) (sample_mild reps).two rfl (fun a _ => a)
  have hd := loaded (sample_given reps virt) (sample_mild reps) rfl _ hl
  have hin : ∀ d, d < 3 → d < g.nodes.length := fun d h => (hd.inside d (by show d < 3 * reps; omega)).1
  refine ⟨g, hl, ?_, ?_, trivial⟩
  · refine askable (sample_given reps virt) (sample_mild reps) rfl _ hl (sample_small reps) false ⟨by decide, ?_⟩ rfl
    intro d h
    exact hin d (by revert d; decide)
  · refine askable (sample_given reps virt) (sample_mild reps) rfl _ hl (sample_small reps) false ⟨by decide, ?_⟩ rfl
    intro d h
    exact hin d (by revert d; decide)

/-- An error in column 1 in the first of two repetitions, and a wrong measurement of row 0 in it if `wrong`. -/
def story (wrong : Bool) : History (sample 2) where
  flips := ({(0, 1)} : Finset (Fin 2 × Fin 4))
  wrong := (if wrong then {(0, 0)} else ∅ : Finset (Fin 1 × Fin 3))

/-- With the wrong measurement, row 1 changes in the first repetition (detection event 1), and row 0 in the second (detection event 3). -/
example : Accounts (story true) [1, 3] ∧ ¬ Accounts (story false) [1, 3] ∧ Accounts (story false) [0, 1] ∧ flipped (story true) 1 = 1 ∧
    flipped (story true) 2 = 0 := by
  refine ⟨?_, ?_, ?_, by decide +kernel, by decide +kernel⟩
  · intro t r ht hr
    change t < 2 at ht
    change r < 3 at hr
    unfold changes
    interval_cases t <;> interval_cases r <;> decide +kernel
  · intro h
    have := h 1 0 (by decide) (by decide)
    unfold changes at this
    revert this
    decide +kernel
  · intro t r ht hr
    change t < 2 at ht
    change r < 3 at hr
    unfold changes
    interval_cases t <;> interval_cases r <;> decide +kernel

/-- With one repetition and the identity as faults matrix, `C62_solution` applies; the documentation's `z = [0, 1, 0]` has a solution. -/
example : (sample 1).reps = 1 ∧ (sample 1).faults = (sample 1).n ∧ (∀ c, (sample 1).fault c = [c.val]) ∧
    Solves (P := sample 1) ({0, 1} : Finset (Fin 4)) [1] := by
  refine ⟨rfl, rfl, fun _ => rfl, ?_⟩
  intro r hr
  change r < 3 at hr
  interval_cases r <;> decide +kernel

/-- A column without ones and with negative weight. -/
def idle : Problem ℚ where
  rows := 1
  faults := 2
  n := 2
  reps := 1
  col := ![[0], []]
  fault := fun c => [c.val]
  weight := ![1, -1]
  prob := fun _ => -1
  timelike := fun _ => 1
  misprob := fun _ => -1

/-- The history in which column 1 is flipped. -/
def busy : History idle := ⟨({(0, 1)} : Finset (Fin 1 × Fin 2)), ∅⟩

/-- The arguments of the loader for it. -/
def idleArgs : Args ℚ where
  H := ⟨[1], [0], [0, 1, 1], 1, 2⟩
  F := identity 2
  weights := [1, -1]
  probs := [-1, -1]
  strategy := .smallestWeight
  virtualBoundary := false
  reps := 1
  timelike := none
  measProbs := none

theorem idle_given : Given idle idleArgs where
  H := by
    refine ⟨rfl, rfl, rfl, rfl, ?_⟩
    show ∀ c ∈ [[0], []], ∀ r ∈ c, r < 1
    decide
  rows := rfl
  F := by
    refine ⟨rfl, rfl, rfl, rfl, ?_⟩
    show ∀ c ∈ [[0], [1]], ∀ r ∈ c, r < 2
    decide
  faults := rfl
  weights := rfl
  probs := rfl
  reps := rfl
  time := fun h => absurd h (by decide)

/-- The condition on zero columns is needed: a column without ones and with negative weight should always be reported, and never is. -/
theorem C62_condition_needed : ∃ g, loadCheckMatrix (fun a _ => a) idleArgs = .ok g ∧ Given idle idleArgs ∧ (∀ c, (idle.col c).length ≤ 2) ∧ Small idle ∧
    ∀ ans scale, Fresh1 g true (.decode false []) ans → Scale g scale → ¬ Right idle scale [] ans := by
  have h2 : ∀ c, (idle.col c).length ≤ 2 := by
    show ∀ c : Fin 2, ((![[0], []] : Fin 2 → List Nat) c).length ≤ 2
    decide
  have hsm : Small idle := by
    refine ⟨?_, fun h => absurd h (by decide)⟩
    show ∀ c : Fin 2, |(![1, -1] : Fin 2 → ℚ) c| ≤ _
    intro c
    fin_cases c <;> norm_num
  obtain ⟨g, h, hl⟩ := loads idle_given h2 rfl (fun a _ => a)
  refine ⟨g, h, idle_given, h2, hsm, fun ans scale hf hsc hR => ?_⟩
  have hin := in_rows idle_given
  have hs := scale_pos hsc
  have hq : Askable g true (.decode false []) := ⟨buildable hl hin h2 (in_faults idle_given) hsm true, covered hl h2 (in_faults idle_given), ⟨by simp, by simp⟩,
    fun h => (by cases h)⟩
  obtain ⟨scale', hsc', hM⟩ := C58_new hl.kept.wf hl.bndOk hq rfl (noGain hl hin h2) hf
  have : scale' = scale := by
    obtain ⟨c, hc, rfl⟩ := hsc
    obtain ⟨c', hc', rfl⟩ := hsc'
    rw [hc] at hc'
    cases hc'
    rfl
  subst this
  have hpos : ∀ e ∈ g.edges, e.weight = 1 := by
    intro e he
    obtain ⟨j, hj, rfl⟩ := List.getElem_of_mem he
    obtain ⟨i, hi, -, -, hw, -⟩ := hl.kept.src j hj
    rw [hw, (item_weight h2 _ hi).1]
    rcases i with ⟨t, c⟩ | ⟨t, r⟩
    · rw [mem_left] at hi
      have hc : c = (0 : Fin 2) := by
        change Fin 2 at c
        fin_cases c
        · rfl
        · exact absurd rfl hi
      subst hc
      rfl
    · exact absurd t.2 (by show ¬ t.val < 0; omega)
  have hE : ∀ E : History idle, E = ⟨∅, ∅⟩ ∨ E = busy → Accounts E [] := by
    intro E hE t r ht hr
    change t < 1 at ht
    change r < 1 at hr
    unfold changes
    interval_cases t
    interval_cases r
    rcases hE with rfl | rfl <;> decide +kernel
  rcases hM with ⟨row, w, rfl, C, n, ⟨hb, rfl⟩, -, -, hw⟩ | ⟨rfl, -⟩
  · rcases hR with ⟨row', w', e, E, ⟨-, hmin⟩, -, -, hw'⟩ | ⟨e, -⟩
    · cases e
      have h0 : 0 ≤ total scale' C := Finset.sum_nonneg fun j _ => Inserted.rounded_nonneg hs
        (by have h := hpos g.edges[j] (List.getElem_mem _); rw [h]; exact zero_le_one)
      have h1 := hmin busy (hE _ (.inr rfl))
      have h3 : cost scale' busy < 0 := by
        obtain ⟨h2s, hc⟩ := C62_integers idle_given h2 rfl _ h (by
          show ∀ c : Fin 2, Discretise.IsInt ((![1, -1] : Fin 2 → ℚ) c)
          intro c
          fin_cases c
          · exact ⟨1, by norm_num⟩
          · exact ⟨-1, by norm_num⟩) (fun _ => ⟨1, by show ((1 : Int) : ℚ) = 1; norm_num⟩) hsc
        have := hc busy
        have hb : weightOf busy = -1 := by decide +kernel
        rw [hb, h2s] at this
        rw [h2s]
        have h4 : (cost 2 busy : ℚ) < 0 := by linarith
        exact_mod_cast h4
      have h4 : (cost scale' E : ℚ) = total scale' C := by
        have := hw'.symm.trans hw
        rwa [div_left_inj' hs.ne'] at this
      have h5 : cost scale' E = total scale' C := by exact_mod_cast h4
      omega
    · cases e
  · rcases hR with ⟨_, _, e, -⟩ | ⟨-, hno⟩
    · cases e
    · exact hno _ (hE _ (.inl rfl))

end Verif.Props.MatrixDecode
