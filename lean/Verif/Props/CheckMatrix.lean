import Verif.CheckMatrix
import Verif.Props.Convert

/-!
# Properties of loading a check matrix (C23)
-/

namespace Verif.Props.CheckMatrix

open Verif.UG Verif.CM Verif.Props.UserGraph

variable {K : Type} [Field K] [LinearOrder K]

/-! ## Specification -/

/-- The arrays represent the 0/1 matrix whose column `c` has ones in the rows `cols[c]`. -/
def Represents (m : Csc) (cols : List (List Nat)) : Prop :=
  m.indices = cols.flatten ∧ m.indptr = (cols.map List.length).scanl (· + ·) 0 ∧
  m.data = List.replicate cols.flatten.length 1 ∧ m.numCols = cols.length ∧ ∀ c ∈ cols, ∀ r ∈ c, r < m.numRows

/-- A column with its fault ids, weight and error probability. -/
abbrev Column (K : Type) := List Nat × List Nat × K × K

/-- What one column means in repetition `rep`: an edge, a boundary edge, or nothing. -/
def columnCall (rows reps : Nat) (virt : Bool) (s : Strategy) (rep : Nat) : Column K → List (Call K)
  | ([i, j], obs, w, p) => [.add (i + rows * rep) (some (j + rows * rep)) obs w p s]
  | ([i], obs, w, p) => [.add (i + rows * rep) (if virt then none else some (rows * reps)) obs w p s]
  | _ => []

/-- The space-like edges, repetition by repetition. -/
def spaceCalls (rows reps : Nat) (virt : Bool) (s : Strategy) (columns : List (Column K)) : List (Call K) :=
  (List.range reps).flatMap fun rep => columns.flatMap (columnCall rows reps virt s rep)

/-- The time-like edges: each row is connected between consecutive repetitions. -/
def timeCalls (rows reps : Nat) (s : Strategy) (rowData : List (K × K)) : List (Call K) :=
  (List.range (reps - 1)).flatMap fun rep =>
    rowData.zipIdx.map fun x => .add (x.2 + rep * rows) (some (x.2 + (rep + 1) * rows)) [] x.1.1 x.1.2 s

/-- The boundary node, if some column has a single one and the boundary is not virtual. -/
def boundaryCalls (rows reps : Nat) (virt : Bool) (cols : List (List Nat)) : List (Call K) :=
  if virt = false ∧ 0 < reps ∧ ∃ c ∈ cols, c.length = 1 then [.setBoundary [rows * reps]] else []

/-- All calls of a history are accepted (no exception). -/
def accepted (mergeW : K → K → K) (g : UGraph K) : List (Call K) → Prop
  | [] => True
  | c :: cs => (exec mergeW g c).2 = true ∧ accepted mergeW (exec mergeW g c).1 cs

instance (mergeW : K → K → K) (g : UGraph K) (cs : List (Call K)) : Decidable (accepted mergeW g cs) := by
  induction cs generalizing g with
  | nil => exact isTrue trivial
  | cons c cs ih => exact @instDecidableAnd _ _ inferInstance (ih _)

/-! ## Helper lemmas -/

theorem scanl_get (l : List Nat) (b c : Nat) (hc : c ≤ l.length) : (l.scanl (· + ·) b)[c]? = some (b + (l.take c).sum) := by
  induction l generalizing b c with
  | nil => simp at hc; subst hc; simp
  | cons x l ih =>
    rw [List.scanl_cons]
    cases c with
    | zero => simp
    | succ c =>
      rw [List.getElem?_cons_succ, ih _ _ (by simpa using hc)]
      simp; omega

/-- Reading a column from the arrays. -/
theorem read_column {m : Csc} {cols : List (List Nat)} (h : Represents m cols) (c : Nat) (hc : c < cols.length) :
    ∃ s, m.indptr[c]? = some s ∧ m.indptr[c + 1]? = some (s + cols[c].length) ∧ s + cols[c].length ≤ m.indices.length ∧
      ∀ k, k < cols[c].length → m.indices[s + k]? = cols[c][k]? := by
  obtain ⟨h1, h2, -, -, -⟩ := h
  refine ⟨((cols.map List.length).take c).sum, ?_, ?_, ?_, ?_⟩
  · rw [h2, scanl_get _ _ _ (by simp; omega)]; simp
  · rw [h2, scanl_get _ _ _ (by simp; omega), List.take_add_one, List.sum_append]
    simp [hc]
  · rw [h1, List.length_flatten]
    have : cols.map List.length = (cols.map List.length).take (c + 1) ++ (cols.map List.length).drop (c + 1) :=
      (List.take_append_drop _ _).symm
    conv => rhs; rw [this]
    rw [List.sum_append, List.take_add_one, List.sum_append]
    simp [hc]
  · intro k hk
    have hsplit : cols = cols.take c ++ cols[c] :: cols.drop (c + 1) := by
      rw [← List.drop_eq_getElem_cons hc, List.take_append_drop]
    have hlen : ((cols.map List.length).take c).sum = (cols.take c).flatten.length := by
      rw [List.length_flatten, List.map_take]
    rw [hlen]
    generalize hn : (cols.take c).flatten.length = n at *
    have hflat : m.indices = (cols.take c).flatten ++ (cols[c] ++ (cols.drop (c + 1)).flatten) := by
      rw [h1]
      conv => lhs; rw [hsplit]
      rw [List.flatten_append, List.flatten_cons]
    rw [hflat, List.getElem?_append_right (by omega), List.getElem?_append_left (by omega)]
    congr 1
    omega

theorem readObs_eq (F : Csc) (col : List Nat) (s : Nat) (h : ∀ k, k < col.length → F.indices[s + k]? = col[k]?) :
    readObs F s col.length = .ok col := by
  induction col generalizing s with
  | nil => rfl
  | cons x col ih =>
    have h0 := h 0 (by simp)
    simp only [Nat.add_zero, List.getElem?_cons_zero] at h0
    have ht := ih (s + 1) (fun k hk => by
      have := h (k + 1) (by simpa using hk)
      rw [List.getElem?_cons_succ] at this
      rw [← this]; congr 1; omega)
    simp only [List.length_cons, readObs, at?, h0, Res.bind, ht]

theorem foldRes_flatMap {α β γ : Type} (f : β → α → Res β) (h : γ → List α) (l : List γ) (b : β) :
    foldRes f b (l.flatMap h) = foldRes (fun b x => foldRes f b (h x)) b l := by
  have happ : ∀ (l1 l2 : List α) (b : β), foldRes f b (l1 ++ l2) = (foldRes f b l1).bind fun b => foldRes f b l2 := by
    intro l1
    induction l1 with
    | nil => intro l2 b; rfl
    | cons x l1 ih =>
      intro l2 b
      simp only [List.cons_append, foldRes]
      cases f b x with
      | ok b' => exact ih l2 b'
      | raise => rfl
      | ub => rfl
  induction l generalizing b with
  | nil => rfl
  | cons x l ih =>
    rw [List.flatMap_cons, happ]
    simp only [foldRes]
    cases foldRes f b (h x) with
    | ok b' => exact ih b'
    | raise => rfl
    | ub => rfl

theorem foldRes_congr {α β : Type} (f f' : β → α → Res β) (l : List α) (h : ∀ x ∈ l, ∀ b, f b x = f' b x) (b : β) :
    foldRes f b l = foldRes f' b l := by
  induction l generalizing b with
  | nil => rfl
  | cons x l ih =>
    simp only [foldRes]
    rw [h x List.mem_cons_self]
    cases f' b x with
    | ok b' => exact ih (fun y hy => h y (List.mem_cons_of_mem _ hy)) b'
    | raise => rfl
    | ub => rfl

/-- Looping over indices is looping over the list. -/
theorem foldRes_range {α β : Type} (f : β → Nat → Res β) (f' : β → α → Res β) (l : List α)
    (h : ∀ i (hi : i < l.length) b, f b i = f' b l[i]) (b : β) : foldRes f b (List.range l.length) = foldRes f' b l := by
  have key : ∀ (n k : Nat) (b : β), k + n = l.length → foldRes f b (List.range' k n) = foldRes f' b (l.drop k) := by
    intro n
    induction n with
    | zero => intro k b hk; rw [List.drop_eq_nil_of_le (by omega)]; rfl
    | succ n ih =>
      intro k b hk
      rw [List.range'_succ, List.drop_eq_getElem_cons (by omega)]
      simp only [foldRes]
      rw [h k (by omega)]
      cases f' b l[k] with
      | ok b' => exact ih (k + 1) b' (by omega)
      | raise => rfl
      | ub => rfl
  have := key l.length 0 b (by omega)
  rwa [← List.range_eq_range', List.drop_zero] at this

theorem foldRes_exec (mergeW : K → K → K) (g : UGraph K) (cs : List (Call K)) :
    foldRes (fun g c => CM.ins (exec mergeW g c)) g cs =
      if accepted mergeW g cs then .ok (run mergeW g cs) else .raise := by
  induction cs generalizing g with
  | nil => rfl
  | cons c cs ih =>
    simp only [foldRes]
    by_cases hc : (exec mergeW g c).2 = true
    · have : CM.ins (exec mergeW g c) = .ok (exec mergeW g c).1 := by unfold CM.ins; rw [if_pos hc]
      rw [this]
      simp only [Res.bind]
      rw [ih]
      have hacc : accepted mergeW g (c :: cs) ↔ accepted mergeW (exec mergeW g c).1 cs := by
        simp [accepted, hc]
      simp only [hacc]
      rfl
    · have : CM.ins (exec mergeW g c) = .raise := by unfold CM.ins; rw [if_neg hc]
      rw [this]
      simp only [Res.bind]
      rw [if_neg (fun h => hc h.1)]

theorem foldRes_raise {α β : Type} (f : β → α → Res β) (l : List α) (x : α) (hx : x ∈ l) (hr : ∀ b, f b x = .raise)
    (hub : ∀ y ∈ l, ∀ b, f b y ≠ .ub) (b : β) : foldRes f b l = .raise := by
  induction l generalizing b with
  | nil => cases hx
  | cons y l ih =>
    simp only [foldRes]
    cases hy : f b y with
    | ub => exact absurd hy (hub y List.mem_cons_self b)
    | raise => rfl
    | ok b' =>
      rcases List.mem_cons.1 hx with rfl | hx
      · rw [hr] at hy; cases hy
      · exact ih hx (fun z hz => hub z (List.mem_cons_of_mem _ hz)) b'

theorem foldRes_ne_ub {α β : Type} (f : β → α → Res β) (l : List α) (hub : ∀ y ∈ l, ∀ b, f b y ≠ .ub) (b : β) :
    foldRes f b l ≠ .ub := by
  induction l generalizing b with
  | nil => simp [foldRes]
  | cons y l ih =>
    simp only [foldRes]
    cases hy : f b y with
    | ub => exact absurd hy (hub y List.mem_cons_self b)
    | raise => simp [Res.bind]
    | ok b' => exact ih (fun z hz => hub z (List.mem_cons_of_mem _ hz)) b'

/-- The hypotheses under which the loader is used: the arrays represent matrices, and the array lengths fit. -/
structure Fits (a : Args K) (cols fcols : List (List Nat)) : Prop where
  H : Represents a.H cols
  F : Represents a.F fcols
  same : fcols.length = cols.length
  weights : a.weights.length = cols.length
  probs : a.probs.length = cols.length

/-- The columns with their data. -/
def columnsOf (a : Args K) (cols fcols : List (List Nat)) : List (Column K) :=
  cols.zip (fcols.zip (a.weights.zip a.probs))

omit [Field K] [LinearOrder K] in
theorem columnsOf_length {a : Args K} {cols fcols : List (List Nat)} (h : Fits a cols fcols) :
    (columnsOf a cols fcols).length = cols.length := by
  simp [columnsOf, h.same, h.weights, h.probs]

omit [Field K] [LinearOrder K] in
theorem columnsOf_get {a : Args K} {cols fcols : List (List Nat)} (h : Fits a cols fcols) (c : Nat) (hc : c < cols.length)
    (hc' : c < (columnsOf a cols fcols).length) :
    (columnsOf a cols fcols)[c] = (cols[c], fcols[c]'(by rw [h.same]; exact hc), a.weights[c]'(by rw [h.weights]; exact hc),
      a.probs[c]'(by rw [h.probs]; exact hc)) := by
  simp [columnsOf]

/-- One column. -/
theorem colStep_eq (mergeW : K → K → K) {a : Args K} {cols fcols : List (List Nat)} (h : Fits a cols fcols) (rep c : Nat)
    (hc : c < cols.length) (hc' : c < (columnsOf a cols fcols).length) (g : UGraph K) :
    colStep mergeW a rep g c = if 2 < cols[c].length then .raise else
      foldRes (fun g c => CM.ins (exec mergeW g c)) g
        (columnCall a.H.numRows a.reps a.virtualBoundary a.strategy rep (columnsOf a cols fcols)[c]) := by
  obtain ⟨s, h1, h2, h3, h4⟩ := read_column h.H c hc
  obtain ⟨fs, f1, f2, f3, f4⟩ := read_column h.F c (by rw [h.same]; exact hc)
  have hobs := readObs_eq a.F _ fs f4
  rw [columnsOf_get h c hc hc']
  unfold colStep
  simp only [at?, h1, h2, f1, f2, Res.bind]
  rw [if_neg (show ¬ (s + 1 > a.H.indices.length ∧ s ≠ s + cols[c].length) by omega)]
  rw [if_neg (show ¬ (fs + (fcols[c]'(by rw [h.same]; exact hc)).length < fs) by omega)]
  rw [Nat.add_sub_cancel_left, hobs]
  have hw : c < a.weights.length := by rw [h.weights]; exact hc
  have hp : c < a.probs.length := by rw [h.probs]; exact hc
  simp only [List.getElem?_eq_getElem hw, List.getElem?_eq_getElem hp]
  have hins : ∀ c : Call K, foldRes (fun g c => CM.ins (exec mergeW g c)) g [c] = CM.ins (exec mergeW g c) := by
    intro c
    simp only [foldRes]
    cases CM.ins (exec mergeW g c) <;> rfl
  generalize hcol : cols[c] = col at *
  match col with
  | [] => simp [columnCall, foldRes]
  | [i] =>
    have e0 := h4 0 (by simp)
    simp only [Nat.add_zero, List.getElem?_cons_zero] at e0
    simp only [columnCall, List.length_singleton, e0]
    rw [if_neg (by omega), if_pos trivial, if_neg (show ¬ 2 < 1 by omega), hins]
    cases a.virtualBoundary <;> rfl
  | [i, j] =>
    have e0 := h4 0 (by simp)
    have e1 := h4 1 (by simp)
    simp only [Nat.add_zero, List.getElem?_cons_zero, List.getElem?_cons_succ] at e0 e1
    simp only [columnCall, List.length_cons, List.length_nil, Nat.zero_add, e0, e1]
    rw [if_pos trivial, if_neg (by omega), hins]
    rfl
  | i :: j :: k :: l =>
    simp only [List.length_cons]
    rw [if_neg (by omega), if_neg (by omega), if_pos (by omega), if_pos (by omega)]

theorem spaceLoop_eq (mergeW : K → K → K) {a : Args K} {cols fcols : List (List Nat)} (h : Fits a cols fcols)
    (h2 : ∀ c ∈ cols, c.length ≤ 2) (g : UGraph K) :
    foldRes (fun g rep => foldRes (colStep mergeW a rep) g (List.range a.H.numCols)) g (List.range a.reps) =
      foldRes (fun g c => CM.ins (exec mergeW g c)) g
        (spaceCalls a.H.numRows a.reps a.virtualBoundary a.strategy (columnsOf a cols fcols)) := by
  unfold spaceCalls
  rw [foldRes_flatMap]
  apply foldRes_congr
  intro rep _ g
  rw [foldRes_flatMap, h.H.2.2.2.1, ← columnsOf_length h]
  apply foldRes_range
  intro i hi g
  have hi' : i < cols.length := by rw [← columnsOf_length h]; exact hi
  rw [colStep_eq mergeW h rep i hi' hi, if_neg]
  have := h2 cols[i] (List.getElem_mem hi')
  omega

theorem timeLoop_eq (mergeW : K → K → K) (a : Args K) (tw mp : List K) (ht : tw.length = a.H.numRows)
    (hm : mp.length = a.H.numRows) (g : UGraph K) :
    foldRes (fun g rep => foldRes (timeStep mergeW a tw mp rep) g (List.range a.H.numRows)) g (List.range (a.reps - 1)) =
      foldRes (fun g c => CM.ins (exec mergeW g c)) g (timeCalls a.H.numRows a.reps a.strategy (tw.zip mp)) := by
  unfold timeCalls
  rw [foldRes_flatMap]
  apply foldRes_congr
  intro rep _ g
  have hl : a.H.numRows = ((tw.zip mp).zipIdx.map fun x : (K × K) × Nat =>
      (Call.add (x.2 + rep * a.H.numRows) (some (x.2 + (rep + 1) * a.H.numRows)) [] x.1.1 x.1.2 a.strategy : Call K)).length := by
    simp [ht, hm]
  conv => lhs; rw [hl]
  apply foldRes_range
  intro i hi g
  simp only [List.length_map, List.length_zipIdx, List.length_zip, ht, hm, Nat.min_self] at hi
  have h1 : i < tw.length := by omega
  have h2 : i < mp.length := by omega
  simp only [timeStep, at?, List.getElem?_eq_getElem h1, List.getElem?_eq_getElem h2, Res.bind]
  simp [exec]

theorem represents_check {m : Csc} {cols : List (List Nat)} (h : Represents m cols) : m.check = true := by
  obtain ⟨h1, h2, h3, h4, -⟩ := h
  simp [Csc.check, h1, h2, h3, h4]

theorem run_append (mergeW : K → K → K) (g : UGraph K) (a b : List (Call K)) :
    run mergeW g (a ++ b) = run mergeW (run mergeW g a) b := by
  simp [run]

theorem accepted_append (mergeW : K → K → K) (g : UGraph K) (a b : List (Call K)) :
    accepted mergeW g (a ++ b) ↔ accepted mergeW g a ∧ accepted mergeW (run mergeW g a) b := by
  induction a generalizing g with
  | nil => simp [accepted, run]
  | cons c a ih =>
    simp only [List.cons_append, accepted, ih, and_assoc]
    rfl

open Classical in
/-- The number of nodes after a history of insertions that mention nodes up to `n` only. -/
theorem run_nodes (mergeW : K → K → K) (n : Nat) (cs : List (Call K)) (g : UGraph K)
    (hcs : ∀ c ∈ cs, ∃ u t obs w p s, c = Call.add u t obs w p s ∧ top u t ≤ n)
    (hg : g.nodes.length = n ∨ g.nodes.length = n + 1) :
    (run mergeW g cs).nodes.length =
      if g.nodes.length = n + 1 ∨ (∃ u t obs w p s, Call.add u t obs w p s ∈ cs ∧ top u t = n) then n + 1 else n := by
  induction cs generalizing g with
  | nil =>
    simp only [run, List.foldl_nil, List.not_mem_nil, false_and, exists_false, or_false]
    split <;> omega
  | cons c cs ih =>
    obtain ⟨u, t, obs, w, p, s, rfl, ht⟩ := hcs c List.mem_cons_self
    have hl := exec_add_nodes mergeW g u t obs w p s
    have := ih (exec mergeW g (.add u t obs w p s)).1 (fun c hc => hcs c (List.mem_cons_of_mem _ hc)) (by rw [hl]; omega)
    have hrun : run mergeW g (Call.add u t obs w p s :: cs) = run mergeW (exec mergeW g (.add u t obs w p s)).1 cs := rfl
    rw [hrun, this]
    refine if_congr ?_ rfl rfl
    rw [hl]
    constructor
    · rintro (h | ⟨u', t', obs', w', p', s', hm, h⟩)
      · by_cases h1 : g.nodes.length = n + 1
        · exact .inl h1
        · exact .inr ⟨u, t, obs, w, p, s, List.mem_cons_self, by omega⟩
      · exact .inr ⟨u', t', obs', w', p', s', List.mem_cons_of_mem _ hm, h⟩
    · rintro (h | ⟨u', t', obs', w', p', s', hm, h⟩)
      · left; omega
      · rcases List.mem_cons.1 hm with h1 | h1
        · left; cases h1; omega
        · exact .inr ⟨u', t', obs', w', p', s', h1, h⟩

omit [Field K] [LinearOrder K] in
theorem space_shape {rows reps : Nat} {virt : Bool} {s : Strategy} {columns : List (Column K)}
    (hcol : ∀ x ∈ columns, ∀ r ∈ x.1, r < rows) {c : Call K} (hc : c ∈ spaceCalls rows reps virt s columns) :
    ∃ u t obs w p, c = Call.add u t obs w p s ∧ top u t ≤ rows * reps ∧
      (top u t = rows * reps → virt = false ∧ 0 < reps ∧ ∃ x ∈ columns, x.1.length = 1) := by
  unfold spaceCalls at hc
  obtain ⟨rep, hrep, hc⟩ := List.mem_flatMap.1 hc
  obtain ⟨x, hx, hc⟩ := List.mem_flatMap.1 hc
  have hrep : rep < reps := by simpa using hrep
  have hb : ∀ i, i < rows → i + rows * rep < rows * reps := by
    intro i hi
    have : rows * (rep + 1) ≤ rows * reps := Nat.mul_le_mul_left _ hrep
    rw [Nat.mul_succ] at this
    omega
  obtain ⟨col, obs, w, p⟩ := x
  have hr := hcol _ hx
  match col, hc, hr, hx with
  | [], hc, _, _ => simp [columnCall] at hc
  | [i], hc, hr, hx =>
    have := hb i (hr i (by simp))
    simp only [columnCall, List.mem_singleton] at hc
    refine ⟨_, _, _, _, _, hc, ?_, ?_⟩
    · cases virt <;> simp [top] <;> omega
    · intro h
      cases virt with
      | false => exact ⟨rfl, by omega, _, hx, rfl⟩
      | true => simp [top] at h; omega
  | [i, j], hc, hr, hx =>
    have h1 := hb i (hr i (by simp))
    have h2 := hb j (hr j (by simp))
    simp only [columnCall, List.mem_singleton] at hc
    refine ⟨_, _, _, _, _, hc, ?_, ?_⟩
    · simp [top]; omega
    · intro h; simp [top] at h; omega
  | _ :: _ :: _ :: _, hc, _, _ => simp [columnCall] at hc

omit [Field K] [LinearOrder K] in
theorem time_shape {rows reps : Nat} {s : Strategy} {d : List (K × K)} (hd : d.length = rows ∨ reps ≤ 1) {c : Call K}
    (hc : c ∈ timeCalls rows reps s d) : ∃ u t w p, c = Call.add u t [] w p s ∧ top u t < rows * reps := by
  unfold timeCalls at hc
  obtain ⟨rep, hrep, hc⟩ := List.mem_flatMap.1 hc
  have hrep : rep < reps - 1 := by simpa using hrep
  obtain ⟨x, hx, rfl⟩ := List.mem_map.1 hc
  have hx2 : x.2 < rows := by
    have := List.mem_zipIdx hx
    simp at this
    omega
  refine ⟨_, _, _, _, rfl, ?_⟩
  have h1 : (rep + 2) * rows ≤ reps * rows := Nat.mul_le_mul_right _ (by omega)
  rw [Nat.add_mul] at h1
  simp only [top]
  rw [Nat.mul_comm rows reps, Nat.add_mul]
  omega

/-- The history of the space-like and time-like insertions yields the expected number of nodes. -/
theorem space_time_nodes (mergeW : K → K → K) (rows reps F : Nat) (virt : Bool) (s : Strategy) (columns : List (Column K))
    (hcol : ∀ x ∈ columns, ∀ r ∈ x.1, r < rows) (d : List (K × K)) (hd : d.length = rows ∨ reps ≤ 1) :
    (run mergeW (UGraph.new (rows * reps) F) (spaceCalls rows reps virt s columns ++ timeCalls rows reps s d)).nodes.length =
      if virt = false ∧ 0 < reps ∧ ∃ x ∈ columns, x.1.length = 1 then rows * reps + 1 else rows * reps := by
  classical
  refine (run_nodes mergeW (rows * reps) _ _ ?_ ?_).trans ?_
  rotate_left 2
  · refine if_congr ?_ rfl rfl
    constructor
    · rintro (h | ⟨u, t, obs, w, p, s', hm, h⟩)
      · simp [UGraph.new] at h
      · rcases List.mem_append.1 hm with h1 | h1
        · obtain ⟨u', t', obs', w', p', he, -, h2⟩ := space_shape hcol h1
          cases he
          exact h2 h
        · obtain ⟨u', t', w', p', he, h2⟩ := time_shape hd h1
          cases he
          omega
    · rintro ⟨rfl, hr, x, hx, h1⟩
      right
      obtain ⟨col, obs, w, p⟩ := x
      obtain ⟨i, rfl⟩ := List.length_eq_one_iff.1 h1
      refine ⟨i, some (rows * reps), obs, w, p, s, List.mem_append_left _ ?_, ?_⟩
      · refine List.mem_flatMap.2 ⟨0, by simpa using hr, List.mem_flatMap.2 ⟨_, hx, ?_⟩⟩
        simp [columnCall]
      · have := hcol _ hx i (by simp)
        have h3 : rows * 1 ≤ rows * reps := Nat.mul_le_mul_left _ hr
        simp only [top]
        omega
  · intro c hc
    rcases List.mem_append.1 hc with h1 | h1
    · obtain ⟨u, t, obs, w, p, he, h2, -⟩ := space_shape hcol h1
      exact ⟨u, t, obs, w, p, s, he, h2⟩
    · obtain ⟨u, t, w, p, he, h2⟩ := time_shape hd h1
      exact ⟨u, t, [], w, p, s, he, by omega⟩
  · simp [UGraph.new]

/-- The weights and probabilities of the time-like edges, if they are needed. -/
def TimeData (a : Args K) (d : List (K × K)) : Prop :=
  a.reps ≤ 1 ∨ ∃ tw mp, a.timelike = some tw ∧ a.measProbs = some mp ∧ tw.length = a.H.numRows ∧ mp.length = a.H.numRows ∧
    d = tw.zip mp

/-- The history of calls a check matrix stands for. -/
def meaning (a : Args K) (cols fcols : List (List Nat)) (d : List (K × K)) : List (Call K) :=
  spaceCalls a.H.numRows a.reps a.virtualBoundary a.strategy (columnsOf a cols fcols) ++
    timeCalls a.H.numRows a.reps a.strategy d ++ boundaryCalls a.H.numRows a.reps a.virtualBoundary cols

omit [Field K] [LinearOrder K] in
theorem columnsOf_fst {a : Args K} {cols fcols : List (List Nat)} (h : Fits a cols fcols) :
    (columnsOf a cols fcols).map Prod.fst = cols := by
  unfold columnsOf
  rw [List.map_fst_zip]
  simp [h.same, h.weights, h.probs]

omit [Field K] [LinearOrder K] in
theorem columnsOf_rows {a : Args K} {cols fcols : List (List Nat)} (h : Fits a cols fcols) :
    ∀ x ∈ columnsOf a cols fcols, ∀ r ∈ x.1, r < a.H.numRows := by
  intro x hx
  apply h.H.2.2.2.2
  rw [← columnsOf_fst h]
  exact List.mem_map_of_mem hx

omit [Field K] [LinearOrder K] in
theorem exists_single {a : Args K} {cols fcols : List (List Nat)} (h : Fits a cols fcols) :
    (∃ x ∈ columnsOf a cols fcols, x.1.length = 1) ↔ ∃ c ∈ cols, c.length = 1 := by
  conv => rhs; rw [← columnsOf_fst h]
  simp

theorem exec_add_boundary (mergeW : K → K → K) (g : UGraph K) (u : Nat) (t : Option Nat) (obs : List Nat) (w p : K) (s : Strategy) :
    (exec mergeW g (.add u t obs w p s)).1.boundary = g.boundary := by
  have hmerge : ∀ (g : UGraph K) ei obs w p s, (g.mergeEdge mergeW ei obs w p s).1.boundary = g.boundary := by
    intro g ei obs w p s
    unfold UGraph.mergeEdge
    split
    · rfl
    · split <;> rfl
  cases t with
  | none =>
    simp only [exec, UGraph.addBoundaryEdge]
    split
    · rfl
    · split
      · rfl
      · rw [hmerge]
  | some v =>
    simp only [exec, UGraph.addEdge]
    split
    · rfl
    · split
      · rfl
      · rw [hmerge]

theorem run_adds_boundary (mergeW : K → K → K) (cs : List (Call K)) (g : UGraph K)
    (hcs : ∀ c ∈ cs, ∃ u t obs w p s, c = Call.add u t obs w p s) : (run mergeW g cs).boundary = g.boundary := by
  induction cs generalizing g with
  | nil => rfl
  | cons c cs ih =>
    obtain ⟨u, t, obs, w, p, s, rfl⟩ := hcs c List.mem_cons_self
    have hrun : run mergeW g (Call.add u t obs w p s :: cs) = run mergeW (exec mergeW g (.add u t obs w p s)).1 cs := rfl
    rw [hrun, ih _ (fun c hc => hcs c (List.mem_cons_of_mem _ hc)), exec_add_boundary]

/-! ## C23 -/

/-- C23.  Loading a check matrix all of whose columns have at most two ones is exactly the history of calls it stands
for: an edge per column with two ones and a boundary edge per column with one (in every repetition), with the
column's fault ids, weight and probability; a time-like edge per row between consecutive repetitions; and then the
boundary node.  No memory outside of the arrays is read.  If the merge strategy rejects one of the insertions the
loader throws. -/
theorem C23_load (mergeW : K → K → K) {a : Args K} {cols fcols : List (List Nat)} (h : Fits a cols fcols)
    (h2 : ∀ c ∈ cols, c.length ≤ 2) {d : List (K × K)} (hd : TimeData a d) :
    loadCheckMatrix mergeW a =
      if accepted mergeW (UGraph.new (a.H.numRows * a.reps) a.F.numRows) (meaning a cols fcols d) then
        .ok (run mergeW (UGraph.new (a.H.numRows * a.reps) a.F.numRows) (meaning a cols fcols d))
      else .raise := by
  have hd' : d.length = a.H.numRows ∨ a.reps ≤ 1 := by
    rcases hd with h | ⟨tw, mp, -, -, h1, h2, rfl⟩
    · exact .inr h
    · left; simp [h1, h2]
  have htime : ∀ g, timePart mergeW a g =
      foldRes (fun g c => CM.ins (exec mergeW g c)) g (timeCalls a.H.numRows a.reps a.strategy d) := by
    intro g
    unfold timePart
    by_cases hr : a.reps > 1
    · rw [if_pos hr]
      rcases hd with h | ⟨tw, mp, e1, e2, h1, h2, rfl⟩
      · omega
      · simp only [e1, e2]
        rw [if_neg (by simpa using h1), if_neg (by simpa using h2)]
        exact timeLoop_eq mergeW a tw mp h1 h2 g
    · rw [if_neg hr]
      have : a.reps - 1 = 0 := by omega
      simp [timeCalls, this, foldRes]
  have hc1 := represents_check h.H
  have hc2 := represents_check h.F
  have hw : ¬ (a.weights.length ≠ a.H.numCols) := by rw [h.weights, h.H.2.2.2.1]; simp
  have hp : ¬ (a.probs.length ≠ a.H.numCols) := by rw [h.probs, h.H.2.2.2.1]; simp
  have hn : ¬ (a.H.numCols ≠ a.F.numCols) := by rw [h.H.2.2.2.1, h.F.2.2.2.1, h.same]; simp
  unfold loadCheckMatrix
  rw [hc1, hc2]
  rw [if_neg (by simp), if_neg (by simp), if_neg hw, if_neg hp, if_neg hn, spaceLoop_eq mergeW h h2]
  simp only [htime]
  rw [foldRes_exec]
  set g0 : UGraph K := UGraph.new (a.H.numRows * a.reps) a.F.numRows
  set S := spaceCalls a.H.numRows a.reps a.virtualBoundary a.strategy (columnsOf a cols fcols)
  set T := timeCalls a.H.numRows a.reps a.strategy d
  have hB : ∀ g, accepted mergeW g (boundaryCalls a.H.numRows a.reps a.virtualBoundary cols) := by
    intro g
    unfold boundaryCalls
    split <;> simp [accepted, exec]
  have hacc : accepted mergeW g0 (meaning a cols fcols d) ↔ accepted mergeW g0 S ∧ accepted mergeW (run mergeW g0 S) T := by
    unfold meaning
    rw [accepted_append, accepted_append]
    exact ⟨fun h => h.1, fun h => ⟨h, hB _⟩⟩
  by_cases hS : accepted mergeW g0 S
  · rw [if_pos hS]
    simp only [Res.bind]
    rw [foldRes_exec]
    by_cases hT : accepted mergeW (run mergeW g0 S) T
    · rw [if_pos hT, if_pos (hacc.2 ⟨hS, hT⟩)]
      simp only
      have hnodes := space_time_nodes mergeW a.H.numRows a.reps a.F.numRows a.virtualBoundary a.strategy
        (columnsOf a cols fcols) (columnsOf_rows h) d hd'
      simp only [exists_single h] at hnodes
      have hmean : run mergeW g0 (meaning a cols fcols d) =
          run mergeW (run mergeW (run mergeW g0 S) T) (boundaryCalls a.H.numRows a.reps a.virtualBoundary cols) := by
        unfold meaning
        rw [run_append, run_append]
      rw [hmean]
      rw [run_append] at hnodes
      change (run mergeW (run mergeW g0 S) T).nodes.length = _ at hnodes
      rw [hnodes]
      unfold boundaryCalls
      by_cases hb : a.virtualBoundary = false ∧ 0 < a.reps ∧ ∃ c ∈ cols, c.length = 1
      · rw [if_pos hb, if_pos hb, if_pos (by simp [hb.1])]
        rfl
      · rw [if_neg hb, if_neg hb, if_neg (by simp)]
        rfl
    · rw [if_neg hT, if_neg (fun h => hT (hacc.1 h).2)]
  · rw [if_neg hS, if_neg (fun h => hS (hacc.1 h).1)]
    rfl

/-- C23 (rejection).  A check matrix one of whose columns has more than two ones is rejected (unless nothing is
loaded at all because of zero repetitions). -/
theorem C23_more_than_two_rejected (mergeW : K → K → K) {a : Args K} {cols fcols : List (List Nat)} (h : Fits a cols fcols)
    (h2 : ∃ c ∈ cols, 2 < c.length) (hr : 0 < a.reps) : loadCheckMatrix mergeW a = .raise := by
  have hc1 := represents_check h.H
  have hc2 := represents_check h.F
  have hw : ¬ (a.weights.length ≠ a.H.numCols) := by rw [h.weights, h.H.2.2.2.1]; simp
  have hp : ¬ (a.probs.length ≠ a.H.numCols) := by rw [h.probs, h.H.2.2.2.1]; simp
  have hn : ¬ (a.H.numCols ≠ a.F.numCols) := by rw [h.H.2.2.2.1, h.F.2.2.2.1, h.same]; simp
  unfold loadCheckMatrix
  rw [hc1, hc2]
  rw [if_neg (by simp), if_neg (by simp), if_neg hw, if_neg hp, if_neg hn]
  have hin : ∀ rep g, foldRes (colStep mergeW a rep) g (List.range a.H.numCols) = .raise := by
    intro rep g
    obtain ⟨c, hc, hl⟩ := h2
    obtain ⟨i, hi, rfl⟩ := List.getElem_of_mem hc
    refine foldRes_raise _ _ i ?_ ?_ ?_ g
    · rw [h.H.2.2.2.1]; simpa using hi
    · intro g
      rw [colStep_eq mergeW h rep i hi (by rw [columnsOf_length h]; exact hi), if_pos hl]
    · intro j hj g
      have hj : j < cols.length := by rw [h.H.2.2.2.1] at hj; simpa using hj
      rw [colStep_eq mergeW h rep j hj (by rw [columnsOf_length h]; exact hj)]
      split
      · simp
      · rw [foldRes_exec]
        split <;> simp
  have hout : ∀ g, foldRes (fun g rep => foldRes (colStep mergeW a rep) g (List.range a.H.numCols)) g (List.range a.reps) =
      .raise := by
    intro g
    refine foldRes_raise _ _ 0 (by simpa using hr) (hin 0) ?_ g
    intro y _ b
    rw [hin]
    simp
  rw [hout]
  rfl

/-- C23 (sizes).  Arrays whose lengths do not fit the matrix are rejected, as are missing or wrongly sized time-like
data when there is more than one repetition. -/
theorem C23_sizes_rejected (mergeW : K → K → K) {a : Args K} {cols fcols : List (List Nat)} (hH : Represents a.H cols)
    (hF : Represents a.F fcols) :
    (a.weights.length ≠ cols.length ∨ a.probs.length ≠ cols.length ∨ fcols.length ≠ cols.length →
      loadCheckMatrix mergeW a = .raise) ∧
    ((¬ ∃ d, TimeData a d) → loadCheckMatrix mergeW a = .raise) := by
  have hbad : a.weights.length ≠ cols.length ∨ a.probs.length ≠ cols.length ∨ fcols.length ≠ cols.length →
      loadCheckMatrix mergeW a = .raise := by
    intro hb
    unfold loadCheckMatrix
    rw [represents_check hH, represents_check hF, hH.2.2.2.1, hF.2.2.2.1]
    rw [if_neg (by simp), if_neg (by simp)]
    by_cases h1 : a.weights.length ≠ cols.length
    · rw [if_pos h1]
    · by_cases h2 : a.probs.length ≠ cols.length
      · rw [if_neg h1, if_pos h2]
      · rw [if_neg h1, if_neg h2, if_pos (by omega)]
  refine ⟨hbad, ?_⟩
  intro ht
  by_cases hb : a.weights.length ≠ cols.length ∨ a.probs.length ≠ cols.length ∨ fcols.length ≠ cols.length
  · exact hbad hb
  · push Not at hb
    have h : Fits a cols fcols := ⟨hH, hF, hb.2.2, hb.1, hb.2.1⟩
    have hr : a.reps > 1 := by
      by_contra hr
      exact ht ⟨[], .inl (by omega)⟩
    by_cases h2 : ∃ c ∈ cols, 2 < c.length
    · exact C23_more_than_two_rejected mergeW h h2 (by omega)
    · push Not at h2
      have htime : ∀ g, timePart mergeW a g = .raise := by
        intro g
        unfold timePart
        rw [if_pos hr]
        split
        · rename_i tw mp e1 e2
          split
          · rfl
          · rename_i h1
            split
            · rfl
            · rename_i h3
              exact absurd ⟨tw.zip mp, .inr ⟨tw, mp, e1, e2, by simpa using h1, by simpa using h3, rfl⟩⟩ ht
        · rfl
      unfold loadCheckMatrix
      rw [represents_check hH, represents_check hF, hH.2.2.2.1, hF.2.2.2.1]
      rw [if_neg (by simp), if_neg (by simp), if_neg (by simp [hb.1]), if_neg (by simp [hb.2.1]), if_neg (by simp [hb.2.2])]
      have hsp := spaceLoop_eq mergeW h h2
      rw [hH.2.2.2.1] at hsp
      simp only [hsp, htime]
      rw [foldRes_exec]
      split <;> rfl

/-- C23 (malformed matrices).  A matrix with a number of column pointers other than the number of columns plus one, with
different numbers of indices and entries, or with a stored entry other than 1 is rejected. -/
theorem C23_malformed_rejected (mergeW : K → K → K) (a : Args K) (m : Csc) (hm : m = a.H ∨ m = a.F)
    (hbad : m.indptr.length ≠ m.numCols + 1 ∨ m.data.length ≠ m.indices.length ∨ ∃ x ∈ m.data, x ≠ 1) :
    loadCheckMatrix mergeW a = .raise := by
  have hc : m.check = false := by
    unfold Csc.check
    rw [Bool.and_eq_false_iff, Bool.and_eq_false_iff]
    rcases hbad with h | h | ⟨x, hx, h⟩
    · exact .inl (.inl (by simpa using h))
    · exact .inl (.inr (by simpa using h))
    · exact .inr (by rw [List.all_eq_false]; exact ⟨x, hx, by simpa using h⟩)
  unfold loadCheckMatrix
  rcases hm with rfl | rfl
  · rw [hc]; rfl
  · rw [hc]
    by_cases h : (!a.H.check) = true
    · rw [if_pos h]
    · rw [if_neg h]; rfl

/-- C23 (shape).  The loaded graph has one node per row and repetition, plus the boundary node (numbered last) if the
boundary is not virtual and some column has a single one; so the number of detectors is always the number of rows
times the number of repetitions. -/
theorem C23_shape (mergeW : K → K → K) {a : Args K} {cols fcols : List (List Nat)} (h : Fits a cols fcols)
    (h2 : ∀ c ∈ cols, c.length ≤ 2) {d : List (K × K)} (hd : TimeData a d) {g : UGraph K}
    (hg : loadCheckMatrix mergeW a = .ok g) :
    g.numDetectors = a.H.numRows * a.reps ∧
    g.boundary = (if a.virtualBoundary = false ∧ 0 < a.reps ∧ ∃ c ∈ cols, c.length = 1 then {a.H.numRows * a.reps} else ∅) ∧
    ∀ i, g.isBoundaryNode (some i) = if i < a.H.numRows * a.reps then some false
      else if i = a.H.numRows * a.reps ∧ g.boundary ≠ ∅ then some true else none := by
  have hd' : d.length = a.H.numRows ∨ a.reps ≤ 1 := by
    rcases hd with h | ⟨tw, mp, -, -, h1, h2, rfl⟩
    · exact .inr h
    · left; simp [h1, h2]
  rw [C23_load mergeW h h2 hd] at hg
  split at hg
  swap
  · cases hg
  · cases hg
    have hcounts := Convert.C35_counts mergeW (a.H.numRows * a.reps) a.F.numRows (meaning a cols fcols d)
    have hnodes := space_time_nodes mergeW a.H.numRows a.reps a.F.numRows a.virtualBoundary a.strategy
        (columnsOf a cols fcols) (columnsOf_rows h) d hd'
    simp only [exists_single h] at hnodes
    have hbnd := run_adds_boundary mergeW (spaceCalls a.H.numRows a.reps a.virtualBoundary a.strategy (columnsOf a cols fcols) ++
      timeCalls a.H.numRows a.reps a.strategy d) (UGraph.new (a.H.numRows * a.reps) a.F.numRows) (by
        intro c hc
        rcases List.mem_append.1 hc with h1 | h1
        · obtain ⟨u, t, obs, w, p, he, -⟩ := space_shape (columnsOf_rows h) h1
          exact ⟨u, t, obs, w, p, _, he⟩
        · obtain ⟨u, t, w, p, he, -⟩ := time_shape hd' h1
          exact ⟨u, t, _, w, p, _, he⟩)
    have hrun : run mergeW (UGraph.new (a.H.numRows * a.reps) a.F.numRows) (meaning a cols fcols d) =
      run mergeW (run mergeW (UGraph.new (a.H.numRows * a.reps) a.F.numRows)
        (spaceCalls a.H.numRows a.reps a.virtualBoundary a.strategy (columnsOf a cols fcols) ++
          timeCalls a.H.numRows a.reps a.strategy d)) (boundaryCalls a.H.numRows a.reps a.virtualBoundary cols) := by
      unfold meaning
      rw [run_append]
    set g := run mergeW (UGraph.new (a.H.numRows * a.reps) a.F.numRows) (meaning a cols fcols d) with hgdef
    set g1 := run mergeW (UGraph.new (a.H.numRows * a.reps) a.F.numRows)
        (spaceCalls a.H.numRows a.reps a.virtualBoundary a.strategy (columnsOf a cols fcols) ++
          timeCalls a.H.numRows a.reps a.strategy d)
    have key : g.boundary = (if a.virtualBoundary = false ∧ 0 < a.reps ∧ ∃ c ∈ cols, c.length = 1 then {a.H.numRows * a.reps} else ∅) ∧
        g.nodes.length = (if a.virtualBoundary = false ∧ 0 < a.reps ∧ ∃ c ∈ cols, c.length = 1 then a.H.numRows * a.reps + 1
          else a.H.numRows * a.reps) := by
      rw [hrun]
      unfold boundaryCalls
      by_cases hb : a.virtualBoundary = false ∧ 0 < a.reps ∧ ∃ c ∈ cols, c.length = 1
      · rw [if_pos hb] at hnodes
        rw [if_pos hb, if_pos hb, if_pos hb]
        refine ⟨by simp [run, exec, UGraph.setBoundary], ?_⟩
        simp [run, exec, UGraph.setBoundary, markBoundary, grow, hnodes]
      · rw [if_neg hb] at hnodes
        rw [if_neg hb, if_neg hb, if_neg hb]
        exact ⟨hbnd, hnodes⟩
    obtain ⟨hc1, hc2⟩ := hcounts
    refine ⟨?_, key.1, ?_⟩
    · by_cases hb : a.virtualBoundary = false ∧ 0 < a.reps ∧ ∃ c ∈ cols, c.length = 1
      · rw [if_pos hb, if_pos hb] at key
        have hcard : g.boundary.card = 1 := by rw [key.1]; simp
        omega
      · rw [if_neg hb, if_neg hb] at key
        have hcard : g.boundary.card = 0 := by rw [key.1]; simp
        omega
    · intro i
      by_cases hi : i < g.nodes.length
      · rw [hc2 i hi]
        by_cases hb : a.virtualBoundary = false ∧ 0 < a.reps ∧ ∃ c ∈ cols, c.length = 1
        · rw [if_pos hb, if_pos hb] at key
          rw [key.1]
          by_cases hin : i < a.H.numRows * a.reps
          · rw [if_pos hin]; simp; omega
          · have : i = a.H.numRows * a.reps := by omega
            rw [if_neg hin, if_pos ⟨this, by simp⟩]; simp [this]
        · rw [if_neg hb, if_neg hb] at key
          rw [key.1, if_pos (by omega)]
          simp
      · have : g.isBoundaryNode (some i) = none := by simp [UGraph.isBoundaryNode, List.getElem?_eq_none (Nat.not_lt.1 hi)]
        rw [this]
        by_cases hb : a.virtualBoundary = false ∧ 0 < a.reps ∧ ∃ c ∈ cols, c.length = 1
        · rw [if_pos hb, if_pos hb] at key
          rw [if_neg (by omega), if_neg (by omega)]
        · rw [if_neg hb, if_neg hb] at key
          rw [if_neg (by omega), if_neg (fun h => h.2 key.1)]

/-- A matrix that meets the hypotheses: columns `{0,1}`, `{1}`, `{}`, `{0}`; two repetitions; loading succeeds, and the
boundary node is node 4. -/
def exArgs (virt : Bool) (s : Strategy) : Args ℚ where
  H := { numRows := 2, numCols := 4, data := [1, 1, 1, 1], indices := [0, 1, 1, 0], indptr := [0, 2, 3, 3, 4] }
  F := { numRows := 3, numCols := 4, data := [1, 1, 1], indices := [2, 0, 1], indptr := [0, 1, 1, 1, 3] }
  weights := [1, 2, 3, 4]
  probs := [1/10, 1/10, 1/5, 1/4]
  strategy := s
  virtualBoundary := virt
  reps := 2
  timelike := some [5, 6]
  measProbs := some [1/8, 1/8]

def exCols : List (List Nat) := [[0, 1], [1], [], [0]]
def exFaults : List (List Nat) := [[2], [], [], [0, 1]]

example (virt : Bool) (s : Strategy) : Fits (exArgs virt s) exCols exFaults :=
  ⟨by refine ⟨rfl, rfl, rfl, rfl, ?_⟩; show ∀ c ∈ exCols, ∀ r ∈ c, r < 2; decide, by refine ⟨rfl, rfl, rfl, rfl, ?_⟩; show ∀ c ∈ exFaults, ∀ r ∈ c, r < 3; decide, rfl, rfl, rfl⟩
example (virt : Bool) (s : Strategy) : TimeData (exArgs virt s) [(5, 1/8), (6, 1/8)] :=
  .inr ⟨_, _, rfl, rfl, rfl, rfl, rfl⟩
example : accepted (fun a _ => a) (UGraph.new 4 3) (meaning (exArgs false .disallow) exCols exFaults [(5, 1/8), (6, 1/8)]) := by
  decide +kernel
example : (match loadCheckMatrix (fun a _ => a) (exArgs false .disallow) with
    | .ok g => g.hasEdge 2 (some 3) && g.hasEdge 3 (some 4) && g.hasEdge 2 (some 4) && g.hasEdge 0 (some 2) &&
        !g.hasEdge 0 (some 3) && g.boundary = {4}
    | _ => false) = true := by decide +kernel

/-- A malformed matrix: an entry 2. -/
example : loadCheckMatrix (fun a _ => a) { exArgs false .disallow with H := { (exArgs false .disallow).H with data := [1, 2, 1, 1] } } = .raise :=
  C23_malformed_rejected _ _ _ (.inl rfl) (.inr (.inr ⟨2, by decide, by decide⟩))

end Verif.Props.CheckMatrix
