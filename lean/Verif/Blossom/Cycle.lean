import Verif.Spec.Reopen
import Verif.Blossom.Shatter

/-!
# Walking around the cycle of a blossom
-/

namespace Verif.SB

open Verif Verif.Graph Verif.CE Verif.Mem Verif.Spec
open Verif.Sch (Res)

variable {V : View} {A : Finset Nat} {ach : Nat → List Nat}
variable {g : MGraph} {T L : Finset Nat} {ch : Nat → List Nat} {t : Int} {X Y : Nat → Prop}
variable {R : Arena} {Q : Finset Nat} {ba o : Nat} {eo : CompressedEdge} {W : List Nat} {s : MS}

/-! ## Paths as lists -/

/-- A path to be inserted: inner region, outer region, edge between them, edge to the next region. -/

def insertPath (g : MGraph) : Path → MS → Nat → CompressedEdge → Res (MS × Nat × CompressedEdge)
  | [], s, cur, ce => .ok (s, cur, ce)
  | (r1, r2, i2o, nx) :: l, s, cur, ce => (startInnerOuter g (makeChild s cur r1 r2 i2o ce).1 r1 r2).bind fun s' =>
      insertPath g l s' (makeChild s cur r1 r2 i2o ce).2 nx

/-- The path starts with edge `ce` at region `r`, and ends at `last`. -/
def PathOk (V : View) : Nat → CompressedEdge → Path → Nat → Prop
  | r, ce, [], last => V.lk ce r last
  | r, ce, (r1, r2, i2o, nx) :: l, last => V.lk ce r r1 ∧ V.lk i2o r1 r2 ∧ PathOk V r2 nx l last

def pathRegs (l : Path) : List Nat := l.flatMap fun x => [x.1, x.2.1]

theorem insertPath_spec (hg : Proper g) {last : Nat} : ∀ (l : Path) (s : MS) (cur : Nat) (ce : CompressedEdge) (A : Finset Nat) (ach : Nat → List Nat),
    Mid g T L ch t V R Q ba o eo (pathRegs l ++ W) s A ach → (pathRegs l ++ W).Nodup → cur ∈ A → cur ≠ ba → ba ∉ ach cur → PathOk V (s.alt cur).outer ce l last →
    ∃ s' cur' ce' A' ach', insertPath g l s cur ce = .ok (s', cur', ce') ∧ Mid g T L ch t V R Q ba o eo W s' A' ach' ∧ cur' ∈ A' ∧ cur' ≠ ba ∧ ba ∉ ach' cur' ∧
      V.lk ce' (s'.alt cur').outer last := by
  intro l
  induction l with
  | nil =>
    intro s cur ce A ach h _ hc hb hch hp
    exact ⟨s, cur, ce, A, ach, rfl, h, hc, hb, hch, hp⟩
  | cons x l ih =>
    obtain ⟨r1, r2, i2o, nx⟩ := x
    intro s cur ce A ach h hnd hc hb hch hp
    obtain ⟨p1, p2, p3⟩ := hp
    have hW : pathRegs ((r1, r2, i2o, nx) :: l) ++ W = r1 :: r2 :: (pathRegs l ++ W) := by simp [pathRegs]
    rw [hW] at h hnd
    obtain ⟨s1, s', c, A', ach', e1, e2, h1, k1, k2, k3, k4⟩ := h.grow hg hnd hc hb hch p1 p2
    obtain ⟨s2, cur2, ce2, A2, ach2, e3, h2⟩ := ih s' c nx A' ach' h1 (List.nodup_cons.1 (List.nodup_cons.1 hnd).2).2 k1 k2 k3 (by rw [k4]; exact p3)
    refine ⟨s2, cur2, ce2, A2, ach2, ?_, h2⟩
    show (startInnerOuter g (makeChild s cur r1 r2 i2o ce).1 r1 r2).bind _ = _
    rw [e1]
    show (startInnerOuter g s1 r1 r2).bind _ = _
    rw [e2]
    exact e3

def matchList (g : MGraph) : List (Nat × Nat × CompressedEdge) → MS → Res MS
  | [], s => .ok s
  | (r1, r2, e) :: l, s => ((addMatch s r1 r2 e).onFl fun fl => rescheduleAll g fl (area fl r1)).bind fun s =>
      (s.onFl fun fl => rescheduleAll g fl (area fl r2)).bind fun s => matchList g l s

def matchRegs (l : List (Nat × Nat × CompressedEdge)) : List Nat := l.flatMap fun x => [x.1, x.2.1]

theorem matchList_spec (hg : Proper g) : ∀ (l : List (Nat × Nat × CompressedEdge)) (s : MS),
    Mid g T L ch t V R Q ba o eo (matchRegs l ++ W) s A ach → (matchRegs l ++ W).Nodup → (∀ x ∈ l, V.lk x.2.2 x.1 x.2.1) →
    ∃ s', matchList g l s = .ok s' ∧ Mid g T L ch t V R Q ba o eo W s' A ach ∧ s'.alt = s.alt := by
  intro l
  induction l with
  | nil => intro s h _ _; exact ⟨s, rfl, h, rfl⟩
  | cons x l ih =>
    obtain ⟨r1, r2, e⟩ := x
    intro s h hnd hl
    have hW : matchRegs ((r1, r2, e) :: l) ++ W = r1 :: r2 :: (matchRegs l ++ W) := by simp [matchRegs]
    rw [hW] at h hnd
    obtain ⟨s1, s', e1, e2, h1, ha⟩ := h.pair hg hnd (hl (r1, r2, e) (by simp))
    obtain ⟨s2, e3, h2, ha2⟩ := ih s' h1 (List.nodup_cons.1 (List.nodup_cons.1 hnd).2).2 (fun x hx => hl x (List.mem_cons_of_mem _ hx))
    refine ⟨s2, ?_, h2, ha2.trans ha⟩
    show ((addMatch s r1 r2 e).onFl fun fl => rescheduleAll g fl (area fl r1)).bind _ = _
    rw [e1]
    show (s1.onFl fun fl => rescheduleAll g fl (area fl r2)).bind _ = _
    rw [e2]
    exact e3

/-! ## Cycles -/

section
variable {cyc : List (Nat × CompressedEdge)}

/-- The entry at a position of the cycle, wrapping around. -/
def around (cyc : List (Nat × CompressedEdge)) (h : 0 < cyc.length) (i : Nat) : Nat × CompressedEdge := cyc[i % cyc.length]'(Nat.mod_lt _ h)

theorem around_get (h : 0 < cyc.length) (i : Nat) : cyc[i % cyc.length]? = some (around cyc h i) := List.getElem?_eq_getElem _

theorem around_mod (h : 0 < cyc.length) {i j : Nat} (e : i % cyc.length = j % cyc.length) : around cyc h i = around cyc h j := by
  unfold around
  simp only [e]

theorem around_lt (h : 0 < cyc.length) {i : Nat} (hi : i < cyc.length) : around cyc h i = cyc[i] := by
  unfold around
  simp only [Nat.mod_eq_of_lt hi]

/-- The entries from position `p` on. -/
theorem around_range (h : 0 < cyc.length) (p : Nat) : (List.range' p cyc.length).map (around cyc h) = cyc.rotate p := by
  apply List.ext_getElem
  · simp
  · intro i h1 h2
    rw [List.getElem_map, List.getElem_range', List.getElem_rotate]
    unfold around
    congr 2
    omega

theorem Chain.get : ∀ {l : List (Nat × CompressedEdge)} {r r' : Nat}, Chain V r l r' → ∀ i (hi : i < l.length),
    V.lk l[i].2 l[i].1 (if h : i + 1 < l.length then l[i + 1].1 else r') := by
  intro l
  induction l with
  | nil => intro r r' _ i hi; simp at hi
  | cons x l ih =>
    obtain ⟨x, e⟩ := x
    rintro r r' ⟨rfl, q, h1, h2⟩ i hi
    cases i with
    | zero =>
      cases l with
      | nil =>
        have h3 : q = r' := h2
        subst h3
        simpa using h1
      | cons y l =>
        have h3 : y.1 = q := h2.1
        simp only [List.length_cons, List.getElem_cons_zero, List.getElem_cons_succ]
        rw [dif_pos (by omega), h3]; exact h1
    | succ i =>
      have := ih h2 i (by simpa using hi)
      simp only [List.getElem_cons_succ, List.length_cons, Nat.add_lt_add_iff_right]
      exact this

theorem Chain.around (h : 0 < cyc.length) {q : Nat} (hc : Chain V q cyc q) (i : Nat) : V.lk (around cyc h i).2 (around cyc h i).1 (around cyc h (i + 1)).1 := by
  have hlt := Nat.mod_lt i h
  have h1 := hc.get (i % cyc.length) hlt
  have hq : cyc[0].1 = q := by
    cases cyc with
    | nil => simp at h
    | cons x l => exact hc.1
  have h2 : (if h : i % cyc.length + 1 < cyc.length then cyc[i % cyc.length + 1].1 else q) = (SB.around cyc h (i + 1)).1 := by
    split
    · rename_i h3
      unfold SB.around
      congr 2
      rw [Nat.add_mod, Nat.mod_eq_of_lt (a := 1) (by omega), Nat.mod_eq_of_lt h3]
    · rename_i h3
      rw [← hq]
      unfold SB.around
      congr 2
      by_cases h4 : cyc.length = 1
      · rw [h4]; omega
      · rw [Nat.add_mod, Nat.mod_eq_of_lt (a := 1) (by omega), show i % cyc.length + 1 = cyc.length by omega, Nat.mod_self]
  rw [h2] at h1
  exact h1

/-- The path walked by `insertEven`. -/
def evenPath (cyc : List (Nat × CompressedEdge)) (h : 0 < cyc.length) : Nat → Nat → Path
  | 0, _ => []
  | n + 1, i => ((around cyc h i).1, (around cyc h (i + 1)).1, (around cyc h i).2, (around cyc h (i + 1)).2) :: evenPath cyc h n (i + 2)

theorem insertEven_eq (h : 0 < cyc.length) : ∀ (n : Nat) (s : MS) (i cur : Nat) (ce : CompressedEdge), insertEven g cyc n s i cur ce = insertPath g (evenPath cyc h n i) s cur ce := by
  intro n
  induction n with
  | zero => intros; rfl
  | succ n ih =>
    intro s i cur ce
    unfold insertEven
    rw [around_get h i, around_get h (i + 1)]
    simp only [deref, Res.bind, evenPath, insertPath, ih]

theorem pathRegs_even (h : 0 < cyc.length) : ∀ (n i : Nat), pathRegs (evenPath cyc h n i) = (List.range' i (2 * n)).map fun j => (around cyc h j).1 := by
  intro n
  induction n with
  | zero => intro i; rfl
  | succ n ih =>
    intro i
    have e : pathRegs (evenPath cyc h (n + 1) i) = (around cyc h i).1 :: (around cyc h (i + 1)).1 :: pathRegs (evenPath cyc h n (i + 2)) := by simp [evenPath, pathRegs]
    rw [e, ih, show 2 * (n + 1) = (2 * n + 1) + 1 by omega, List.range'_succ, List.range'_succ]
    simp

theorem pathOk_even (h : 0 < cyc.length) (hc : ∀ i, V.lk (around cyc h i).2 (around cyc h i).1 (around cyc h (i + 1)).1) : ∀ (n i r : Nat) (ce : CompressedEdge), V.lk ce r (around cyc h i).1 →
    PathOk V r ce (evenPath cyc h n i) (around cyc h (i + 2 * n)).1 := by
  intro n
  induction n with
  | zero => intro i r ce hl; exact hl
  | succ n ih =>
    intro i r ce hl
    refine ⟨hl, hc i, ?_⟩
    have := ih (i + 2) (around cyc h (i + 1)).1 (around cyc h (i + 1)).2 (hc (i + 1))
    rw [show i + 2 + 2 * n = i + 2 * (n + 1) by omega] at this
    exact this

/-- The path walked by `insertOdd`, which goes down from position `j`. -/
def oddPath (cyc : List (Nat × CompressedEdge)) (h : 0 < cyc.length) : Nat → Nat → Path
  | 0, _ => []
  | n + 1, j => ((around cyc h j).1, (around cyc h (j - 1)).1, (around cyc h (j - 1)).2.reversed, (around cyc h (j - 2)).2.reversed) :: oddPath cyc h n (j - 2)

theorem insertOdd_eq (h : 0 < cyc.length) (pidx : Nat) : ∀ (n : Nat) (s : MS) (i cur : Nat) (ce : CompressedEdge),
    insertOdd g cyc pidx n s i cur ce = insertPath g (oddPath cyc h n (pidx + cyc.length - i)) s cur ce := by
  intro n
  induction n with
  | zero => intros; rfl
  | succ n ih =>
    intro s i cur ce
    unfold insertOdd
    rw [around_get h (pidx + cyc.length - i), around_get h (pidx + cyc.length - i - 1), around_get h (pidx + cyc.length - i - 2)]
    simp only [deref, Res.bind, oddPath, insertPath, ih]
    rw [show pidx + cyc.length - (i + 2) = pidx + cyc.length - i - 2 by omega]

theorem pathRegs_odd (h : 0 < cyc.length) : ∀ (n j : Nat), 2 * n ≤ j →
    (pathRegs (oddPath cyc h n j)).Perm ((List.range' (j + 1 - 2 * n) (2 * n)).map fun j => (around cyc h j).1) := by
  intro n
  induction n with
  | zero => intro i _; exact .refl _
  | succ n ih =>
    intro j hj
    have e : pathRegs (oddPath cyc h (n + 1) j) = (around cyc h j).1 :: (around cyc h (j - 1)).1 :: pathRegs (oddPath cyc h n (j - 2)) := by simp [oddPath, pathRegs]
    have e2 : List.range' (j + 1 - 2 * (n + 1)) (2 * (n + 1)) = List.range' (j - 2 + 1 - 2 * n) (2 * n) ++ [j - 1, j] := by
      rw [show 2 * (n + 1) = 2 * n + 1 + 1 by omega, List.range'_1_concat, List.range'_1_concat, List.append_assoc]
      congr 1
      · congr 1; omega
      · simp only [List.singleton_append, List.cons.injEq, and_true]; omega
    rw [e, e2, List.map_append]
    refine List.Perm.trans ?_ List.perm_append_comm
    simp only [List.map_cons, List.map_nil, List.cons_append, List.nil_append]
    refine (List.Perm.swap _ _ _).trans (((ih (j - 2) (by omega)).cons _).cons _)

theorem pathOk_odd (hV : V.Sym) (h : 0 < cyc.length) (hc : ∀ i, V.lk (around cyc h i).2 (around cyc h i).1 (around cyc h (i + 1)).1) : ∀ (n j r : Nat) (ce : CompressedEdge), 2 * n ≤ j → V.lk ce r (around cyc h j).1 →
    PathOk V r ce (oddPath cyc h n j) (around cyc h (j - 2 * n)).1 := by
  intro n
  induction n with
  | zero => intro i r ce _ hl; exact hl
  | succ n ih =>
    intro j r ce hj hl
    have h1 := hV _ _ _ (hc (j - 1))
    have h2 := hV _ _ _ (hc (j - 2))
    rw [show j - 1 + 1 = j by omega] at h1
    rw [show j - 2 + 1 = j - 1 by omega] at h2
    refine ⟨hl, h1, ?_⟩
    have := ih (j - 2) (around cyc h (j - 1)).1 (around cyc h (j - 2)).2.reversed (by omega) h2
    rw [show j - 2 - 2 * n = j - 2 * (n + 1) by omega] at this
    exact this

/-- The pairs matched by `matchEvens`. -/
def evenPairs (cyc : List (Nat × CompressedEdge)) (h : 0 < cyc.length) : Nat → Nat → List (Nat × Nat × CompressedEdge)
  | 0, _ => []
  | n + 1, j => ((around cyc h j).1, (around cyc h (j + 1)).1, (around cyc h j).2) :: evenPairs cyc h n (j + 2)

theorem matchEvens_eq (h : 0 < cyc.length) : ∀ (n : Nat) (s : MS) (j : Nat), matchEvens g cyc n s j = matchList g (evenPairs cyc h n j) s := by
  intro n
  induction n with
  | zero => intros; rfl
  | succ n ih =>
    intro s j
    unfold matchEvens
    rw [around_get h j, around_get h (j + 1)]
    simp only [deref, Res.bind, evenPairs, matchList, ih]

theorem matchRegs_even (h : 0 < cyc.length) : ∀ (n i : Nat), matchRegs (evenPairs cyc h n i) = (List.range' i (2 * n)).map fun j => (around cyc h j).1 := by
  intro n
  induction n with
  | zero => intro i; rfl
  | succ n ih =>
    intro i
    have e : matchRegs (evenPairs cyc h (n + 1) i) = (around cyc h i).1 :: (around cyc h (i + 1)).1 :: matchRegs (evenPairs cyc h n (i + 2)) := by simp [evenPairs, matchRegs]
    rw [e, ih, show 2 * (n + 1) = (2 * n + 1) + 1 by omega, List.range'_succ, List.range'_succ]
    simp

theorem evenPairs_lk (h : 0 < cyc.length) (hc : ∀ i, V.lk (around cyc h i).2 (around cyc h i).1 (around cyc h (i + 1)).1) : ∀ (n i : Nat), ∀ x ∈ evenPairs cyc h n i, V.lk x.2.2 x.1 x.2.1 := by
  intro n
  induction n with
  | zero => intro i x hx; cases hx
  | succ n ih =>
    intro i x hx
    rcases List.mem_cons.1 hx with rfl | hx
    · exact hc i
    · exact ih _ x hx

theorem around_shift (h : 0 < cyc.length) {i j : Nat} (e : i % cyc.length = j % cyc.length) (n : Nat) :
    ((List.range' i n).map fun j => (around cyc h j).1) = (List.range' j n).map fun j => (around cyc h j).1 := by
  apply List.ext_getElem
  · simp
  · intro k h1 h2
    rw [List.getElem_map, List.getElem_map, List.getElem_range', List.getElem_range']
    congr 1
    apply around_mod
    rw [Nat.add_mod, e, ← Nat.add_mod]

/-- Going once around the cycle visits every child. -/
theorem around_perm (h : 0 < cyc.length) (p : Nat) : (cyc.map (·.1)).Perm ((List.range' p cyc.length).map fun j => (around cyc h j).1) := by
  rw [show (fun j => (around cyc h j).1) = (fun x : Nat × CompressedEdge => x.1) ∘ around cyc h from rfl, ← List.map_map, around_range]
  exact (List.rotate_perm cyc p).symm.map _

theorem around_split (h : 0 < cyc.length) (p a b c : Nat) (e : a + 1 + b = c) :
    ((List.range' p c).map fun j => (around cyc h j).1) = ((List.range' p a).map fun j => (around cyc h j).1) ++
      ((around cyc h (p + a)).1 :: (List.range' (p + a + 1) b).map fun j => (around cyc h j).1) := by
  rw [← e, ← List.range'_append_1, ← List.range'_append_1, List.map_append, List.map_append, List.append_assoc]
  simp [List.range'_one, Nat.add_assoc]

theorem gap_cases {n p c : Nat} (hp : p < n) (hc : c < n) : (c + n - p) % n < n ∧ (p + (c + n - p) % n = c ∨ p + (c + n - p) % n = c + n) := by
  refine ⟨Nat.mod_lt _ (by omega), ?_⟩
  by_cases h : p ≤ c
  · left
    rw [show c + n - p = (c - p) + n by omega, Nat.add_mod_right, Nat.mod_eq_of_lt (by omega)]
    omega
  · right
    rw [Nat.mod_eq_of_lt (by omega)]
    omega

theorem lastIdx_spec (r : Nat) : ∀ (cyc : List (Nat × CompressedEdge)), r ∈ cyc.map (·.1) → ∃ h : lastIdx cyc r < cyc.length, cyc[lastIdx cyc r].1 = r := by
  intro cyc
  induction cyc using List.reverseRecOn with
  | nil => intro h; simp at h
  | append_singleton l x ih =>
    intro hm
    have e : lastIdx (l ++ [x]) r = if x.1 = r then l.length else lastIdx l r := by
      unfold lastIdx
      rw [List.zipIdx_append, List.foldl_append]
      simp
    by_cases hx : x.1 = r
    · rw [if_pos hx] at e
      refine ⟨by rw [e]; simp, ?_⟩
      simp only [e]
      simp [hx]
    · rw [if_neg hx] at e
      obtain ⟨h1, h2⟩ := ih (by simpa [Ne.symm hx] using hm)
      refine ⟨by rw [e]; simp; omega, ?_⟩
      simp only [e]
      rw [List.getElem_append_left h1]; exact h2

end

end Verif.SB
