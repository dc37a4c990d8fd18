import Verif.Blossom.Round

/-!
# The 32-bit wrapped radius, I: storing it with 32 bits

Truncating the cached values of all nodes commutes with everything that does not read them.  So if the values after a step fit in 32 bits, the step with
32-bit values is the step with unbounded values.
-/

namespace Verif.SB

open Verif Verif.Graph Verif.CE Verif.Vary Verif.Track Verif.Spec Verif.Mem
open Verif.Sch (Res better)

/-- The value can be stored in an `int32_t`. -/
def Fits32 (x : Int) : Prop := -2 ^ 31 ≤ x ∧ x < 2 ^ 31

/-- All cached values can be stored in an `int32_t`. -/
def FitsAll (s : FS) : Prop := ∀ n, Fits32 (s.node n).wrapped

theorem keep_of_fits {x : Int} (h : Fits32 x) : int32.keep x = x := by
  obtain ⟨h1, h2⟩ := h
  show x.bmod (2 ^ 32) = x
  exact Int.bmod_eq_of_le (by norm_num; omega) (by norm_num; omega)

/-- `total` of `compute_wrapped_radius` may as well be converted to 32 bits after every addition. -/
theorem int32_total (x y : Int) : int32.keep (int32.keep x + y) = int32.keep (x + y) := Int.bmod_add_bmod

/-- All cached values converted to 32 bits. -/
def trunc (s : FS) : FS := { s with node := fun n => { s.node n with wrapped := int32.keep (s.node n).wrapped } }

theorem trunc_of_fits {s : FS} (h : FitsAll s) : trunc s = s := by
  unfold trunc
  congr 1
  funext n
  rw [keep_of_fits (h n)]

/-- The result truncated. -/
def truncRes (x : Res FS) : Res FS := x.bind fun s => .ok (trunc s)

theorem trunc_setReg (s : FS) (r : Nat) (f : Region → Region) : (trunc s).setReg r f = trunc (s.setReg r f) := rfl

theorem sumBelow_trunc (s : FS) (top : Option Nat) : ∀ f r, sumBelow (trunc s) top f r = sumBelow s top f r := by
  intro f
  induction f with
  | zero => intro r; rfl
  | succ f ih =>
    intro r
    simp only [sumBelow, ih]
    rfl

theorem computeWrapped_trunc (s : FS) (n : Nat) :
    computeWrapped (W := int32) (trunc s) n = (computeWrapped s n).bind fun x => .ok (int32.keep x) := by
  unfold computeWrapped
  cases h : (s.node n).src with
  | none =>
    have : ((trunc s).node n).src = none := h
    rw [this]
    rfl
  | some a =>
    have : ((trunc s).node n).src = some a := h
    rw [this]
    have e1 : ((trunc s).node n).arr = (s.node n).arr := rfl
    have e2 : ((trunc s).node n).top = (s.node n).top := rfl
    have e3 : ((trunc s).node n).rho = (s.node n).rho := rfl
    have e4 : (trunc s).depth = s.depth := rfl
    simp only [e1, e2, e3, e4, sumBelow_trunc]
    cases deref (s.node n).arr with
    | ok r =>
      simp only [Res.bind]
      cases sumBelow s (s.node n).top (s.depth + 1) r <;> rfl
    | throws => rfl
    | ub => rfl

/-- A change of a node that keeps its cached value. -/
theorem trunc_setNode (s : FS) (n : Nat) (f : DNode → DNode) (hf : ∀ N x, f { N with wrapped := x } = { f N with wrapped := x })
    (hw : ∀ N, (f N).wrapped = N.wrapped) : (trunc s).setNode n f = trunc (s.setNode n f) := by
  unfold trunc FS.setNode
  congr 1
  funext m
  by_cases h : m = n
  · subst h
    simp only [Function.update_self]
    rw [hf, hw]
  · simp only [Function.update_of_ne h]

/-- Storing a value. -/
theorem trunc_store (s : FS) (n : Nat) (x : Int) :
    (trunc s).setNode n (fun N => { N with wrapped := int32.keep x }) = trunc (s.setNode n fun N => { N with wrapped := x }) := by
  unfold trunc FS.setNode
  congr 1
  funext m
  by_cases h : m = n
  · subst h
    simp only [Function.update_self]
  · simp only [Function.update_of_ne h]

theorem retopNode_trunc (B : Nat) (s : FS) (n : Nat) : retopNode (W := int32) B (trunc s) n = truncRes (retopNode B s n) := by
  unfold retopNode
  simp only [trunc_setNode s n (fun N => { N with top := some B }) (fun _ _ => rfl) (fun _ => rfl), computeWrapped_trunc]
  cases computeWrapped (s.setNode n fun N => { N with top := some B }) n with
  | ok x => simp only [Res.bind, truncRes, trunc_store]
  | throws => rfl
  | ub => rfl

/-- Truncation commutes with loops. -/
theorem foldlM_trunc {α : Type} {f f' : FS → α → Res FS} (h : ∀ s x, f' (trunc s) x = truncRes (f s x)) :
    ∀ (l : List α) (s : FS), l.foldlM f' (trunc s) = truncRes (l.foldlM f s) := by
  intro l
  induction l with
  | nil => intro s; rfl
  | cons x l ih =>
    intro s
    simp only [List.foldlM_cons, h]
    cases f s x with
    | ok s1 => exact ih s1
    | throws => rfl
    | ub => rfl

theorem retopRegion_trunc (B : Nat) (s : FS) (d : Nat) : retopRegion (W := int32) B (trunc s) d = truncRes (retopRegion B s d) := by
  unfold retopRegion
  simp only [trunc_setReg]
  exact foldlM_trunc (retopNode_trunc B) _ _

theorem wrapInto_trunc (s : FS) (r B : Nat) : wrapInto (W := int32) (trunc s) r B = truncRes (wrapInto s r B) := by
  unfold wrapInto
  simp only [trunc_setReg]
  exact foldlM_trunc (retopRegion_trunc B) _ _

theorem clearParent_trunc (s : FS) (r : Nat) : clearParent (W := int32) (trunc s) r = truncRes (clearParent s r) := by
  unfold clearParent
  simp only [trunc_setReg]
  exact foldlM_trunc (retopRegion_trunc r) _ _

theorem absorb_trunc (B : Nat) (s : FS) (c : Nat) : absorb (W := int32) B (trunc s) c = truncRes (absorb B s c) := by
  have e : (trunc s).now = s.now := rfl
  unfold absorb
  simp only [trunc_setReg, wrapInto_trunc, e]
  cases wrapInto (s.setReg c fun R => { R with radius := R.radius.thenFrozenAt s.now }) c B <;> rfl

/-! ## What does not change the nodes -/

theorem wish_node (s : FS) (o : Owner) (t : Int) : (s.wish o t).node = s.node := rfl
theorem noWish_node (s : FS) (o : Owner) : (s.noWish o).node = s.node := rfl

variable {g : MGraph}

theorem reschedule_node {s s' : FS} {u : Nat} (h : reschedule g s u = .ok s') : s'.node = s.node := by
  unfold reschedule at h
  cases hf : findNext g s u with
  | ok o =>
    rw [hf] at h
    cases o with
    | none => cases h; rfl
    | some p => cases h; rfl
  | throws => rw [hf] at h; cases h
  | ub => rw [hf] at h; cases h

theorem rescheduleAll_node : ∀ (ns : List Nat) {s s' : FS}, rescheduleAll g s ns = .ok s' → s'.node = s.node := by
  intro ns
  induction ns with
  | nil => intro s s' h; cases h; rfl
  | cons u ns ih =>
    intro s s' h
    unfold rescheduleAll at h
    rw [List.foldlM_cons] at h
    cases hr : reschedule g s u with
    | ok s1 =>
      rw [hr] at h
      exact (ih h).trans (reschedule_node hr)
    | throws => rw [hr] at h; cases h
    | ub => rw [hr] at h; cases h

theorem setGrowing_node {s s' : FS} {r : Nat} (h : setGrowing g s r = .ok s') : s'.node = s.node := by
  have := rescheduleAll_node _ h
  exact this

theorem foldl_noWish_node (ns : List Nat) : ∀ s : FS, (ns.foldl (fun s n => s.noWish (.inl n)) s).node = s.node := by
  induction ns with
  | nil => intro s; rfl
  | cons u ns ih => intro s; exact ih _

theorem setShrinking_node (s : FS) (r : Nat) : (setShrinking s r).node = s.node := foldl_noWish_node _ _

theorem onFl_node {s s' : MS} {f : FS → Res FS} (hf : ∀ fl fl', f fl = .ok fl' → fl'.node = fl.node) (h : s.onFl f = .ok s') :
    s'.fl.node = s.fl.node := by
  unfold MS.onFl at h
  cases hr : f s.fl with
  | ok fl => rw [hr] at h; cases h; exact hf _ _ hr
  | throws => rw [hr] at h; cases h
  | ub => rw [hr] at h; cases h

theorem startInnerOuter_node {s s' : MS} {i o : Nat} (h : startInnerOuter g s i o = .ok s') : s'.fl.node = s.fl.node :=
  onFl_node (fun _ _ h => (setGrowing_node h).trans (setShrinking_node _ _)) h

theorem addChild_fl (s : MS) (a c : Nat) (e : CompressedEdge) : (addChild s a c e).fl = s.fl := rfl
theorem makeChild_fl (s : MS) (p i o : Nat) (e c : CompressedEdge) : (makeChild s p i o e c).1.fl = s.fl := rfl

theorem insertEven_node (cyc : List (Nat × CompressedEdge)) : ∀ (n : Nat) {s : MS} {i cur : Nat} {ce : CompressedEdge} {x},
    insertEven g cyc n s i cur ce = .ok x → x.1.fl.node = s.fl.node := by
  intro n
  induction n with
  | zero => intro s i cur ce x h; cases h; rfl
  | succ n ih =>
    intro s i cur ce x h
    rw [insertEven] at h
    cases h1 : deref cyc[i % cyc.length]? with
    | ok p1 =>
      cases h2 : deref cyc[(i + 1) % cyc.length]? with
      | ok p2 =>
        rw [h1, h2] at h
        simp only [Res.bind] at h
        split at h
        · rename_i s1 hs
          have := startInnerOuter_node hs
          exact (ih h).trans this
        · cases h
        · cases h
      | throws => rw [h1, h2] at h; cases h
      | ub => rw [h1, h2] at h; cases h
    | throws => rw [h1] at h; cases h
    | ub => rw [h1] at h; cases h

theorem insertOdd_node (cyc : List (Nat × CompressedEdge)) (p : Nat) : ∀ (n : Nat) {s : MS} {i cur : Nat} {ce : CompressedEdge} {x},
    insertOdd g cyc p n s i cur ce = .ok x → x.1.fl.node = s.fl.node := by
  intro n
  induction n with
  | zero => intro s i cur ce x h; cases h; rfl
  | succ n ih =>
    intro s i cur ce x h
    rw [insertOdd] at h
    cases h1 : deref cyc[(p + cyc.length - i) % cyc.length]? with
    | ok p1 =>
      cases h2 : deref cyc[(p + cyc.length - i - 1) % cyc.length]? with
      | ok p2 =>
        cases h3 : deref cyc[(p + cyc.length - i - 2) % cyc.length]? with
        | ok p3 =>
          rw [h1, h2, h3] at h
          simp only [Res.bind] at h
          split at h
          · rename_i s1 hs
            have := startInnerOuter_node hs
            exact (ih h).trans this
          · cases h
          · cases h
        | throws => rw [h1, h2, h3] at h; cases h
        | ub => rw [h1, h2, h3] at h; cases h
      | throws => rw [h1, h2] at h; cases h
      | ub => rw [h1, h2] at h; cases h
    | throws => rw [h1] at h; cases h
    | ub => rw [h1] at h; cases h

theorem bind_ok {α β : Type} {x : Res α} {f : α → Res β} {b : β} (h : x.bind f = .ok b) : ∃ a, x = .ok a ∧ f a = .ok b := by
  cases x with
  | ok a => exact ⟨a, rfl, h⟩
  | throws => cases h
  | ub => cases h

theorem matchEvens_node (cyc : List (Nat × CompressedEdge)) : ∀ (n : Nat) {s s' : MS} {j : Nat}, matchEvens g cyc n s j = .ok s' → s'.fl.node = s.fl.node := by
  intro n
  induction n with
  | zero => intro s s' j h; cases h; rfl
  | succ n ih =>
    intro s s' j h
    rw [matchEvens] at h
    obtain ⟨p1, -, h⟩ := bind_ok h
    obtain ⟨p2, -, h⟩ := bind_ok h
    obtain ⟨s1, h1, h⟩ := bind_ok h
    obtain ⟨s2, h2, h⟩ := bind_ok h
    have k1 := onFl_node (fun _ _ h => rescheduleAll_node _ h) h1
    have k2 := onFl_node (fun _ _ h => rescheduleAll_node _ h) h2
    exact (ih h).trans (k2.trans k1)

/-! ## Steps -/

theorem arrive_int32 {s s' : FS} {r e frm i : Nat} (hs : FitsAll s) (h : arrive g s r e frm i = .ok s') (hs' : FitsAll s') :
    arrive (W := int32) g s r e frm i = .ok s' := by
  unfold arrive at h ⊢
  obtain ⟨nb, h1, h⟩ := bind_ok h
  obtain ⟨x, h2, h⟩ := bind_ok h
  rw [h1]
  simp only [Res.bind]
  have hn := reschedule_node h
  have ht := trunc_of_fits hs
  generalize hq : (s.setNode e fun N => { N with obs := (s.node frm).obs ^^^ nb.obs, src := (s.node frm).src, rho := (s.reg r).radius.distanceAt s.now, arr := some r, top := some (s.reg r).top }) = q at h2 h hn ⊢
  have hqt : trunc q = q := by
    refine trunc_of_fits fun n => ?_
    rw [← hq]
    by_cases hne : n = e
    · subst hne; simpa [FS.setNode] using hs n
    · simpa [FS.setNode, Function.update_of_ne hne] using hs n
  have hk : Fits32 x := by
    have := hs' e
    rw [hn] at this
    simpa [FS.setNode, FS.setReg] using this
  have hc := computeWrapped_trunc q e
  rw [hqt, h2] at hc
  rw [hc]
  simp only [Res.bind, keep_of_fits hk]
  exact h

theorem interact_int32 {s : FS} {u i v : Nat} {p : FS × MEvent} (hs : FitsAll s) (h : interact g s u i v = .ok p) (hs' : FitsAll p.1) :
    interact (W := int32) g s u i v = .ok p := by
  unfold interact at h ⊢
  cases h1 : (s.node u).arr with
  | none =>
    cases h2 : (s.node v).arr with
    | none => rw [h1, h2] at h; exact h
    | some b =>
      rw [h1, h2] at h
      simp only at h ⊢
      obtain ⟨r, e1, h⟩ := bind_ok h
      obtain ⟨j, e2, h⟩ := bind_ok h
      obtain ⟨s1, e3, h⟩ := bind_ok h
      cases h
      rw [e1, e2]
      simp only [Res.bind]
      rw [arrive_int32 hs e3 hs']
  | some a =>
    cases h2 : (s.node v).arr with
    | none =>
      rw [h1, h2] at h
      simp only at h ⊢
      obtain ⟨r, e1, h⟩ := bind_ok h
      obtain ⟨s1, e3, h⟩ := bind_ok h
      cases h
      rw [e1]
      simp only [Res.bind]
      rw [arrive_int32 hs e3 hs']
    | some b => rw [h1, h2] at h; exact h

theorem lookAt_int32 {s : FS} {u : Nat} {p : FS × MEvent} (hs : FitsAll s) (h : lookAt g s u = .ok p) (hs' : FitsAll p.1) :
    lookAt (W := int32) g s u = .ok p := by
  unfold lookAt at h ⊢
  obtain ⟨o, h1, h⟩ := bind_ok h
  rw [h1]
  simp only [Res.bind]
  cases o with
  | none => exact h
  | some q =>
    obtain ⟨i, t⟩ := q
    simp only at h ⊢
    split
    · rename_i ht
      rw [if_pos ht] at h
      obtain ⟨nb, h2, h⟩ := bind_ok h
      rw [h2]
      simp only
      cases hv : nb.target with
      | none => rw [hv] at h; exact h
      | some v =>
        rw [hv] at h
        exact interact_int32 (s := s.wish (.inl u) s.now) hs h hs'
    · rename_i ht
      rw [if_neg ht] at h
      exact h

theorem blossomFl_int32 {s : FS} {cyc : List (Nat × CompressedEdge)} {p : FS × Nat} (hs : FitsAll s) (h : blossomFl g s cyc = .ok p) (hs' : FitsAll p.1) :
    blossomFl (W := int32) g s cyc = .ok p := by
  unfold blossomFl at h ⊢
  simp only at h ⊢
  obtain ⟨s1, h1, h⟩ := bind_ok h
  obtain ⟨s2, h2, h⟩ := bind_ok h
  cases h
  have hn := rescheduleAll_node _ h2
  have hf : FitsAll s1 := fun n => by have := hs' n; simp only [hn] at this; exact this
  have ht := trunc_of_fits hs
  have e := foldlM_trunc (f := absorb (W := unbounded) (allocRegion s).2) (f' := absorb (W := int32) (allocRegion s).2) (absorb_trunc _) (cyc.map (·.1))
    ((allocRegion s).1.setReg (allocRegion s).2 fun R => { R with radius := growingZeroAt (allocRegion s).1.now, children := cyc })
  have e1 : trunc ((allocRegion s).1.setReg (allocRegion s).2 fun R => { R with radius := growingZeroAt (allocRegion s).1.now, children := cyc }) =
      ((allocRegion s).1.setReg (allocRegion s).2 fun R => { R with radius := growingZeroAt (allocRegion s).1.now, children := cyc }) :=
    trunc_of_fits hs
  rw [e1, h1, truncRes, Res.bind, trunc_of_fits hf] at e
  rw [e]
  simp only [Res.bind, h2]

theorem createBlossom_int32 {s : MS} {cyc : List (Nat × CompressedEdge)} {p : MS × Nat} (hs : FitsAll s.fl) (h : createBlossom g s cyc = .ok p)
    (hs' : FitsAll p.1.fl) : createBlossom (W := int32) g s cyc = .ok p := by
  unfold createBlossom at h ⊢
  obtain ⟨q, h1, h⟩ := bind_ok h
  cases h
  rw [blossomFl_int32 hs h1 hs']
  rfl

theorem foldl_addChild_fl (anc : Nat) (l : List (Nat × CompressedEdge)) : ∀ s : MS, (l.foldl (fun s c => addChild s anc c.1 c.2) s).fl = s.fl := by
  induction l with
  | nil => intro s; rfl
  | cons c l ih => intro s; exact ih _

theorem prune_fl (anc : Nat) (back : Bool) : ∀ (f : Nat) {s : MS} {a : Nat} {p : Pruned} {q : MS × Pruned}, prune anc back f s a p = .ok q → q.1.fl = s.fl := by
  intro f
  induction f with
  | zero => intro s a p q h; cases h
  | succ f ih =>
    intro s a p q h
    obtain ⟨o, pa⟩ := p
    rw [prune] at h
    split at h
    · cases h; rfl
    · obtain ⟨p1, -, h⟩ := bind_ok h
      obtain ⟨p2, -, h⟩ := bind_ok h
      have := ih h
      exact this

theorem treeHitsSelf_int32 {s s' : MS} {r1 r2 anc : Nat} {e : CompressedEdge} (hs : FitsAll s.fl) (h : treeHitsSelf g s r1 r2 e anc = .ok s')
    (hs' : FitsAll s'.fl) : treeHitsSelf (W := int32) g s r1 r2 e anc = .ok s' := by
  unfold treeHitsSelf at h ⊢
  obtain ⟨a1, h1, h⟩ := bind_ok h
  obtain ⟨a2, h2, h⟩ := bind_ok h
  obtain ⟨p1, h3, h⟩ := bind_ok h
  obtain ⟨p2, h4, h⟩ := bind_ok h
  obtain ⟨p3, h5, h⟩ := bind_ok h
  rw [h1, h2]
  simp only [Res.bind]
  rw [h3]
  simp only
  rw [h4]
  simp only
  cases h
  rw [foldl_addChild_fl] at hs'
  rw [createBlossom_int32 (s := p2.1.setRalt (p2.1.alt anc).outer none) (by
    show FitsAll p2.1.fl
    rw [prune_fl _ _ _ h4, prune_fl _ _ _ h3]; exact hs) h5 hs']

theorem blossomShatters_int32 {s s' : MS} {B p c : Nat} (hs : FitsAll s.fl) (h : blossomShatters g s B p c = .ok s') (hs' : FitsAll s'.fl) :
    blossomShatters (W := int32) g s B p c = .ok s' := by
  unfold blossomShatters at h ⊢
  obtain ⟨s1, h1, h⟩ := bind_ok h
  suffices e : (s.onFl fun fl => (kidsOf fl B).foldlM (clearParent (W := int32)) fl) = .ok s1 by
    rw [e]; exact h
  have hn : s'.fl.node = s1.fl.node := by
    obtain ⟨ba, -, h⟩ := bind_ok h
    obtain ⟨pp, -, h⟩ := bind_ok h
    obtain ⟨x, hx, h⟩ := bind_ok h
    obtain ⟨s3, h3, h⟩ := bind_ok h
    obtain ⟨rc, -, h⟩ := bind_ok h
    cases h
    show (setShrinking s3.fl _).node = _
    rw [setShrinking_node, matchEvens_node _ _ h3]
    split at hx
    · obtain ⟨y, hy, hx⟩ := bind_ok hx
      cases hx
      have := insertEven_node _ _ hy
      exact this
    · obtain ⟨y, hy, hx⟩ := bind_ok hx
      cases hx
      have := insertOdd_node _ _ _ hy
      exact this
  have hf : FitsAll s1.fl := fun n => by rw [← hn]; exact hs' n
  unfold MS.onFl at h1 ⊢
  obtain ⟨fl, h2, h1⟩ := bind_ok h1
  cases h1
  have := foldlM_trunc (f := clearParent (W := unbounded)) (f' := clearParent (W := int32)) clearParent_trunc (kidsOf s.fl B) s.fl
  simp only at h2
  rw [trunc_of_fits hs, h2, truncRes, Res.bind, trunc_of_fits hf] at this
  simp only
  rw [this]
  rfl

theorem mrca_fl {s : MS} {a b : Nat} {p : MS × Option Nat} (h : mrca s a b = .ok p) : p.1.fl = s.fl := by
  have hl : ∀ (f : Nat) {s : MS} {a b : Nat} {p : MS × Option Nat}, mrcaLoop f s a b = .ok p → p.1.fl = s.fl := by
    intro f
    induction f with
    | zero => intro s a b p h; cases h
    | succ f ih =>
      intro s a b p h
      rw [mrcaLoop.eq_def] at h
      simp only at h
      have hc : ∀ (s1 : MS) (b : Nat) (pb : Option (Nat × CompressedEdge)) (a : Nat),
          (match (match pb with
            | some (p, _) => if (s1.alt p).visited then (s1, p, true) else (s1.setAlt p fun A => { A with visited := true }, p, false)
            | none => (s1, b, false) : MS × Nat × Bool) with
          | (s, b, hit) => if hit = true then Res.ok (s, some b) else mrcaLoop f s a b) = .ok p → p.1.fl = s1.fl := by
        intro s1 b pb a h
        cases pb with
        | none => exact ih h
        | some q =>
          simp only at h
          by_cases hv : (s1.alt q.1).visited = true
          · simp only [hv, if_true] at h; cases h; rfl
          · simp only [hv, if_false] at h
            have := ih h
            exact this
      have hm : ∀ (pa pb : Option (Nat × CompressedEdge)),
          (match (match pa with
            | some (p, _) => if (s.alt p).visited then (s, p, true) else (s.setAlt p fun A => { A with visited := true }, p, false)
            | none => (s, a, false) : MS × Nat × Bool) with
          | (s, a, hit) => if hit = true then Res.ok (s, some a) else
            match (match pb with
              | some (p, _) => if (s.alt p).visited then (s, p, true) else (s.setAlt p fun A => { A with visited := true }, p, false)
              | none => (s, b, false) : MS × Nat × Bool) with
            | (s, b, hit) => if hit = true then Res.ok (s, some b) else mrcaLoop f s a b) = .ok p → p.1.fl = s.fl := by
        intro pa pb h
        cases pa with
        | none => exact hc _ _ _ _ h
        | some q =>
          simp only at h
          by_cases hv : (s.alt q.1).visited = true
          · simp only [hv, if_true] at h; cases h; rfl
          · simp only [hv, if_false] at h
            have := hc _ _ _ _ h
            exact this
      split at h
      · cases h; rfl
      · exact hm _ _ h
  have hu : ∀ (f : Nat) {s s' : MS} {a : Nat}, unvisit f s a = .ok s' → s'.fl = s.fl := by
    intro f
    induction f with
    | zero => intro s s' a h; cases h
    | succ f ih =>
      intro s s' a h
      rw [unvisit] at h
      split at h
      · cases h; rfl
      · split at h
        · have := ih h
          exact this
        · cases h; rfl
  unfold mrca at h
  obtain ⟨q, h1, h⟩ := bind_ok h
  obtain ⟨q1, q2⟩ := q
  cases q2 with
  | none =>
    cases h
    have := hl _ h1
    exact this
  | some c =>
    simp only at h
    obtain ⟨s2, h2, h⟩ := bind_ok h
    cases h
    have k1 := hl _ h1
    have k2 := hu _ h2
    exact k2.trans k1

theorem regionHitsRegion_int32 {s s' : MS} {r1 r2 : Nat} {e : CompressedEdge} (hs : FitsAll s.fl) (h : regionHitsRegion g s r1 r2 e = .ok s')
    (hs' : FitsAll s'.fl) : regionHitsRegion (W := int32) g s r1 r2 e = .ok s' := by
  unfold regionHitsRegion at h ⊢
  cases h1 : s.ralt r1 with
  | none => rw [h1] at h; exact h
  | some a1 =>
    cases h2 : s.ralt r2 with
    | none => rw [h1, h2] at h; exact h
    | some a2 =>
      rw [h1, h2] at h
      simp only at h ⊢
      obtain ⟨q, h3, h⟩ := bind_ok h
      have hfl := mrca_fl h3
      obtain ⟨q1, q2⟩ := q
      rw [h3]
      simp only [Res.bind]
      cases q2 with
      | none => exact h
      | some anc => exact treeHitsSelf_int32 (by rw [hfl]; exact hs) h hs'

theorem processEvent_int32 {s s' : MS} {ev : MEvent} (hs : FitsAll s.fl) (h : processEvent g s ev = .ok s') (hs' : FitsAll s'.fl) :
    processEvent (W := int32) g s ev = .ok s' := by
  cases ev with
  | none => exact h
  | hitRegion r1 r2 e => exact regionHitsRegion_int32 hs h hs'
  | hitBoundary r e => exact h
  | shatter B p c => exact blossomShatters_int32 hs h hs'

/-- Looking at a node changes the cached values only if nothing is left for the matcher. -/
theorem lookAt_event {s : FS} {u : Nat} {p : FS × MEvent} (h : lookAt g s u = .ok p) : p.2 = .none ∨ p.1.node = s.node := by
  unfold lookAt at h
  obtain ⟨o, -, h⟩ := bind_ok h
  cases o with
  | none => cases h; exact .inl rfl
  | some q =>
    obtain ⟨i, t⟩ := q
    simp only at h
    split at h
    · obtain ⟨nb, -, h⟩ := bind_ok h
      cases hv : nb.target with
      | none =>
        rw [hv] at h
        obtain ⟨ev, -, h⟩ := bind_ok h
        cases h
        exact .inr rfl
      | some v =>
        rw [hv] at h
        simp only at h
        unfold interact at h
        split at h
        · obtain ⟨_, -, h⟩ := bind_ok h
          obtain ⟨_, -, h⟩ := bind_ok h
          cases h; exact .inl rfl
        · obtain ⟨_, -, h⟩ := bind_ok h
          obtain ⟨_, -, h⟩ := bind_ok h
          obtain ⟨_, -, h⟩ := bind_ok h
          cases h; exact .inl rfl
        · obtain ⟨_, -, h⟩ := bind_ok h
          obtain ⟨_, -, h⟩ := bind_ok h
          obtain ⟨_, -, h⟩ := bind_ok h
          cases h; exact .inr rfl
    · cases h; exact .inl rfl

theorem regionShrinking_event {s : MS} {r : Nat} {p : MS × MEvent} (h : regionShrinking g s r = .ok p) : p.2 = .none ∨ p.1 = s := by
  unfold regionShrinking at h
  split at h
  · obtain ⟨_, -, h⟩ := bind_ok h
    cases h; exact .inr rfl
  · split at h
    · obtain ⟨_, -, h⟩ := bind_ok h
      cases h; exact .inr rfl
    · obtain ⟨_, -, h⟩ := bind_ok h
      cases h; exact .inl rfl

/-- A round with 32-bit values is a round with unbounded values, if all values fit before and after. -/
theorem round_int32 {s s' : MS} (hs : FitsAll s.fl) (h : round g s = .ok (some s')) (hs' : FitsAll s'.fl) : round (W := int32) g s = .ok (some s') := by
  unfold round at h ⊢
  cases hd : s.fl.w.step .deliver with
  | none => rw [hd] at h; cases h
  | some p =>
    obtain ⟨out, w'⟩ := p
    rw [hd] at h
    cases out with
    | ring o a =>
      simp only at h ⊢
      obtain ⟨q, h1, h⟩ := bind_ok h
      obtain ⟨s2, h2, h⟩ := bind_ok h
      cases h
      cases o with
      | inl u =>
        simp only at h1 ⊢
        obtain ⟨x, h3, h1⟩ := bind_ok h1
        cases h1
        have hx : FitsAll x.1 := by
          rcases lookAt_event h3 with e | e
          · simp only [e] at h2
            cases h2
            exact hs'
          · intro n; rw [e]; exact hs n
        rw [lookAt_int32 (s := { s.fl with w := w' }) hs h3 hx]
        simp only [Res.bind]
        rw [processEvent_int32 (s := { s with fl := x.1 }) hx h2 hs']
      | inr r =>
        simp only at h1 ⊢
        rw [h1]
        simp only [Res.bind]
        have hx : FitsAll q.1.fl := by
          rcases regionShrinking_event h1 with e | e
          · rw [e] at h2
            cases h2
            exact hs'
          · rw [e]; exact hs
        rw [processEvent_int32 hx h2 hs']
    | _ => exact h

end Verif.SB
