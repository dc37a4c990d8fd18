import Verif.Blossom.LookAt

/-!
# Closed forms of the loops that move nodes to another top region
-/

namespace Verif.SB

open Verif Verif.Graph Verif.CE Verif.Vary Verif.Track Verif.Spec Verif.Mem
open Verif.Sch (Res better)

variable {g : MGraph} {T L : Finset Nat} {ch : Nat → List Nat} {t : Int} {s : FS}

theorem foldlM_cons_ok {α β : Type} {f : α → β → Res α} {a a' : α} {b : β} (l : List β) (h : f a b = .ok a') :
    (b :: l).foldlM f a = l.foldlM f a' := by
  rw [List.foldlM_cons]
  show (f a b).bind _ = _
  rw [h]
  rfl

theorem foldlM_append_ok {α β : Type} {f : α → β → Res α} {a a' : α} {l : List β} (l' : List β) (h : l.foldlM f a = .ok a') :
    (l ++ l').foldlM f a = l'.foldlM f a' := by
  induction l generalizing a with
  | nil =>
    have : Res.ok a = Res.ok a' := h
    cases this
    rfl
  | cons b l ih =>
    rw [List.foldlM_cons] at h
    change (f a b).bind _ = _ at h
    cases hf : f a b with
    | ok a1 =>
      rw [hf] at h
      rw [List.cons_append, foldlM_cons_ok _ hf]
      exact ih h
    | throws => rw [hf] at h; cases h
    | ub => rw [hf] at h; cases h

/-- Following `blossom_parent` from `r` to `top` passes the regions in the list. -/
inductive Up (s : FS) (top : Option Nat) : Nat → List Nat → Prop where
  | here {r : Nat} (h : some r = top) : Up s top r []
  | step {r p : Nat} {l : List Nat} (h : some r ≠ top) (hp : (s.reg r).parent = some p) (hu : Up s top p l) : Up s top r (r :: l)

theorem sumBelow_up {top : Option Nat} {r : Nat} {l : List Nat} (h : Up s top r l) : ∀ {f : Nat}, l.length < f →
    sumBelow s top f r = .ok ((l.map fun d => (s.reg d).radius.yIntercept).sum) := by
  induction h with
  | here h =>
    intro f hf
    cases f with
    | zero => omega
    | succ f => simp [sumBelow, h]
  | @step r p l h hp hu ih =>
    intro f hf
    cases f with
    | zero => omega
    | succ f =>
      have := ih (f := f) (by simpa using hf)
      simp only [sumBelow, if_neg h, hp, deref, Res.bind, this, List.map_cons, List.sum_cons]

/-- `compute_wrapped_radius` of node `n` if its top region is `B`. -/
def wrapVal (s : FS) (B n : Nat) : Res Int :=
  match (s.node n).src with
  | none => .ok 0
  | some _ => (deref (s.node n).arr).bind fun r =>
      (sumBelow s (some B) (s.depth + 1) r).bind fun x => .ok (x - (s.node n).rho)

theorem sumBelow_congr {s s' : FS} (hp : ∀ r, (s'.reg r).parent = (s.reg r).parent) (hr : ∀ r, (s'.reg r).radius = (s.reg r).radius)
    (top : Option Nat) : ∀ f r, sumBelow s' top f r = sumBelow s top f r := by
  intro f
  induction f with
  | zero => intro r; rfl
  | succ f ih =>
    intro r
    simp only [sumBelow, hp, hr]
    split
    · rfl
    · cases (s.reg r).parent with
      | none => rfl
      | some p => simp only [deref, Res.bind, ih]

theorem wrapVal_congr {s s' : FS} (hn : ∀ n, (s'.node n).src = (s.node n).src ∧ (s'.node n).arr = (s.node n).arr ∧ (s'.node n).rho = (s.node n).rho)
    (hp : ∀ r, (s'.reg r).parent = (s.reg r).parent) (hr : ∀ r, (s'.reg r).radius = (s.reg r).radius) (hregs : s'.regs = s.regs)
    (B n : Nat) : wrapVal s' B n = wrapVal s B n := by
  unfold wrapVal FS.depth
  rw [(hn n).1, (hn n).2.1, (hn n).2.2, hregs]
  have := sumBelow_congr hp hr (some B)
  simp only [this]

/-- State after moving the nodes `ns` to the top region `B`. -/
def retopN (B : Nat) (ns : List Nat) (x : Nat → Int) (s : FS) : FS :=
  { s with node := fun n => if n ∈ ns then { s.node n with top := some B, wrapped := x n } else s.node n }

theorem retopNodes (B : Nat) (x : Nat → Int) (ns : List Nat) : ∀ {s : FS}, (∀ n ∈ ns, wrapVal s B n = .ok (x n)) →
    ns.foldlM (retopNode B) s = .ok (retopN B ns x s) := by
  induction ns with
  | nil =>
    intro s _
    show Res.ok s = _
    simp [retopN]
  | cons n ns ih =>
    intro s h
    have h1 : retopNode B s n = .ok (retopN B [n] x s) := by
      have := h n (by simp)
      unfold retopNode computeWrapped
      simp only [setNode_self]
      have hsum : ∀ top f r, sumBelow (s.setNode n fun N => { N with top := some B }) top f r = sumBelow s top f r :=
        fun top f r => sumBelow_congr (s := s) (s' := s.setNode n fun N => { N with top := some B }) (fun _ => rfl) (fun _ => rfl) top f r
      simp only [hsum]
      unfold wrapVal at this
      have hd : (s.setNode n fun N => { N with top := some B }).depth = s.depth := rfl
      rw [hd]
      suffices H : ∀ z, z = Res.ok (x n) → z.bind (fun x => Res.ok ((s.setNode n fun N => { N with top := some B }).setNode n fun N =>
          { N with wrapped := x })) = .ok (retopN B [n] x s) by
        apply H
        rw [← this]
        cases (s.node n).src <;> rfl
      rintro z rfl
      simp only [Res.bind]
      congr 1
      unfold retopN FS.setNode
      congr 1
      funext m
      by_cases hm : m = n
      · subst hm; simp
      · simp [hm]
    rw [foldlM_cons_ok _ h1, ih]
    · congr 1
      unfold retopN
      congr 1
      funext m
      by_cases hm : m = n
      · subst hm; simp
      · simp [hm]
    · intro m hm
      rw [wrapVal_congr (s := s)]
      · exact h m (by simp [hm])
      · intro k
        by_cases hk : k = n <;> simp [retopN, hk]
      · intro r; rfl
      · intro r; rfl
      · rfl

/-- State after moving the regions `ds` to the top region `B`. -/
def retopR (B : Nat) (ds : List Nat) (x : Nat → Int) (s : FS) : FS :=
  { s with
    node := fun n => if n ∈ ds.flatMap (fun d => (s.reg d).shell) then { s.node n with top := some B, wrapped := x n } else s.node n
    reg := fun d => if d ∈ ds then { s.reg d with top := B } else s.reg d }

theorem retopRegions (B : Nat) (x : Nat → Int) (ds : List Nat) : ∀ {s : FS},
    (∀ d ∈ ds, ∀ n ∈ (s.reg d).shell, wrapVal s B n = .ok (x n)) → ds.foldlM (retopRegion B) s = .ok (retopR B ds x s) := by
  induction ds with
  | nil =>
    intro s _
    show Res.ok s = _
    simp [retopR]
  | cons d ds ih =>
    intro s h
    have h1 : retopRegion B s d = .ok (retopR B [d] x s) := by
      unfold retopRegion
      simp only [setReg_self]
      rw [retopNodes B x]
      · congr 1
        unfold retopN retopR FS.setReg
        congr 1
        · funext n; simp
        · funext c
          by_cases hc : c = d
          · subst hc; simp
          · simp [hc]
      · intro n hn
        rw [wrapVal_congr (s := s)]
        · exact h d (by simp) n hn
        · intro k; exact ⟨rfl, rfl, rfl⟩
        · exact setReg_proj (·.parent) s d _ rfl
        · exact setReg_proj (·.radius) s d _ rfl
        · rfl
    have hproj : ∀ {α : Type} (p : Region → α), (∀ R B, p { R with top := B } = p R) → ∀ c, p ((retopR B [d] x s).reg c) = p (s.reg c) := by
      intro α p hp c
      simp only [retopR]
      split
      · exact hp _ _
      · rfl
    have hshell : ∀ c, ((retopR B [d] x s).reg c).shell = (s.reg c).shell := hproj (·.shell) fun _ _ => rfl
    rw [foldlM_cons_ok _ h1, ih]
    · congr 1
      have hs2 : (fun c => ((retopR B [d] x s).reg c).shell) = fun c => (s.reg c).shell := funext hshell
      unfold retopR at hs2 ⊢
      simp only at hs2 ⊢
      rw [hs2]
      congr 1
      · funext n
        by_cases h1 : n ∈ (s.reg d).shell
        · by_cases h2 : ∃ c ∈ ds, n ∈ (s.reg c).shell <;> simp [h1, h2]
        · by_cases h2 : ∃ c ∈ ds, n ∈ (s.reg c).shell <;> simp [h1, h2]
      · funext c
        by_cases hc : c = d
        · subst hc; by_cases h2 : c ∈ ds <;> simp [h2]
        · by_cases h2 : c ∈ ds <;> simp [hc, h2]
    · intro c hc n hn
      rw [hshell] at hn
      rw [wrapVal_congr (s := s)]
      · exact h c (by simp [hc]) n hn
      · intro k
        simp only [retopR]
        split <;> exact ⟨rfl, rfl, rfl⟩
      · exact hproj (·.parent) fun _ _ => rfl
      · exact hproj (·.radius) fun _ _ => rfl
      · rfl

/-! ## A new region -/

theorem allocRegion_spec (hA : AInv L s.regs) (hw : WInv s.w) :
    ∃ ar w' r, allocRegion s = ({ s with reg := Function.update s.reg r (.fresh r), regs := ar, w := w' }, r) ∧ r ∉ L ∧
      AInv (insert r L) ar ∧ s.regs.allocated.length ≤ ar.allocated.length ∧ WInv w' ∧ w'.q.cur = s.w.q.cur ∧
      (absW w').want = Function.update (absW s.w).want (.inr r) none := by
  have hm : s.regs.allocated.length ∉ s.regs.allocated := fun h => by have := hA.names _ h; omega
  obtain ⟨i1, i2⟩ := inv_alloc hA.inv hm
  have hnames : (∀ x ∈ (s.regs.alloc s.regs.allocated.length).1.allocated,
      x < (s.regs.alloc s.regs.allocated.length).1.allocated.length) ∧
      s.regs.allocated.length ≤ (s.regs.alloc s.regs.allocated.length).1.allocated.length := by
    rcases List.eq_nil_or_concat s.regs.available with h | ⟨l, x, h⟩
    · rw [alloc_nil h]
      refine ⟨?_, by simp⟩
      intro x hx
      simp only [List.mem_append, List.mem_singleton, List.length_append, List.length_singleton] at hx ⊢
      rcases hx with hx | hx
      · have := hA.names x hx; omega
      · omega
    · rw [List.concat_eq_append] at h
      rw [alloc_cons h]
      exact ⟨hA.names, le_refl _⟩
  cases hal : s.regs.alloc s.regs.allocated.length with
  | mk ar r =>
    rw [hal] at i1 i2 hnames
    obtain ⟨w', a, b, c, d⟩ := clearTracker_spec s hw (.inr r)
    have hL : r ∉ L := i2
    refine ⟨ar, w', r, ?_, hL, ⟨?_, hnames.1⟩, hnames.2, b, c, d⟩
    · unfold allocRegion
      rw [hal]
      simp only
      have hw' : ({ s.w with tr := Function.update s.w.tr (.inr r) {} } : World Owner) = w' := congrArg FS.w a
      rw [← hw']
      rfl
    · rw [Finset.insert_val_of_notMem hL]
      exact i1

end Verif.SB
