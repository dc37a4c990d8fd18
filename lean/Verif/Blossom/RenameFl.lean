import Verif.Blossom.Rename

/-!
# Renaming of objects: the flooder

Every function of the flooder preserves the relation between the states of two runs (see `Blossom/Rename.lean`).
-/

namespace Verif.SB

open Verif Verif.Graph Verif.CE Verif.Vary Verif.Track Verif.Spec Verif.Mem Verif.RadixHeap Verif.Cyc
open Verif.Sch (Res better)

/-- The renamed owner of a tracker. -/
def rOwner (R : Rn) : Owner → Owner := Sum.map id R.f

def rDom (R : Rn) : Owner → Prop
  | .inl _ => True
  | .inr r => r < R.k

theorem rOwner_inj (R : Rn) : ∀ a, rDom R a → ∀ b, rDom R b → rOwner R a = rOwner R b → a = b := by
  rintro (a | a) ha (b | b) hb h
  · simp only [rOwner, Sum.map_inl, id_eq, Sum.inl.injEq] at h; rw [h]
  · simp [rOwner] at h
  · simp [rOwner] at h
  · simp only [rOwner, Sum.map_inr, Sum.inr.injEq] at h
    rw [R.inj a ha b hb h]

/-- The detector node, renamed. -/
structure DSim (R : Rn) (d2 d1 : DNode) : Prop where
  eq : d1 = { d2 with arr := R.o d2.arr, top := R.o d2.top }
  arr : R.Ok d2.arr
  top : R.Ok d2.top

/-- The region, renamed. -/
structure GSim (R : Rn) (r2 r1 : Region) : Prop where
  eq : r1 = ⟨R.o r2.parent, R.f r2.top, r2.radius, R.l r2.children, r2.shell⟩
  parent : R.Ok r2.parent
  top : r2.top < R.k
  children : R.Oks r2.children

/-- The children of regions form no cycle. -/
def Acy (k : Nat) (kids : Nat → List Nat) : Prop := ∃ rk : Nat → Nat, ∀ r < k, ∀ c ∈ kids r, rk c < rk r

/-- Two states of the flooder agree up to renaming. -/
structure FSim (R : Rn) (s2 s1 : FS) : Prop where
  node : ∀ n, DSim R (s2.node n) (s1.node n)
  reg : ∀ i < R.k, GSim R (s2.reg i) (s1.reg (R.f i))
  regs : ArSim R s2.regs s1.regs
  w : WSim (rOwner R) (rDom R) s2.w s1.w
  acy : Acy R.k (kidsOf s2)

/-! ## Visits -/

theorem Acy.bounded {k : Nat} {kids : Nat → List Nat} (h : Acy k kids) (hk : ∀ r < k, ∀ c ∈ kids r, c < k) :
    ∃ rk : Nat → Nat, (∀ r < k, rk r < k) ∧ ∀ r < k, ∀ c ∈ kids r, rk c < rk r := by
  obtain ⟨rk, h⟩ := h
  refine ⟨fun r => ((Finset.range k).filter fun c => rk c < rk r).card, ?_, ?_⟩
  · intro r hr
    have : ((Finset.range k).filter fun c => rk c < rk r) ⊂ Finset.range k := by
      refine Finset.filter_ssubset.2 ⟨r, Finset.mem_range.2 hr, lt_irrefl _⟩
    simpa using Finset.card_lt_card this
  · intro r hr c hc
    refine Finset.card_lt_card ⟨?_, ?_⟩
    · intro x hx
      rw [Finset.mem_filter] at hx ⊢
      exact ⟨hx.1, hx.2.trans (h r hr c hc)⟩
    · intro hs
      have : c ∈ (Finset.range k).filter fun x => rk x < rk c :=
        hs (Finset.mem_filter.2 ⟨Finset.mem_range.2 (hk r hr c hc), h r hr c hc⟩)
      exact lt_irrefl _ (Finset.mem_filter.1 this).2

theorem desc_stable {k : Nat} {kids : Nat → List Nat} {rk : Nat → Nat} (h : ∀ r < k, ∀ c ∈ kids r, rk c < rk r) (hk : ∀ r < k, ∀ c ∈ kids r, c < k) :
    ∀ f f' r, r < k → rk r < f → rk r < f' → desc kids f r = desc kids f' r := by
  intro f
  induction f with
  | zero => intro f' r _ hf; omega
  | succ f ih =>
    intro f' r hr hf hf'
    cases f' with
    | zero => omega
    | succ f' =>
      simp only [desc, List.cons.injEq, true_and]
      refine List.flatMap_congr fun c hc => ?_
      have := h r hr c hc
      exact ih f' c (hk r hr c hc) (by omega) (by omega)

theorem desc_map {R : Rn} {kids kids' : Nat → List Nat} (h : ∀ r < R.k, kids' (R.f r) = (kids r).map R.f) (hk : ∀ r < R.k, ∀ c ∈ kids r, c < R.k) :
    ∀ f r, r < R.k → desc kids' f (R.f r) = (desc kids f r).map R.f := by
  intro f
  induction f with
  | zero => intro r _; rfl
  | succ f ih =>
    intro r hr
    simp only [desc, List.map_cons, List.cons.injEq, true_and, h r hr, List.flatMap_map, List.map_flatMap]
    exact List.flatMap_congr fun c hc => ih c (hk r hr c hc)

theorem desc_lt {k : Nat} {kids : Nat → List Nat} (hk : ∀ r < k, ∀ c ∈ kids r, c < k) : ∀ f r, r < k → ∀ x ∈ desc kids f r, x < k := by
  intro f
  induction f with
  | zero => intro r _ x hx; simp [desc] at hx
  | succ f ih =>
    intro r hr x hx
    simp only [desc, List.mem_cons, List.mem_flatMap] at hx
    rcases hx with rfl | ⟨c, hc, hx⟩
    · exact hr
    · exact ih c (hk r hr c hc) x hx

section
variable {R : Rn} {s2 s1 : FS}

theorem FSim.kids (h : FSim R s2 s1) {r : Nat} (hr : r < R.k) : kidsOf s1 (R.f r) = (kidsOf s2 r).map R.f := by
  unfold kidsOf
  rw [(h.reg r hr).eq]
  exact Rn.l_fst

theorem FSim.kids_lt (h : FSim R s2 s1) : ∀ r < R.k, ∀ c ∈ kidsOf s2 r, c < R.k := by
  intro r hr c hc
  obtain ⟨x, hx, rfl⟩ := List.mem_map.1 hc
  exact (h.reg r hr).children x hx

theorem FSim.depth (h : FSim R s2 s1) : s2.depth = R.k := h.regs.len

theorem FSim.depth_le (h : FSim R s2 s1) : s2.depth ≤ s1.depth := h.regs.le

theorem FSim.regionsIn (h : FSim R s2 s1) {r : Nat} (hr : r < R.k) : regionsIn s1 (R.f r) = (regionsIn s2 r).map R.f := by
  unfold SB.regionsIn
  rw [desc_map (fun r hr => h.kids hr) h.kids_lt _ r hr]
  obtain ⟨rk, k1, k2⟩ := h.acy.bounded h.kids_lt
  have := k1 r hr
  have := h.depth
  have := h.depth_le
  rw [desc_stable k2 h.kids_lt s1.depth s2.depth r hr (by omega) (by omega)]

theorem FSim.regionsIn_lt (h : FSim R s2 s1) {r : Nat} (hr : r < R.k) : ∀ x ∈ SB.regionsIn s2 r, x < R.k := desc_lt h.kids_lt _ r hr

theorem FSim.area (h : FSim R s2 s1) {r : Nat} (hr : r < R.k) : area s1 (R.f r) = area s2 r := by
  unfold SB.area
  rw [h.regionsIn hr, List.flatMap_map]
  refine List.flatMap_congr fun c hc => ?_
  rw [(h.reg c (h.regionsIn_lt hr c hc)).eq]

/-! ## Elementary changes -/

theorem FSim.now (h : FSim R s2 s1) : s1.now = s2.now := h.w.q.cur

theorem FSim.setNode (h : FSim R s2 s1) (n : Nat) {f2 f1 : DNode → DNode} (hf : DSim R (f2 (s2.node n)) (f1 (s1.node n))) :
    FSim R (s2.setNode n f2) (s1.setNode n f1) := by
  refine ⟨?_, h.reg, h.regs, h.w, h.acy⟩
  intro m
  simp only [FS.setNode]
  by_cases e : m = n
  · subst e; simp only [Function.update_self]; exact hf
  · simp only [Function.update_of_ne e]; exact h.node m

theorem FSim.setReg' (h : FSim R s2 s1) {i : Nat} (hi : i < R.k) {f2 f1 : Region → Region} (hf : GSim R (f2 (s2.reg i)) (f1 (s1.reg (R.f i))))
    (ha : Acy R.k (kidsOf (s2.setReg i f2))) : FSim R (s2.setReg i f2) (s1.setReg (R.f i) f1) := by
  refine ⟨h.node, ?_, h.regs, h.w, ha⟩
  intro j hj
  simp only [FS.setReg]
  by_cases e : j = i
  · subst e; simp only [Function.update_self]; exact hf
  · rw [Function.update_of_ne e, Function.update_of_ne (fun e' => e (R.inj j hj i hi e'))]; exact h.reg j hj

theorem FSim.setReg (h : FSim R s2 s1) {i : Nat} (hi : i < R.k) {f2 f1 : Region → Region} (hf : GSim R (f2 (s2.reg i)) (f1 (s1.reg (R.f i))))
    (hc : ∀ x ∈ (f2 (s2.reg i)).children, x ∈ (s2.reg i).children) : FSim R (s2.setReg i f2) (s1.setReg (R.f i) f1) := by
  refine h.setReg' hi hf ?_
  obtain ⟨rk, hk⟩ := h.acy
  refine ⟨rk, fun r hr c hcc => hk r hr c ?_⟩
  unfold kidsOf at hcc ⊢
  simp only [FS.setReg] at hcc
  by_cases e : r = i
  · subst e
    rw [Function.update_self] at hcc
    obtain ⟨x, hx, rfl⟩ := List.mem_map.1 hcc
    exact List.mem_map.2 ⟨x, hc x hx, rfl⟩
  · rwa [Function.update_of_ne e] at hcc

theorem FSim.withW (h : FSim R s2 s1) {w2 w1 : World Owner} (hw : WSim (rOwner R) (rDom R) w2 w1) : FSim R { s2 with w := w2 } { s1 with w := w1 } :=
  ⟨h.node, h.reg, h.regs, hw, h.acy⟩

theorem FSim.wish (h : FSim R s2 s1) {o : Owner} (ho : rDom R o) (t : Int) : FSim R (s2.wish o t) (s1.wish (rOwner R o) t) := by
  obtain ⟨w2, w1, e2, e1, hw⟩ := h.w.set (rOwner_inj R) ho t
  have := h.withW hw
  simpa only [FS.wish, wishO, e2, e1] using this

theorem FSim.noWish (h : FSim R s2 s1) {o : Owner} (ho : rDom R o) : FSim R (s2.noWish o) (s1.noWish (rOwner R o)) := by
  obtain ⟨w2, w1, e2, e1, hw⟩ := h.w.unset (rOwner_inj R) ho
  have := h.withW hw
  simpa only [FS.noWish, noWishO, e2, e1] using this

theorem FSim.clearTracker (h : FSim R s2 s1) {o : Owner} (ho : rDom R o) : FSim R (s2.clearTracker o) (s1.clearTracker (rOwner R o)) :=
  h.withW (h.w.upd (rOwner_inj R) ho (.refl _) h.w.q)

/-! ## Detector nodes and regions -/

theorem deref_sim {o : Option Nat} (ho : R.Ok o) : RelRes (fun a b => a < R.k ∧ b = R.f a) (deref o) (deref (R.o o)) := by
  cases o with
  | none => exact .ub
  | some a => exact .pure ⟨ho a rfl, rfl⟩

theorem derefP_sim {o : Option (Nat × CompressedEdge)} (ho : R.OkP o) : RelRes (fun a b => a.1 < R.k ∧ b = (R.f a.1, a.2)) (deref o) (deref (R.p o)) := by
  cases o with
  | none => exact .ub
  | some a => exact .pure ⟨ho a rfl, rfl⟩

theorem deref_same {α : Type} (o : Option α) : RelRes (fun a b => a = b) (deref o) (deref o) := by
  cases o with
  | none => exact .ub
  | some a => exact .pure rfl

theorem FSim.localRadius (h : FSim R s2 s1) (n : Nat) : localRadius s1 n = localRadius s2 n := by
  unfold SB.localRadius
  rw [(h.node n).eq]
  cases ht : (s2.node n).top with
  | none => rfl
  | some r =>
    simp only [Rn.o_some]
    rw [(h.reg r ((h.node n).top r ht)).eq]

theorem FSim.sumBelow (h : FSim R s2 s1) {top : Option Nat} (ht : R.Ok top) : ∀ f2 f1 r, f2 ≤ f1 → r < R.k →
    RelRes (fun a b => a = b) (sumBelow s2 top f2 r) (sumBelow s1 (R.o top) f1 (R.f r)) := by
  intro f2
  induction f2 with
  | zero => intro f1 r _ _; exact .ub
  | succ f2 ih =>
    intro f1 r hf hr
    obtain ⟨f1, rfl⟩ : ∃ f, f1 = f + 1 := ⟨f1 - 1, by omega⟩
    simp only [SB.sumBelow]
    have e : some (R.f r) = R.o top ↔ some r = top := by
      rw [← Rn.o_some, Rn.o_inj (Rn.Ok.some hr) ht]
    simp only [e]
    split
    · exact .pure rfl
    · have hg := h.reg r hr
      rw [hg.eq]
      refine (deref_sim hg.parent).bind ?_
      rintro p _ ⟨hp, rfl⟩
      refine (ih f1 p (by omega) hp).bind ?_
      rintro x _ rfl
      exact .pure rfl

theorem FSim.computeWrapped (h : FSim R s2 s1) (n : Nat) : RelRes (fun a b => a = b) (computeWrapped s2 n) (computeWrapped s1 n) := by
  unfold SB.computeWrapped
  have hd := h.node n
  rw [hd.eq]
  cases (s2.node n).src with
  | none => exact .pure rfl
  | some _ =>
    refine (deref_sim hd.arr).bind ?_
    rintro r _ ⟨hr, rfl⟩
    refine (h.sumBelow hd.top _ _ r (by have := h.depth_le; omega) hr).bind ?_
    rintro x _ rfl
    exact .pure rfl

theorem FSim.heirFrom (h : FSim R s2 s1) {top : Option Nat} (ht : R.Ok top) : ∀ f2 f1 r, f2 ≤ f1 → r < R.k →
    RelRes (fun a b => a < R.k ∧ b = R.f a) (heirFrom s2 top f2 r) (heirFrom s1 (R.o top) f1 (R.f r)) := by
  intro f2
  induction f2 with
  | zero => intro f1 r _ _; exact .ub
  | succ f2 ih =>
    intro f1 r hf hr
    obtain ⟨f1, rfl⟩ : ∃ f, f1 = f + 1 := ⟨f1 - 1, by omega⟩
    simp only [SB.heirFrom]
    have hg := h.reg r hr
    rw [hg.eq]
    have e : R.o (s2.reg r).parent = R.o top ↔ (s2.reg r).parent = top := Rn.o_inj hg.parent ht
    simp only [e]
    split
    · exact .pure ⟨hr, rfl⟩
    · refine (deref_sim hg.parent).bind ?_
      rintro p _ ⟨hp, rfl⟩
      exact ih f1 p (by omega) hp

theorem FSim.heir (h : FSim R s2 s1) (n : Nat) : RelRes (fun a b => a < R.k ∧ b = R.f a) (heir s2 n) (heir s1 n) := by
  unfold SB.heir
  have hd := h.node n
  rw [hd.eq]
  refine (deref_sim hd.arr).bind ?_
  rintro r _ ⟨hr, rfl⟩
  exact h.heirFrom hd.top _ _ r (by have := h.depth_le; omega) hr

theorem DSim.blank : DSim R .blank .blank := ⟨rfl, Rn.Ok.none, Rn.Ok.none⟩

theorem FSim.resetNode (h : FSim R s2 s1) (n : Nat) : FSim R (resetNode s2 n) (resetNode s1 n) :=
  (h.setNode n (f2 := fun _ => .blank) (f1 := fun _ => .blank) DSim.blank).clearTracker (o := .inl n) trivial

theorem FSim.cleanupShell (h : FSim R s2 s1) {r : Nat} (hr : r < R.k) : FSim R (cleanupShell s2 r) (cleanupShell s1 (R.f r)) := by
  unfold SB.cleanupShell
  rw [(h.reg r hr).eq]
  exact foldl_rel (σ := FSim R) (fun a b c d hs e => e ▸ hs.resetNode c) forall₂_same h

theorem FSim.retopNode (h : FSim R s2 s1) {B : Nat} (hB : B < R.k) (n : Nat) : RelRes (FSim R) (retopNode B s2 n) (retopNode (R.f B) s1 n) := by
  unfold SB.retopNode
  have h1 : FSim R (s2.setNode n fun N => { N with top := some B }) (s1.setNode n fun N => { N with top := some (R.f B) }) := by
    refine h.setNode n ⟨?_, (h.node n).arr, Rn.Ok.some hB⟩
    rw [(h.node n).eq]; rfl
  refine (h1.computeWrapped n).bind ?_
  rintro x _ rfl
  refine .pure (h1.setNode n ⟨?_, (h1.node n).arr, (h1.node n).top⟩)
  rw [(h1.node n).eq]

theorem FSim.retopRegion (h : FSim R s2 s1) {B d : Nat} (hB : B < R.k) (hd : d < R.k) : RelRes (FSim R) (retopRegion B s2 d) (retopRegion (R.f B) s1 (R.f d)) := by
  unfold SB.retopRegion
  have hg := h.reg d hd
  have h1 : FSim R (s2.setReg d fun G => { G with top := B }) (s1.setReg (R.f d) fun G => { G with top := R.f B }) := by
    refine h.setReg hd ⟨?_, hg.parent, hB, hg.children⟩ (fun x hx => hx)
    rw [hg.eq]
  simp only
  rw [(h1.reg d hd).eq]
  exact RelRes.foldlM (σ := FSim R) (fun a b c d hs e => e ▸ hs.retopNode hB c) forall₂_same h1

theorem FSim.retopAll (h : FSim R s2 s1) {B : Nat} (hB : B < R.k) {l : List Nat} (hl : ∀ x ∈ l, x < R.k) :
    RelRes (FSim R) (l.foldlM (SB.retopRegion B) s2) ((l.map R.f).foldlM (SB.retopRegion (R.f B)) s1) := by
  refine RelRes.foldlM (σ := FSim R) ?_ (forall₂_map_left (D := fun x => x < R.k) hl) h
  rintro a b c _ hs ⟨hc, rfl⟩
  exact hs.retopRegion hB hc

theorem FSim.wrapInto (h : FSim R s2 s1) {r B : Nat} (hr : r < R.k) (hB : B < R.k) : RelRes (FSim R) (wrapInto s2 r B) (wrapInto s1 (R.f r) (R.f B)) := by
  unfold SB.wrapInto
  have hg := h.reg r hr
  have h1 : FSim R (s2.setReg r fun G => { G with parent := some B }) (s1.setReg (R.f r) fun G => { G with parent := some (R.f B) }) := by
    refine h.setReg hr ⟨?_, Rn.Ok.some hB, hg.top, hg.children⟩ (fun x hx => hx)
    rw [hg.eq]; rfl
  simp only
  rw [h1.regionsIn hr]
  exact h1.retopAll hB (h1.regionsIn_lt hr)

theorem FSim.clearParent (h : FSim R s2 s1) {r : Nat} (hr : r < R.k) : RelRes (FSim R) (clearParent s2 r) (clearParent s1 (R.f r)) := by
  unfold SB.clearParent
  have hg := h.reg r hr
  have h1 : FSim R (s2.setReg r fun G => { G with parent := none }) (s1.setReg (R.f r) fun G => { G with parent := none }) := by
    refine h.setReg hr ⟨?_, Rn.Ok.none, hg.top, hg.children⟩ (fun x hx => hx)
    rw [hg.eq]; rfl
  simp only
  rw [h1.regionsIn hr]
  exact h1.retopAll hr (h1.regionsIn_lt hr)

theorem FSim.clearParentFast (h : FSim R s2 s1) {r : Nat} (hr : r < R.k) : FSim R (clearParentFast s2 r) (clearParentFast s1 (R.f r)) := by
  unfold SB.clearParentFast
  have hg := h.reg r hr
  have h1 : FSim R (s2.setReg r fun G => { G with parent := none }) (s1.setReg (R.f r) fun G => { G with parent := none }) := by
    refine h.setReg hr ⟨?_, Rn.Ok.none, hg.top, hg.children⟩ (fun x hx => hx)
    rw [hg.eq]; rfl
  simp only
  rw [h1.regionsIn hr]
  refine foldl_rel (σ := FSim R) ?_ (forall₂_map_left (D := fun x => x < R.k) (h1.regionsIn_lt hr)) h1
  rintro a b c _ hs ⟨hc, rfl⟩
  have hg := hs.reg c hc
  have h2 : FSim R (a.setReg c fun G => { G with top := r }) (b.setReg (R.f c) fun G => { G with top := R.f r }) := by
    refine hs.setReg hc ⟨?_, hg.parent, hr, hg.children⟩ (fun x hx => hx)
    rw [hg.eq]
  rw [(h2.reg c hc).eq]
  refine foldl_rel (σ := FSim R) ?_ forall₂_same h2
  rintro a b n _ hs rfl
  refine hs.setNode n ⟨?_, (hs.node n).arr, Rn.Ok.some hr⟩
  rw [(hs.node n).eq]; rfl

/-! ## The flooder -/

variable {g : MGraph}

theorem FSim.scanIdle (h : FSim R s2 s1) (rad : Varying) (l : List Nbr) : ∀ i best, scanIdle s1 rad i l best = scanIdle s2 rad i l best := by
  induction l with
  | nil => intro i best; rfl
  | cons n l ih =>
    intro i best
    simp only [SB.scanIdle]
    cases n.target with
    | none => simp only [ih]
    | some v => simp only [ih, h.localRadius]

theorem FSim.top_eq (h : FSim R s2 s1) (u v : Nat) : (s1.node u).top = (s1.node v).top ↔ (s2.node u).top = (s2.node v).top := by
  rw [(h.node u).eq, (h.node v).eq]
  exact Rn.o_inj (h.node u).top (h.node v).top

theorem FSim.scanGrowing (h : FSim R s2 s1) (u : Nat) (rad : Varying) (l : List Nbr) :
    ∀ i best, scanGrowing s1 u rad i l best = scanGrowing s2 u rad i l best := by
  induction l with
  | nil => intro i best; rfl
  | cons n l ih =>
    intro i best
    simp only [SB.scanGrowing]
    cases n.target with
    | none => simp only [ih]
    | some v => simp only [ih, h.localRadius, h.top_eq]

theorem FSim.findNext (h : FSim R s2 s1) (u : Nat) : findNext g s1 u = findNext g s2 u := by
  unfold SB.findNext
  simp only [h.localRadius, h.scanGrowing, h.scanIdle]

theorem FSim.reschedule (h : FSim R s2 s1) (u : Nat) : RelRes (FSim R) (reschedule g s2 u) (reschedule g s1 u) := by
  unfold SB.reschedule
  rw [h.findNext]
  refine (RelRes.refl (x := SB.findNext g s2 u) rfl).bind ?_
  rintro a _ rfl
  cases a with
  | none => exact .pure (h.noWish (o := .inl u) trivial)
  | some p => exact .pure (h.wish (o := .inl u) trivial p.2)

theorem FSim.rescheduleAll (h : FSim R s2 s1) (l : List Nat) : RelRes (FSim R) (rescheduleAll g s2 l) (rescheduleAll g s1 l) :=
  RelRes.foldlM (σ := FSim R) (fun a b c d hs e => e ▸ hs.reschedule c) forall₂_same h

theorem FSim.createRegionAt (h : FSim R s2 s1) {r : Nat} (hr : r < R.k) (n : Nat) : RelRes (FSim R) (createRegionAt g s2 r n) (createRegionAt g s1 (R.f r) n) := by
  unfold SB.createRegionAt
  have h1 : FSim R (s2.setNode n fun N => { N with src := some n, rho := 0, arr := some r, top := some r, wrapped := 0 })
      (s1.setNode n fun N => { N with src := some n, rho := 0, arr := some (R.f r), top := some (R.f r), wrapped := 0 }) := by
    refine h.setNode n ⟨?_, Rn.Ok.some hr, Rn.Ok.some hr⟩
    rw [(h.node n).eq]; rfl
  have hg := h1.reg r hr
  refine FSim.reschedule ?_ n
  refine h1.setReg hr ⟨?_, hg.parent, hg.top, hg.children⟩ (fun x hx => hx)
  rw [hg.eq]

theorem FSim.shrinkTime (h : FSim R s2 s1) {r : Nat} (hr : r < R.k) : shrinkTime s1 (R.f r) = shrinkTime s2 r := by
  unfold SB.shrinkTime
  rw [(h.reg r hr).eq]
  simp only [h.localRadius]

theorem FSim.scheduleShrink (h : FSim R s2 s1) {r : Nat} (hr : r < R.k) : FSim R (scheduleShrink s2 r) (scheduleShrink s1 (R.f r)) := by
  unfold SB.scheduleShrink
  rw [h.shrinkTime hr]
  exact h.wish (o := .inr r) hr _

theorem FSim.arrive (h : FSim R s2 s1) {r : Nat} (hr : r < R.k) (empty frm idx : Nat) :
    RelRes (FSim R) (arrive g s2 r empty frm idx) (arrive g s1 (R.f r) empty frm idx) := by
  unfold SB.arrive
  refine (deref_same _).bind ?_
  rintro nb _ rfl
  have hg := h.reg r hr
  have h1 : FSim R
      (s2.setNode empty fun N => { N with
        obs := (s2.node frm).obs ^^^ nb.obs, src := (s2.node frm).src, rho := (s2.reg r).radius.distanceAt s2.now, arr := some r, top := some (s2.reg r).top })
      (s1.setNode empty fun N => { N with
        obs := (s1.node frm).obs ^^^ nb.obs, src := (s1.node frm).src, rho := (s1.reg (R.f r)).radius.distanceAt s1.now, arr := some (R.f r),
        top := some (s1.reg (R.f r)).top }) := by
    refine h.setNode empty ⟨?_, Rn.Ok.some hr, Rn.Ok.some hg.top⟩
    rw [(h.node empty).eq, (h.node frm).eq, hg.eq, h.now]; rfl
  refine (h1.computeWrapped empty).bind ?_
  rintro x _ rfl
  have h2 := h1.setNode empty (f2 := fun N => { N with wrapped := x }) (f1 := fun N => { N with wrapped := x })
    ⟨by rw [(h1.node empty).eq], (h1.node empty).arr, (h1.node empty).top⟩
  have hg := h2.reg r hr
  refine FSim.reschedule ?_ empty
  refine h2.setReg hr ⟨?_, hg.parent, hg.top, hg.children⟩ (fun x hx => hx)
  rw [hg.eq]

/-- The notification, renamed. -/
def evRen (R : Rn) : MEvent → MEvent
  | .none => .none
  | .hitRegion r1 r2 e => .hitRegion (R.f r1) (R.f r2) e
  | .hitBoundary r e => .hitBoundary (R.f r) e
  | .shatter b p c => .shatter (R.f b) (R.f p) (R.f c)

def evOk (R : Rn) : MEvent → Prop
  | .none => True
  | .hitRegion r1 r2 _ => r1 < R.k ∧ r2 < R.k
  | .hitBoundary r _ => r < R.k
  | .shatter b p c => b < R.k ∧ p < R.k ∧ c < R.k

theorem FSim.interact (h : FSim R s2 s1) (src idx dst : Nat) :
    RelRes (fun a b => FSim R a.1 b.1 ∧ evOk R a.2 ∧ b.2 = evRen R a.2) (interact g s2 src idx dst) (interact g s1 src idx dst) := by
  unfold SB.interact
  rw [(h.node src).eq, (h.node dst).eq]
  cases h1 : (s2.node src).arr <;> cases h2 : (s2.node dst).arr
  · simp only [Rn.o_none]
    refine (deref_sim (h.node src).top).bind ?_
    rintro r1 _ ⟨hr1, rfl⟩
    refine (deref_sim (h.node dst).top).bind ?_
    rintro r2 _ ⟨hr2, rfl⟩
    refine (deref_same _).bind ?_
    rintro nb _ rfl
    exact .pure ⟨h, ⟨hr1, hr2⟩, rfl⟩
  · simp only [Rn.o_none, Rn.o_some]
    refine (deref_sim (h.node dst).top).bind ?_
    rintro r _ ⟨hr, rfl⟩
    refine (RelRes.refl (x := indexOfNbr g dst src) rfl).bind ?_
    rintro j _ rfl
    refine (h.arrive hr src dst j).bind fun a b hab => ?_
    exact .pure ⟨hab, trivial, rfl⟩
  · simp only [Rn.o_none, Rn.o_some]
    refine (deref_sim (h.node src).top).bind ?_
    rintro r _ ⟨hr, rfl⟩
    refine (h.arrive hr dst src idx).bind fun a b hab => ?_
    exact .pure ⟨hab, trivial, rfl⟩
  · simp only [Rn.o_some]
    refine (deref_sim (h.node src).top).bind ?_
    rintro r1 _ ⟨hr1, rfl⟩
    refine (deref_sim (h.node dst).top).bind ?_
    rintro r2 _ ⟨hr2, rfl⟩
    refine (deref_same _).bind ?_
    rintro nb _ rfl
    exact .pure ⟨h, ⟨hr1, hr2⟩, rfl⟩

theorem FSim.hitBoundary (h : FSim R s2 s1) (n : Nat) :
    RelRes (fun a b => evOk R a ∧ b = evRen R a) (hitBoundary g s2 n) (hitBoundary g s1 n) := by
  unfold SB.hitBoundary
  rw [(h.node n).eq]
  refine (deref_sim (h.node n).top).bind ?_
  rintro r _ ⟨hr, rfl⟩
  refine (deref_same _).bind ?_
  rintro nb _ rfl
  exact .pure ⟨hr, rfl⟩

theorem FSim.lookAt (h : FSim R s2 s1) (u : Nat) :
    RelRes (fun a b => FSim R a.1 b.1 ∧ evOk R a.2 ∧ b.2 = evRen R a.2) (lookAt g s2 u) (lookAt g s1 u) := by
  unfold SB.lookAt
  rw [h.findNext]
  refine (RelRes.refl (x := SB.findNext g s2 u) rfl).bind ?_
  rintro a _ rfl
  cases a with
  | none => exact .pure ⟨h, trivial, rfl⟩
  | some p =>
    obtain ⟨i, t⟩ := p
    simp only [h.now]
    split
    · have h1 := h.wish (o := .inl u) trivial s2.now
      refine (deref_same _).bind ?_
      rintro nb _ rfl
      cases nb.target with
      | none =>
        refine (h1.hitBoundary u).bind ?_
        rintro ev _ ⟨he, rfl⟩
        exact .pure ⟨h1, he, rfl⟩
      | some v => exact h1.interact u i v
    · exact .pure ⟨h.wish (o := .inl u) trivial t, trivial, rfl⟩

theorem FSim.setRadius (h : FSim R s2 s1) {r : Nat} (hr : r < R.k) (f : Varying → Varying) :
    FSim R (s2.setReg r fun G => { G with radius := f G.radius }) (s1.setReg (R.f r) fun G => { G with radius := f G.radius }) := by
  have hg := h.reg r hr
  refine h.setReg hr ⟨?_, hg.parent, hg.top, hg.children⟩ (fun x hx => hx)
  rw [hg.eq]

theorem FSim.setGrowing (h : FSim R s2 s1) {r : Nat} (hr : r < R.k) : RelRes (FSim R) (setGrowing g s2 r) (setGrowing g s1 (R.f r)) := by
  unfold SB.setGrowing
  rw [h.now]
  have h1 := (h.setRadius hr fun v => v.thenGrowingAt s2.now).noWish (o := .inr r) hr
  have h2 := fun l => h1.rescheduleAll (g := g) l
  have := h1.area hr
  simp only [rOwner, Sum.map_inr] at this h2
  simp only
  rw [this]
  exact h2 _

theorem FSim.setFrozen (h : FSim R s2 s1) {r : Nat} (hr : r < R.k) : RelRes (FSim R) (setFrozen g s2 r) (setFrozen g s1 (R.f r)) := by
  unfold SB.setFrozen
  rw [h.now]
  have hw : (s1.reg (R.f r)).radius = (s2.reg r).radius := by rw [(h.reg r hr).eq]
  rw [hw]
  have h1 := (h.setRadius hr fun v => v.thenFrozenAt s2.now).noWish (o := .inr r) hr
  have h2 := fun l => h1.rescheduleAll (g := g) l
  have := h1.area hr
  simp only [rOwner, Sum.map_inr] at this h2 h1
  simp only
  split
  · rw [this]
    exact h2 _
  · exact .pure h1

theorem FSim.setShrinking (h : FSim R s2 s1) {r : Nat} (hr : r < R.k) : FSim R (setShrinking s2 r) (setShrinking s1 (R.f r)) := by
  unfold SB.setShrinking
  rw [h.now]
  have h1 := (h.setRadius hr fun v => v.thenShrinkingAt s2.now).scheduleShrink hr
  have := h1.area hr
  simp only
  rw [this]
  exact foldl_rel (σ := FSim R) (fun a b c d hs e => e ▸ hs.noWish (o := .inl c) trivial) forall₂_same h1

theorem FSim.leave (h : FSim R s2 s1) {r : Nat} (hr : r < R.k) (n : Nat) : RelRes (FSim R) (leave g s2 r n) (leave g s1 (R.f r) n) := by
  unfold SB.leave
  have hg := h.reg r hr
  have h1 : FSim R (s2.setReg r fun G => { G with shell := G.shell.dropLast }) (s1.setReg (R.f r) fun G => { G with shell := G.shell.dropLast }) := by
    refine h.setReg hr ⟨?_, hg.parent, hg.top, hg.children⟩ (fun x hx => hx)
    rw [hg.eq]
  have h2 := h1.setNode n (f2 := fun _ => .blank) (f1 := fun _ => .blank) DSim.blank
  refine (h2.reschedule n).bind fun a b hab => ?_
  exact .pure (hab.scheduleShrink hr)

theorem FSim.del (h : FSim R s2 s1) {r : Nat} (hr : r < R.k) : FSim R { s2 with regs := s2.regs.del r } { s1 with regs := s1.regs.del (R.f r) } :=
  ⟨h.node, h.reg, h.regs.del hr, h.w, h.acy⟩

/-! ## Allocation -/

theorem DSim.le {R R' : Rn} (hR : R.Le R') {a b : DNode} (h : DSim R a b) : DSim R' a b := by
  refine ⟨?_, hR.ok h.arr, hR.ok h.top⟩
  rw [hR.o h.arr, hR.o h.top]
  exact h.eq

theorem GSim.le {R R' : Rn} (hR : R.Le R') {a b : Region} (h : GSim R a b) : GSim R' a b := by
  refine ⟨?_, hR.ok h.parent, lt_of_lt_of_le h.top hR.k, hR.oks h.children⟩
  rw [hR.o h.parent, hR.f _ h.top, hR.l h.children]
  exact h.eq

theorem rOwner_le {R R' : Rn} (hR : R.Le R') {o : Owner} (h : rDom R o) : rOwner R' o = rOwner R o := by
  cases o with
  | inl n => rfl
  | inr r => simp only [rOwner, Sum.map_inr, hR.f r h]

theorem rDom_le {R R' : Rn} (hR : R.Le R') {o : Owner} (h : rDom R o) : rDom R' o := by
  cases o with
  | inl n => trivial
  | inr r => exact lt_of_lt_of_le h hR.k

/-- The queue under a larger renaming. -/
theorem QSim.le {R R' : Rn} (hR : R.Le R') {q2 q1 : Queue Owner} (h : QSim (rOwner R) (rDom R) q2 q1) : QSim (rOwner R') (rDom R') q2 q1 := by
  refine ⟨h.cur, h.num, ?_, fun b e he => rDom_le hR (h.dom b e he)⟩
  intro b
  rw [h.bk b]
  refine List.map_congr_left fun e he => ?_
  simp only [evMap, rOwner_le hR (h.dom b e he)]

/-- A new region, up to the acyclicity of children. -/
theorem FSim.alloc (h : FSim R s2 s1) {f2 f1 : Region → Region} :
    ∃ R' : Rn, R.Le R' ∧ (allocRegion s2).2 < R'.k ∧ R'.f (allocRegion s2).2 = (allocRegion s1).2 ∧
      (∀ i < R'.k, i < R.k ∨ i = (allocRegion s2).2) ∧
      (GSim R' (f2 (.fresh (allocRegion s2).2)) (f1 (.fresh (allocRegion s1).2)) →
        Acy R'.k (kidsOf ((allocRegion s2).1.setReg (allocRegion s2).2 f2)) →
        FSim R' ((allocRegion s2).1.setReg (allocRegion s2).2 f2) ((allocRegion s1).1.setReg (allocRegion s1).2 f1)) := by
  obtain ⟨R', hR, ha, hi, hf, hk⟩ := h.regs.alloc
  refine ⟨R', hR, hi, hf, hk, ?_⟩
  intro hG hA
  have e2 : (allocRegion s2).2 = (s2.regs.alloc s2.regs.allocated.length).2 := rfl
  have e1 : (allocRegion s1).2 = (s1.regs.alloc s1.regs.allocated.length).2 := rfl
  rw [← e2] at hi hf hk
  rw [← e1] at hf
  refine ⟨fun n => (h.node n).le hR, ?_, ha, ?_, hA⟩
  · intro i hik
    simp only [FS.setReg]
    by_cases ei : i = (allocRegion s2).2
    · subst ei
      rw [hf, Function.update_self, Function.update_self]
      simp only [allocRegion, FS.clearTracker, FS.setReg, Function.update_self] at hG ⊢
      exact hG
    · have hne : R'.f i ≠ (allocRegion s1).2 := by
        rw [← hf]
        exact fun e => ei (R'.inj _ hik _ hi e)
      rw [Function.update_of_ne ei, Function.update_of_ne hne]
      simp only [allocRegion, FS.clearTracker, FS.setReg]
      rw [Function.update_of_ne (e2 ▸ ei), Function.update_of_ne (e1 ▸ hne)]
      have hiR : i < R.k := (hk i hik).resolve_right ei
      have := (h.reg i hiR).le hR
      rwa [← hR.f i hiR] at this
  · simp only [FS.setReg, allocRegion, FS.clearTracker]
    refine ⟨?_, h.w.q.le hR⟩
    intro o ho
    simp only
    by_cases eo : o = .inr (allocRegion s2).2
    · subst eo
      have : rOwner R' (.inr (allocRegion s2).2) = .inr (allocRegion s1).2 := by simp only [rOwner, Sum.map_inr, hf]
      rw [this]
      rw [e2, e1, Function.update_self, Function.update_self]
      exact .refl _
    · have hoR : rDom R o := by
        cases o with
        | inl n => trivial
        | inr r =>
          refine (hk r ho).resolve_right fun e => eo (by rw [e])
      have hne : rOwner R' o ≠ .inr (allocRegion s1).2 := by
        rw [← hf]
        intro e
        exact eo (rOwner_inj R' _ ho (.inr _) hi e)
      rw [e2] at eo
      rw [e1] at hne
      rw [Function.update_of_ne eo, Function.update_of_ne hne, rOwner_le hR hoR]
      exact h.w.tr o hoR

theorem GSim.fresh {r : Nat} (hr : r < R.k) : GSim R (.fresh r) (.fresh (R.f r)) := ⟨rfl, Rn.Ok.none, hr, Rn.Oks.nil⟩

theorem setReg_id (s : FS) (r : Nat) : s.setReg r (fun G => G) = s := by
  simp [FS.setReg]

theorem kidsOf_alloc (s : FS) (r : Nat) : kidsOf (allocRegion s).1 r = if r = (allocRegion s).2 then [] else kidsOf s r := by
  simp only [kidsOf, allocRegion, FS.clearTracker, FS.setReg]
  by_cases e : r = (s.regs.alloc s.regs.allocated.length).2
  · subst e; simp [Region.fresh]
  · simp [Function.update_of_ne e, e]

/-- A new region for a detection event. -/
theorem FSim.allocRegion (h : FSim R s2 s1) :
    ∃ R' : Rn, R.Le R' ∧ (allocRegion s2).2 < R'.k ∧ R'.f (allocRegion s2).2 = (allocRegion s1).2 ∧
      (∀ i < R'.k, i < R.k ∨ i = (SB.allocRegion s2).2) ∧ FSim R' (SB.allocRegion s2).1 (SB.allocRegion s1).1 := by
  obtain ⟨R', h1, h2, h3, h4, h5⟩ := h.alloc (f2 := fun G => G) (f1 := fun G => G)
  refine ⟨R', h1, h2, h3, h4, ?_⟩
  rw [setReg_id, setReg_id] at h5
  refine h5 ?_ ?_
  · rw [← h3]; exact GSim.fresh h2
  · obtain ⟨rk, hrk⟩ := h.acy
    refine ⟨rk, fun r hr c hc => ?_⟩
    rw [kidsOf_alloc] at hc
    split at hc
    · cases hc
    · rename_i hne
      exact hrk r ((h4 r hr).resolve_right hne) c hc

/-- The children of the new blossom and all below them are live, and the new blossom is not among them. -/
def BirthOk (s : FS) (cyc : List (Nat × CompressedEdge)) : Prop :=
  ∃ L : Nat → Prop, (∀ r, L r → ∀ c ∈ kidsOf s r, L c) ∧ (∀ x ∈ cyc, L x.1) ∧ ¬ L (allocRegion s).2

theorem BirthOk.acy {s : FS} {cyc : List (Nat × CompressedEdge)} (h : BirthOk s cyc) {k k' : Nat} (ha : Acy k (kidsOf s))
    (hk : ∀ i < k', i < k ∨ i = (allocRegion s).2) {v : Varying} :
    Acy k' (kidsOf ((allocRegion s).1.setReg (allocRegion s).2 fun G => { G with radius := v, children := cyc })) := by
  classical
  obtain ⟨L, h1, h2, h3⟩ := h
  obtain ⟨rk, hrk⟩ := ha
  have hB : ∃ M, ∀ x ∈ cyc, rk x.1 < M := by
    refine ⟨(cyc.map fun x => rk x.1).sum + 1, fun x hx => ?_⟩
    have := List.single_le_sum (l := cyc.map fun x => rk x.1) (by simp) (rk x.1) (List.mem_map.2 ⟨x, hx, rfl⟩)
    omega
  obtain ⟨M, hM⟩ := hB
  have hL : ∃ N, ∀ x < k, rk x < N := by
    refine ⟨((List.range k).map rk).sum + 1, fun x hx => ?_⟩
    have := List.single_le_sum (l := (List.range k).map rk) (by simp) (rk x) (List.mem_map.2 ⟨x, List.mem_range.2 hx, rfl⟩)
    omega
  obtain ⟨N, hN⟩ := hL
  refine ⟨fun x => if L x then rk x else if x = (allocRegion s).2 then M else M + N + 1 + rk x, ?_⟩
  intro r hr c hcc
  by_cases er : r = (allocRegion s).2
  · subst er
    have : c ∈ cyc.map (·.1) := by simpa [kidsOf, FS.setReg] using hcc
    obtain ⟨x, hx, rfl⟩ := List.mem_map.1 this
    simp only [h2 x hx, h3, if_true, if_false]
    exact hM x hx
  · have hc' : c ∈ kidsOf s r := by
      have : c ∈ kidsOf (allocRegion s).1 r := by
        simpa [kidsOf, FS.setReg, Function.update_of_ne er] using hcc
      rwa [kidsOf_alloc, if_neg er] at this
    have hrk' := (hk r hr).resolve_right er
    have hlt := hrk r hrk' c hc'
    by_cases hLr : L r
    · simp only [hLr, h1 r hLr c hc', if_true]
      exact hlt
    · simp only [hLr, if_false, er]
      split
      · have := hN r hrk'; omega
      · split <;> omega

theorem FSim.absorb (h : FSim R s2 s1) {B c : Nat} (hB : B < R.k) (hc : c < R.k) : RelRes (FSim R) (absorb B s2 c) (absorb (R.f B) s1 (R.f c)) := by
  unfold SB.absorb
  rw [h.now]
  refine ((h.setRadius hc fun v => v.thenFrozenAt s2.now).wrapInto hc hB).bind fun a b hab => ?_
  exact .pure (hab.noWish (o := .inr c) hc)

theorem FSim.blossomFl (h : FSim R s2 s1) {cyc : List (Nat × CompressedEdge)} (hc : R.Oks cyc) (hb : BirthOk s2 cyc) :
    RelRes (fun a b => ∃ R' : Rn, R.Le R' ∧ FSim R' a.1 b.1 ∧ a.2 < R'.k ∧ b.2 = R'.f a.2 ∧ ∀ i < R'.k, i < R.k ∨ i = a.2)
      (blossomFl g s2 cyc) (blossomFl g s1 (R.l cyc)) := by
  unfold SB.blossomFl
  obtain ⟨R', h1, h2, h3, h4, h5⟩ := h.alloc (f2 := fun G => { G with radius := growingZeroAt (SB.allocRegion s2).1.now, children := cyc })
    (f1 := fun G => { G with radius := growingZeroAt (SB.allocRegion s1).1.now, children := R.l cyc })
  have hn : (SB.allocRegion s1).1.now = (SB.allocRegion s2).1.now := h.now
  have h6 := h5 (by
    rw [hn, ← h3]
    exact ⟨by rw [← h1.l hc]; rfl, Rn.Ok.none, h2, h1.oks hc⟩) (hb.acy h.acy h4)
  simp only
  rw [← h3] at h6 ⊢
  have hl : (R.l cyc).map (·.1) = (cyc.map (·.1)).map R'.f := by
    rw [← h1.l hc]; exact Rn.l_fst
  rw [hl]
  have h7 := RelRes.foldlM (σ := FSim R') (Q := fun c d => c < R'.k ∧ d = R'.f c) (f := SB.absorb (SB.allocRegion s2).2)
    (f' := SB.absorb (R'.f (SB.allocRegion s2).2)) (by
      rintro a b c _ hs ⟨hc, rfl⟩
      exact hs.absorb h2 hc) (forall₂_map_left (D := fun x => x < R'.k) (φ := R'.f) (l := cyc.map (·.1)) (by
      intro x hx
      obtain ⟨y, hy, rfl⟩ := List.mem_map.1 hx
      exact h1.oks hc y hy)) h6
  refine h7.bind fun a b hab => ?_
  rw [hab.area h2]
  refine (hab.rescheduleAll _).bind fun a b hab => ?_
  exact .pure ⟨R', h1, hab, h2, rfl, h4⟩

end

end Verif.SB
