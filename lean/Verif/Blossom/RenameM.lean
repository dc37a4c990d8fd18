import Verif.Blossom.RenameFl

/-!
# Renaming of objects: the matcher

Every function of the matcher preserves the relation between the states of two runs (see `Blossom/Rename.lean`).
-/

namespace Verif.SB

open Verif Verif.Graph Verif.CE Verif.Vary Verif.Track Verif.Spec Verif.Mem Verif.RadixHeap Verif.Cyc
open Verif.Sch (Res better)

/-- The tree node, renamed. -/
structure NSim (R A : Rn) (a2 a1 : ANode) : Prop where
  eq : a1 = ⟨R.o a2.inner, R.f a2.outer, a2.i2o, A.p a2.parent, A.l a2.children, a2.visited⟩
  inner : R.Ok a2.inner
  outer : a2.outer < R.k
  parent : A.OkP a2.parent
  children : A.Oks a2.children

/-- The match, renamed. -/
structure TSim (R : Rn) (m2 m1 : Mate) : Prop where
  eq : m1 = ⟨R.o m2.region, m2.edge⟩
  region : R.Ok m2.region

/-- Two states of the matcher agree up to renaming. -/
structure MSim (R A : Rn) (s2 s1 : MS) : Prop where
  fl : FSim R s2.fl s1.fl
  ralt : ∀ i < R.k, s1.ralt (R.f i) = A.o (s2.ralt i) ∧ A.Ok (s2.ralt i)
  mate : ∀ i < R.k, TSim R (s2.mate i) (s1.mate (R.f i))
  alt : ∀ a < A.k, NSim R A (s2.alt a) (s1.alt (A.f a))
  alts : ArSim A s2.alts s1.alts

/-- Related under some larger renaming. -/
def Ext (R A : Rn) (s2 s1 : MS) : Prop := ∃ R' A', R.Le R' ∧ A.Le A' ∧ MSim R' A' s2 s1

/-! ## Lists of children -/

theorem findIdx?_l {A : Rn} {l : List (Nat × CompressedEdge)} (hl : A.Oks l) {a : Nat} (ha : a < A.k) :
    (A.l l).findIdx? (fun x => x.1 == A.f a) = l.findIdx? (fun x => x.1 == a) := by
  induction l with
  | nil => rfl
  | cons x l ih =>
    have hx : x.1 < A.k := hl x (by simp)
    have e : (A.f x.1 == A.f a) = (x.1 == a) := by
      rw [Bool.eq_iff_iff]; simp only [beq_iff_eq]; exact A.f_inj hx ha
    simp only [Rn.l_cons, List.findIdx?_cons, e, ih (fun y hy => hl y (by simp [hy]))]

theorem findIdx_l {A : Rn} {l : List (Nat × CompressedEdge)} (hl : A.Oks l) {a : Nat} (ha : a < A.k) :
    (A.l l).findIdx (fun x => x.1 == A.f a) = l.findIdx (fun x => x.1 == a) := by
  induction l with
  | nil => rfl
  | cons x l ih =>
    have hx : x.1 < A.k := hl x (by simp)
    have e : (A.f x.1 == A.f a) = (x.1 == a) := by
      rw [Bool.eq_iff_iff]; simp only [beq_iff_eq]; exact A.f_inj hx ha
    simp only [Rn.l_cons, List.findIdx_cons, e, ih (fun y hy => hl y (by simp [hy]))]

theorem eraseKid_l {A : Rn} {l : List (Nat × CompressedEdge)} (hl : A.Oks l) {a : Nat} (ha : a < A.k) :
    eraseKid (A.l l) (A.f a) = A.l (eraseKid l a) := by
  unfold eraseKid
  rw [findIdx?_l hl ha]
  have : (A.l l).getLast? = A.p l.getLast? := by simp [Rn.l, Rn.p, List.getLast?_map]
  rw [this]
  cases l.findIdx? (fun x => x.1 == a) with
  | none => rfl
  | some i =>
    cases l.getLast? with
    | none => rfl
    | some z => simp [Rn.l, List.map_dropLast, List.map_set]

theorem eraseKid_oks {A : Rn} {l : List (Nat × CompressedEdge)} (hl : A.Oks l) (a : Nat) : A.Oks (eraseKid l a) := by
  unfold eraseKid
  split
  · rename_i i z h1 h2
    intro x hx
    have hx := List.mem_of_mem_dropLast hx
    rcases List.mem_or_eq_of_mem_set hx with hx | rfl
    · exact hl x hx
    · exact hl _ (List.mem_of_getLast? h2)
  · exact hl

theorem lastIdx_aux {R : Rn} {r : Nat} (hr : r < R.k) (l : List (Nat × CompressedEdge)) : R.Oks l → ∀ (j acc : Nat),
    ((R.l l).zipIdx j).foldl (fun acc x => if x.1.1 = R.f r then x.2 else acc) acc =
      (l.zipIdx j).foldl (fun acc x => if x.1.1 = r then x.2 else acc) acc := by
  induction l with
  | nil => intro _ j acc; rfl
  | cons x l ih =>
    intro hl j acc
    have hx : x.1 < R.k := hl x (by simp)
    simp only [Rn.l_cons, List.zipIdx_cons, List.foldl_cons, R.f_inj hx hr]
    exact ih (fun y hy => hl y (by simp [hy])) _ _

theorem lastIdx_l {R : Rn} {l : List (Nat × CompressedEdge)} (hl : R.Oks l) {r : Nat} (hr : r < R.k) : lastIdx (R.l l) (R.f r) = lastIdx l r :=
  lastIdx_aux hr l hl 0 0

/-! ## Elementary changes -/

section
variable {R A : Rn} {s2 s1 : MS} {g : MGraph}

theorem MSim.ext (h : MSim R A s2 s1) : Ext R A s2 s1 := ⟨R, A, .refl R, .refl A, h⟩

theorem Ext.trans {R' A' : Rn} (hR : R.Le R') (hA : A.Le A') (h : Ext R' A' s2 s1) : Ext R A s2 s1 := by
  obtain ⟨R2, A2, h1, h2, h3⟩ := h
  exact ⟨R2, A2, hR.trans h1, hA.trans h2, h3⟩

theorem MSim.altDepth (h : MSim R A s2 s1) : s2.altDepth ≤ s1.altDepth := h.alts.le

theorem MSim.setAlt (h : MSim R A s2 s1) {a : Nat} (ha : a < A.k) {f2 f1 : ANode → ANode} (hf : NSim R A (f2 (s2.alt a)) (f1 (s1.alt (A.f a)))) :
    MSim R A (s2.setAlt a f2) (s1.setAlt (A.f a) f1) := by
  refine ⟨h.fl, h.ralt, h.mate, ?_, h.alts⟩
  intro b hb
  simp only [MS.setAlt]
  by_cases e : b = a
  · subst e; simp only [Function.update_self]; exact hf
  · rw [Function.update_of_ne e, Function.update_of_ne (fun e' => e (A.inj b hb a ha e'))]; exact h.alt b hb

theorem MSim.setRalt (h : MSim R A s2 s1) {i : Nat} (hi : i < R.k) {o : Option Nat} (ho : A.Ok o) : MSim R A (s2.setRalt i o) (s1.setRalt (R.f i) (A.o o)) := by
  refine ⟨h.fl, ?_, h.mate, h.alt, h.alts⟩
  intro j hj
  simp only [MS.setRalt]
  by_cases e : j = i
  · subst e; simp only [Function.update_self]; exact ⟨trivial, ho⟩
  · rw [Function.update_of_ne e, Function.update_of_ne (fun e' => e (R.inj j hj i hi e'))]; exact h.ralt j hj

theorem MSim.setMate (h : MSim R A s2 s1) {i : Nat} (hi : i < R.k) {m2 m1 : Mate} (hm : TSim R m2 m1) : MSim R A (s2.setMate i m2) (s1.setMate (R.f i) m1) := by
  refine ⟨h.fl, h.ralt, ?_, h.alt, h.alts⟩
  intro j hj
  simp only [MS.setMate]
  by_cases e : j = i
  · subst e; simp only [Function.update_self]; exact hm
  · rw [Function.update_of_ne e, Function.update_of_ne (fun e' => e (R.inj j hj i hi e'))]; exact h.mate j hj

theorem MSim.withFl (h : MSim R A s2 s1) {f2 f1 : FS} (hf : FSim R f2 f1) : MSim R A { s2 with fl := f2 } { s1 with fl := f1 } :=
  ⟨hf, h.ralt, h.mate, h.alt, h.alts⟩

theorem MSim.onFl (h : MSim R A s2 s1) {f2 f1 : FS → Res FS} (hf : RelRes (FSim R) (f2 s2.fl) (f1 s1.fl)) : RelRes (MSim R A) (s2.onFl f2) (s1.onFl f1) :=
  RelRes.bind hf fun _ _ hab => .pure (h.withFl hab)

theorem MSim.delAlt (h : MSim R A s2 s1) {a : Nat} (ha : a < A.k) : MSim R A { s2 with alts := s2.alts.del a } { s1 with alts := s1.alts.del (A.f a) } :=
  ⟨h.fl, h.ralt, h.mate, h.alt, h.alts.del ha⟩

theorem TSim.none : TSim R ⟨none, .cleared⟩ ⟨none, .cleared⟩ := ⟨rfl, Rn.Ok.none⟩

theorem TSim.le {R' : Rn} (hR : R.Le R') {a b : Mate} (h : TSim R a b) : TSim R' a b := by
  refine ⟨?_, hR.ok h.region⟩
  rw [hR.o h.region]
  exact h.eq

theorem NSim.le {R' A' : Rn} (hR : R.Le R') (hA : A.Le A') {a b : ANode} (h : NSim R A a b) : NSim R' A' a b := by
  refine ⟨?_, hR.ok h.inner, lt_of_lt_of_le h.outer hR.k, hA.okP h.parent, hA.oks h.children⟩
  rw [hR.o h.inner, hR.f _ h.outer, hA.p h.parent, hA.l h.children]
  exact h.eq

theorem MSim.addMatch (h : MSim R A s2 s1) {r r' : Nat} (hr : r < R.k) (hr' : r' < R.k) (e : CompressedEdge) :
    MSim R A (addMatch s2 r r' e) (addMatch s1 (R.f r) (R.f r') e) :=
  (h.setMate hr ⟨rfl, Rn.Ok.some hr'⟩).setMate hr' ⟨rfl, Rn.Ok.some hr⟩

/-- A new region. -/
theorem MSim.newRegion (h : MSim R A s2 s1) {R' : Rn} (hR : R.Le R') {f2 f1 : FS} (hf : FSim R' f2 f1) {B : Nat} (hB : B < R'.k)
    (hk : ∀ i < R'.k, i < R.k ∨ i = B) : MSim R' A (s2.newRegion f2 B) (s1.newRegion f1 (R'.f B)) := by
  refine ⟨hf, ?_, ?_, ?_, h.alts⟩
  · intro i hi
    simp only [MS.newRegion, MS.setMate, MS.setRalt]
    by_cases e : i = B
    · subst e; simp only [Function.update_self]; exact ⟨rfl, Rn.Ok.none⟩
    · rw [Function.update_of_ne e, Function.update_of_ne (fun e' => e (R'.inj i hi B hB e'))]
      have hiR := (hk i hi).resolve_right e
      rw [hR.f i hiR]
      exact h.ralt i hiR
  · intro i hi
    simp only [MS.newRegion, MS.setMate, MS.setRalt]
    by_cases e : i = B
    · subst e; simp only [Function.update_self]; exact TSim.none
    · rw [Function.update_of_ne e, Function.update_of_ne (fun e' => e (R'.inj i hi B hB e'))]
      have hiR := (hk i hi).resolve_right e
      rw [hR.f i hiR]
      exact (h.mate i hiR).le hR
  · intro a ha
    exact (h.alt a ha).le hR (.refl A)

theorem MSim.createBlossom (h : MSim R A s2 s1) {cyc : List (Nat × CompressedEdge)} (hc : R.Oks cyc) (hb : BirthOk s2.fl cyc) :
    RelRes (fun a b => ∃ R' : Rn, R.Le R' ∧ MSim R' A a.1 b.1 ∧ a.2 < R'.k ∧ b.2 = R'.f a.2) (createBlossom g s2 cyc) (createBlossom g s1 (R.l cyc)) := by
  unfold SB.createBlossom
  refine (h.fl.blossomFl hc hb).bind ?_
  rintro ⟨f2, B⟩ ⟨f1, B'⟩ ⟨R', h1, h2, h3, h4, h5⟩
  simp only at h2 h3 h4 h5
  subst h4
  exact .pure ⟨R', h1, h.newRegion h1 h2 h3 h5, h3, rfl⟩

theorem MSim.implosion (h : MSim R A s2 s1) {r : Nat} (hr : r < R.k) : RelRes (fun a b => evOk R a ∧ b = evRen R a) (implosion s2 r) (implosion s1 (R.f r)) := by
  unfold SB.implosion
  rw [(h.ralt r hr).1]
  refine (deref_sim (h.ralt r hr).2).bind ?_
  rintro a _ ⟨ha, rfl⟩
  have hn := h.alt a ha
  rw [hn.eq]
  refine (derefP_sim hn.parent).bind ?_
  rintro ⟨p, e⟩ _ ⟨hp, rfl⟩
  have hm := h.alt p hp
  simp only at hm ⊢
  rw [hm.eq]
  exact .pure ⟨⟨hm.outer, hn.outer⟩, rfl⟩

theorem MSim.shattering (h : MSim R A s2 s1) {r : Nat} (hr : r < R.k) : RelRes (fun a b => evOk R a ∧ b = evRen R a) (shattering s2 r) (shattering s1 (R.f r)) := by
  unfold SB.shattering
  rw [(h.ralt r hr).1]
  refine (deref_sim (h.ralt r hr).2).bind ?_
  rintro a _ ⟨ha, rfl⟩
  have hn := h.alt a ha
  rw [hn.eq]
  refine (derefP_sim hn.parent).bind ?_
  rintro ⟨p, e⟩ _ ⟨hp, rfl⟩
  refine (deref_same _).bind ?_
  rintro n1 _ rfl
  refine (h.fl.heir n1).bind ?_
  rintro r1 _ ⟨hr1, rfl⟩
  refine (deref_same _).bind ?_
  rintro n2 _ rfl
  refine (h.fl.heir n2).bind ?_
  rintro r2 _ ⟨hr2, rfl⟩
  exact .pure ⟨⟨hr, hr1, hr2⟩, rfl⟩

theorem MSim.regionShrinking (h : MSim R A s2 s1) {r : Nat} (hr : r < R.k) :
    RelRes (fun a b => MSim R A a.1 b.1 ∧ evOk R a.2 ∧ b.2 = evRen R a.2) (regionShrinking g s2 r) (regionShrinking g s1 (R.f r)) := by
  unfold SB.regionShrinking
  have hg := h.fl.reg r hr
  rw [hg.eq]
  simp only [Rn.l_isEmpty]
  cases (s2.fl.reg r).shell.getLast? with
  | none =>
    refine (h.shattering hr).bind ?_
    rintro ev _ ⟨he, rfl⟩
    exact .pure ⟨h, he, rfl⟩
  | some n =>
    simp only
    split
    · refine (h.implosion hr).bind ?_
      rintro ev _ ⟨he, rfl⟩
      exact .pure ⟨h, he, rfl⟩
    · refine (h.onFl (h.fl.leave (g := g) hr n)).bind fun a b hab => ?_
      exact .pure ⟨hab, trivial, rfl⟩

theorem MSim.addChild (h : MSim R A s2 s1) {a c : Nat} (ha : a < A.k) (hc : c < A.k) (e : CompressedEdge) :
    MSim R A (addChild s2 a c e) (addChild s1 (A.f a) (A.f c) e) := by
  unfold SB.addChild
  have hn := h.alt a ha
  have h1 : MSim R A (s2.setAlt a fun N => { N with children := N.children ++ [(c, e)] })
      (s1.setAlt (A.f a) fun N => { N with children := N.children ++ [(A.f c, e)] }) := by
    refine h.setAlt ha ⟨?_, hn.inner, hn.outer, hn.parent, hn.children.append (by intro x hx; rw [List.mem_singleton.1 hx]; exact hc)⟩
    rw [hn.eq]
    simp
  have hm := h1.alt c hc
  refine h1.setAlt hc ⟨?_, hm.inner, hm.outer, Rn.OkP.some ha, hm.children⟩
  rw [hm.eq]
  rfl

theorem MSim.rotateUp (h : MSim R A s2 s1) {a p : Nat} (ha : a < A.k) (hp : p < A.k) (pe : CompressedEdge) :
    MSim R A (rotateUp s2 a p pe) (rotateUp s1 (A.f a) (A.f p) pe) := by
  unfold SB.rotateUp
  have hn := h.alt a ha
  have ei : (s1.alt (A.f a)).inner = R.o (s2.alt a).inner := by rw [hn.eq]
  have ee : (s1.alt (A.f a)).i2o = (s2.alt a).i2o := by rw [hn.eq]
  simp only
  rw [ei, ee]
  have h1 := h.setAlt hp (f2 := fun P => { P with inner := (s2.alt a).inner, i2o := pe }) (f1 := fun P => { P with inner := R.o (s2.alt a).inner, i2o := pe })
    (by
      have hq := h.alt p hp
      refine ⟨by rw [hq.eq], hn.inner, hq.outer, hq.parent, hq.children⟩)
  have h2 := h1.setAlt ha (f2 := fun P => { P with inner := none }) (f1 := fun P => { P with inner := none })
    (by
      have hq := h1.alt a ha
      refine ⟨by rw [hq.eq]; rfl, Rn.Ok.none, hq.outer, hq.parent, hq.children⟩)
  have h3 := h2.setAlt hp (f2 := fun P => { P with children := eraseKid P.children a }) (f1 := fun P => { P with children := eraseKid P.children (A.f a) })
    (by
      have hq := h2.alt p hp
      refine ⟨by rw [hq.eq]; simp only [eraseKid_l hq.children ha], hq.inner, hq.outer, hq.parent, eraseKid_oks hq.children a⟩)
  have h4 := h3.setAlt ha (f2 := fun P => { P with parent := none }) (f1 := fun P => { P with parent := none })
    (by
      have hq := h3.alt a ha
      refine ⟨by rw [hq.eq]; rfl, hq.inner, hq.outer, Rn.OkP.none, hq.children⟩)
  have h5 := h4.addChild ha hp (s2.alt a).i2o.reversed
  exact h5.setAlt ha (f2 := fun P => { P with i2o := .cleared }) (f1 := fun P => { P with i2o := .cleared })
    (by
      have hq := h5.alt a ha
      refine ⟨by rw [hq.eq], hq.inner, hq.outer, hq.parent, hq.children⟩)

theorem becomeRoot_sim : ∀ f2 f1 (s2 s1 : MS) a, f2 ≤ f1 → MSim R A s2 s1 → a < A.k → RelRes (MSim R A) (becomeRoot f2 s2 a) (becomeRoot f1 s1 (A.f a)) := by
  intro f2
  induction f2 with
  | zero => intro f1 s2 s1 a _ _ _; exact .ub
  | succ f2 ih =>
    intro f1 s2 s1 a hf h ha
    obtain ⟨f1, rfl⟩ : ∃ f, f1 = f + 1 := ⟨f1 - 1, by omega⟩
    simp only [becomeRoot]
    have hn := h.alt a ha
    rw [hn.eq]
    cases hp : (s2.alt a).parent with
    | none => exact .pure h
    | some x =>
      obtain ⟨p, pe⟩ := x
      have hpk : p < A.k := hn.parent _ hp
      simp only [Rn.p_some]
      refine (ih f1 s2 s1 p (by omega) h hpk).bind fun a b hab => ?_
      exact .pure (hab.rotateUp ha hpk pe)

theorem MSim.setVisited (h : MSim R A s2 s1) {a : Nat} (ha : a < A.k) (b : Bool) :
    MSim R A (s2.setAlt a fun N => { N with visited := b }) (s1.setAlt (A.f a) fun N => { N with visited := b }) := by
  have hn := h.alt a ha
  exact h.setAlt ha ⟨by rw [hn.eq], hn.inner, hn.outer, hn.parent, hn.children⟩

theorem MSim.visited (h : MSim R A s2 s1) {a : Nat} (ha : a < A.k) : (s1.alt (A.f a)).visited = (s2.alt a).visited := by
  rw [(h.alt a ha).eq]

theorem mrcaLoop_sim : ∀ f2 f1 (s2 s1 : MS) a b, f2 ≤ f1 → MSim R A s2 s1 → a < A.k → b < A.k →
    RelRes (fun x y => MSim R A x.1 y.1 ∧ A.Ok x.2 ∧ y.2 = A.o x.2) (mrcaLoop f2 s2 a b) (mrcaLoop f1 s1 (A.f a) (A.f b)) := by
  intro f2
  induction f2 with
  | zero => intro f1 s2 s1 a b _ _ _ _; exact .ub
  | succ f2 ih =>
    intro f1 s2 s1 a b hf h ha hb
    obtain ⟨f1, rfl⟩ : ∃ f, f1 = f + 1 := ⟨f1 - 1, by omega⟩
    have hf : f2 ≤ f1 := by omega
    simp only [mrcaLoop]
    have e1 : (s1.alt (A.f a)).parent = A.p (s2.alt a).parent := by rw [(h.alt a ha).eq]
    have e2 : (s1.alt (A.f b)).parent = A.p (s2.alt b).parent := by rw [(h.alt b hb).eq]
    rw [e1, e2]
    have hpa := (h.alt a ha).parent
    have hpb := (h.alt b hb).parent
    cases h1 : (s2.alt a).parent with
    | none =>
      cases h2 : (s2.alt b).parent with
      | none => exact .pure ⟨h, Rn.Ok.none, rfl⟩
      | some y =>
        have hy : y.1 < A.k := hpb _ h2
        simp only [Rn.p_some, Rn.p_none, h.visited hy]
        cases (s2.alt y.1).visited with
        | true => exact .pure ⟨h, Rn.Ok.some hy, rfl⟩
        | false => exact ih f1 _ _ a y.1 hf (h.setVisited hy true) ha hy
    | some x =>
      have hx : x.1 < A.k := hpa _ h1
      cases h2 : (s2.alt b).parent with
      | none =>
        simp only [Rn.p_some, Rn.p_none, h.visited hx]
        cases (s2.alt x.1).visited with
        | true => exact .pure ⟨h, Rn.Ok.some hx, rfl⟩
        | false => exact ih f1 _ _ x.1 b hf (h.setVisited hx true) hx hb
      | some y =>
        have hy : y.1 < A.k := hpb _ h2
        simp only [Rn.p_some, h.visited hx]
        cases (s2.alt x.1).visited with
        | true => exact .pure ⟨h, Rn.Ok.some hx, rfl⟩
        | false =>
          have h3 := h.setVisited hx true
          simp only [Bool.false_eq_true, if_false, h3.visited hy]
          cases ((s2.setAlt x.1 fun N => { N with visited := true }).alt y.1).visited with
          | true => exact .pure ⟨h3, Rn.Ok.some hy, rfl⟩
          | false => exact ih f1 _ _ x.1 y.1 hf (h3.setVisited hy true) hx hy

theorem unvisit_sim : ∀ f2 f1 (s2 s1 : MS) a, f2 ≤ f1 → MSim R A s2 s1 → a < A.k → RelRes (MSim R A) (unvisit f2 s2 a) (unvisit f1 s1 (A.f a)) := by
  intro f2
  induction f2 with
  | zero => intro f1 s2 s1 a _ _ _; exact .ub
  | succ f2 ih =>
    intro f1 s2 s1 a hf h ha
    obtain ⟨f1, rfl⟩ : ∃ f, f1 = f + 1 := ⟨f1 - 1, by omega⟩
    simp only [unvisit]
    have hn := h.alt a ha
    rw [hn.eq]
    cases hp : (s2.alt a).parent with
    | none => exact .pure h
    | some x =>
      have hpk : x.1 < A.k := hn.parent _ hp
      simp only [Rn.p_some, h.visited hpk]
      split
      · exact ih f1 _ _ x.1 (by omega) (h.setVisited hpk false) hpk
      · exact .pure h

theorem MSim.mrca (h : MSim R A s2 s1) {a b : Nat} (ha : a < A.k) (hb : b < A.k) :
    RelRes (fun x y => MSim R A x.1 y.1 ∧ A.Ok x.2 ∧ y.2 = A.o x.2) (mrca s2 a b) (mrca s1 (A.f a) (A.f b)) := by
  unfold SB.mrca
  have h1 := (h.setVisited ha true).setVisited hb true
  refine (mrcaLoop_sim _ _ _ _ a b (by have := h1.altDepth; omega) h1 ha hb).bind ?_
  rintro ⟨u2, o⟩ ⟨u1, o'⟩ ⟨h2, h3, h4⟩
  simp only at h2 h3 h4
  subst h4
  cases o with
  | none => exact .pure ⟨h2, Rn.Ok.none, rfl⟩
  | some c =>
    have hc : c < A.k := h3 c rfl
    have h4 := h2.setVisited hc false
    refine (unvisit_sim _ _ _ _ c (by have := h2.altDepth; omega) h4 hc).bind fun x y hxy => ?_
    exact .pure ⟨hxy, Rn.Ok.some hc, rfl⟩

theorem prune_sim {anc : Nat} (hanc : anc < A.k) (back : Bool) : ∀ f2 f1 (s2 s1 : MS) a (po : Pruned), f2 ≤ f1 → MSim R A s2 s1 → a < A.k →
    A.Oks po.1 → R.Oks po.2 →
    RelRes (fun x y => MSim R A x.1 y.1 ∧ A.Oks x.2.1 ∧ R.Oks x.2.2 ∧ y.2 = (A.l x.2.1, R.l x.2.2))
      (prune anc back f2 s2 a po) (prune (A.f anc) back f1 s1 (A.f a) (A.l po.1, R.l po.2)) := by
  intro f2
  induction f2 with
  | zero => intro f1 s2 s1 a po _ _ _ _ _; exact .ub
  | succ f2 ih =>
    rintro f1 s2 s1 a ⟨orph, path⟩ hf h ha ho hpt
    obtain ⟨f1, rfl⟩ : ∃ f, f1 = f + 1 := ⟨f1 - 1, by omega⟩
    simp only [prune, A.f_inj ha hanc]
    split
    · exact .pure ⟨h, ho, hpt, rfl⟩
    · have hn := h.alt a ha
      have h1 : MSim R A (s2.setAlt a fun N => { N with children := [] }) (s1.setAlt (A.f a) fun N => { N with children := [] }) :=
        h.setAlt ha ⟨by rw [hn.eq]; rfl, hn.inner, hn.outer, hn.parent, Rn.Oks.nil⟩
      have hn1 := h1.alt a ha
      have ec : (s1.alt (A.f a)).children = A.l (s2.alt a).children := by rw [hn.eq]
      rw [ec]
      generalize (s2.setAlt a fun N => { N with children := [] }) = u2 at h1 hn1 ⊢
      generalize (s1.setAlt (A.f a) fun N => { N with children := [] }) = u1 at h1 hn1 ⊢
      rw [hn1.eq]
      refine (derefP_sim hn1.parent).bind ?_
      rintro ⟨p, pe⟩ _ ⟨hp, rfl⟩
      refine (deref_sim hn1.inner).bind ?_
      rintro inn _ ⟨hi, rfl⟩
      have hm := h1.alt p hp
      simp only at hp hm ⊢
      have ho' : (u1.alt (A.f p)).outer = R.f (u2.alt p).outer := by rw [hm.eq]
      rw [ho']
      have h2 := h1.setAlt hp (f2 := fun P => { P with children := eraseKid P.children a }) (f1 := fun P => { P with children := eraseKid P.children (A.f a) })
        ⟨by rw [hm.eq]; simp only [eraseKid_l hm.children ha], hm.inner, hm.outer, hm.parent, eraseKid_oks hm.children a⟩
      have hn2 := h2.alt a ha
      have h3 := (h2.setRalt hn2.outer Rn.Ok.none).setRalt hi Rn.Ok.none
      have h4 := h3.delAlt ha
      have eo : ((u1.setAlt (A.f p) fun P => { P with children := eraseKid P.children (A.f a) }).alt (A.f a)).outer =
          R.f ((u2.setAlt p fun P => { P with children := eraseKid P.children a }).alt a).outer := by rw [hn2.eq]
      rw [eo]
      have h5 := ih f1 _ _ p (orph ++ (s2.alt a).children, path ++ (if back then [(inn, (u2.alt a).i2o), ((u2.alt p).outer, pe.reversed)]
        else [((u2.alt a).outer, (u2.alt a).i2o.reversed), (inn, pe)])) (by omega) h4 hp (ho.append hn.children) (hpt.append (by
          intro x hx
          split at hx
          · simp only [List.mem_cons, List.not_mem_nil, or_false] at hx
            rcases hx with rfl | rfl
            · exact hi
            · exact hm.outer
          · simp only [List.mem_cons, List.not_mem_nil, or_false] at hx
            rcases hx with rfl | rfl
            · exact hn1.outer
            · exact hi))
      cases back with
      | true => simpa using h5
      | false => simpa using h5

theorem MSim.dropNode (h : MSim R A s2 s1) {a o : Nat} (ha : a < A.k) (ho : o < R.k) : MSim R A (dropNode s2 a o) (dropNode s1 (A.f a) (R.f o)) :=
  (h.setRalt ho Rn.Ok.none).delAlt ha

theorem MSim.shatterNode (h : MSim R A s2 s1) {a : Nat} (ha : a < A.k) : RelRes (MSim R A) (shatterNode g s2 a) (shatterNode g s1 (A.f a)) := by
  unfold SB.shatterNode
  have hn := h.alt a ha
  have ei : (s1.alt (A.f a)).inner = R.o (s2.alt a).inner := by rw [hn.eq]
  have eo : (s1.alt (A.f a)).outer = R.f (s2.alt a).outer := by rw [hn.eq]
  simp only
  rw [ei, eo]
  cases hi : (s2.alt a).inner with
  | none => exact .pure (h.dropNode ha hn.outer)
  | some inn =>
    have hin : inn < R.k := hn.inner _ hi
    simp only [Rn.o_some]
    have h1 : MSim R A (s2.setAlt a fun N => { N with parent := none }) (s1.setAlt (A.f a) fun N => { N with parent := none }) :=
      h.setAlt ha ⟨by rw [hn.eq]; rfl, hn.inner, hn.outer, Rn.OkP.none, hn.children⟩
    have ee : ((s1.setAlt (A.f a) fun N => { N with parent := none }).alt (A.f a)).i2o = ((s2.setAlt a fun N => { N with parent := none }).alt a).i2o := by
      rw [(h1.alt a ha).eq]
    rw [ee]
    have h2 := h1.addMatch hin hn.outer ((s2.setAlt a fun N => { N with parent := none }).alt a).i2o
    refine (h2.onFl (h2.fl.setFrozen (g := g) hin)).bind fun x y hxy => ?_
    refine (hxy.onFl (hxy.fl.setFrozen (g := g) hn.outer)).bind fun x y hxy => ?_
    exact .pure (((hxy.setRalt hin Rn.Ok.none).setRalt hn.outer Rn.Ok.none).dropNode ha hn.outer)

/-- The visit of the tree below `a` is complete. -/
def Stable (s : MS) (a : Nat) : Prop := ∀ f, s.altDepth ≤ f → descPost (altKids s) f a = descPost (altKids s) s.altDepth a

theorem descPost_map {R : Rn} {kids kids' : Nat → List Nat} (h : ∀ r < R.k, kids' (R.f r) = (kids r).map R.f) (hk : ∀ r < R.k, ∀ c ∈ kids r, c < R.k) :
    ∀ f r, r < R.k → descPost kids' f (R.f r) = (descPost kids f r).map R.f := by
  intro f
  induction f with
  | zero => intro r _; rfl
  | succ f ih =>
    intro r hr
    simp only [descPost, List.map_append, List.map_cons, List.map_nil, h r hr, List.flatMap_map, List.map_flatMap]
    congr 1
    exact List.flatMap_congr fun c hc => ih c (hk r hr c hc)

theorem MSim.kids (h : MSim R A s2 s1) {a : Nat} (ha : a < A.k) : altKids s1 (A.f a) = (altKids s2 a).map A.f := by
  unfold altKids
  rw [(h.alt a ha).eq]
  exact Rn.l_fst

theorem MSim.kids_lt (h : MSim R A s2 s1) : ∀ a < A.k, ∀ c ∈ altKids s2 a, c < A.k := by
  intro a ha c hc
  obtain ⟨x, hx, rfl⟩ := List.mem_map.1 hc
  exact (h.alt a ha).children x hx

theorem MSim.shatterTree (h : MSim R A s2 s1) {a : Nat} (ha : a < A.k) (hs : Stable s2 a) : RelRes (MSim R A) (shatterTree g s2 a) (shatterTree g s1 (A.f a)) := by
  unfold SB.shatterTree
  rw [descPost_map (fun r hr => h.kids hr) h.kids_lt _ a ha, hs _ h.altDepth]
  refine RelRes.foldlM (σ := MSim R A) ?_ (forall₂_map_left (D := fun x => x < A.k) ?_) h
  · rintro x y c _ hxy ⟨hc, rfl⟩
    exact hxy.shatterNode hc
  · intro x hx
    exact desc_lt h.kids_lt _ a ha x ((descPost_perm _ _ _).mem_iff.1 hx)

theorem shatterNode_kids {s s' : MS} {a : Nat} (e : shatterNode g s a = .ok s') : altKids s' = altKids s ∧ s'.altDepth = s.altDepth := by
  unfold SB.shatterNode at e
  cases hi : (s.alt a).inner with
  | none =>
    rw [hi] at e
    cases e
    exact ⟨rfl, rfl⟩
  | some inn =>
    rw [hi] at e
    simp only [MS.onFl] at e
    have hb : ∀ {x : Res FS} {f : FS → Res MS} {y : MS}, x.bind f = .ok y → ∃ z, x = .ok z ∧ f z = .ok y := by
      intro x f y h
      cases x with
      | ok z => exact ⟨z, rfl, h⟩
      | ub => cases h
      | throws => cases h
    have hb' : ∀ {x : Res MS} {f : MS → Res MS} {y : MS}, x.bind f = .ok y → ∃ z, x = .ok z ∧ f z = .ok y := by
      intro x f y h
      cases x with
      | ok z => exact ⟨z, rfl, h⟩
      | ub => cases h
      | throws => cases h
    obtain ⟨u, e1, e⟩ := hb' e
    obtain ⟨u', e2, e⟩ := hb' e
    obtain ⟨z, -, e1⟩ := hb e1
    obtain ⟨z', -, e2⟩ := hb e2
    cases e1
    cases e2
    cases e
    refine ⟨?_, rfl⟩
    funext b
    simp only [altKids, SB.dropNode, MS.setRalt, SB.addMatch, MS.setMate, MS.setAlt]
    by_cases eb : b = a
    · subst eb; simp
    · simp [Function.update_of_ne eb]

theorem shatterAll_kids (l : List Nat) : ∀ {s s' : MS}, l.foldlM (shatterNode g) s = .ok s' → altKids s' = altKids s ∧ s'.altDepth = s.altDepth := by
  induction l with
  | nil => intro s s' e; cases e; exact ⟨rfl, rfl⟩
  | cons a l ih =>
    intro s s' e
    rw [List.foldlM_cons] at e
    cases h1 : SB.shatterNode g s a with
    | ub => rw [h1] at e; cases e
    | throws => rw [h1] at e; cases e
    | ok u =>
      rw [h1] at e
      obtain ⟨k1, k2⟩ := shatterNode_kids h1
      obtain ⟨k3, k4⟩ := ih (s := u) e
      exact ⟨k3.trans k1, k4.trans k2⟩

theorem Stable.shatterTree {s s' : MS} {a b : Nat} (h : Stable s b) (e : shatterTree g s a = .ok s') : Stable s' b := by
  obtain ⟨h1, h2⟩ := shatterAll_kids _ e
  intro f hf
  rw [h1, h2]
  exact h f (by omega)

/-! ## Cases of the matcher -/

theorem MSim.treeHitsBoundary (h : MSim R A s2 s1) {r : Nat} (hr : r < R.k) (e : CompressedEdge)
    (hs : ∀ a s, s2.ralt r = some a → becomeRoot (s2.altDepth + 1) s2 a = .ok s → Stable s a) :
    RelRes (MSim R A) (treeHitsBoundary g s2 r e) (treeHitsBoundary g s1 (R.f r) e) := by
  unfold SB.treeHitsBoundary
  rw [(h.ralt r hr).1]
  refine (deref_sim (h.ralt r hr).2).bind' ?_
  rintro a _ e1 ⟨ha, rfl⟩
  have e1' : s2.ralt r = some a := by
    cases h2 : s2.ralt r with
    | none => rw [h2] at e1; cases e1
    | some b => rw [h2] at e1; cases e1; rfl
  refine (becomeRoot_sim _ _ _ _ a (by have := h.altDepth; omega) h ha).bind' fun x y e2 hxy => ?_
  refine (hxy.shatterTree ha (hs a x e1' e2)).bind fun x y hxy => ?_
  have h1 := hxy.setMate hr (m2 := ⟨none, e⟩) (m1 := ⟨none, e⟩) ⟨rfl, Rn.Ok.none⟩
  exact h1.onFl (h1.fl.setFrozen hr)

theorem deref_some {α : Type} {o : Option α} {a : α} (h : deref o = .ok a) : o = some a := by
  cases o with
  | none => cases h
  | some b => cases h; rfl

theorem MSim.treeHitsBoundaryMatch (h : MSim R A s2 s1) {r m : Nat} (hr : r < R.k) (hm : m < R.k) (e : CompressedEdge)
    (hs : ∀ u a s, (SB.addMatch s2 r m e).onFl (fun fl => setFrozen g fl r) = .ok u → u.ralt r = some a → becomeRoot (u.altDepth + 1) u a = .ok s → Stable s a) :
    RelRes (MSim R A) (treeHitsBoundaryMatch g s2 r m e) (treeHitsBoundaryMatch g s1 (R.f r) (R.f m) e) := by
  unfold SB.treeHitsBoundaryMatch
  have h1 := h.addMatch hr hm e
  refine (h1.onFl (h1.fl.setFrozen (g := g) hr)).bind' fun u u1 e0 h => ?_
  rw [(h.ralt r hr).1]
  refine (deref_sim (h.ralt r hr).2).bind' ?_
  rintro a _ e1 ⟨ha, rfl⟩
  refine (becomeRoot_sim _ _ _ _ a (by have := h.altDepth; omega) h ha).bind' fun x y e2 hxy => ?_
  exact hxy.shatterTree ha (hs u a x e0 (deref_some e1) e2)

theorem MSim.treeHitsTree (h : MSim R A s2 s1) {r1 r2 : Nat} (hr1 : r1 < R.k) (hr2 : r2 < R.k) (e : CompressedEdge)
    (hs : ∀ a1 a2 s s', s2.ralt r1 = some a1 → s2.ralt r2 = some a2 → becomeRoot (s2.altDepth + 1) s2 a1 = .ok s →
      becomeRoot (s.altDepth + 1) s a2 = .ok s' → Stable s' a1 ∧ Stable s' a2) :
    RelRes (MSim R A) (treeHitsTree g s2 r1 r2 e) (treeHitsTree g s1 (R.f r1) (R.f r2) e) := by
  unfold SB.treeHitsTree
  rw [(h.ralt r1 hr1).1, (h.ralt r2 hr2).1]
  refine (deref_sim (h.ralt r1 hr1).2).bind' ?_
  rintro a1 _ e1 ⟨ha1, rfl⟩
  refine (deref_sim (h.ralt r2 hr2).2).bind' ?_
  rintro a2 _ e2 ⟨ha2, rfl⟩
  refine (becomeRoot_sim _ _ _ _ a1 (by have := h.altDepth; omega) h ha1).bind' fun x y e3 hx => ?_
  refine (becomeRoot_sim _ _ _ _ a2 (by have := hx.altDepth; omega) hx ha2).bind' fun x' y' e4 hx' => ?_
  obtain ⟨k1, k2⟩ := hs a1 a2 x x' (deref_some e1) (deref_some e2) e3 e4
  refine (hx'.shatterTree ha1 k1).bind' fun z w e5 hz => ?_
  refine (hz.shatterTree ha2 (k2.shatterTree e5)).bind fun z w hz => ?_
  have h1 := hz.addMatch hr1 hr2 e
  refine (h1.onFl (h1.fl.setFrozen (g := g) hr1)).bind fun z w hz => ?_
  exact hz.onFl (hz.fl.setFrozen hr2)

/-- A new tree node. -/
theorem MSim.allocAlt (h : MSim R A s2 s1) {n2 n1 : ANode} (hn : ∀ A', A.Le A' → NSim R A' n2 n1) :
    ∃ A' : Rn, A.Le A' ∧ (s2.alts.alloc s2.alts.allocated.length).2 < A'.k ∧
      A'.f (s2.alts.alloc s2.alts.allocated.length).2 = (s1.alts.alloc s1.alts.allocated.length).2 ∧
      MSim R A' ({ s2 with alts := (s2.alts.alloc s2.alts.allocated.length).1 }.setAlt (s2.alts.alloc s2.alts.allocated.length).2 fun _ => n2)
        ({ s1 with alts := (s1.alts.alloc s1.alts.allocated.length).1 }.setAlt (s1.alts.alloc s1.alts.allocated.length).2 fun _ => n1) := by
  obtain ⟨A', hA, ha, hi, hf, hk⟩ := h.alts.alloc
  refine ⟨A', hA, hi, hf, h.fl, ?_, h.mate, ?_, ha⟩
  · intro i hik
    have := h.ralt i hik
    simp only [MS.setAlt]
    rw [hA.o this.2]
    exact ⟨this.1, hA.ok this.2⟩
  · intro a hak
    simp only [MS.setAlt]
    by_cases e : a = (s2.alts.alloc s2.alts.allocated.length).2
    · subst e
      rw [hf, Function.update_self, Function.update_self]
      exact hn A' hA
    · rw [Function.update_of_ne e, Function.update_of_ne (by rw [← hf]; exact fun e' => e (A'.inj _ hak _ hi e'))]
      have haA := (hk a hak).resolve_right e
      rw [hA.f a haA]
      exact (h.alt a haA).le (.refl R) hA

theorem MSim.makeChild (h : MSim R A s2 s1) {par inn out : Nat} (hp : par < A.k) (hi : inn < R.k) (ho : out < R.k) (i2o ce : CompressedEdge) :
    ∃ A', A.Le A' ∧ MSim R A' (makeChild s2 par inn out i2o ce).1 (makeChild s1 (A.f par) (R.f inn) (R.f out) i2o ce).1 ∧
      (makeChild s2 par inn out i2o ce).2 < A'.k ∧ A'.f (makeChild s2 par inn out i2o ce).2 = (makeChild s1 (A.f par) (R.f inn) (R.f out) i2o ce).2 := by
  unfold SB.makeChild
  obtain ⟨A', h1, h2, h3, h4⟩ := h.allocAlt (n2 := ⟨some inn, out, i2o, none, [], false⟩) (n1 := ⟨some (R.f inn), R.f out, i2o, none, [], false⟩)
    (fun A' _ => ⟨rfl, Rn.Ok.some hi, ho, Rn.OkP.none, Rn.Oks.nil⟩)
  refine ⟨A', h1, ?_, h2, h3⟩
  simp only
  rw [← h3] at h4 ⊢
  rw [← h1.f par hp]
  exact ((h4.setRalt hi (Rn.Ok.some h2)).setRalt ho (Rn.Ok.some h2)).addChild (lt_of_lt_of_le hp h1.k) h2 ce

theorem MSim.startInnerOuter (h : MSim R A s2 s1) {inn out : Nat} (hi : inn < R.k) (ho : out < R.k) :
    RelRes (MSim R A) (startInnerOuter g s2 inn out) (startInnerOuter g s1 (R.f inn) (R.f out)) :=
  h.onFl ((h.fl.setShrinking hi).setGrowing ho)

theorem MSim.treeHitsMatch (h : MSim R A s2 s1) {r m : Nat} (hr : r < R.k) (hm : m < R.k) (e : CompressedEdge) :
    RelRes (Ext R A) (treeHitsMatch g s2 r m e) (treeHitsMatch g s1 (R.f r) (R.f m) e) := by
  unfold SB.treeHitsMatch
  rw [(h.ralt r hr).1]
  refine (deref_sim (h.ralt r hr).2).bind ?_
  rintro a _ ⟨ha, rfl⟩
  have ht := h.mate m hm
  have er : (s1.mate (R.f m)).region = R.o (s2.mate m).region := by rw [ht.eq]
  have ee : (s1.mate (R.f m)).edge = (s2.mate m).edge := by rw [ht.eq]
  rw [er, ee]
  refine (deref_sim ht.region).bind ?_
  rintro o _ ⟨ho, rfl⟩
  obtain ⟨A', h1, h2, -, -⟩ := h.makeChild ha hm ho (s2.mate m).edge e
  have h3 := (h2.setMate ho TSim.none).setMate hm TSim.none
  refine (h3.startInnerOuter hm ho).mono fun x y hxy => ?_
  exact ⟨R, A', .refl R, h1, hxy⟩

theorem MSim.addChildren {anc : Nat} (l : List (Nat × CompressedEdge)) : ∀ {s2 s1 : MS}, MSim R A s2 s1 → anc < A.k → A.Oks l →
    MSim R A (l.foldl (fun s c => SB.addChild s anc c.1 c.2) s2) ((A.l l).foldl (fun s c => SB.addChild s (A.f anc) c.1 c.2) s1) := by
  induction l with
  | nil => intro s2 s1 h _ _; exact h
  | cons x l ih =>
    intro s2 s1 h ha hl
    simp only [List.foldl_cons, Rn.l_cons]
    exact ih (h.addChild ha (hl x (by simp)) x.2) ha fun y hy => hl y (by simp [hy])

theorem MSim.treeHitsSelf (h : MSim R A s2 s1) {r1 r2 anc : Nat} (hr1 : r1 < R.k) (hr2 : r2 < R.k) (hanc : anc < A.k) (e : CompressedEdge)
    (hb : ∀ a1 a2 u1 o1 q1 u2 o2 q2, s2.ralt r1 = some a1 → s2.ralt r2 = some a2 → prune anc true (s2.altDepth + 1) s2 a1 ([], []) = .ok (u1, (o1, q1)) →
      prune anc false (u1.altDepth + 1) u1 a2 ([], []) = .ok (u2, (o2, q2)) → BirthOk u2.fl (q2 ++ q1.reverse ++ [(r1, e)])) :
    RelRes (Ext R A) (treeHitsSelf g s2 r1 r2 e anc) (treeHitsSelf g s1 (R.f r1) (R.f r2) e (A.f anc)) := by
  unfold SB.treeHitsSelf
  rw [(h.ralt r1 hr1).1, (h.ralt r2 hr2).1]
  refine (deref_sim (h.ralt r1 hr1).2).bind' ?_
  rintro a1 _ e1 ⟨ha1, rfl⟩
  refine (deref_sim (h.ralt r2 hr2).2).bind' ?_
  rintro a2 _ e2 ⟨ha2, rfl⟩
  refine (prune_sim hanc true _ _ _ _ a1 ([], []) (by have := h.altDepth; omega) h ha1 Rn.Oks.nil Rn.Oks.nil).bind' ?_
  rintro ⟨u2, o1, q1⟩ ⟨u1, y⟩ e3 ⟨k1, k2, k3, k4⟩
  simp only at k1 k2 k3 k4
  subst k4
  refine (prune_sim hanc false _ _ _ _ a2 ([], []) (by have := k1.altDepth; omega) k1 ha2 Rn.Oks.nil Rn.Oks.nil).bind' ?_
  rintro ⟨v2, o2, q2⟩ ⟨v1, y⟩ e4 ⟨j1, j2, j3, j4⟩
  simp only at j1 j2 j3 j4
  subst j4
  have hb' := hb a1 a2 u2 o1 q1 v2 o2 q2 (deref_some e1) (deref_some e2) e3 e4
  have hn := j1.alt anc hanc
  have eo : (v1.alt (A.f anc)).outer = R.f (v2.alt anc).outer := by rw [hn.eq]
  simp only
  rw [eo]
  have h1 := j1.setRalt hn.outer Rn.Ok.none
  have hcyc : R.Oks (q2 ++ q1.reverse ++ [(r1, e)]) := by
    intro x hx
    simp only [List.mem_append, List.mem_reverse, List.mem_singleton] at hx
    rcases hx with (hx | hx) | rfl
    · exact j3 x hx
    · exact k3 x hx
    · exact hr1
  have el : R.l q2 ++ (R.l q1).reverse ++ [(R.f r1, e)] = R.l (q2 ++ q1.reverse ++ [(r1, e)]) := by simp [Rn.l]
  rw [el]
  refine (h1.createBlossom hcyc hb').bind ?_
  rintro ⟨w2, B⟩ ⟨w1, B'⟩ ⟨R', i1, i2, i3, i4⟩
  simp only at i2 i3 i4
  subst i4
  have hn := i2.alt anc hanc
  have h2 := i2.setAlt hanc (f2 := fun N => { N with outer := B }) (f1 := fun N => { N with outer := R'.f B })
    ⟨by rw [hn.eq], hn.inner, i3, hn.parent, hn.children⟩
  have h3 := h2.setRalt i3 (o := some anc) (Rn.Ok.some hanc)
  have h4 := MSim.addChildren (o1 ++ o2) h3 hanc (k2.append j2)
  rw [Rn.l_append] at h4
  exact .pure ⟨R', A, i1, .refl A, h4⟩

/-- The result of the loops that insert tree nodes. -/
def Ins (R A : Rn) (x y : MS × Nat × CompressedEdge) : Prop := ∃ A', A.Le A' ∧ MSim R A' x.1 y.1 ∧ x.2.1 < A'.k ∧ y.2 = (A'.f x.2.1, x.2.2)

theorem insertEven_sim {cyc : List (Nat × CompressedEdge)} (hc : R.Oks cyc) : ∀ n (A : Rn) (s2 s1 : MS) i cur ce, MSim R A s2 s1 → cur < A.k →
    RelRes (Ins R A) (insertEven g cyc n s2 i cur ce) (insertEven g (R.l cyc) n s1 i (A.f cur) ce) := by
  intro n
  induction n with
  | zero => intro A s2 s1 i cur ce h hcur; exact .pure ⟨A, .refl A, h, hcur, rfl⟩
  | succ n ih =>
    intro A s2 s1 i cur ce h hcur
    simp only [insertEven, Rn.l_length, Rn.l_get]
    refine (derefP_sim hc.get).bind ?_
    rintro ⟨r1, e1⟩ _ ⟨hr1, rfl⟩
    refine (derefP_sim hc.get).bind ?_
    rintro ⟨r2, e2⟩ _ ⟨hr2, rfl⟩
    simp only at hr1 hr2 ⊢
    obtain ⟨A', h1, h2, h3, h4⟩ := h.makeChild hcur hr1 hr2 e1 ce
    rw [← h4]
    refine (h2.startInnerOuter hr1 hr2).bind fun x y hxy => ?_
    refine (ih A' x y (i + 2) _ e2 hxy h3).mono ?_
    rintro p q ⟨A2, k1, k2, k3, k4⟩
    exact ⟨A2, h1.trans k1, k2, k3, k4⟩

theorem insertOdd_sim {cyc : List (Nat × CompressedEdge)} (hc : R.Oks cyc) (pidx : Nat) : ∀ n (A : Rn) (s2 s1 : MS) i cur ce, MSim R A s2 s1 → cur < A.k →
    RelRes (Ins R A) (insertOdd g cyc pidx n s2 i cur ce) (insertOdd g (R.l cyc) pidx n s1 i (A.f cur) ce) := by
  intro n
  induction n with
  | zero => intro A s2 s1 i cur ce h hcur; exact .pure ⟨A, .refl A, h, hcur, rfl⟩
  | succ n ih =>
    intro A s2 s1 i cur ce h hcur
    simp only [insertOdd, Rn.l_length, Rn.l_get]
    refine (derefP_sim hc.get).bind ?_
    rintro ⟨r1, e1⟩ _ ⟨hr1, rfl⟩
    refine (derefP_sim hc.get).bind ?_
    rintro ⟨r2, e2⟩ _ ⟨hr2, rfl⟩
    refine (derefP_sim hc.get).bind ?_
    rintro ⟨r3, e3⟩ _ ⟨hr3, rfl⟩
    simp only at hr1 hr2 ⊢
    obtain ⟨A', h1, h2, h3, h4⟩ := h.makeChild hcur hr1 hr2 e2.reversed ce
    rw [← h4]
    refine (h2.startInnerOuter hr1 hr2).bind fun x y hxy => ?_
    refine (ih A' x y (i + 2) _ e3.reversed hxy h3).mono ?_
    rintro p q ⟨A2, k1, k2, k3, k4⟩
    exact ⟨A2, h1.trans k1, k2, k3, k4⟩

theorem matchEvens_sim {cyc : List (Nat × CompressedEdge)} (hc : R.Oks cyc) : ∀ n (s2 s1 : MS) j, MSim R A s2 s1 →
    RelRes (MSim R A) (matchEvens g cyc n s2 j) (matchEvens g (R.l cyc) n s1 j) := by
  intro n
  induction n with
  | zero => intro s2 s1 j h; exact .pure h
  | succ n ih =>
    intro s2 s1 j h
    simp only [matchEvens, Rn.l_length, Rn.l_get]
    refine (derefP_sim hc.get).bind ?_
    rintro ⟨r1, e1⟩ _ ⟨hr1, rfl⟩
    refine (derefP_sim hc.get).bind ?_
    rintro ⟨r2, e2⟩ _ ⟨hr2, rfl⟩
    simp only at hr1 hr2 ⊢
    have h1 := h.addMatch hr1 hr2 e1
    refine (h1.onFl (by rw [h1.fl.area hr1]; exact h1.fl.rescheduleAll (g := g) _)).bind fun x y hxy => ?_
    refine (hxy.onFl (by rw [hxy.fl.area hr2]; exact hxy.fl.rescheduleAll (g := g) _)).bind fun x y hxy => ?_
    exact ih x y (j + 2) hxy

theorem MSim.blossomShatters (h : MSim R A s2 s1) {B p c : Nat} (hB : B < R.k) (hp : p < R.k) (hc : c < R.k) :
    RelRes (Ext R A) (blossomShatters g s2 B p c) (blossomShatters g s1 (R.f B) (R.f p) (R.f c)) := by
  unfold SB.blossomShatters
  have h0 : RelRes (FSim R) ((kidsOf s2.fl B).foldlM clearParent s2.fl) ((kidsOf s1.fl (R.f B)).foldlM clearParent s1.fl) := by
    rw [h.fl.kids hB]
    refine RelRes.foldlM (σ := FSim R) ?_ (forall₂_map_left (D := fun x => x < R.k) (h.fl.kids_lt B hB)) h.fl
    rintro x y c _ hxy ⟨hc, rfl⟩
    exact hxy.clearParent hc
  refine (h.onFl (f2 := fun fl => (kidsOf fl B).foldlM clearParent fl) (f1 := fun fl => (kidsOf fl (R.f B)).foldlM clearParent fl) h0).bind fun x y h => ?_
  have hg := h.fl.reg B hB
  have hcyc := hg.children
  have ecyc : (y.fl.reg (R.f B)).children = R.l (x.fl.reg B).children := by rw [hg.eq]
  simp only
  rw [ecyc]
  generalize (x.fl.reg B).children = cyc at hcyc ecyc ⊢
  have h1 := h.withFl (h.fl.setReg hB (f2 := fun G => { G with children := [] }) (f1 := fun G => { G with children := [] })
    ⟨by rw [hg.eq]; rfl, hg.parent, hg.top, Rn.Oks.nil⟩ (by simp))
  generalize ({ x with fl := x.fl.setReg B fun G => { G with children := [] } } : MS) = u2 at h1 ⊢
  generalize ({ y with fl := y.fl.setReg (R.f B) fun G => { G with children := [] } } : MS) = u1 at h1 ⊢
  rw [(h.ralt B hB).1]
  refine (deref_sim (h.ralt B hB).2).bind ?_
  rintro ba _ ⟨hba, rfl⟩
  have hn := h.alt ba hba
  have ep : (y.alt (A.f ba)).parent = A.p (x.alt ba).parent := by rw [hn.eq]
  rw [ep, Rn.l_length, lastIdx_l hcyc hp, lastIdx_l hcyc hc]
  refine (derefP_sim hn.parent).bind ?_
  rintro ⟨cur, pe⟩ _ ⟨hcur, rfl⟩
  simp only at hcur ⊢
  have hm := h1.alt cur hcur
  have h2 := h1.setAlt hcur (f2 := fun P => { P with children := eraseKid P.children ba }) (f1 := fun P => { P with children := eraseKid P.children (A.f ba) })
    ⟨by rw [hm.eq]; simp only [eraseKid_l hm.children hba], hm.inner, hm.outer, hm.parent, eraseKid_oks hm.children ba⟩
  generalize (u2.setAlt cur fun P => { P with children := eraseKid P.children ba }) = v2 at h2 ⊢
  generalize (u1.setAlt (A.f cur) fun P => { P with children := eraseKid P.children (A.f ba) }) = v1 at h2 ⊢
  have h3 : ∀ m1 m2 : Nat, RelRes (fun a b => Ins R A a.1 b.1 ∧ a.2 = b.2)
      (if m1 % 2 = 0 then (insertEven g cyc ((m1 + 1) / 2) v2 (lastIdx cyc p) cur pe.reversed).bind fun z => .ok (z, lastIdx cyc c + 1, lastIdx cyc c + cyc.length - m1)
        else (insertOdd g cyc (lastIdx cyc p) ((cyc.length - m1 + 1) / 2) v2 0 cur pe.reversed).bind fun z => .ok (z, lastIdx cyc p + 1, lastIdx cyc p + m1))
      (if m1 % 2 = 0 then (insertEven g (R.l cyc) ((m1 + 1) / 2) v1 (lastIdx cyc p) (A.f cur) pe.reversed).bind fun z => .ok (z, lastIdx cyc c + 1, lastIdx cyc c + cyc.length - m1)
        else (insertOdd g (R.l cyc) (lastIdx cyc p) ((cyc.length - m1 + 1) / 2) v1 0 (A.f cur) pe.reversed).bind fun z => .ok (z, lastIdx cyc p + 1, lastIdx cyc p + m1)) := by
    intro m1 _
    split
    · refine (insertEven_sim hcyc _ A _ _ _ _ _ h2 hcur).bind fun a b hab => ?_
      exact .pure ⟨hab, rfl⟩
    · refine (insertOdd_sim hcyc _ _ A _ _ _ _ _ h2 hcur).bind fun a b hab => ?_
      exact .pure ⟨hab, rfl⟩
  refine (h3 _ 0).bind ?_
  rintro ⟨⟨w2, cur2, ce2⟩, es, ee⟩ ⟨⟨w1, z⟩, es', ee'⟩ ⟨⟨A', k1, k2, k3, k4⟩, k5⟩
  simp only at k2 k3 k4 k5
  subst k4
  cases k5
  simp only
  refine (matchEvens_sim hcyc _ _ _ _ k2).bind fun w2 w1 hw => ?_
  rw [Rn.l_get]
  refine (derefP_sim hcyc.get).bind ?_
  rintro ⟨rc, e⟩ _ ⟨hrc, rfl⟩
  simp only at hrc ⊢
  have hba' : ba < A'.k := lt_of_lt_of_le hba k1.k
  have hn := hw.alt ba hba'
  rw [← k1.f ba hba]
  have i1 := hw.setAlt hba' (f2 := fun N => { N with inner := some rc }) (f1 := fun N => { N with inner := some (R.f rc) })
    ⟨by rw [hn.eq]; rfl, Rn.Ok.some hrc, hn.outer, hn.parent, hn.children⟩
  have i2 := i1.withFl (i1.fl.setShrinking hrc)
  have i3 := i2.setRalt hrc (o := some ba) (Rn.Ok.some hba')
  have i4 := i3.addChild k3 hba' ce2
  exact .pure ⟨R, A', .refl R, k1, i4.withFl (i4.fl.del hB)⟩

end

end Verif.SB
