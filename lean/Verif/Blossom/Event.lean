import Verif.Blossom.Self

/-!
# Regions that hit regions, and inner regions that shrink to nothing
-/

namespace Verif.SB

open Verif Verif.Graph Verif.CE Verif.Mem Verif.Spec
open Verif.Sch (Res)

variable {V : View} {A : Finset Nat} {ach : Nat → List Nat}
variable {g : MGraph} {T L : Finset Nat} {ch : Nat → List Nat} {t : Int} {X Y : Nat → Prop}

/-- A node with an inner region has a parent. -/
theorem MPre.parent {s : MS} (h : MPre V s A ach) {a i : Nat} (ha : a ∈ A) (hi : (s.alt a).inner = some i) :
    ∃ p e, (s.alt a).parent = some (p, e.reversed) ∧ p ∈ A ∧ p ≠ a ∧ (a, e) ∈ (s.alt p).children ∧ V.lk e (s.alt p).outer i ∧ ach a = a :: ach p := by
  cases hp : (s.alt a).parent with
  | none => have := h.shape.root a ha (by simp) hp; rw [hi] at this; cases this
  | some pe =>
    obtain ⟨p, pe⟩ := pe
    have hep : epar s.alt ∅ a = some p := by simp [epar, hp]
    obtain ⟨hpA, hch⟩ := h.shape.forest.step a ha p hep
    obtain ⟨⟨c, e⟩, hce, hc⟩ := List.mem_map.1 ((h.shape.kids.mem p hpA a).2 ⟨ha, hep⟩)
    simp only at hc
    subst hc
    have h5 := h.shape.edge p hpA c e hce
    rw [hp, Option.some.injEq, Prod.mk.injEq] at h5
    obtain ⟨-, rfl⟩ := h5
    obtain ⟨i', h6, h7⟩ := h.shape.link p hpA c e hce
    rw [hi, Option.some.injEq] at h6
    subst h6
    refine ⟨p, e, rfl, hpA, ?_, hce, h7, hch⟩
    rintro rfl
    have := h.shape.forest.nodup ha
    rw [hch] at this
    exact (List.nodup_cons.1 this).1 (h.shape.forest.self_mem ha)

theorem MPre.visEq {s : MS} (h : MPre V s A ach) {alt' : Nat → ANode} (hv : VisEq s.alt alt') : MPre V { s with alt := alt' } A ach := by
  have hnr : ∀ x, nregs alt' x = nregs s.alt x := fun x => by unfold nregs; rw [(hv x).1, (hv x).2.1]
  refine ⟨?_, ?_, ?_, ?_, h.arena⟩
  · exact h.nodes.congr (fun a _ => (hv a).2.1) (fun a _ => (hv a).1) (fun a _ => (hv a).2.2.1) (fun _ _ _ _ ht => ⟨ht, rfl⟩) (fun _ _ _ h => h)
      (fun _ _ => rfl) (fun _ _ h => h)
  · exact h.shape.congr (fun a _ => (hv a).2.2.2.1) (fun a _ => (hv a).2.2.2.2)
      (fun a _ c _ _ e i _ hi hl => ⟨i, by rw [(hv c).1]; exact hi, by rw [(hv a).2.1]; exact hl⟩) (fun a _ _ _ hi => by rw [(hv a).1]; exact hi)
  · exact h.tops.nodes (fun a ha r hr => ⟨a, ha, by rw [hnr]; exact hr⟩)
  · intro a ha i hi
    exact h.ptr a ha i (by rw [← (hv a).1]; exact hi)

/-- Two growing regions of trees meet. -/
theorem treesMeet_spec (hg : Proper g) {s : MS} (h : SOk g T L ch t Y s A ach) {a1 a2 : Nat} {e : CompressedEdge} (ha1 : a1 ∈ A) (ha2 : a2 ∈ A) (hne : a1 ≠ a2)
    (hlk : (view g T L ch t s.fl).lk e (s.alt a1).outer (s.alt a2).outer)
    (hY1 : Forest.rootOf ach a1 ≠ Forest.rootOf ach a2 → ∀ x, ¬ Y x)
    (hY2 : ∀ c p1 p2 rest, Meet ach a1 a2 c p1 p2 rest → ∀ x, Y x → ∃ b ∈ p1 ++ p2, x ∈ nregs s.alt b) :
    ∃ s' L' ch' A' ach', regionHitsRegion g s (s.alt a1).outer (s.alt a2).outer e = .ok s' ∧ SOk g T L' ch' t (fun _ => False) s' A' ach' ∧
      Prog (view g T L ch t s.fl) (view g T L' ch' t s'.fl) s.alt s'.alt A A' L L' := by
  obtain ⟨alt', hv, hres⟩ := mrca_spec s h.m.shape.forest ha1 ha2 hne h.m.arena.card_le h.m.clean
  have hM := h.m.toMPre.visEq hv
  have hr1 := (h.m.nodes.outer a1 ha1).2
  have hr2 := (h.m.nodes.outer a2 ha2).2
  generalize hs1 : ({ s with alt := alt' } : MS) = s1 at hres hM
  have hfl1 : s1.fl = s.fl := by rw [← hs1]
  have halt1 : s1.alt = alt' := by rw [← hs1]
  have ho : ∀ x, (s.alt x).outer = (s1.alt x).outer := fun x => by rw [halt1, (hv x).2.1]
  have hnr : ∀ x, nregs s.alt x = nregs s1.alt x := fun x => by unfold nregs; rw [halt1, (hv x).1, (hv x).2.1]
  have hFl := h.fl
  have hregs := h.regs
  have hcyc := h.cyc
  rw [← hfl1] at hFl hregs hcyc hM hlk
  have hprog : ∀ {V V' : View} {alt2 : Nat → ANode} {A' L L' : Finset Nat}, Prog V V' s1.alt alt2 A A' L L' → Prog V V' s.alt alt2 A A' L L' := by
    intro V V' alt2 A' L L' hp
    have : Roots s1.alt A = Roots s.alt A := by
      unfold Roots
      refine Finset.filter_congr fun x _ => ?_
      rw [halt1, (hv x).1]
    unfold Prog at hp ⊢
    rw [this] at hp
    exact hp
  rcases hres with ⟨em, hroot, hvis⟩ | ⟨c, p1, p2, rest, em, hmeet, hvis⟩
  · obtain ⟨s', A', ach', e1, h1, hpr⟩ := treeHitsTree_spec hg hFl hregs hcyc hM (e := e) ha1 ha2 hroot (by
      intro x hx h1 h2
      rw [halt1]
      by_contra h3
      rw [Bool.not_eq_false] at h3
      rcases (hvis x hx).1 h3 with h4 | h4
      · exact h1 (h.m.shape.forest.rootOf_chain ha1 h4)
      · exact h2 (h.m.shape.forest.rootOf_chain ha2 h4)) (by rw [← ho, ← ho]; exact hlk)
    refine ⟨s', L, ch, A', ach', ?_, ⟨h1.fl.weaken (fun _ _ _ h => h) (fun r _ _ _ => by simp [hY1 hroot r]), h1.regs, h1.cyc, h1.m⟩,
      by rw [← hfl1]; exact hprog hpr⟩
    unfold regionHitsRegion
    rw [hr1, hr2]
    show (mrca s a1 a2).bind _ = _
    rw [em, ho, ho]
    exact e1
  · obtain ⟨s', L', ch', A', ach', e1, h1, hpr⟩ := treeHitsSelf_spec hg hFl hregs hcyc hM (e := e) ha1 ha2 hne hmeet (by
      intro x hx h1
      rw [halt1]
      by_contra h3
      rw [Bool.not_eq_false] at h3
      exact h1 (List.mem_append.2 ((hvis x hx).1 h3))) (by rw [← ho, ← ho]; exact hlk) (by
      intro x hx
      obtain ⟨b, hb, hxb⟩ := hY2 c p1 p2 rest hmeet x hx
      exact ⟨b, hb, by rw [← hnr]; exact hxb⟩)
    refine ⟨s', L', ch', A', ach', ?_, h1, by rw [← hfl1]; exact hprog hpr⟩
    unfold regionHitsRegion
    rw [hr1, hr2]
    show (mrca s a1 a2).bind _ = _
    rw [em, ho, ho]
    exact e1

/-- `handle_region_hit_region` -/
theorem regionHitsRegion_spec (hg : Proper g) {s : MS} (h : SOk g T L ch t (fun _ => False) s A ach) {r1 r2 : Nat} {e : CompressedEdge}
    (hne : r1 ≠ r2) (h1 : (view g T L ch t s.fl).top r1) (h2 : (view g T L ch t s.fl).top r2) (hs1 : sl s.fl r1 ≠ -1) (hs2 : sl s.fl r2 ≠ -1)
    (hs : sl s.fl r1 + sl s.fl r2 ≠ 0) (hlk : (view g T L ch t s.fl).lk e r1 r2) :
    ∃ s' L' ch' A' ach', regionHitsRegion g s r1 r2 e = .ok s' ∧ SOk g T L' ch' t (fun _ => False) s' A' ach' ∧
      Prog (view g T L ch t s.fl) (view g T L' ch' t s'.fl) s.alt s'.alt A A' L L' := by
  have c1 := h.fl.geo.slope_cases h1.1
  have c2 := h.fl.geo.slope_cases h2.1
  by_cases g1 : sl s.fl r1 = 1
  · obtain ⟨a1, ha1, ho1, hra1⟩ := h.m.grower h1 g1
    by_cases g2 : sl s.fl r2 = 1
    · obtain ⟨a2, ha2, ho2, hra2⟩ := h.m.grower h2 g2
      subst ho1; subst ho2
      exact treesMeet_spec hg h ha1 ha2 (fun e => hne (by rw [e])) hlk (fun _ _ h => h) (fun _ _ _ _ _ _ h => h.elim)
    · have g2' : sl s.fl r2 = 0 := by omega
      have hM := h.m.frozen h2 g2'
      unfold regionHitsRegion
      rw [hra1, hM.free]
      cases ho : (s.mate r2).region with
      | some o =>
        obtain ⟨s', A', ach', e1, h1⟩ := treeHitsMatch_spec hg h h1 g1 h2 g2' ho hlk (fun _ h => h)
        exact ⟨s', L, ch, A', ach', by simp only [ho]; exact e1, h1⟩
      | none =>
        obtain ⟨s', A', ach', e1, h1⟩ := treeHitsBoundaryMatch_spec hg h h1 g1 h2 g2' ho hlk
        exact ⟨s', L, ch, A', ach', by simp only [ho]; exact e1, h1⟩
  · have g1' : sl s.fl r1 = 0 := by omega
    have g2 : sl s.fl r2 = 1 := by omega
    have hlk' := view_sym hg _ _ _ hlk
    have hM := h.m.frozen h1 g1'
    unfold regionHitsRegion
    rw [hM.free]
    cases ho : (s.mate r1).region with
    | some o =>
      obtain ⟨s', A', ach', e1, h1⟩ := treeHitsMatch_spec hg h h2 g2 h1 g1' ho hlk' (fun _ h => h)
      exact ⟨s', L, ch, A', ach', by simp only [ho]; exact e1, h1⟩
    | none =>
      obtain ⟨s', A', ach', e1, h1⟩ := treeHitsBoundaryMatch_spec hg h h2 g2 h1 g1' ho hlk'
      exact ⟨s', L, ch, A', ach', by simp only [ho]; exact e1, h1⟩

/-- The event of a leaf region. -/
theorem BGeo.leaf_event {s : FS} (h : BGeo g T L ch t s) {r a : Nat} (hr : r ∈ L) (hk : (s.reg r).children = []) (ha : a ∈ T) (hin : InR s ch r a) :
    (s.node a).arr = some r ∧ ∃ l, (s.reg r).shell = a :: l ∧ (s.node a).rho = 0 := by
  obtain ⟨q, hq, hrq⟩ := hin
  obtain ⟨r0, l, e1, e2, e3, e4, -⟩ := h.event a ha
  rw [hq, Option.some.injEq] at e1
  subst e1
  have hqL := (h.occ a q hq).1
  by_cases e : r = q
  · subst e; exact ⟨hq, l, e3, e4⟩
  · obtain ⟨c, -, hcL, hc⟩ := h.forest.via_child hqL hrq e
    have := (h.kids.mem r hr c).2 ⟨hcL, hc⟩
    unfold kidsOf at this
    rw [hk] at this
    simp at this

/-- Two tight edges out of a leaf region of radius zero form a tight edge. -/
theorem Link.through (hg : Proper g) {s : FS} (h : BGeo g T L ch t s) {r r1 r2 : Nat} {e1 e2 : CompressedEdge} (hr : r ∈ L) (hp : par s r = none)
    (hk : (s.reg r).children = []) (hy : y s t r = 0) (h1 : r1 ∈ L) (hp1 : par s r1 = none) (h2 : r2 ∈ L) (hp2 : par s r2 = none)
    (hn1 : r1 ≠ r) (hn2 : r2 ≠ r) (hn : r1 ≠ r2)
    (hl1 : Link g T L ch t s e1 r r1) (hl2 : Link g T L ch t s e2 r r2) :
    Link g T L ch t s ⟨e1.locTo, e2.locTo, e2.obsMask ^^^ e1.obsMask⟩ r1 r2 := by
  obtain ⟨a, b, i1, i2, i3, i4, i5, i6, es, i7, i8, i9⟩ := hl1
  obtain ⟨a', b', j1, j2, j3, j4, j5, j6, fs, j7, j8, j9⟩ := hl2
  obtain ⟨k1, l, k2, k3⟩ := h.leaf_event hr hk i3 i5
  obtain ⟨m1, l', m2, m3⟩ := h.leaf_event hr hk j3 j5
  rw [k2, List.cons.injEq] at m2
  obtain ⟨rfl, -⟩ := m2
  obtain ⟨es', w1, w2, w3⟩ := walk_reverse hg i7
  have ta := (h.inR_iff hr hp).1 i5
  have tb := (h.inR_iff h1 hp1).1 i6
  have tb' := (h.inR_iff h2 hp2).1 j6
  have hra : rad s L ch t a = 0 := by
    rw [h.rad_chain k1, h.chain_root hr hp, k3]
    simp [hy]
  refine ⟨b, b', i2, j2, i4, j4, i6, j6, es' ++ fs, walk_append w1 j7, ?_, ?_⟩
  · rw [totalWeight_append, w2, i8, j8, h.D_apart (.inr (by rw [ta, tb]; simpa using Ne.symm hn1)), h.D_apart (.inr (by rw [ta, tb']; simpa using Ne.symm hn2)),
      h.D_apart (.inr (by rw [tb, tb']; simpa using hn)), hra]
    omega
  · rw [totalObs_append, w3, i9, j9, BitVec.xor_comm]

/-- `do_degenerate_implosion` and the blossom it leads to. -/
theorem implosion_spec (hg : Proper g) {s : MS} {r : Nat} (h : SOk g T L ch t (fun x => x = r) s A ach) (hr : (view g T L ch t s.fl).top r)
    (hsl : sl s.fl r = -1) (hk : (s.fl.reg r).children = []) (hy : y s.fl t r = 0) :
    ∃ ev s' L' ch' A' ach', implosion s r = .ok ev ∧ processEvent g s ev = .ok s' ∧ SOk g T L' ch' t (fun _ => False) s' A' ach' ∧
      Prog (view g T L ch t s.fl) (view g T L' ch' t s'.fl) s.alt s'.alt A A' L L' := by
  obtain ⟨a, ha, hi, hra⟩ := h.m.shrinker hr hsl
  obtain ⟨p, e, hp, hpA, hpa, hce, hlk, hch⟩ := h.m.parent ha hi
  have hor := (h.m.nodes.outer a ha).1
  have hop := (h.m.nodes.outer p hpA).1
  have hnr : ∀ x ∈ A, (s.alt x).outer ≠ r := by
    rintro x hx rfl
    exact h.m.nodes.up x hx hsl
  have hne : (s.alt p).outer ≠ (s.alt a).outer := fun e => hpa (h.m.nodes.outer_inj hpA ha e)
  have hl2 := Link.through hg h.fl.geo.toBGeo hr.1 hr.2 hk hy hop.1 hop.2 hor.1 hor.2 (hnr p hpA) (hnr a ha) hne (view_sym hg _ _ _ hlk)
    (h.m.nodes.inner a ha r hi).2.2
  have hF := h.m.shape.forest
  obtain ⟨s', L', ch', A', ach', e1, h1⟩ := treesMeet_spec hg h hpA ha hpa hl2
    (fun hroot => absurd (hF.rootOf_chain ha (by rw [hch]; exact List.mem_cons_of_mem _ (hF.self_mem hpA))) hroot) (by
    intro c p1 p2 rest hm x hx
    subst hx
    refine ⟨a, ?_, mem_nregs.2 (.inr hi)⟩
    have h5 := hm.right
    rw [hch, hm.left] at h5
    cases p2 with
    | nil =>
      rw [List.nil_append, List.cons.injEq] at h5
      obtain ⟨rfl, h6⟩ := h5
      have := congrArg List.length h6
      simp only [List.length_append, List.length_cons] at this
      omega
    | cons z p2 =>
      rw [List.cons_append, List.cons.injEq] at h5
      rw [h5.1]; simp)
  refine ⟨.hitRegion _ _ _, s', L', ch', A', ach', ?_, e1, h1⟩
  unfold implosion
  rw [hra]
  show (deref (s.alt a).parent).bind _ = _
  rw [hp]
  rfl

end Verif.SB
