import Verif.Blossom.Event

/-!
# Placing the children of a dissolved blossom
-/

namespace Verif.SB

open Verif Verif.Graph Verif.CE Verif.Mem Verif.Spec
open Verif.Sch (Res)

variable {V : View} {A : Finset Nat} {ach : Nat → List Nat}
variable {g : MGraph} {T L : Finset Nat} {ch : Nat → List Nat} {t : Int} {X Y : Nat → Prop}

/-- While a blossom is taken apart: `W` lists the children not yet placed, `ba` is the node of the blossom, detached from its parent and without a valid
inner region, `o` and `eo` are its outer region and the edge to it; apart from slopes the view is `V`, growing
regions of `V` still grow; the roots are among `Q`. -/
structure Mid (g : MGraph) (T L : Finset Nat) (ch : Nat → List Nat) (t : Int) (V : View) (R : Arena) (Q : Finset Nat) (ba o : Nat) (eo : CompressedEdge) (W : List Nat) (s : MS)
    (A : Finset Nat) (ach : Nat → List Nat) : Prop where
  fl : FOk g T L ch t (fun x => x ∈ W) (fun _ => False) s.fl
  vw : view g T L ch t s.fl = { V with sl := sl s.fl }
  regs : s.fl.regs = R
  nodes : Nodes (view g T L ch t s.fl) s.alt s.ralt (A.erase ba) (fun _ => False)
  shape : Shape (view g T L ch t s.fl) s.alt A ach {ba}
  tops : Tops (view g T L ch t s.fl) s.alt s.ralt s.mate (A.erase ba) (fun x => x ∈ W ∨ x = o)
  ptr : ∀ a ∈ A.erase ba, ∀ i, (s.alt a).inner = some i → s.ralt i = some a
  arena : AInv A s.alts
  clean : ∀ a ∈ A, (s.alt a).visited = false
  mem : ba ∈ A
  node : (s.alt ba).outer = o ∧ (s.alt ba).i2o = eo
  outer : V.top o ∧ sl s.fl o = 1 ∧ s.ralt o = some ba
  free : ∀ x ∈ W, V.top x ∧ sl s.fl x = 0 ∧ s.ralt x = none ∧ V.ev x
  sep : ∀ x, V.top x → x ∉ W → sl s.fl x = 0 → s.ralt x = none → ∀ y, (s.mate x).region = some y → y ∉ W
  grew : ∀ x, V.sl x = 1 → sl s.fl x = 1
  roots : Roots s.alt A ⊆ Q

variable {R : Arena} {Q : Finset Nat} {ba o : Nat} {eo : CompressedEdge} {W : List Nat} {s : MS}

theorem Mid.top (h : Mid g T L ch t V R Q ba o eo W s A ach) : (view g T L ch t s.fl).top = V.top := by rw [h.vw]

theorem Mid.lk (h : Mid g T L ch t V R Q ba o eo W s A ach) : (view g T L ch t s.fl).lk = V.lk := by rw [h.vw]

theorem Mid.ev (h : Mid g T L ch t V R Q ba o eo W s A ach) : (view g T L ch t s.fl).ev = V.ev := by rw [h.vw]

/-- Two children become a new node. -/
theorem Mid.grow (hg : Proper g) {r1 r2 : Nat} (h : Mid g T L ch t V R Q ba o eo (r1 :: r2 :: W) s A ach) (hnd : (r1 :: r2 :: W).Nodup) {cur : Nat}
    {ce i2o : CompressedEdge} (hcur : cur ∈ A) (hcb : cur ≠ ba) (hch : ba ∉ ach cur) (hlk : V.lk ce (s.alt cur).outer r1) (hlk2 : V.lk i2o r1 r2) :
    ∃ s1 s' c A' ach', makeChild s cur r1 r2 i2o ce = (s1, c) ∧ startInnerOuter g s1 r1 r2 = .ok s' ∧ Mid g T L ch t V R Q ba o eo W s' A' ach' ∧
      c ∈ A' ∧ c ≠ ba ∧ ba ∉ ach' c ∧ (s'.alt c).outer = r2 := by
  obtain ⟨hn1, hnd'⟩ := List.nodup_cons.1 hnd
  obtain ⟨hn2, -⟩ := List.nodup_cons.1 hnd'
  have hr12 : r1 ≠ r2 := fun e => hn1 (by rw [e]; simp)
  have hn1' : r1 ∉ W := fun hm => hn1 (List.mem_cons_of_mem _ hm)
  obtain ⟨f1, f2, f3, f4⟩ := h.free r1 (by simp)
  obtain ⟨g1, g2, g3, g4⟩ := h.free r2 (by simp)
  have hcN : cur ∈ A.erase ba := Finset.mem_erase.2 ⟨hcb, hcur⟩
  obtain ⟨ar, c, f', hal, hcA, hac, e2, hF2, hr2, hv2, hA2, hN2, ⟨ach', hS2, hc1, hc2⟩, hne⟩ := makeChild_spec hg h.fl h.nodes h.shape (Finset.erase_subset _ _) h.arena
    (Finset.singleton_subset_iff.2 h.mem) hcN (by intro z hz; rw [Finset.mem_singleton]; rintro rfl; exact hch hz) (i2o := i2o) (ce := ce)
    ⟨by rw [h.top]; exact f1, f2, f3, by rw [h.ev]; exact f4⟩ ⟨by rw [h.top]; exact g1, g2, g3, by rw [h.ev]; exact g4⟩ hr12
    (by rw [h.lk]; exact hlk) (by rw [h.lk]; exact hlk2)
  have hcba : c ≠ ba := fun e => hcA (e ▸ h.mem)
  have hsl' : sl f' = Function.update (Function.update (sl s.fl) r1 (-1)) r2 1 := congrArg View.sl hv2
  have hslx : ∀ x, x ≠ r1 → x ≠ r2 → sl f' x = sl s.fl x := fun x q1 q2 => by rw [hsl', Function.update_of_ne q2, Function.update_of_ne q1]
  have hralx : ∀ x, x ≠ r1 → x ≠ r2 → Function.update (Function.update s.ralt r1 (some c)) r2 (some c) x = s.ralt x :=
    fun x q1 q2 => by rw [Function.update_of_ne q2, Function.update_of_ne q1]
  have hreg := attached_regs (Function.update s.alt c ⟨some r1, r2, i2o, none, [], false⟩) cur c ce
  have hupd : ∀ x ∈ A, Function.update s.alt c ⟨some r1, r2, i2o, none, [], false⟩ x = s.alt x := fun x hx =>
    Function.update_of_ne (show x ≠ c from fun e => hcA (e ▸ hx)) _ _
  have ho1 : o ≠ r1 := by rintro rfl; rw [h.outer.2.1] at f2; exact absurd f2 (by decide)
  have ho2 : o ≠ r2 := by rintro rfl; rw [h.outer.2.1] at g2; exact absurd g2 (by decide)
  have hsl1 : sl f' r1 = -1 := by rw [hsl', Function.update_of_ne hr12, Function.update_self]
  have hsl2 : sl f' r2 = 1 := by rw [hsl', Function.update_self]
  have hWx : ∀ x ∈ W, x ≠ r1 ∧ x ≠ r2 := fun x hx => ⟨by rintro rfl; exact hn1' hx, by rintro rfl; exact hn2 hx⟩
  have hera : (insert c A).erase ba = insert c (A.erase ba) := Finset.erase_insert_of_ne hcba
  refine ⟨_, { s with
      alts := ar, ralt := Function.update (Function.update s.ralt r1 (some c)) r2 (some c), fl := f',
      alt := attached (Function.update s.alt c ⟨some r1, r2, i2o, none, [], false⟩) cur c ce }, c, insert c A, ach', makeChild_eq s hal hac, ?_, ⟨?_, ?_, ?_, ?_, hS2, ?_, ?_, hA2, ?_, Finset.mem_insert_of_mem h.mem, ?_, ?_, ?_, ?_, ?_, ?_⟩,
    Finset.mem_insert_self _ _, hcba, ?_, ?_⟩
  · unfold startInnerOuter MS.onFl
    simp only
    rw [e2]
    rfl
  · exact hF2.weaken (fun x _ _ hx => by
      have hx1 := hx.1.1
      rcases List.mem_cons.1 hx1 with e | hx1
      · exact absurd e hx.1.2
      rcases List.mem_cons.1 hx1 with e | hx1
      · exact absurd e hx.2
      exact hx1) (fun _ _ _ _ => by simp)
  · show view g T L ch t f' = _
    rw [hv2, h.vw]
    show _ = { V with sl := sl f' }
    rw [hsl']
  · exact hr2.trans h.regs
  · rw [hera]; exact hN2
  · rw [hera]
    show Tops (view g T L ch t f') _ _ s.mate _ _
    rw [hv2]
    refine h.tops.child (fun h => hcA (Finset.mem_of_mem_erase h)) (fun x q1 q2 => ?_) (by rw [h.top]; exact f1) (by rw [h.top]; exact g1) ?_ ?_
    · rw [Function.update_of_ne q2, Function.update_of_ne q1]; rfl
    · rintro x (hx | rfl) q1 q2
      · rcases List.mem_cons.1 hx with e | hx
        · exact absurd e q1
        rcases List.mem_cons.1 hx with e | hx
        · exact absurd e q2
        exact .inl hx
      · exact .inr rfl
    · intro x hx hU hM q1 q2
      refine ⟨rfl, fun y hy _ => ?_⟩
      have hxW : x ∉ r1 :: r2 :: W := by
        intro hm
        rcases List.mem_cons.1 hm with e | hm
        · exact q1 e
        rcases List.mem_cons.1 hm with e | hm
        · exact q2 e
        exact hU (.inl hm)
      have := h.sep x (by rw [← h.top]; exact hx) hxW hM.still hM.free y hy
      exact ⟨by rintro rfl; simp at this, by rintro rfl; simp at this, rfl⟩
  · rw [hera]
    intro a ha i hi
    have hi' : (attached (Function.update s.alt c ⟨some r1, r2, i2o, none, [], false⟩) cur c ce a).inner = some i := hi
    rw [(hreg a).1] at hi'
    show Function.update (Function.update s.ralt r1 (some c)) r2 (some c) i = some a
    rcases Finset.mem_insert.1 ha with rfl | ha
    · rw [Function.update_self] at hi'
      simp only [Option.some.injEq] at hi'
      subst hi'
      rw [Function.update_of_ne hr12, Function.update_self]
    · rw [hupd a (Finset.mem_of_mem_erase ha)] at hi'
      obtain ⟨q1, q2⟩ := hne a ha i (mem_nregs.2 (.inr hi'))
      rw [hralx i q1 q2]
      exact h.ptr a ha i hi'
  · intro a ha
    show (attached (Function.update s.alt c ⟨some r1, r2, i2o, none, [], false⟩) cur c ce a).visited = false
    rw [(hreg a).2.2.2]
    rcases Finset.mem_insert.1 ha with rfl | ha
    · rw [Function.update_self]
    · rw [hupd a ha]; exact h.clean a ha
  · show (attached (Function.update s.alt c ⟨some r1, r2, i2o, none, [], false⟩) cur c ce ba).outer = o ∧
      (attached (Function.update s.alt c ⟨some r1, r2, i2o, none, [], false⟩) cur c ce ba).i2o = eo
    rw [(hreg ba).2.1, (hreg ba).2.2.1, hupd ba h.mem]
    exact h.node
  · refine ⟨h.outer.1, ?_, ?_⟩
    · show sl f' o = 1
      rw [hslx o ho1 ho2]; exact h.outer.2.1
    · show Function.update (Function.update s.ralt r1 (some c)) r2 (some c) o = _
      rw [hralx o ho1 ho2]; exact h.outer.2.2
  · intro x hx
    obtain ⟨q1, q2⟩ := hWx x hx
    obtain ⟨k1, k2, k3, k4⟩ := h.free x (List.mem_cons_of_mem _ (List.mem_cons_of_mem _ hx))
    refine ⟨k1, ?_, ?_, k4⟩
    · show sl f' x = 0
      rw [hslx x q1 q2]; exact k2
    · show Function.update (Function.update s.ralt r1 (some c)) r2 (some c) x = _
      rw [hralx x q1 q2]; exact k3
  · intro x hx hxW h0 hn y hy hyW
    have h0' : sl f' x = 0 := h0
    have hn' : Function.update (Function.update s.ralt r1 (some c)) r2 (some c) x = none := hn
    have q1 : x ≠ r1 := by rintro rfl; rw [hsl1] at h0'; exact absurd h0' (by decide)
    have q2 : x ≠ r2 := by rintro rfl; rw [hsl2] at h0'; exact absurd h0' (by decide)
    rw [hslx x q1 q2] at h0'
    rw [hralx x q1 q2] at hn'
    exact h.sep x hx (by simp [q1, q2, hxW]) h0' hn' y hy (List.mem_cons_of_mem _ (List.mem_cons_of_mem _ hyW))
  · intro x hx
    have hx1 := h.grew x hx
    have q1 : x ≠ r1 := by rintro rfl; rw [f2] at hx1; exact absurd hx1 (by decide)
    have q2 : x ≠ r2 := by rintro rfl; rw [g2] at hx1; exact absurd hx1 (by decide)
    show sl f' x = 1
    rw [hslx x q1 q2]; exact hx1
  · intro a ha
    obtain ⟨ha1, ha2⟩ := Finset.mem_filter.1 ha
    have ha3 : (attached (Function.update s.alt c ⟨some r1, r2, i2o, none, [], false⟩) cur c ce a).inner = none := ha2
    rw [(hreg a).1] at ha3
    rcases Finset.mem_insert.1 ha1 with rfl | haA
    · rw [Function.update_self] at ha3; cases ha3
    · rw [hupd a haA] at ha3
      exact h.roots (Finset.mem_filter.2 ⟨haA, ha3⟩)
  · rw [hc1]
    simp only [List.mem_cons, not_or]
    exact ⟨Ne.symm hcba, hch⟩
  · show (attached (Function.update s.alt c ⟨some r1, r2, i2o, none, [], false⟩) cur c ce c).outer = r2
    rw [(hreg c).2.1, Function.update_self]

/-- Two children become a matched pair. -/
theorem Mid.pair (hg : Proper g) {r1 r2 : Nat} (h : Mid g T L ch t V R Q ba o eo (r1 :: r2 :: W) s A ach) (hnd : (r1 :: r2 :: W).Nodup) {e : CompressedEdge}
    (hlk : V.lk e r1 r2) :
    ∃ s1 s', (addMatch s r1 r2 e).onFl (fun fl => rescheduleAll g fl (area fl r1)) = .ok s1 ∧ s1.onFl (fun fl => rescheduleAll g fl (area fl r2)) = .ok s' ∧
      Mid g T L ch t V R Q ba o eo W s' A ach ∧ s'.alt = s.alt := by
  obtain ⟨hn1, hnd'⟩ := List.nodup_cons.1 hnd
  obtain ⟨hn2, -⟩ := List.nodup_cons.1 hnd'
  have hr12 : r1 ≠ r2 := fun e => hn1 (by rw [e]; simp)
  have hn1' : r1 ∉ W := fun hm => hn1 (List.mem_cons_of_mem _ hm)
  obtain ⟨f1, f2, f3, f4⟩ := h.free r1 (by simp)
  obtain ⟨g1, g2, g3, g4⟩ := h.free r2 (by simp)
  obtain ⟨w1, e1, hF1, hr1, hv1⟩ := h.fl.resched hg (r := r1) (by rw [h.top]; exact f1)
    (by rw [show (view g T L ch t s.fl).sl r1 = sl s.fl r1 from rfl, f2]; decide)
  obtain ⟨w2, e2, hF2, hr2, hv2⟩ := hF1.resched hg (r := r2) (by rw [hv1, h.top]; exact g1)
    (by rw [hv1, show (view g T L ch t s.fl).sl r2 = sl s.fl r2 from rfl, g2]; decide)
  have hv : view g T L ch t w2 = view g T L ch t s.fl := hv2.trans hv1
  have hsl : sl w2 = sl s.fl := congrArg View.sl hv
  generalize hm1 : (addMatch s r1 r2 e).mate = m1
  have hm : ∀ x, x ≠ r1 → x ≠ r2 → m1 x = s.mate x := by
    intro x q1 q2; rw [← hm1]; simp [addMatch, MS.setMate, q1, q2]
  have hm_1 : m1 r1 = ⟨some r2, e⟩ := by rw [← hm1]; simp [addMatch, MS.setMate, hr12]
  have hm_2 : m1 r2 = ⟨some r1, e.reversed⟩ := by rw [← hm1]; simp [addMatch, MS.setMate]
  have hlk' : (view g T L ch t s.fl).lk e r1 r2 := by rw [h.lk]; exact hlk
  refine ⟨{ s with fl := w1, mate := m1 }, { s with fl := w2, mate := m1 }, ?_, ?_, ⟨?_, ?_, ?_, ?_, ?_, ?_, h.ptr, h.arena, h.clean, h.mem, h.node, ?_, ?_, ?_,
    fun x hx => by show sl w2 x = 1; rw [hsl]; exact h.grew x hx, h.roots⟩, rfl⟩
  · unfold MS.onFl
    show (rescheduleAll g s.fl (area s.fl r1)).bind _ = _
    rw [e1, ← hm1]
    rfl
  · unfold MS.onFl
    show (rescheduleAll g w1 (area w1 r2)).bind _ = _
    rw [e2]
    rfl
  · exact hF2.weaken (fun x _ _ hx => by
      have hx1 := hx.1.1
      rcases List.mem_cons.1 hx1 with e | hx1
      · exact absurd e hx.1.2
      rcases List.mem_cons.1 hx1 with e | hx1
      · exact absurd e hx.2
      exact hx1) (fun _ _ _ _ => by simp)
  · show view g T L ch t w2 = { V with sl := sl w2 }
    rw [hv, hsl]; exact h.vw
  · exact (hr2.trans hr1).trans h.regs
  · show Nodes (view g T L ch t w2) _ _ _ _
    rw [hv]; exact h.nodes
  · show Shape (view g T L ch t w2) _ _ _ _
    rw [hv]; exact h.shape
  · show Tops (view g T L ch t w2) s.alt s.ralt m1 _ _
    rw [hv]
    refine ⟨fun r hr hU => ?_, h.tops.inside⟩
    by_cases q1 : r = r1
    · subst q1
      refine .inr ⟨f2, f3, .inr ⟨r2, by rw [hm_1], Ne.symm hr12, by rw [h.top]; exact g1, g2, g3, by rw [hm_2, hm_1], by rw [hm_1]; exact hlk'⟩⟩
    · by_cases q2 : r = r2
      · subst q2
        refine .inr ⟨g2, g3, .inr ⟨r1, by rw [hm_2], hr12, by rw [h.top]; exact f1, f2, f3, ?_, by rw [hm_2]; exact view_sym hg _ _ _ hlk'⟩⟩
        rw [hm_2, hm_1]
        simp [CompressedEdge.reversed]
      · have hrW : r ∉ r1 :: r2 :: W := fun hm => by
          rcases List.mem_cons.1 hm with e | hm
          · exact q1 e
          rcases List.mem_cons.1 hm with e | hm
          · exact q2 e
          exact hU (.inl hm)
        rcases h.tops.cover r hr (by rintro (hm | hm); exacts [hrW hm, hU (.inr hm)]) with hN | hM
        · exact .inl hN
        · refine .inr (hM.frame ?_ (fun _ _ h => h) (fun _ h => h))
          rintro x (rfl | ⟨k1, -, -, -⟩)
          · exact ⟨rfl, rfl, hm x q1 q2, fun h => h⟩
          · have := h.sep r (by rw [← h.top]; exact hr) hrW hM.still hM.free x k1
            exact ⟨rfl, rfl, hm x (by rintro rfl; simp at this) (by rintro rfl; simp at this), fun h => h⟩
  · show V.top o ∧ sl w2 o = 1 ∧ s.ralt o = some ba
    rw [hsl]; exact h.outer
  · intro x hx
    show V.top x ∧ sl w2 x = 0 ∧ s.ralt x = none ∧ V.ev x
    rw [hsl]; exact h.free x (List.mem_cons_of_mem _ (List.mem_cons_of_mem _ hx))
  · intro x hx hxW h0 hn y hy hyW
    have h0' : sl w2 x = 0 := h0
    rw [hsl] at h0'
    have hy' : (m1 x).region = some y := hy
    by_cases q1 : x = r1
    · subst q1
      rw [hm_1, Option.some.injEq] at hy'
      exact hn2 (hy' ▸ hyW)
    · by_cases q2 : x = r2
      · subst q2
        rw [hm_2, Option.some.injEq] at hy'
        exact hn1' (hy' ▸ hyW)
      · rw [hm x q1 q2] at hy'
        exact h.sep x hx (by simp [q1, q2, hxW]) h0' hn y hy' (List.mem_cons_of_mem _ (List.mem_cons_of_mem _ hyW))

theorem FOk.withRegs {f : FS} (h : FOk g T L ch t X Y f) {ar : Arena} (ha : ar.allocated.length = f.regs.allocated.length) : FOk g T L ch t X Y { f with regs := ar } := by
  refine ⟨h.geo.off rfl (fun _ _ => rfl) ?_, h.now, h.sched.off h.geo.toBGeo rfl rfl (fun _ _ => rfl)⟩
  have := h.geo.card
  unfold FS.depth at this ⊢
  rw [show ({ f with regs := ar } : FS).regs.allocated.length = ar.allocated.length from rfl, ha]
  exact this

/-- The last child becomes the inner region of the node of the blossom. -/
theorem Mid.finish (hg : Proper g) {rc : Nat} (h : Mid g T L ch t V R Q ba o eo [rc] s A ach) {B : Nat} (hR : AInv L (R.del B)) (hcyc : Cyc V) {cur : Nat}
    {ce : CompressedEdge} (hcur : cur ∈ A) (hcb : cur ≠ ba) (hch : ba ∉ ach cur) (hlk : V.lk ce (s.alt cur).outer rc) (hlk2 : V.lk eo rc o) :
    ∃ s' ach', s' = (let s1 := s.setAlt ba fun A => { A with inner := some rc }
        let s1 := { s1 with fl := setShrinking s1.fl rc }
        let s1 := s1.setRalt rc (some ba)
        let s1 := addChild s1 cur ba ce
        { s1 with fl := { s1.fl with regs := s1.fl.regs.del B } }) ∧ SOk g T L ch t (fun _ => False) s' A ach' ∧
      view g T L ch t s'.fl = { V with sl := sl s'.fl } ∧ (∀ x, V.sl x = 1 → sl s'.fl x = 1) ∧ Roots s'.alt A ⊆ Q := by
  obtain ⟨f1, f2, f3, f4⟩ := h.free rc (by simp)
  have hcN : cur ∈ A.erase ba := Finset.mem_erase.2 ⟨hcb, hcur⟩
  have horc : (s.alt cur).outer ≠ rc := by
    rintro e
    have := (h.nodes.outer cur hcN).2
    rw [e, f3] at this; cases this
  have hco : rc ≠ o := by rintro rfl; rw [h.outer.2.1] at f2; exact absurd f2 (by decide)
  obtain ⟨hF1, hr1, hv1⟩ := h.fl.shrinking hg (r := rc) (by rw [h.top]; exact f1) (by rw [h.ev]; exact f4)
    ⟨_, _, view_sym hg _ _ _ (by rw [h.lk]; exact hlk), (h.nodes.outer cur hcN).1, horc⟩
  generalize hf1 : setShrinking s.fl rc = w at hF1 hr1 hv1
  have hsl : sl w = Function.update (sl s.fl) rc (-1) := congrArg View.sl hv1
  have hslx : ∀ x, x ≠ rc → sl w x = sl s.fl x := fun x hx => by rw [hsl, Function.update_of_ne hx]
  have hslc : sl w rc = -1 := by rw [hsl, Function.update_self]
  have hfree : ∀ b ∈ A.erase ba, ∀ r ∈ nregs s.alt b, r ≠ rc := by
    rintro b hb r hr rfl
    exact h.nodes.not_free hb hr ⟨f2, f3⟩
  have hoN : ∀ b ∈ A.erase ba, o ∉ nregs s.alt b := by
    intro b hb ho
    rcases mem_nregs.1 ho with h5 | h5
    · have h6 := (h.nodes.outer b hb).2
      rw [← h5, h.outer.2.2, Option.some.injEq] at h6
      exact (Finset.mem_erase.1 hb).1 h6.symm
    · have h6 := (h.nodes.inner b hb o h5).2.1
      rw [show (view g T L ch t s.fl).sl o = sl s.fl o from rfl, h.outer.2.1] at h6
      exact absurd h6 (by decide)
  generalize halt1 : Function.update s.alt ba { s.alt ba with inner := some rc } = alt1
  have ha1 : alt1 ba = { s.alt ba with inner := some rc } := by rw [← halt1, Function.update_self]
  have hax : ∀ x, x ≠ ba → alt1 x = s.alt x := fun x hx => by rw [← halt1, Function.update_of_ne hx]
  generalize hral1 : Function.update s.ralt rc (some ba) = ral1
  have hrc : ral1 rc = some ba := by rw [← hral1, Function.update_self]
  have hrx : ∀ x, x ≠ rc → ral1 x = s.ralt x := fun x hx => by rw [← hral1, Function.update_of_ne hx]
  have hlkw : (view g T L ch t w).lk = V.lk := by rw [hv1]; exact h.lk
  have htopw : (view g T L ch t w).top = V.top := by rw [hv1]; exact h.top
  have hS1 : Shape (view g T L ch t w) alt1 A ach {ba} := by
    refine h.shape.congr ?_ ?_ ?_ ?_
    · intro a _
      by_cases hab : a = ba
      · subst hab; rw [ha1]
      · rw [hax a hab]
    · intro a _
      by_cases hab : a = ba
      · subst hab; rw [ha1]
      · rw [hax a hab]
    · intro a ha c hc hcZ e i _ hi hl
      refine ⟨i, by rw [hax c (by simpa using hcZ)]; exact hi, ?_⟩
      have ho : (alt1 a).outer = (s.alt a).outer := by
        by_cases hab : a = ba
        · subst hab; rw [ha1]
        · rw [hax a hab]
      rw [ho, hlkw, ← h.lk]; exact hl
    · intro a _ haZ _ hi
      rw [hax a (by simpa using haZ)]; exact hi
  obtain ⟨ach', hS2, -⟩ := hS1.attach (a := cur) (c := ba) (i := rc) (e := ce) hcur h.mem (by simp) (by intro z hz; rw [Finset.mem_singleton]; rintro rfl; exact hch hz)
    (by rw [ha1]) (by rw [hlkw, hax cur hcb]; exact hlk)
  rw [Finset.erase_singleton] at hS2
  have hreg := attached_regs alt1 cur ba ce
  have hins : insert ba (A.erase ba) = A := Finset.insert_erase h.mem
  have hN1 : Nodes (view g T L ch t w) alt1 ral1 A (fun _ => False) := by
    have h1 : Nodes (view g T L ch t w) s.alt s.ralt (A.erase ba) (fun _ => False) := by
      rw [hv1]; exact h.nodes.slopes (fun b hb r hr => Function.update_of_ne (hfree b hb r hr) _ _)
    rw [← hins]
    refine h1.add (Finset.notMem_erase _ _) (fun a ha => hax a (Finset.mem_erase.1 ha).1) (fun a ha => hrx _ (hfree a ha _ (mem_nregs.2 (.inl rfl)))) ?_ ?_ ?_ ?_ ?_
    · rw [ha1]
      show (view g T L ch t w).top (s.alt ba).outer ∧ ral1 (s.alt ba).outer = some ba
      rw [h.node.1, htopw, hrx o (Ne.symm hco)]
      exact ⟨h.outer.1, h.outer.2.2⟩
    · rw [ha1]
      show sl w (s.alt ba).outer ≠ -1
      rw [h.node.1, hslx o (Ne.symm hco), h.outer.2.1]; decide
    · intro _
      rw [ha1]
      show sl w (s.alt ba).outer = 1
      rw [h.node.1, hslx o (Ne.symm hco), h.outer.2.1]
    · intro i hi
      rw [ha1] at hi ⊢
      simp only [Option.some.injEq] at hi
      subst hi
      refine ⟨by rw [htopw]; exact f1, hslc, ?_⟩
      show (view g T L ch t w).lk (s.alt ba).i2o rc (s.alt ba).outer
      rw [h.node.1, h.node.2, hlkw]; exact hlk2
    · intro b hb i hi hbi
      rw [ha1] at hi
      simp only [Option.some.injEq] at hi
      subst hi
      exact hfree b hb _ (mem_nregs.2 (.inr hbi)) rfl
  refine ⟨{ s with fl := { w with regs := w.regs.del B }, ralt := ral1, alt := attached alt1 cur ba ce }, ach', ?_, ⟨?_, ?_, ?_, ?_⟩, ?_, ?_, ?_⟩
  · simp only
    rw [addChild_eq _ hcb, ← hf1, ← hral1, ← halt1]
    rfl
  · exact (hF1.withRegs (ar := w.regs.del B) rfl).weaken (fun x _ _ hx => hx.2 (by simpa using hx.1)) (fun _ _ _ _ => by simp)
  · show AInv L (w.regs.del B)
    rw [hr1, h.regs]; exact hR
  · show Cyc (view g T L ch t w)
    rw [hv1, h.vw]
    exact hcyc.reslope _
  · show MOk (view g T L ch t w) _ _ _
    refine ⟨⟨?_, hS2, ?_, ?_, h.arena⟩, ?_⟩
    · exact hN1.congr (fun b _ => (hreg b).2.1) (fun b _ => (hreg b).1) (fun b _ => (hreg b).2.2.1) (fun b _ r _ ht => ⟨ht, rfl⟩)
        (fun _ _ _ h => h) (fun _ _ => rfl) (fun _ _ h => h)
    · have hnr : ∀ b, nregs (attached alt1 cur ba ce) b = nregs alt1 b := fun b => by unfold nregs; rw [(hreg b).1, (hreg b).2.1]
      show Tops (view g T L ch t w) (attached alt1 cur ba ce) ral1 s.mate A _
      constructor
      · intro r hr _
        rw [htopw] at hr
        by_cases q1 : r = rc
        · exact .inl ⟨ba, h.mem, by rw [hnr]; exact mem_nregs.2 (.inr (by rw [ha1, q1]))⟩
        · by_cases q2 : r = o
          · exact .inl ⟨ba, h.mem, by rw [hnr]; exact mem_nregs.2 (.inl (by rw [ha1, q2, ← h.node.1]))⟩
          · rcases h.tops.cover r (by rw [h.top]; exact hr) (by rintro (hm | hm); exacts [q1 (by simpa using hm), q2 hm]) with ⟨b, hb, hrb⟩ | hM
            · refine .inl ⟨b, Finset.mem_of_mem_erase hb, ?_⟩
              rw [hnr, mem_nregs, hax b (Finset.mem_erase.1 hb).1, ← mem_nregs]
              exact hrb
            · refine .inr (hM.frame ?_ (fun e m hl => by rw [hlkw, ← h.lk]; exact hl) (fun e hl => by rw [hv1]; exact hl))
              rintro x (rfl | ⟨k1, -, -, -⟩)
              · exact ⟨hslx x q1, hrx x q1, rfl, fun ht => by rw [htopw, ← h.top]; exact ht⟩
              · have hxc : x ≠ rc := by
                  have := h.sep r hr (by simpa using q1) hM.still hM.free x k1
                  simpa using this
                exact ⟨hslx x hxc, hrx x hxc, rfl, fun ht => by rw [htopw, ← h.top]; exact ht⟩
      · intro r hr hnt
        have hrr : r ≠ rc := by rintro rfl; rw [htopw] at hnt; exact hnt f1
        rw [hrx r hrr]
        refine h.tops.inside r ?_ (by rw [h.top, ← htopw]; exact hnt)
        rw [hv1] at hr; exact hr
    · intro a ha i hi
      have hi' : (attached alt1 cur ba ce a).inner = some i := hi
      rw [(hreg a).1] at hi'
      show ral1 i = some a
      by_cases hab : a = ba
      · subst hab
        rw [ha1] at hi'
        simp only [Option.some.injEq] at hi'
        rw [← hi']; exact hrc
      · rw [hax a hab] at hi'
        have haE : a ∈ A.erase ba := Finset.mem_erase.2 ⟨hab, ha⟩
        rw [hrx i (hfree a haE i (mem_nregs.2 (.inr hi')))]
        exact h.ptr a haE i hi'
    · intro a ha
      show (attached alt1 cur ba ce a).visited = false
      rw [(hreg a).2.2.2]
      by_cases hab : a = ba
      · subst hab; rw [ha1]; exact h.clean a ha
      · rw [hax a hab]; exact h.clean a ha
  · show view g T L ch t w = { V with sl := sl w }
    rw [hv1, h.vw, hsl]
  · intro x hx
    have hx1 := h.grew x hx
    show sl w x = 1
    rw [hslx x (by rintro rfl; rw [f2] at hx1; exact absurd hx1 (by decide))]; exact hx1
  · intro a ha
    obtain ⟨haA, ha2⟩ := Finset.mem_filter.1 ha
    have ha3 : (attached alt1 cur ba ce a).inner = none := ha2
    rw [(hreg a).1] at ha3
    by_cases hab : a = ba
    · subst hab; rw [ha1] at ha3; cases ha3
    · rw [hax a hab] at ha3
      exact h.roots (Finset.mem_filter.2 ⟨haA, ha3⟩)

end Verif.SB
