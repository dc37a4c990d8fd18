import Verif.Blossom.Advance

/-!
# Changing the slope of a top region
-/

namespace Verif.SB

open Verif Verif.Graph Verif.CE Verif.Vary Verif.Track Verif.Spec Verif.Mem
open Verif.Sch (Res better)

variable {g : MGraph} {T L : Finset Nat} {ch : Nat → List Nat} {t : Int} {s : FS}

theorem setReg_self (s : FS) (r : Nat) (f : Region → Region) : (s.setReg r f).reg r = f (s.reg r) := by simp [FS.setReg]
theorem setReg_ne (s : FS) {r x : Nat} (f : Region → Region) (h : x ≠ r) : (s.setReg r f).reg x = s.reg x := by
  simp [FS.setReg, h]

theorem setReg_proj {α : Type} (p : Region → α) (s : FS) (r : Nat) (f : Region → Region) (h : p (f (s.reg r)) = p (s.reg r)) (x : Nat) :
    p ((s.setReg r f).reg x) = p (s.reg x) := by
  by_cases hx : x = r
  · subst hx; rw [setReg_self]; exact h
  · rw [setReg_ne _ _ hx]

theorem pot_congr {s s' : FS} (hy : ∀ R, y s' t R = y s t R) (ha : ∀ n, (s'.node n).arr = (s.node n).arr)
    (hr : ∀ n, (s'.node n).rho = (s.node n).rho) : pot s' ch t = pot s ch t := by
  funext R u
  cases u with
  | none => rfl
  | some n => simp only [pot, hy, ha, hr]

theorem D_congr {s s' : FS} (h : pot s' ch t = pot s ch t) : D s' L ch t = D s L ch t := by
  funext u v; unfold D; rw [h]

theorem rad_congr {s s' : FS} (h : pot s' ch t = pot s ch t) : rad s' L ch t = rad s L ch t := by
  funext n; unfold rad; rw [D_congr h]

theorem Tight_congr {s s' : FS} (h : pot s' ch t = pot s ch t) (a : Nat) (b : Option Nat) (o : ObsInt) :
    Tight g s' L ch t a b o ↔ Tight g s L ch t a b o := by unfold Tight; rw [D_congr h]

/-- Only radii change, and not at the present time. -/
theorem Geo.congrRadius (h : Geo g T L ch t s) {s' : FS} (hnode : s'.node = s.node) (hregs : s'.regs = s.regs)
    (hpar : ∀ x, (s'.reg x).parent = (s.reg x).parent) (htop : ∀ x, (s'.reg x).top = (s.reg x).top)
    (hkids : ∀ x, (s'.reg x).children = (s.reg x).children) (hshell : ∀ x, (s'.reg x).shell = (s.reg x).shell)
    (hy : ∀ x, y s' t x = y s t x) (hvalid : ∀ r ∈ L, (s'.reg r).radius.Valid)
    (hstill : ∀ r ∈ L, par s r ≠ none → sl s' r = 0)
    (heven : ∀ u r, (s.node u).top = some r → sl s' r ≠ 0 → (rad s L ch t u - t) % 2 = 0) : Geo g T L ch t s' := by
  have hp : par s' = par s := by funext x; exact hpar x
  have hk : kidsOf s' = kidsOf s := by funext x; unfold kidsOf; rw [hkids]
  have hpot : pot s' ch t = pot s ch t := pot_congr hy (fun n => by rw [hnode]) (fun n => by rw [hnode])
  have hyf : y s' t = y s t := by funext x; exact hy x
  refine ⟨⟨?_, ?_, ?_, ?_, hvalid, ?_, ?_, ?_, ?_, ?_, ?_, ?_, ?_, ?_, ?_, ?_, ?_⟩, ?_, ?_, ?_, ?_⟩
  · rw [hp]; exact h.forest
  · rw [hp, hk]; exact h.kids
  · unfold FS.depth; rw [hregs]; exact h.card
  · intro r hr; rw [htop, hp]; exact h.top r hr
  · rw [hp]; exact hstill
  · intro r hr; rw [hy]; exact h.ypos r hr
  · intro n r; rw [hnode, hshell]; exact h.occ n r
  · intro n r; rw [hnode, htop]; exact h.otop n r
  · intro n r; rw [hnode, hy]; exact h.orho n r
  · intro n r; rw [hnode, hyf]; exact h.owrap n r
  · intro n; rw [hnode]; exact h.empty n
  · intro r hr n; rw [hnode, hshell]; exact h.shell r hr n
  · intro r hr; rw [hshell]; exact h.shellNodup r hr
  · intro r hr; rw [hshell, hnode]; exact h.shellSorted r hr
  · intro r hr; rw [hshell, hkids]; exact h.seed r hr
  · intro a ha
    obtain ⟨r, l, e⟩ := h.event a ha
    exact ⟨r, l, by rw [hnode, hkids, hshell]; exact e⟩
  · intro n r hn
    rw [hnode] at hn
    obtain ⟨a, ha, e1, e2, e3⟩ := h.src n r hn
    refine ⟨a, ha, by rw [hnode]; exact e1, ?_, ?_⟩
    · unfold InR at e2 ⊢; rw [hnode]; exact e2
    · rw [Tight_congr hpot, hnode]; exact e3
  · rw [D_congr hpot]; exact h.flow
  · rw [rad_congr hpot, hnode]; exact h.even1
  · rw [rad_congr hpot, hnode]; exact heven

/-- Changing the slope of a top region, continuously. -/
theorem Geo.reslope (h : Geo g T L ch t s) {r : Nat} (hp : par s r = none) {v : Varying} (hv : v.Valid)
    (hd : v.distanceAt t = y s t r)
    (he : v.slope ≠ 0 → ∀ n, (s.node n).top = some r → (rad s L ch t n - t) % 2 = 0) :
    Geo g T L ch t (s.setReg r fun R => { R with radius := v }) := by
  refine h.congrRadius rfl rfl (setReg_proj (·.parent) s r _ rfl) (setReg_proj (·.top) s r _ rfl)
    (setReg_proj (·.children) s r _ rfl) (setReg_proj (·.shell) s r _ rfl) ?_ ?_ ?_ ?_
  · intro x
    by_cases hx : x = r
    · subst hx; unfold y; rw [setReg_self]; exact hd
    · unfold y; rw [setReg_ne _ _ hx]
  · intro x hx
    by_cases hxr : x = r
    · subst hxr; rw [setReg_self]; exact hv
    · rw [setReg_ne _ _ hxr]; exact h.valid x hx
  · intro x hx hpx
    have hxr : x ≠ r := fun e => hpx (e ▸ hp)
    unfold sl; rw [setReg_ne _ _ hxr]; exact h.still x hx hpx
  · intro u x hu hs
    by_cases hxr : x = r
    · subst hxr
      unfold sl at hs; rw [setReg_self] at hs
      exact he hs u hu
    · unfold sl at hs; rw [setReg_ne _ _ hxr] at hs
      exact h.even2 u x hu hs

/-! ## Areas -/

theorem AInv.card_le {a : Arena} (h : AInv L a) : L.card ≤ a.allocated.length := by
  have e := congrArg Multiset.card h.inv.split
  rw [Multiset.card_add] at e
  simp only [Multiset.coe_card] at e
  have : Multiset.card L.val = L.card := rfl
  omega

theorem BGeo.mem_regionsIn (h : BGeo g T L ch t s) {r x : Nat} (hr : r ∈ L) : x ∈ regionsIn s r ↔ x ∈ L ∧ r ∈ ch x :=
  SB.mem_desc h.forest h.kids h.card hr

theorem BGeo.mem_area (h : BGeo g T L ch t s) {r n : Nat} (hr : r ∈ L) : n ∈ area s r ↔ InR s ch r n := by
  unfold area InR
  simp only [List.mem_flatMap, List.mem_reverse, h.mem_regionsIn hr]
  constructor
  · rintro ⟨x, ⟨hx, hrx⟩, hn⟩
    exact ⟨x, h.shell x hx n hn, hrx⟩
  · rintro ⟨q, hq, hrq⟩
    have := h.occ n q hq
    exact ⟨q, ⟨this.1, hrq⟩, this.2⟩

theorem BGeo.inR_iff (h : BGeo g T L ch t s) {r n : Nat} (hr : r ∈ L) (hp : par s r = none) :
    InR s ch r n ↔ (s.node n).top = some r :=
  ⟨fun hi => by rw [h.inR_top hi, h.top_self hr hp], fun hn => h.inR_of_top hn⟩

theorem BGeo.mem_area_top (h : BGeo g T L ch t s) {r n : Nat} (hr : r ∈ L) (hp : par s r = none) :
    n ∈ area s r ↔ (s.node n).top = some r := (h.mem_area hr).trans (h.inR_iff hr hp)

/-! ## Schedules -/

theorem localRadius_setReg (s : FS) (r : Nat) (f : Region → Region) {n : Nat} (hn : (s.node n).top ≠ some r) :
    localRadius (s.setReg r f) n = localRadius s n := by
  unfold localRadius
  have : (s.setReg r f).node = s.node := rfl
  rw [this]
  cases ht : (s.node n).top with
  | none => rfl
  | some q =>
    have : q ≠ r := fun e => hn (by rw [ht, e])
    simp only [setReg_ne _ _ this]

/-- After the slope of a top region changed, its nodes and itself are to be rescheduled. -/
theorem Sched.reslope (h : Sched g L X Y s) (hG : BGeo g T L ch t s) {r : Nat} {v : Varying} {w' : World Owner}
    (hw : WInv w') (hwant : (absW w').want = Function.update (absW s.w).want (.inr r) none) :
    Sched g L (fun u => X u ∨ (s.node u).top = some r) (fun x => Y x ∨ x = r)
      { s.setReg r (fun R => { R with radius := v }) with w := w' } := by
  have hwo : ∀ x : Owner, x ≠ .inr r → (absW w').want x = want s x := fun x hx => by
    unfold want; rw [hwant, Function.update_of_ne hx]
  refine ⟨hw, ?_, ?_, ?_⟩
  · intro u i n τ he hc hXu hXv
    push Not at hXu
    have hlu := localRadius_setReg s r (fun R => { R with radius := v }) hXu.2
    have hc' : coll s u n = some τ := by
      rw [← hc]
      unfold coll
      cases ht : n.target with
      | none => simp only; exact (congrArg (fun z : Varying => if z.slope = 1 then some ((n.weight : Int) - z.yIntercept) else none) hlu).symm
      | some a =>
        have := hXv a ht
        push Not at this
        have hla := localRadius_setReg s r (fun R => { R with radius := v }) this.2
        simp only
        change _ = if (s.node u).top = (s.node a).top ∨
          (localRadius (s.setReg r fun R => { R with radius := v }) u).slope = -1 ∨
          (localRadius (s.setReg r fun R => { R with radius := v }) a).slope = -1 ∨
          (localRadius (s.setReg r fun R => { R with radius := v }) u).slope +
          (localRadius (s.setReg r fun R => { R with radius := v }) a).slope = 0 then none else some
          (((n.weight : Int) - (localRadius (s.setReg r fun R => { R with radius := v }) u).yIntercept -
          (localRadius (s.setReg r fun R => { R with radius := v }) a).yIntercept) /
          ((localRadius (s.setReg r fun R => { R with radius := v }) u).slope +
          (localRadius (s.setReg r fun R => { R with radius := v }) a).slope))
        rw [hlu, hla]
    obtain ⟨t', e1, e2⟩ := h.colls u i n τ he hc' hXu.1 (fun a ha x => hXv a ha (.inl x))
    refine ⟨t', e1, ?_⟩
    rcases e2 with e2 | ⟨a, e2, e3⟩
    · left; exact (hwo _ (by simp)).trans e2
    · right; exact ⟨a, e2, (hwo _ (by simp)).trans e3⟩
  · intro u τ hX hu
    push Not at hX
    have hu' : want s (.inl u) = some τ := (hwo _ (by simp)).symm.trans hu
    have := h.nodeWant u τ hX.1 hu'
    rw [← localRadius_setReg s r (fun R => { R with radius := v }) hX.2] at this
    exact this
  · intro x
    by_cases hx : x = r
    · subst hx
      refine ⟨fun a => absurd (Or.inr rfl) a.2.2.2, fun _ => ?_⟩
      unfold want
      rw [hwant]
      simp
    · have e1 : ∀ α (p : Region → α), p ((s.setReg r fun R => { R with radius := v }).reg x) = p (s.reg x) := fun α p => by
        rw [setReg_ne _ _ hx]
      have hwx : want { s.setReg r (fun R => { R with radius := v }) with w := w' } (.inr x) = want s (.inr x) :=
        hwo _ (by simpa using hx)
      have e2 : par { s.setReg r (fun R => { R with radius := v }) with w := w' } x = par s x := e1 _ (·.parent)
      have e3 : sl { s.setReg r (fun R => { R with radius := v }) with w := w' } x = sl s x := e1 _ (·.radius.slope)
      rw [hwx, e2, e3]
      have hY : (Y x ∨ x = r) ↔ Y x := by simp [hx]
      rw [hY]
      refine ⟨fun a => ?_, (h.regWant x).2⟩
      rw [(h.regWant x).1 a]
      congr 1
      unfold shrinkTime
      have e4 : (s.setReg r fun R => { R with radius := v }).reg x = s.reg x := setReg_ne _ _ hx
      simp only [e4]
      cases hz : (s.reg x).shell.getLast? with
      | none => rfl
      | some z =>
        have hzt : (s.node z).top ≠ some r := by
          rw [hG.otop z x (hG.shell x a.1 z (List.mem_of_getLast? hz)), hG.top_self a.1 a.2.1]
          simpa using hx
        simp only
        rw [← localRadius_setReg s r (fun R => { R with radius := v }) hzt]
        rfl

/-- `set_region_growing`. -/
theorem setGrowing_spec (h : Geo g T L ch t s) (hg : Proper g) (ht : s.now = t) {X Y : Nat → Prop} (hs : Sched g L X Y s) {r : Nat}
    (hr : r ∈ L) (hp : par s r = none) (he : ∀ n, (s.node n).top = some r → (rad s L ch t n - t) % 2 = 0) :
    ∃ w', setGrowing g s r = .ok { s.setReg r (fun R => { R with radius := R.radius.thenGrowingAt t }) with w := w' } ∧
      w'.q.cur = s.w.q.cur ∧
      Geo g T L ch t { s.setReg r (fun R => { R with radius := R.radius.thenGrowingAt t }) with w := w' } ∧
      Sched g L (fun u => X u ∧ (s.node u).top ≠ some r) Y
        { s.setReg r (fun R => { R with radius := R.radius.thenGrowingAt t }) with w := w' } := by
  obtain ⟨v1, v2, v3⟩ := thenGrowing_spec (s.reg r).radius t
  have hform : (s.setReg r fun R => { R with radius := R.radius.thenGrowingAt t }) =
      s.setReg r fun R => { R with radius := (s.reg r).radius.thenGrowingAt t } := by simp [FS.setReg]
  have hG := h.reslope hp (v := (s.reg r).radius.thenGrowingAt t) v1 (by rw [distanceAt_eq, v2, v3]; unfold y; omega) (fun _ => he)
  unfold setGrowing
  rw [ht]
  simp only
  obtain ⟨w1, a, b, c, d⟩ := noWish_spec (s.setReg r fun R => { R with radius := R.radius.thenGrowingAt t }) hs.winv (.inr r)
  rw [a]
  have hS := hs.reslope h.toBGeo (r := r) (v := (s.reg r).radius.thenGrowingAt t) b d
  rw [hform] at a ⊢
  have hG1 := hG.withW w1
  have hp1 : par { s.setReg r (fun R => { R with radius := (s.reg r).radius.thenGrowingAt t }) with w := w1 } r = none :=
    (setReg_proj (·.parent) s r (fun R => { R with radius := (s.reg r).radius.thenGrowingAt t }) rfl r).trans hp
  have hsl1 : sl { s.setReg r (fun R => { R with radius := (s.reg r).radius.thenGrowingAt t }) with w := w1 } r = 1 := by
    unfold sl; simp only [setReg_self, v2]
  obtain ⟨w2, a2, b2, c2⟩ := Geo.rescheduleAll_spec hg (area _ r) hG1 (by unfold FS.now at ht ⊢; simp only [c]; exact ht) hS
    (fun u hu => by
      rw [BGeo.local_slope ((hG1.mem_area_top hr hp1).1 hu), hsl1]; omega)
  refine ⟨w2, a2, b2.trans c, hG.withW w2, ?_⟩
  refine (c2.mono ?_).congrY ?_
  · rintro u ⟨hu1, hu2⟩
    rw [hG1.mem_area_top hr hp1] at hu2
    rcases hu1 with hu1 | hu1
    · exact ⟨hu1, hu2⟩
    · exact absurd hu1 hu2
  · intro x _ _ hsl
    have hx : x ≠ r := by
      intro e
      subst e
      have : sl { s.setReg x (fun R => { R with radius := (s.reg x).radius.thenGrowingAt t }) with w := w2 } x = 1 := hsl1
      exact absurd (this.symm.trans hsl) (by decide)
    simp [hx]

/-- A frozen region collides later than a growing one. -/
theorem coll_freeze (h : Geo g T L ch t s) {r : Nat} (hr : r ∈ L) (hp : par s r = none) (hns : sl s r ≠ -1)
    {u i : Nat} {n : Nbr} {τ : Int} (he : entry g (u, i) = some n)
    (hc : coll (s.setReg r fun R => { R with radius := (s.reg r).radius.thenFrozenAt t }) u n = some τ) :
    ∃ τ', coll s u n = some τ' ∧ τ' ≤ τ := by
  obtain ⟨v1, v2, v3⟩ := thenFrozen_spec (s.reg r).radius t
  have hG := h.reslope hp (v := (s.reg r).radius.thenFrozenAt t) v1 (by rw [distanceAt_eq, v2, v3]; unfold y; omega)
    (fun hh => absurd v2 hh)
  have hrad : rad (s.setReg r fun R => { R with radius := (s.reg r).radius.thenFrozenAt t }) L ch t = rad s L ch t := by
    apply rad_congr
    refine pot_congr ?_ (fun _ => rfl) (fun _ => rfl)
    intro x
    by_cases hx : x = r
    · subst hx; unfold y; rw [setReg_self]; simp only; rw [distanceAt_eq, v2, v3]; omega
    · unfold y; rw [setReg_ne _ _ hx]
  generalize hs' : (s.setReg r fun R => { R with radius := (s.reg r).radius.thenFrozenAt t }) = s' at hc hG hrad
  have hnode : s'.node = s.node := by rw [← hs']; rfl
  have hslope : ∀ n, (localRadius s' n).slope = if (s.node n).top = some r then 0 else (localRadius s n).slope := by
    intro n
    split
    · rename_i hn
      rw [BGeo.local_slope (s := s') (by rw [hnode]; exact hn), ← hs']
      unfold sl; rw [setReg_self]; exact v2
    · rename_i hn
      rw [← hs', localRadius_setReg _ _ _ hn]
  have hint := fun n => hG.local_intercept n
  rw [hrad] at hint
  have hint0 := fun n => h.local_intercept n
  have hflow := h.flow u i n he
  have h1 : ∀ x, (s.node x).top = some r → (localRadius s x).slope = 1 ∨ (localRadius s x).slope = 0 := by
    intro x hx
    rw [BGeo.local_slope hx]
    rcases h.slope_cases hr with a | a | a
    · exact .inl a
    · exact absurd a hns
    · exact .inr a
  have hslv := hslope u
  unfold coll at hc ⊢
  cases hv : n.target with
  | none =>
    simp only [hv] at hc ⊢
    split at hc
    · rename_i hs1
      cases hc
      rw [hslv] at hs1
      split at hs1
      · omega
      · rename_i hn
        refine ⟨_, by rw [if_pos hs1], ?_⟩
        rw [hint u, hint0 u, hslv, if_neg hn]
    · cases hc
  | some v =>
    rw [hv] at hflow
    simp only [hv] at hc ⊢
    have hslv' := hslope v
    split at hc
    · cases hc
    · rename_i hno
      push Not at hno
      rw [hnode] at hno
      obtain ⟨n1, n2, n3, n4⟩ := hno
      cases hc
      rw [h.D_apart (.inr n1)] at hflow
      rw [hint u, hint v] 
      by_cases hu : (s.node u).top = some r
      · have hv' : (s.node v).top ≠ some r := fun e => n1 (hu.trans e.symm)
        rw [if_pos hu] at hslv
        rw [if_neg hv'] at hslv'
        have hb : (localRadius s v).slope = 1 := by
          rcases slope_three (h.local_valid v) with a | a | a <;> rw [hslv', hslv, a] at n4 <;> rw [hslv', a] at n3 <;> omega
        rcases h1 u hu with a | a
        · refine ⟨_, by rw [if_neg]; push Not; exact ⟨n1, by omega, by omega, by omega⟩, ?_⟩
          rw [hint0 u, hint0 v, hslv, hslv', a, hb]
          omega
        · refine ⟨_, by rw [if_neg]; push Not; exact ⟨n1, by omega, by omega, by omega⟩, ?_⟩
          rw [hint0 u, hint0 v, hslv, hslv', a, hb]
      · rw [if_neg hu] at hslv
        by_cases hv' : (s.node v).top = some r
        · rw [if_pos hv'] at hslv'
          have hb : (localRadius s u).slope = 1 := by
            rcases slope_three (h.local_valid u) with a | a | a <;> rw [hslv', hslv, a] at n4 <;> rw [hslv, a] at n2 <;> omega
          rcases h1 v hv' with a | a
          · refine ⟨_, by rw [if_neg]; push Not; exact ⟨n1, by omega, by omega, by omega⟩, ?_⟩
            rw [hint0 u, hint0 v, hslv, hslv', a, hb]
            omega
          · refine ⟨_, by rw [if_neg]; push Not; exact ⟨n1, by omega, by omega, by omega⟩, ?_⟩
            rw [hint0 u, hint0 v, hslv, hslv', a, hb]
        · rw [if_neg hv'] at hslv'
          rw [hslv] at n2 n4
          rw [hslv'] at n3 n4
          refine ⟨_, by rw [if_neg]; push Not; exact ⟨n1, n2, n3, n4⟩, ?_⟩
          rw [hint0 u, hint0 v, hslv, hslv']

/-- `set_region_frozen`. -/
theorem setFrozen_spec (h : Geo g T L ch t s) (hg : Proper g) (ht : s.now = t) {X Y : Nat → Prop} (hs : Sched g L X Y s) {r : Nat}
    (hr : r ∈ L) (hp : par s r = none) :
    ∃ w', setFrozen g s r = .ok { s.setReg r (fun R => { R with radius := R.radius.thenFrozenAt t }) with w := w' } ∧
      w'.q.cur = s.w.q.cur ∧
      Geo g T L ch t { s.setReg r (fun R => { R with radius := R.radius.thenFrozenAt t }) with w := w' } ∧
      Sched g L X Y { s.setReg r (fun R => { R with radius := R.radius.thenFrozenAt t }) with w := w' } := by
  obtain ⟨v1, v2, v3⟩ := thenFrozen_spec (s.reg r).radius t
  have hform : (s.setReg r fun R => { R with radius := R.radius.thenFrozenAt t }) =
      s.setReg r fun R => { R with radius := (s.reg r).radius.thenFrozenAt t } := by simp [FS.setReg]
  have hG := h.reslope hp (v := (s.reg r).radius.thenFrozenAt t) v1 (by rw [distanceAt_eq, v2, v3]; unfold y; omega)
    (fun hh => absurd v2 hh)
  unfold setFrozen
  rw [ht]
  simp only
  obtain ⟨w1, a, b, c, d⟩ := noWish_spec (s.setReg r fun R => { R with radius := R.radius.thenFrozenAt t }) hs.winv (.inr r)
  rw [a]
  have hS := hs.reslope h.toBGeo (r := r) (v := (s.reg r).radius.thenFrozenAt t) b d
  rw [hform] at a ⊢
  have hG1 := hG.withW w1
  have hp1 : par { s.setReg r (fun R => { R with radius := (s.reg r).radius.thenFrozenAt t }) with w := w1 } r = none :=
    (setReg_proj (·.parent) s r (fun R => { R with radius := (s.reg r).radius.thenFrozenAt t }) rfl r).trans hp
  have hsl1 : ∀ w, sl { s.setReg r (fun R => { R with radius := (s.reg r).radius.thenFrozenAt t }) with w := w } r = 0 := by
    intro w; unfold sl; simp only [setReg_self, v2]
  have hYc : ∀ w x, sl { s.setReg r (fun R => { R with radius := (s.reg r).radius.thenFrozenAt t }) with w := w } x = -1 →
      ((Y x ∨ x = r) ↔ Y x) := by
    intro w x hsl
    have hx : x ≠ r := by
      intro e
      subst e
      have := hsl1 w
      omega
    simp [hx]
  by_cases hsh : (s.reg r).radius.isShrinking = true
  · rw [if_pos hsh]
    obtain ⟨w2, a2, b2, c2⟩ := Geo.rescheduleAll_spec hg (area _ r) hG1 (by unfold FS.now at ht ⊢; simp only [c]; exact ht) hS
      (fun u hu => by
        rw [BGeo.local_slope ((hG1.mem_area_top hr hp1).1 hu), hsl1]; omega)
    refine ⟨w2, a2, b2.trans c, hG.withW w2, (c2.mono ?_).congrY fun x _ _ hsl => hYc w2 x hsl⟩
    rintro u ⟨hu1, hu2⟩
    rw [hG1.mem_area_top hr hp1] at hu2
    rcases hu1 with hu1 | hu1
    · exact hu1
    · exact absurd hu1 hu2
  · rw [if_neg hsh]
    refine ⟨w1, rfl, c, hG1, ?_⟩
    have hns : sl s r ≠ -1 := fun e => hsh ((isShrinking_iff (h.valid r hr)).2 e)
    have hwo : ∀ u, want { s.setReg r (fun R => { R with radius := (s.reg r).radius.thenFrozenAt t }) with w := w1 } (.inl u) =
        want s (.inl u) := fun u => by
      unfold want; simp only; rw [d, Function.update_of_ne (by simp)]; rfl
    refine Sched.congrY ⟨b, ?_, ?_, hS.regWant⟩ fun x _ _ hsl => hYc w1 x hsl
    · intro u i n τ he hc hX hXv
      obtain ⟨τ', e1, e2⟩ := coll_freeze h hr hp hns he hc
      obtain ⟨t', f1, f2⟩ := hs.colls u i n τ' he e1 hX hXv
      refine ⟨t', by omega, ?_⟩
      rcases f2 with f2 | ⟨x, f2, f3⟩
      · left; rw [hwo]; exact f2
      · right; exact ⟨x, f2, by rw [hwo]; exact f3⟩
    · intro u τ hX hu
      by_cases hut : (s.node u).top = some r
      · rw [BGeo.local_slope (s := { s.setReg r (fun R => { R with radius := (s.reg r).radius.thenFrozenAt t }) with w := w1 }) hut,
          hsl1]
        omega
      · rw [hwo] at hu
        have := hs.nodeWant u τ hX hu
        rw [← localRadius_setReg s r (fun R => { R with radius := (s.reg r).radius.thenFrozenAt t }) hut] at this
        exact this

/-! ## Shrinking -/

/-- A walk that leaves the set of nodes of a top region uses an edge that leaves it. -/
theorem leaving_edge {r u : Nat} {x : Option Nat} {es : List Slot} (hw : Walk g u x es)
    (hu : (s.node u).top = some r) (hx : ∀ b, x = some b → (s.node b).top ≠ some r) :
    ∃ a i n, entry g (a, i) = some n ∧ (s.node a).top = some r ∧ ∀ b, n.target = some b → (s.node b).top ≠ some r := by
  induction hw with
  | here u => exact absurd hu (hx u rfl)
  | @step u i v n x es he hv _ ih =>
    by_cases hvt : (s.node v).top = some r
    · exact ih hvt hx
    · refine ⟨u, i, n, he, hu, fun b hb => ?_⟩
      rw [hv, Option.some.injEq] at hb
      subst hb
      exact hvt
  | @exit u i n he hv => exact ⟨u, i, n, he, hu, fun b hb => by rw [hv] at hb; cases hb⟩

theorem Geo.shrink_window (h : Geo g T L ch t s) (hg : Proper g) {r u : Nat} {x : Option Nat} {es : List Slot} (hr : r ∈ L)
    (hp : par s r = none) (hw : Walk g u x es) (hu : (s.node u).top = some r) (hx : ∀ b, x = some b → (s.node b).top ≠ some r) :
    ∀ z, ((s.reg r).shell.getLast? = some z → y s t r - (s.node z).rho < 2 ^ 31) ∧
      ((s.reg r).shell = [] → y s t r < 2 ^ 31) := by
  obtain ⟨a, i, n, he, ha, hb⟩ := leaving_edge hw hu hx
  have hflow := h.flow a i n he
  have hsm := hg.small a i n he
  have hrad : rad s L ch t a < 2 ^ 31 := by
    cases hv : n.target with
    | none =>
      rw [hv] at hflow
      have : D s L ch t (some a) none = rad s L ch t a := rfl
      omega
    | some v =>
      rw [hv, h.D_apart (.inr (by rw [ha]; exact fun e => hb v hv e.symm))] at hflow
      have := h.rad_nonneg v
      omega
  obtain ⟨q, hq, hqL, -, -, -⟩ := h.node_top_live ha
  intro z
  by_cases hqr : q = r
  · subst hqr
    rw [h.rad_chain hq, h.chain_root hr hp] at hrad
    simp only [List.map_cons, List.map_nil, List.sum_cons, List.sum_nil] at hrad
    constructor
    · intro hz
      have := h.rho_last hr hz (h.occ a q hq).2
      omega
    · intro hz
      have := (h.occ a q hq).2
      rw [hz] at this; cases this
  · have hrq : r ∈ ch q := by
      have := h.inR_of_top ha
      obtain ⟨q', hq', m⟩ := this
      rw [hq, Option.some.injEq] at hq'
      exact hq' ▸ m
    have hle : y s t r ≤ rad s L ch t a := by
      rw [h.rad_sum]
      have h1 : pot s ch t r (some a) = y s t r := by
        rw [BGeo.pot_arr hq, if_pos hrq, if_neg (fun e => hqr e.symm)]
      rw [← h1]
      exact Finset.single_le_sum (f := fun R => pot s ch t R (some a)) (fun R hR => h.pot_nonneg hR _) hr
    constructor
    · intro hz
      have hzm := List.mem_of_getLast? hz
      have := (h.orho z r (h.shell r hr z hzm)).1
      omega
    · intro _; omega

/-- `set_no_desired_event` on a list of nodes. -/
theorem noWishes_spec (ns : List Nat) : ∀ {s : FS}, WInv s.w →
    ∃ w', ns.foldl (fun s n => s.noWish (.inl n)) s = { s with w := w' } ∧ WInv w' ∧ w'.q.cur = s.w.q.cur ∧
      ∀ o, (absW w').want o = if (∃ n ∈ ns, o = .inl n) then none else (absW s.w).want o := by
  induction ns with
  | nil => intro s h; exact ⟨s.w, rfl, h, rfl, by simp⟩
  | cons n ns ih =>
    intro s h
    obtain ⟨w1, a, b, c, d⟩ := noWish_spec s h (.inl n)
    rw [List.foldl_cons, a]
    obtain ⟨w2, a2, b2, c2, d2⟩ := ih (s := { s with w := w1 }) b
    refine ⟨w2, a2, b2, c2.trans c, fun o => ?_⟩
    rw [d2, d]
    by_cases h1 : ∃ m ∈ ns, o = Sum.inl m
    · have h2 : ∃ m ∈ n :: ns, o = Sum.inl m := by obtain ⟨m, hm, e⟩ := h1; exact ⟨m, by simp [hm], e⟩
      rw [if_pos h1, if_pos h2]
    · rw [if_neg h1]
      by_cases h3 : o = .inl n
      · rw [if_pos ⟨n, by simp, h3⟩, h3, Function.update_self]
      · rw [if_neg, Function.update_of_ne h3]
        rintro ⟨m, hm, e⟩
        rcases List.mem_cons.1 hm with rfl | hm
        · exact h3 e
        · exact h1 ⟨m, hm, e⟩

/-- `set_region_shrinking`. -/
theorem setShrinking_spec (h : Geo g T L ch t s) (hg : Proper g) (ht : s.now = t) {X Y : Nat → Prop} (hs : Sched g L X Y s) {r : Nat}
    (hr : r ∈ L) (hp : par s r = none) (he : ∀ n, (s.node n).top = some r → (rad s L ch t n - t) % 2 = 0)
    {u : Nat} {x : Option Nat} {es : List Slot}
    (hwk : Walk g u x es) (hu : (s.node u).top = some r) (hx : ∀ b, x = some b → (s.node b).top ≠ some r) :
    ∃ w', setShrinking s r = { s.setReg r (fun R => { R with radius := R.radius.thenShrinkingAt t }) with w := w' } ∧
      w'.q.cur = s.w.q.cur ∧
      Geo g T L ch t { s.setReg r (fun R => { R with radius := R.radius.thenShrinkingAt t }) with w := w' } ∧
      Sched g L (fun u => X u ∧ (s.node u).top ≠ some r) (fun x => Y x ∧ x ≠ r)
        { s.setReg r (fun R => { R with radius := R.radius.thenShrinkingAt t }) with w := w' } := by
  classical
  obtain ⟨v1, v2, v3⟩ := thenShrinking_spec (s.reg r).radius t
  have hform : (s.setReg r fun R => { R with radius := R.radius.thenShrinkingAt t }) =
      s.setReg r fun R => { R with radius := (s.reg r).radius.thenShrinkingAt t } := by simp [FS.setReg]
  have hd : ((s.reg r).radius.thenShrinkingAt t).distanceAt t = y s t r := by rw [distanceAt_eq, v2, v3]; unfold y; omega
  have hG := h.reslope hp (v := (s.reg r).radius.thenShrinkingAt t) v1 hd (fun _ => he)
  have hwin := h.shrink_window hg hr hp hwk hu hx
  unfold setShrinking scheduleShrink
  rw [ht]
  simp only
  rw [hform]
  generalize hs1 : (s.setReg r fun R => { R with radius := (s.reg r).radius.thenShrinkingAt t }) = s1 at hG
  have hnode : s1.node = s.node := by rw [← hs1]; rfl
  have hw1 : s1.w = s.w := by rw [← hs1]; rfl
  have hreg : s1.reg r = { s.reg r with radius := (s.reg r).radius.thenShrinkingAt t } := by rw [← hs1, setReg_self]
  have hp1 : par s1 r = none := by unfold par; rw [hreg]; exact hp
  have hsl1 : sl s1 r = -1 := by unfold sl; rw [hreg]; exact v2
  have hτ : t ≤ shrinkTime s1 r ∧ shrinkTime s1 r < t + 2 ^ 31 := by
    have hyi : (s1.reg r).radius.yIntercept = y s t r + t := by rw [hreg]; exact v3
    rcases hG.shrinkTime_cases hr hp1 with ⟨e1, e2⟩ | ⟨z, e1, e2, e3⟩
    · rw [hreg] at e1
      have := (hwin 0).2 e1
      have := h.ypos r hr
      omega
    · rw [hreg] at e1
      rw [hnode] at e2 e3
      have := (hwin z).1 e1
      have := h.orho z r e2
      omega
  obtain ⟨w1, a, b, c, d⟩ := wish_spec s1 (by rw [hw1]; exact hs.winv) (.inr r) (shrinkTime s1 r)
    (by unfold FS.now at ht ⊢; rw [hw1]; omega) (by unfold FS.now at ht ⊢; rw [hw1]; omega)
  rw [a]
  have harea : area { s1 with w := w1 } r = area s1 r := rfl
  rw [harea]
  obtain ⟨w2, a2, b2, c2, d2⟩ := noWishes_spec (area s1 r) (s := { s1 with w := w1 }) b
  refine ⟨w2, a2, by rw [c2, c, hw1], hG.withW w2, ?_⟩
  have hS := hs.reslope h.toBGeo (r := r) (v := (s.reg r).radius.thenShrinkingAt t)
    (w' := (noWishO s.w (.inr r))) (by
      obtain ⟨w', e1, e2, -, -⟩ := noWish_spec s hs.winv (.inr r)
      have : noWishO s.w (.inr r) = w' := congrArg FS.w e1
      rw [this]; exact e2) (by
      obtain ⟨w', e1, -, -, e2⟩ := noWish_spec s hs.winv (.inr r)
      have : noWishO s.w (.inr r) = w' := congrArg FS.w e1
      rw [this]; exact e2)
  rw [hs1] at hS
  have hwO : ∀ o, want { s1 with w := noWishO s.w (.inr r) } o = if o = .inr r then none else want s o := by
    intro o
    obtain ⟨w', e1, -, -, e2⟩ := noWish_spec s hs.winv (.inr r)
    have : noWishO s.w (.inr r) = w' := congrArg FS.w e1
    unfold want
    simp only [this, e2]
    by_cases ho : o = .inr r
    · simp [ho]
    · rw [Function.update_of_ne ho, if_neg ho]
  have hwant : ∀ o, want { s1 with w := w2 } o = if (∃ n, (s.node n).top = some r ∧ o = .inl n) then none else
      if o = .inr r then some (shrinkTime s1 r) else want s o := by
    intro o
    have hiff : (∃ n ∈ area s1 r, o = .inl n) ↔ (∃ n, (s.node n).top = some r ∧ o = .inl n) := by
      constructor
      · rintro ⟨n, hn, e⟩
        rw [hG.mem_area_top hr hp1, hnode] at hn
        exact ⟨n, hn, e⟩
      · rintro ⟨n, hn, e⟩
        exact ⟨n, by rw [hG.mem_area_top hr hp1, hnode]; exact hn, e⟩
    unfold want
    simp only [d2, d, hiff]
    split
    · rfl
    · by_cases ho : o = .inr r
      · simp [ho]
      · rw [Function.update_of_ne ho, if_neg ho, hw1]
  have hslope : ∀ n, (s.node n).top = some r → (localRadius s1 n).slope = -1 := fun n hn => by
    rw [BGeo.local_slope (s := s1) (by rw [hnode]; exact hn)]; exact hsl1
  refine ⟨b2, ?_, ?_, ?_⟩
  · intro a i n τ hen hc hX hXv
    have hc1 : coll s1 a n = some τ := hc
    have hta : (s.node a).top ≠ some r := by
      intro e
      have := hslope a e
      unfold coll at hc1
      cases hv : n.target with
      | none => simp [hv, this] at hc1
      | some v => simp [hv, this] at hc1
    have htv : ∀ v, n.target = some v → (s.node v).top ≠ some r := by
      intro v hv e
      have := hslope v e
      unfold coll at hc1
      simp [hv, this] at hc1
    have hXa' : ¬ (X a ∨ (s.node a).top = some r) := by
      rintro (x | x)
      · exact hX ⟨x, hta⟩
      · exact hta x
    obtain ⟨t', e1, e2⟩ := hS.colls a i n τ hen hc1 hXa' (fun v hv => by
      rintro (x | x)
      · exact hXv v hv ⟨x, htv v hv⟩
      · exact htv v hv x)
    refine ⟨t', e1, ?_⟩
    rcases e2 with e2 | ⟨v, e2, e3⟩
    · left
      rw [hwO, if_neg (by simp)] at e2
      rw [hwant, if_neg, if_neg (by simp)]
      · exact e2
      · rintro ⟨n', h1, h2⟩
        cases h2
        exact hta h1
    · right
      refine ⟨v, e2, ?_⟩
      rw [hwO, if_neg (by simp)] at e3
      rw [hwant, if_neg, if_neg (by simp)]
      · exact e3
      · rintro ⟨n', h1, h2⟩
        cases h2
        exact htv v e2 h1
  · intro a τ hX ha
    rw [hwant] at ha
    split at ha
    · cases ha
    · rename_i hno
      have hta : (s.node a).top ≠ some r := fun e => hno ⟨a, e, rfl⟩
      rw [if_neg (by simp)] at ha
      have := hS.nodeWant a τ (by
        rintro (x | x)
        · exact hX ⟨x, hta⟩
        · exact hta x) (by rw [hwO, if_neg (by simp)]; exact ha)
      exact this
  · intro q
    rw [hwant, if_neg (by rintro ⟨n, -, h2⟩; cases h2)]
    by_cases hq : q = r
    · subst hq
      rw [if_pos rfl]
      refine ⟨fun _ => rfl, fun hno => ?_⟩
      exact absurd ⟨hr, hp1, hsl1, fun e => e.2 rfl⟩ hno
    · rw [if_neg (by simpa using hq)]
      have := hS.regWant q
      rw [hwO, if_neg (by simpa using hq)] at this
      have hY : (Y q ∧ q ≠ r) ↔ (Y q ∨ q = r) := by simp [hq]
      rw [hY]
      exact this

end Verif.SB
