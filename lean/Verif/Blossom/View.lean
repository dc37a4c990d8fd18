import Verif.Blossom.Prune
import Verif.Blossom.Break
import Verif.Blossom.Seed
import Verif.Blossom.LookAt

/-!
# The flooder as seen by the matcher
-/

namespace Verif.SB

open Verif Verif.Graph Verif.CE Verif.Vary Verif.Track Verif.Spec Verif.Mem
open Verif.Sch (Res better)

variable {g : MGraph} {T L : Finset Nat} {ch : Nat → List Nat} {t : Int} {s : FS}

/-- Radii in the region have the parity of the time. -/
def Ev (T L : Finset Nat) (ch : Nat → List Nat) (t : Int) (s : FS) (r : Nat) : Prop :=
  ∀ a ∈ T, InR s ch r a → (rad s L ch t a - t) % 2 = 0

def view (g : MGraph) (T L : Finset Nat) (ch : Nat → List Nat) (t : Int) (s : FS) : View where
  live r := r ∈ L
  top r := r ∈ L ∧ par s r = none
  sl := sl s
  lk := Link g T L ch t s
  blk := BLink g T L ch t s
  kids r := (s.reg r).children
  ev := Ev T L ch t s
  has r a := a ∈ T ∧ InR s ch r a

/-- The flooder is in order at time `t`; nodes of the regions `X` and regions `Y` may be unscheduled. -/
structure FOk (g : MGraph) (T L : Finset Nat) (ch : Nat → List Nat) (t : Int) (X Y : Nat → Prop) (s : FS) : Prop where
  geo : Geo g T L ch t s
  now : s.now = t
  sched : Sched g L (fun u => ∃ r, (s.node u).top = some r ∧ X r) Y s

/-- Regions `X` not top and `Y` not shrinking do not matter. -/
theorem FOk.weaken {X Y X' Y' : Nat → Prop} (h : FOk g T L ch t X Y s) (hX : ∀ r, r ∈ L → par s r = none → X r → X' r)
    (hY : ∀ r, r ∈ L → par s r = none → sl s r = -1 → (Y r ↔ Y' r)) : FOk g T L ch t X' Y' s := by
  refine ⟨h.geo, h.now, (h.sched.mono ?_).congrY hY⟩
  rintro u ⟨r, h1, h2⟩
  obtain ⟨q, -, -, -, h3, h4⟩ := h.geo.node_top_live h1
  exact ⟨r, h1, hX r h3 h4 h2⟩

/-! ## Facts about the view -/

theorem Link.live (h : BGeo g T L ch t s) {e : CompressedEdge} {r r' : Nat} (hl : Link g T L ch t s e r r') : r ∈ L ∧ r' ∈ L := by
  obtain ⟨a, b, -, -, -, -, h5, h6, -⟩ := hl
  exact ⟨h.inR_live h5, h.inR_live h6⟩

theorem Link.symm (hg : Proper g) {e : CompressedEdge} {r r' : Nat} (hl : Link g T L ch t s e r r') : Link g T L ch t s e.reversed r' r := by
  obtain ⟨a, b, h1, h2, h3, h4, h5, h6, es, h7, h8, h9⟩ := hl
  obtain ⟨fs, w1, w2, w3⟩ := walk_reverse hg h7
  refine ⟨b, a, h2, h1, h4, h3, h6, h5, fs, w1, ?_, w3.trans h9⟩
  rw [w2, h8]
  unfold D
  rw [dist_comm]

theorem view_sym (hg : Proper g) : (view g T L ch t s).Sym := fun _ _ _ h => Link.symm hg h

theorem Ev.all (h : Geo g T L ch t s) {r : Nat} (hr : r ∈ L) (hp : par s r = none) (he : Ev T L ch t s r) :
    ∀ n, (s.node n).top = some r → (rad s L ch t n - t) % 2 = 0 := by
  intro n hn
  obtain ⟨q, hq, hqL, e, -, -⟩ := h.node_top_live hn
  obtain ⟨a, ha, -, hin, -⟩ := h.src n q hq
  have hat : (s.node a).top = some r := by rw [h.inR_top hin, e]
  have h1 := he a ha (h.inR_of_top hat)
  have h2 := h.even1 n a r hn hat
  omega

/-- Regions that change have the right parity. -/
theorem ev_of_slope (h : Geo g T L ch t s) {r : Nat} (hr : r ∈ L) (hp : par s r = none) (hsl : sl s r ≠ 0) : Ev T L ch t s r :=
  fun a _ hin => h.even2 a r ((h.inR_iff hr hp).1 hin) hsl

/-- Parity passes through tight edges. -/
theorem ev_link (hg : Proper g) (h : Geo g T L ch t s) {e : CompressedEdge} {r r' : Nat} (hr : par s r = none) (hr' : par s r' = none)
    (hne : r ≠ r') (hl : Link g T L ch t s e r r') (he : Ev T L ch t s r) : Ev T L ch t s r' := by
  obtain ⟨hrL, hrL'⟩ := Link.live h.toBGeo hl
  obtain ⟨a, b, -, -, h3, h4, h5, h6, es, h7, h8, -⟩ := hl
  have ta := (h.inR_iff hrL hr).1 h5
  have tb := (h.inR_iff hrL' hr').1 h6
  have hD := h.D_apart (u := a) (v := b) (.inr (by rw [ta, tb]; simpa using hne))
  have hw := walk_even hg h7
  have h1 := he a h3 h5
  intro c _ hc
  have tc := (h.inR_iff hrL' hr').1 hc
  have h2 := h.even1 b c r' tb tc
  omega

/-! ## Changing slopes -/

theorem view_reslope {r : Nat} {v : Varying} {w' : World Owner} {k : Int} (hd : v.distanceAt t = y s t r) (hk : v.slope = k) :
    view g T L ch t { s.setReg r (fun R => { R with radius := v }) with w := w' } =
      { view g T L ch t s with sl := Function.update (sl s) r k } := by
  have hpot : pot { s.setReg r (fun R => { R with radius := v }) with w := w' } ch t = pot s ch t := by
    refine pot_congr ?_ (fun _ => rfl) (fun _ => rfl)
    intro R
    unfold y
    show (((s.setReg r fun R => { R with radius := v }).reg R).radius).distanceAt t = _
    by_cases hR : R = r
    · subst hR; rw [setReg_self]; exact hd
    · rw [setReg_ne _ _ hR]
  have hpar : ∀ x, par { s.setReg r (fun R => { R with radius := v }) with w := w' } x = par s x :=
    fun x => setReg_proj (·.parent) s r (fun R => { R with radius := v }) rfl x
  unfold view
  congr 1
  · funext x; rw [hpar]
  · funext x
    unfold sl
    show ((s.setReg r fun R => { R with radius := v }).reg x).radius.slope = _
    by_cases hx : x = r
    · subst hx; rw [setReg_self, Function.update_self]; exact hk
    · rw [setReg_ne _ _ hx, Function.update_of_ne hx]
  · funext e x x'
    unfold Link
    simp only [Tight_congr hpot]
    rfl
  · funext e x
    unfold BLink
    simp only [Tight_congr hpot]
    rfl
  · funext x
    exact setReg_proj (·.children) s r (fun R => { R with radius := v }) rfl x
  · funext x
    unfold Ev
    rw [rad_congr hpot]
    rfl

theorem view_withW (w' : World Owner) : view g T L ch t { s with w := w' } = view g T L ch t s := rfl

variable {X Y : Nat → Prop}

theorem FOk.freeze (h : FOk g T L ch t X Y s) (hg : Proper g) {r : Nat} (hr : (view g T L ch t s).top r) :
    ∃ s', setFrozen g s r = .ok s' ∧ FOk g T L ch t X Y s' ∧ s'.regs = s.regs ∧
      view g T L ch t s' = { view g T L ch t s with sl := Function.update (sl s) r 0 } := by
  obtain ⟨w', h1, h2, h3, h4⟩ := setFrozen_spec h.geo hg h.now h.sched hr.1 hr.2
  obtain ⟨v1, v2, v3⟩ := thenFrozen_spec (s.reg r).radius t
  have hform : (s.setReg r fun R => { R with radius := R.radius.thenFrozenAt t }) =
      s.setReg r fun R => { R with radius := (s.reg r).radius.thenFrozenAt t } := by simp [FS.setReg]
  refine ⟨_, h1, ⟨h3, by have := h.now; unfold FS.now at this ⊢; rw [← this]; exact h2, h4⟩, rfl, ?_⟩
  rw [hform]
  exact view_reslope (by rw [distanceAt_eq, v2, v3]; unfold y; omega) v2

theorem FOk.growing (h : FOk g T L ch t X Y s) (hg : Proper g) {r : Nat} (hr : (view g T L ch t s).top r) (he : (view g T L ch t s).ev r) :
    ∃ s', setGrowing g s r = .ok s' ∧ FOk g T L ch t (fun x => X x ∧ x ≠ r) Y s' ∧ s'.regs = s.regs ∧
      view g T L ch t s' = { view g T L ch t s with sl := Function.update (sl s) r 1 } := by
  obtain ⟨w', h1, h2, h3, h4⟩ := setGrowing_spec h.geo hg h.now h.sched hr.1 hr.2 (Ev.all h.geo hr.1 hr.2 he)
  obtain ⟨v1, v2, v3⟩ := thenGrowing_spec (s.reg r).radius t
  have hform : (s.setReg r fun R => { R with radius := R.radius.thenGrowingAt t }) =
      s.setReg r fun R => { R with radius := (s.reg r).radius.thenGrowingAt t } := by simp [FS.setReg]
  refine ⟨_, h1, ⟨h3, by have := h.now; unfold FS.now at this ⊢; rw [← this]; exact h2, h4.mono ?_⟩, rfl, ?_⟩
  · rintro u ⟨⟨q, h5, h6⟩, h7⟩
    exact ⟨q, h5, h6, fun e => h7 (by rw [h5, e])⟩
  · rw [hform]
    exact view_reslope (by rw [distanceAt_eq, v2, v3]; unfold y; omega) v2

theorem FOk.shrinking (h : FOk g T L ch t X Y s) (hg : Proper g) {r : Nat} (hr : (view g T L ch t s).top r) (he : (view g T L ch t s).ev r)
    (hout : ∃ e r', (view g T L ch t s).lk e r r' ∧ (view g T L ch t s).top r' ∧ r' ≠ r) :
    FOk g T L ch t (fun x => X x ∧ x ≠ r) (fun x => Y x ∧ x ≠ r) (setShrinking s r) ∧ (setShrinking s r).regs = s.regs ∧
      view g T L ch t (setShrinking s r) = { view g T L ch t s with sl := Function.update (sl s) r (-1) } := by
  obtain ⟨e, r', ⟨a, b, -, -, ha, hb, h5, h6, es, h7, -⟩, ⟨hrL', hr'⟩, hne⟩ := hout
  have ta := (h.geo.inR_iff hr.1 hr.2).1 h5
  have tb := (h.geo.inR_iff hrL' hr').1 h6
  obtain ⟨w', h1, h2, h3, h4⟩ := setShrinking_spec h.geo hg h.now h.sched hr.1 hr.2 (Ev.all h.geo hr.1 hr.2 he) h7 ta
    (fun b' e => by cases e; rw [tb]; simpa using hne)
  obtain ⟨v1, v2, v3⟩ := thenShrinking_spec (s.reg r).radius t
  have hform : (s.setReg r fun R => { R with radius := R.radius.thenShrinkingAt t }) =
      s.setReg r fun R => { R with radius := (s.reg r).radius.thenShrinkingAt t } := by simp [FS.setReg]
  rw [h1]
  refine ⟨⟨h3, by have := h.now; unfold FS.now at this ⊢; rw [← this]; exact h2, h4.mono ?_⟩, rfl, ?_⟩
  · rintro u ⟨⟨q, h5, h6⟩, h7⟩
    exact ⟨q, h5, h6, fun e => h7 (by rw [h5, e])⟩
  · rw [hform]
    exact view_reslope (by rw [distanceAt_eq, v2, v3]; unfold y; omega) v2

theorem FOk.resched (h : FOk g T L ch t X Y s) (hg : Proper g) {r : Nat} (hr : (view g T L ch t s).top r) (hsl : (view g T L ch t s).sl r ≠ -1) :
    ∃ s', rescheduleAll g s (area s r) = .ok s' ∧ FOk g T L ch t (fun x => X x ∧ x ≠ r) Y s' ∧ s'.regs = s.regs ∧
      view g T L ch t s' = view g T L ch t s := by
  obtain ⟨w', h1, h2, h3⟩ := Geo.rescheduleAll_spec hg (area s r) h.geo h.now h.sched (fun u hu => by
    rw [BGeo.local_slope ((h.geo.mem_area_top hr.1 hr.2).1 hu)]; exact hsl)
  refine ⟨_, h1, ⟨h.geo.withW w', by have := h.now; unfold FS.now at this ⊢; rw [← this]; exact h2, h3.mono ?_⟩, rfl, rfl⟩
  rintro u ⟨⟨q, h5, h6⟩, h7⟩
  refine ⟨q, h5, h6, fun e => h7 ?_⟩
  rw [h.geo.mem_area_top hr.1 hr.2, h5, e]

/-! ## Creation of a blossom -/

/-- The view after blossom `B` was formed from `cyc`. -/
structure Wrapped (V V' : View) (B : Nat) (cyc : List (Nat × CompressedEdge)) : Prop where
  new : ¬ V.live B
  live : ∀ r, V'.live r ↔ r = B ∨ V.live r
  top : ∀ r, V'.top r ↔ r = B ∨ (V.top r ∧ r ∉ cyc.map (·.1))
  slB : V'.sl B = 1
  sl : ∀ r, V.live r → r ∉ cyc.map (·.1) → V'.sl r = V.sl r
  lk : ∀ e r r', V.lk e r r' → V'.lk e r r' ∧ (r ∈ cyc.map (·.1) → V'.lk e B r') ∧ (r' ∈ cyc.map (·.1) → V'.lk e r B)
  blk : ∀ e r, V.blk e r → V'.blk e r
  kidsB : V'.kids B = cyc
  kids : ∀ r, V.live r → V'.kids r = V.kids r
  has : ∀ r a, V.has r a → V'.has r a ∧ (r ∈ cyc.map (·.1) → V'.has B a)

theorem inR_wrap (h : BGeo g T L ch t s) {s' : FS} {B : Nat} {cyc : List (Nat × CompressedEdge)} (hB : B ∉ L) (hr : WrapRel L ch t B cyc s s') {r n : Nat}
    (hin : InR s ch r n) : InR s' (wrapCh ch B (cyc.map (·.1))) r n ∧ (r ∈ cyc.map (·.1) → InR s' (wrapCh ch B (cyc.map (·.1))) B n) := by
  have hrL := h.inR_live hin
  obtain ⟨q, hq, hrq⟩ := hin
  have hqL := (h.occ n q hq).1
  have hqB : q ≠ B := fun e => hB (e ▸ hqL)
  have hrB : r ≠ B := fun e => hB (e ▸ hrL)
  refine ⟨⟨q, by rw [hr.arr]; exact hq, (mem_wrapCh hqB hrB).2 hrq⟩, fun hc => ⟨q, by rw [hr.arr]; exact hq, ?_⟩⟩
  unfold wrapCh
  rw [if_neg hqB, if_pos ⟨r, hrq, hc⟩]
  simp

theorem FOk.blossom (h : FOk g T L ch t X Y s) (hg : Proper g) (hA : AInv L s.regs) {cyc : List (Nat × CompressedEdge)} (hne : cyc ≠ [])
    (hnd : (cyc.map (·.1)).Nodup) (hcyc : ∀ c ∈ cyc.map (·.1), (view g T L ch t s).top c) (hsl : ∀ c ∈ cyc.map (·.1), sl s c ≠ 0)
    (hX : ∀ c, ¬ X c) :
    ∃ s' B, blossomFl g s cyc = .ok (s', B) ∧ AInv (insert B L) s'.regs ∧
      FOk g T (insert B L) (wrapCh ch B (cyc.map (·.1))) t X Y s' ∧
      Wrapped (view g T L ch t s) (view g T (insert B L) (wrapCh ch B (cyc.map (·.1))) t s') B cyc := by
  obtain ⟨s', B, h1, hB, h2, h3, h4, h5, h6⟩ := blossomFl_spec h.geo hg hA h.now h.sched hne hnd hcyc hsl
  have hcL : ∀ c ∈ cyc.map (·.1), c ≠ B := fun c hc e => hB (e ▸ (hcyc c hc).1)
  refine ⟨s', B, h1, h3, ⟨h4, h2, h5.mono ?_⟩, ⟨hB, ?_, ?_, h6.slB, ?_, ?_, ?_, h6.kidsB, h6.kids, ?_⟩⟩
  · rintro u ⟨q, -, h7⟩
    exact absurd h7 (hX q)
  · intro r; exact Finset.mem_insert
  · intro r
    show (r ∈ insert B L ∧ par s' r = none) ↔ _
    rw [Finset.mem_insert]
    constructor
    · rintro ⟨rfl | hr, hp⟩
      · exact .inl rfl
      · by_cases hc : r ∈ cyc.map (·.1)
        · rw [h6.parC r hc] at hp; cases hp
        · exact .inr ⟨⟨hr, by rw [← h6.par r hr hc]; exact hp⟩, hc⟩
    · rintro (rfl | ⟨⟨hr, hp⟩, hc⟩)
      · exact ⟨.inl rfl, h6.parB⟩
      · exact ⟨.inr hr, by rw [h6.par r hr hc]; exact hp⟩
  · intro r hr hc
    show SB.sl s' r = SB.sl s r
    unfold SB.sl
    rw [h6.radius r hr hc]
  · rintro e r r' ⟨a, b, i1, i2, i3, i4, i5, i6, es, i7, i8, i9⟩
    have ht : Tight g s' (insert B L) (wrapCh ch B (cyc.map (·.1))) t a (some b) e.obsMask := ⟨es, i7, by rw [h6.dist]; exact i8, i9⟩
    obtain ⟨j1, j2⟩ := inR_wrap h.geo.toBGeo hB h6 i5
    obtain ⟨k1, k2⟩ := inR_wrap h.geo.toBGeo hB h6 i6
    exact ⟨⟨a, b, i1, i2, i3, i4, j1, k1, ht⟩, fun hc => ⟨a, b, i1, i2, i3, i4, j2 hc, k1, ht⟩,
      fun hc => ⟨a, b, i1, i2, i3, i4, j1, k2 hc, ht⟩⟩
  · rintro e r ⟨a, i1, i2, i3, i5, es, i7, i8, i9⟩
    obtain ⟨j1, j2⟩ := inR_wrap h.geo.toBGeo hB h6 i5
    exact ⟨a, i1, i2, i3, j1, es, i7, by rw [h6.dist]; exact i8, i9⟩
  · rintro r a ⟨i1, i2⟩
    obtain ⟨j1, j2⟩ := inR_wrap h.geo.toBGeo hB h6 i2
    exact ⟨⟨i1, j1⟩, fun hc => ⟨i1, j2 hc⟩⟩

/-! ## Dissolving a blossom -/

/-- Only live regions matter. -/
theorem Sched.off (h : Sched g L X Y s) (hG : BGeo g T L ch t s) {s' : FS} (hw : s'.w = s.w) (hnode : s'.node = s.node)
    (hreg : ∀ r ∈ L, s'.reg r = s.reg r) : Sched g L X Y s' := by
  have hloc : ∀ n, localRadius s' n = localRadius s n := by
    intro n
    unfold localRadius
    rw [hnode]
    cases hn : (s.node n).top with
    | none => rfl
    | some r =>
      obtain ⟨q, -, -, -, hr, -⟩ := hG.node_top_live hn
      simp only [hreg r hr]
  have hwant : ∀ o, want s' o = want s o := fun o => by unfold want; rw [hw]
  refine ⟨by rw [hw]; exact h.winv, ?_, ?_, ?_⟩
  · intro u i n τ he hc hXu hXv
    have hcs : coll s u n = some τ := by
      rw [← hc]
      unfold coll
      simp only [hloc, hnode]
    obtain ⟨t', e1, e2⟩ := h.colls u i n τ he hcs hXu hXv
    simp only [hwant]
    exact ⟨t', e1, e2⟩
  · intro u τ hX hu
    rw [hwant] at hu
    rw [hloc]
    exact h.nodeWant u τ hX hu
  · intro r
    rw [hwant]
    by_cases hr : r ∈ L
    · have e1 : par s' r = par s r := by unfold par; rw [hreg r hr]
      have e2 : sl s' r = sl s r := by unfold sl; rw [hreg r hr]
      have e3 : shrinkTime s' r = shrinkTime s r := by
        unfold shrinkTime
        rw [hreg r hr]
        simp only [hloc]
      rw [e1, e2, e3]
      exact h.regWant r
    · exact ⟨fun a => absurd a.1 hr, fun _ => (h.regWant r).2 (fun a => hr a.1)⟩

/-- The view after top region `B` was dissolved. -/
structure Unwrapped (V V' : View) (B : Nat) : Prop where
  live : ∀ r, V'.live r ↔ r ≠ B ∧ V.live r
  top : ∀ r, V'.top r ↔ r ≠ B ∧ (V.top r ∨ r ∈ (V.kids B).map (·.1))
  sl : ∀ r, r ≠ B → V'.sl r = V.sl r
  still : ∀ r ∈ (V.kids B).map (·.1), V.live r ∧ V.sl r = 0 ∧ ¬ V.top r
  lk : ∀ e r r', r ≠ B → r' ≠ B → V.lk e r r' → V'.lk e r r'
  heir : ∀ e r', r' ≠ B → V.lk e B r' → ∃ c ∈ (V.kids B).map (·.1), V'.lk e c r'
  blk : ∀ e r, r ≠ B → V.blk e r → V'.blk e r
  kids : ∀ r, r ≠ B → V.live r → V'.kids r = V.kids r
  ev : ∀ c ∈ (V.kids B).map (·.1), V'.ev c
  has : ∀ r a, r ≠ B → V.has r a → V'.has r a

theorem FOk.dissolve (h : FOk g T L ch t X Y s) {B : Nat} (hB : (view g T L ch t s).top B) (hsh : (s.reg B).shell = []) (hy0 : y s t B = 0)
    (hsl : sl s B ≠ 0) (hYB : Y B) :
    ∃ s', (kidsOf s B).foldlM clearParent s = .ok s' ∧ s'.regs = s.regs ∧ s'.reg B = s.reg B ∧
      ∀ s'', s''.w = s'.w → s''.node = s'.node → s''.regs = s'.regs → (∀ r ≠ B, s''.reg r = s'.reg r) →
      FOk g T (L.erase B) (unwrapCh ch B) t (fun x => X x ∨ x ∈ kidsOf s B) Y s'' ∧
      Unwrapped (view g T L ch t s) (view g T (L.erase B) (unwrapCh ch B) t s'') B := by
  obtain ⟨s', h1, h2, h3, h4, h5, h6⟩ := dissolve_spec h.geo h.sched hB.1 hB.2 hsh hy0 hsl hYB
  refine ⟨s', h1, h4.regs, h5, fun s'' hw hnode hregs hreg => ?_⟩
  have hreg' : ∀ r ∈ L.erase B, s''.reg r = s'.reg r := fun r hr => hreg r (Finset.mem_erase.1 hr).1
  have hG : Geo g T (L.erase B) (unwrapCh ch B) t s'' := h2.off hnode hreg' (by
    have := h2.card
    unfold FS.depth at this ⊢
    rw [hregs]; exact this)
  have hpot := h2.toBGeo.pot_off hnode hreg'
  have hdist : D s'' (L.erase B) (unwrapCh ch B) t = D s L ch t := by rw [D_congr hpot, h4.dist]
  have harr : ∀ n, (s''.node n).arr = (s.node n).arr := fun n => by rw [hnode]; exact h4.arr n
  have hkid : ∀ d ∈ kidsOf s B, d ∈ L ∧ SB.par s d = some B := fun d hd => (h.geo.kids.mem B hB.1 d).1 hd
  have hkidB : ∀ d ∈ kidsOf s B, d ≠ B := by rintro d hd rfl; have := (hkid d hd).2; rw [hB.2] at this; cases this
  have hinR : ∀ r n, r ≠ B → (InR s'' (unwrapCh ch B) r n ↔ InR s ch r n) := by
    intro r n hr
    unfold InR
    simp only [harr]
    constructor
    · rintro ⟨q, hq, hm⟩
      exact ⟨q, hq, (h.geo.mem_unwrap hB.1 hB.2 (h.geo.occ n q hq).1 hr).1 hm⟩
    · rintro ⟨q, hq, hm⟩
      exact ⟨q, hq, (h.geo.mem_unwrap hB.1 hB.2 (h.geo.occ n q hq).1 hr).2 hm⟩
  have hheir : ∀ n, InR s ch B n → ∃ c ∈ kidsOf s B, InR s ch c n := by
    rintro n ⟨q, hq, hm⟩
    have hqL := (h.geo.occ n q hq)
    have hqB : q ≠ B := by
      rintro rfl
      rw [hsh] at hqL
      exact absurd hqL.2 (by simp)
    obtain ⟨c, hc, hcq⟩ := (h.geo.heirs hB.1 hqL.1 hqB).1 hm
    exact ⟨c, hc, q, hq, hcq⟩
  have hpar : ∀ r ∈ L.erase B, SB.par s'' r = SB.par s' r := fun r hr => by unfold SB.par; rw [hreg' r hr]
  have hdown : ∀ c ∈ kidsOf s B, ∀ n, InR s ch c n → InR s ch B n := by
    rintro c hc n ⟨q, hq, hm⟩
    have hcL := hkid c hc
    refine ⟨q, hq, h.geo.forest.trans (h.geo.occ n q hq).1 hm ?_⟩
    rw [(h.geo.forest.step c hcL.1 B hcL.2).2]
    exact List.mem_cons_of_mem _ (h.geo.forest.self_mem hB.1)
  refine ⟨⟨hG, ?_, ?_⟩, ⟨?_, ?_, ?_, ?_, ?_, ?_, ?_, ?_, ?_, ?_⟩⟩
  · have := h.now
    rw [← h4.now] at this
    unfold FS.now at this ⊢
    rw [hw]; exact this
  · refine ((h3.off h2.toBGeo hw hnode hreg').mono ?_)
    rintro u (⟨r, hu, hXr⟩ | hu)
    · -- the node was in a region r of X
      obtain ⟨q, -, -, -, hrL, hrp⟩ := h.geo.node_top_live hu
      have hin := h.geo.inR_of_top hu
      by_cases hrB : r = B
      · subst hrB
        obtain ⟨c, hc, hcn⟩ := hheir u hin
        exact ⟨c, by rw [hnode]; exact (h4.topC c hc u).2 hcn, .inr hc⟩
      · have hr' : r ∈ L.erase B := Finset.mem_erase.2 ⟨hrB, hrL⟩
        have hrk : r ∉ kidsOf s B := fun hc => by have := (hkid r hc).2; rw [hrp] at this; cases this
        refine ⟨r, (hG.inR_iff hr' ?_).1 ((hinR r u hrB).2 hin), .inl hXr⟩
        rw [hpar r hr', h4.par r hr' hrk]; exact hrp
    · obtain ⟨c, hc, hcn⟩ := hheir u (h.geo.inR_of_top hu)
      exact ⟨c, by rw [hnode]; exact (h4.topC c hc u).2 hcn, .inr hc⟩
  · intro r; exact Finset.mem_erase
  · intro r
    show (r ∈ L.erase B ∧ SB.par s'' r = none) ↔ r ≠ B ∧ ((r ∈ L ∧ SB.par s r = none) ∨ r ∈ kidsOf s B)
    constructor
    · rintro ⟨hr, hp⟩
      obtain ⟨hrB, hrL⟩ := Finset.mem_erase.1 hr
      refine ⟨hrB, ?_⟩
      by_cases hc : r ∈ kidsOf s B
      · exact .inr hc
      · rw [hpar r hr, h4.par r hr hc] at hp
        exact .inl ⟨hrL, hp⟩
    · rintro ⟨hrB, ⟨hrL, hp⟩ | hc⟩
      · have hr' : r ∈ L.erase B := Finset.mem_erase.2 ⟨hrB, hrL⟩
        have hrk : r ∉ kidsOf s B := fun hc => by have := (hkid r hc).2; rw [hp] at this; cases this
        exact ⟨hr', by rw [hpar r hr', h4.par r hr' hrk]; exact hp⟩
      · have hr' : r ∈ L.erase B := Finset.mem_erase.2 ⟨hrB, (hkid r hc).1⟩
        exact ⟨hr', by rw [hpar r hr', h4.parC r hc]⟩
  · intro r hr
    show SB.sl s'' r = SB.sl s r
    unfold SB.sl
    rw [hreg r hr, h4.radius]
  · intro r hr
    have := hkid r hr
    refine ⟨this.1, h.geo.still r this.1 (by rw [this.2]; simp), fun ht => ?_⟩
    have h7 := ht.2
    rw [this.2] at h7; cases h7
  · rintro e r r' hr hr' ⟨a, b, i1, i2, i3, i4, i5, i6, es, i7, i8, i9⟩
    exact ⟨a, b, i1, i2, i3, i4, (hinR r a hr).2 i5, (hinR r' b hr').2 i6, es, i7, by rw [hdist]; exact i8, i9⟩
  · rintro e r' hr' ⟨a, b, i1, i2, i3, i4, i5, i6, es, i7, i8, i9⟩
    obtain ⟨c, hc, hca⟩ := hheir a i5
    exact ⟨c, hc, a, b, i1, i2, i3, i4, (hinR c a (hkidB c hc)).2 hca, (hinR r' b hr').2 i6, es, i7, by rw [hdist]; exact i8, i9⟩
  · rintro e r hr ⟨a, i1, i2, i3, i5, es, i7, i8, i9⟩
    exact ⟨a, i1, i2, i3, (hinR r a hr).2 i5, es, i7, by rw [hdist]; exact i8, i9⟩
  · intro r hrB hr
    have hr' : r ∈ L.erase B := Finset.mem_erase.2 ⟨hrB, hr⟩
    show (s''.reg r).children = (s.reg r).children
    rw [hreg' r hr', h4.kids r hr']
  · intro c hc a ha hin
    have h7 := h.geo.even2 a B ((h.geo.inR_iff hB.1 hB.2).1 (hdown c hc a ((hinR c a (hkidB c hc)).1 hin))) hsl
    unfold rad at h7 ⊢
    rw [hdist]
    exact h7
  · rintro r a hr ⟨i1, i2⟩
    exact ⟨i1, (hinR r a hr).2 i2⟩

end Verif.SB
