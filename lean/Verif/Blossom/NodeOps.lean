import Verif.Blossom.Slopes

/-!
# Nodes entering and leaving regions, collisions
-/

namespace Verif.SB

open Verif Verif.Graph Verif.CE Verif.Vary Verif.Track Verif.Spec Verif.Mem
open Verif.Sch (Res better)

variable {g : MGraph} {T L : Finset Nat} {ch : Nat → List Nat} {t : Int} {s : FS}

/-- The edge leads from an event in `r` to an event in `r'` along a tight walk. -/
def Link (g : MGraph) (T L : Finset Nat) (ch : Nat → List Nat) (t : Int) (s : FS) (e : CompressedEdge) (r r' : Nat) : Prop :=
  ∃ a b, e.locFrom = some a ∧ e.locTo = some b ∧ a ∈ T ∧ b ∈ T ∧ InR s ch r a ∧ InR s ch r' b ∧
    Tight g s L ch t a (some b) e.obsMask

/-- The edge leads from an event in `r` to the boundary along a tight walk. -/
def BLink (g : MGraph) (T L : Finset Nat) (ch : Nat → List Nat) (t : Int) (s : FS) (e : CompressedEdge) (r : Nat) : Prop :=
  ∃ a, e.locFrom = some a ∧ e.locTo = none ∧ a ∈ T ∧ InR s ch r a ∧ Tight g s L ch t a none e.obsMask

/-- Nothing changed that matters to regions: only nodes at potential zero came or went. -/
structure Same (T : Finset Nat) (ch : Nat → List Nat) (t : Int) (s s' : FS) : Prop where
  pot : pot s' ch t = pot s ch t
  arr : ∀ a ∈ T, (s'.node a).arr = (s.node a).arr
  par : ∀ r, (s'.reg r).parent = (s.reg r).parent
  kids : ∀ r, (s'.reg r).children = (s.reg r).children
  radius : ∀ r, (s'.reg r).radius = (s.reg r).radius
  regs : s'.regs = s.regs

theorem Same.refl (s : FS) (w : World Owner) : Same T ch t s { s with w := w } := ⟨rfl, fun _ _ => rfl, fun _ => rfl, fun _ => rfl, fun _ => rfl, rfl⟩

theorem Same.trans {s s' s'' : FS} (h : Same T ch t s s') (h' : Same T ch t s' s'') : Same T ch t s s'' :=
  ⟨h'.pot.trans h.pot, fun a ha => (h'.arr a ha).trans (h.arr a ha), fun r => (h'.par r).trans (h.par r),
    fun r => (h'.kids r).trans (h.kids r), fun r => (h'.radius r).trans (h.radius r), h'.regs.trans h.regs⟩

theorem Same.inR {s s' : FS} (h : Same T ch t s s') {a r : Nat} (ha : a ∈ T) : InR s' ch r a ↔ InR s ch r a := by
  unfold InR; rw [h.arr a ha]

theorem Same.link {s s' : FS} (h : Same T ch t s s') {e : CompressedEdge} {r r' : Nat} :
    Link g T L ch t s' e r r' ↔ Link g T L ch t s e r r' := by
  unfold Link
  constructor
  · rintro ⟨a, b, h1, h2, h3, h4, h5, h6, h7⟩
    exact ⟨a, b, h1, h2, h3, h4, (h.inR h3).1 h5, (h.inR h4).1 h6, (Tight_congr h.pot _ _ _).1 h7⟩
  · rintro ⟨a, b, h1, h2, h3, h4, h5, h6, h7⟩
    exact ⟨a, b, h1, h2, h3, h4, (h.inR h3).2 h5, (h.inR h4).2 h6, (Tight_congr h.pot _ _ _).2 h7⟩

theorem Same.blink {s s' : FS} (h : Same T ch t s s') {e : CompressedEdge} {r : Nat} :
    BLink g T L ch t s' e r ↔ BLink g T L ch t s e r := by
  unfold BLink
  constructor
  · rintro ⟨a, h1, h2, h3, h5, h7⟩
    exact ⟨a, h1, h2, h3, (h.inR h3).1 h5, (Tight_congr h.pot _ _ _).1 h7⟩
  · rintro ⟨a, h1, h2, h3, h5, h7⟩
    exact ⟨a, h1, h2, h3, (h.inR h3).2 h5, (Tight_congr h.pot _ _ _).2 h7⟩

/-! ## Schedules when a node changes -/

theorem localRadius_congr {s s' : FS} {n : Nat} (hn : s'.node n = s.node n) (hr : ∀ r, (s'.reg r).radius = (s.reg r).radius) :
    localRadius s' n = localRadius s n := by
  unfold localRadius; rw [hn]
  cases (s.node n).top with
  | none => rfl
  | some r => simp only [hr]

/-- After node `x` and the shell of region `r` changed, they are to be rescheduled. -/
theorem Sched.touch {X Y : Nat → Prop} (h : Sched g L X Y s) (hG : BGeo g T L ch t s) {s' : FS} {x r : Nat} (hw : s'.w = s.w)
    (hnode : ∀ n, n ≠ x → s'.node n = s.node n) (hpar : ∀ q, (s'.reg q).parent = (s.reg q).parent)
    (hrad : ∀ q, (s'.reg q).radius = (s.reg q).radius) (hshell : ∀ q, q ≠ r → (s'.reg q).shell = (s.reg q).shell)
    (hx : ∀ q, (s.node x).arr = some q → q = r) (hr : r ∈ L → par s r = none → sl s r = -1 → Y r) :
    Sched g L (fun u => X u ∨ u = x) (fun q => Y q ∨ q = r) s' := by
  by_cases hc : r ∈ L ∧ par s r = none ∧ sl s r = -1 ∧ ¬ Y r
  · exact absurd (hr hc.1 hc.2.1 hc.2.2.1) hc.2.2.2
  ·
    have hwant : ∀ o, want s' o = want s o := fun o => by unfold want; rw [hw]
    have hloc : ∀ n, n ≠ x → localRadius s' n = localRadius s n := fun n hn => localRadius_congr (hnode n hn) hrad
    refine ⟨by rw [hw]; exact h.winv, ?_, ?_, ?_⟩
    · intro u i n τ he hcoll hXu hXv
      push Not at hXu
      have hcs : coll s u n = some τ := by
        rw [← hcoll]
        unfold coll
        rw [hloc u hXu.2, hnode u hXu.2]
        cases ht : n.target with
        | none => rfl
        | some v =>
          have := hXv v ht
          push Not at this
          simp only
          rw [hloc v this.2, hnode v this.2]
      obtain ⟨t', e1, e2⟩ := h.colls u i n τ he hcs hXu.1 (fun v hv x => hXv v hv (.inl x))
      refine ⟨t', e1, ?_⟩
      rcases e2 with e2 | ⟨v, e2, e3⟩
      · left; rw [hwant]; exact e2
      · right; exact ⟨v, e2, by rw [hwant]; exact e3⟩
    · intro u τ hX hu
      push Not at hX
      rw [hwant] at hu
      rw [hloc u hX.2]
      exact h.nodeWant u τ hX.1 hu
    · intro q
      rw [hwant]
      have e2 : par s' q = par s q := hpar q
      have e3 : sl s' q = sl s q := by unfold sl; rw [hrad]
      rw [e2, e3]
      by_cases hq : q = r
      · subst hq
        exact ⟨fun a => absurd (Or.inr rfl) a.2.2.2, fun _ => (h.regWant q).2 hc⟩
      · have hY : (Y q ∨ q = r) ↔ Y q := by simp [hq]
        rw [hY]
        refine ⟨fun a => ?_, (h.regWant q).2⟩
        rw [(h.regWant q).1 a]
        congr 1
        unfold shrinkTime
        rw [hshell q hq, hrad]
        cases hz : (s.reg q).shell.getLast? with
        | none => rfl
        | some z =>
          have hzx : z ≠ x := by
            intro e
            subst e
            exact hq (hx q (hG.shell q a.1 z (List.mem_of_getLast? hz)))
          simp only [hloc z hzx]

/-! ## A collision now -/

theorem Geo.coll_now (h : Geo g T L ch t s) (hg : Proper g) {u i : Nat} {n : Nbr} (he : entry g (u, i) = some n)
    (hc : coll s u n = some t) :
    (n.target = none ∧ (localRadius s u).slope = 1 ∧ rad s L ch t u = n.weight) ∨
    ∃ v, n.target = some v ∧ (s.node u).top ≠ (s.node v).top ∧ (localRadius s u).slope ≠ -1 ∧ (localRadius s v).slope ≠ -1 ∧
      (localRadius s u).slope + (localRadius s v).slope ≠ 0 ∧ rad s L ch t u + rad s L ch t v = n.weight := by
  have hiu := h.local_intercept u
  unfold coll at hc
  cases hv : n.target with
  | none =>
    simp only [hv] at hc
    split at hc
    · rename_i h1
      left
      refine ⟨rfl, h1, ?_⟩
      rw [Option.some.injEq, hiu, h1] at hc; omega
    · cases hc
  | some v =>
    right
    simp only [hv] at hc
    have hiv := h.local_intercept v
    split at hc
    · cases hc
    · rename_i hno
      push Not at hno
      obtain ⟨n1, n2, n3, n4⟩ := hno
      refine ⟨v, rfl, n1, n2, n3, n4, ?_⟩
      rw [Option.some.injEq, hiu, hiv] at hc
      have hev := hg.even u i n he
      have even2 : ∀ x, (localRadius s x).slope = 1 → (rad s L ch t x - t) % 2 = 0 := by
        intro x hx
        cases hxt : (s.node x).top with
        | none => rw [BGeo.local_slope_none hxt] at hx; omega
        | some r => exact h.even2 x r hxt (by rw [← BGeo.local_slope hxt, hx]; decide)
      rcases slope_three (h.local_valid u) with a | a | a
      · rcases slope_three (h.local_valid v) with b | b | b
        · have := even2 u a
          have := even2 v b
          rw [a, b] at hc
          omega
        · exact absurd b n3
        · rw [a, b] at hc; omega
      · exact absurd a n2
      · rcases slope_three (h.local_valid v) with b | b | b
        · rw [a, b] at hc; omega
        · exact absurd b n3
        · rw [a, b] at n4; omega

/-! ## Arriving at an empty node -/

/-- What the fields of the node are after the arrival. -/
def arrived (s : FS) (t : Int) (r frm : Nat) (o : ObsInt) : DNode :=
  ⟨some r, some r, -(y s t r), (s.node frm).src, (s.node frm).obs ^^^ o, y s t r⟩

/-- The state after the arrival, before rescheduling. -/
def arrivedFS (s : FS) (t : Int) (r e frm : Nat) (o : ObsInt) : FS :=
  (s.setNode e fun _ => arrived s t r frm o).setReg r fun R => { R with shell := R.shell ++ [e] }

theorem setNode_self (s : FS) (n : Nat) (f : DNode → DNode) : (s.setNode n f).node n = f (s.node n) := by simp [FS.setNode]
theorem setNode_ne (s : FS) {n x : Nat} (f : DNode → DNode) (h : x ≠ n) : (s.setNode n f).node x = s.node x := by
  simp [FS.setNode, h]

theorem arrivedFS_self (s : FS) (t : Int) (r e frm : Nat) (o : ObsInt) : (arrivedFS s t r e frm o).node e = arrived s t r frm o :=
  setNode_self s e (fun _ => arrived s t r frm o)
theorem arrivedFS_ne (s : FS) (t : Int) (r e frm : Nat) (o : ObsInt) {n : Nat} (hn : n ≠ e) :
    (arrivedFS s t r e frm o).node n = s.node n := setNode_ne s (fun _ => arrived s t r frm o) hn

theorem Geo.arrived_same (h : Geo g T L ch t s) {r e frm : Nat} {o : ObsInt} (hr : r ∈ L) (hp : par s r = none)
    (he : (s.node e).arr = none) : Same T ch t s (arrivedFS s t r e frm o) := by
  have hnodee : (arrivedFS s t r e frm o).node e = arrived s t r frm o := arrivedFS_self _ _ _ _ _ _
  have hnode : ∀ n, n ≠ e → (arrivedFS s t r e frm o).node n = s.node n := fun n hn => arrivedFS_ne _ _ _ _ _ _ hn
  have hrad : ∀ x, ((arrivedFS s t r e frm o).reg x).radius = (s.reg x).radius := setReg_proj (·.radius) (s.setNode e _) r _ rfl
  have hy : ∀ x, y (arrivedFS s t r e frm o) t x = y s t x := fun x => by unfold y; rw [hrad]
  refine ⟨?_, ?_, setReg_proj (·.parent) (s.setNode e _) r _ rfl, setReg_proj (·.children) (s.setNode e _) r _ rfl, hrad, rfl⟩
  · funext R u
    cases u with
    | none => rfl
    | some n =>
      by_cases hn : n = e
      · subst hn
        rw [BGeo.pot_empty he]
        rw [BGeo.pot_arr (q := r) (by rw [hnodee]; rfl), h.chain_root hr hp, hnodee]
        simp only [List.mem_singleton, hy, arrived]
        split
        · rename_i e1; subst e1; simp
        · rfl
      · simp only [pot, hnode n hn, hy]
  · intro a ha
    have : a ≠ e := by
      rintro rfl
      obtain ⟨q, l, e1, -⟩ := h.event a ha
      rw [he] at e1; cases e1
    rw [hnode a this]

theorem Geo.arrive_geo (h : Geo g T L ch t s) {r e frm i : Nat} {nb : Nbr} (hr : r ∈ L) (hp : par s r = none)
    (he : (s.node e).arr = none) (hf : (s.node frm).top = some r) (hnb : entry g (frm, i) = some nb) (hv : nb.target = some e)
    (hs : sl s r = 1) (hw : rad s L ch t frm = nb.weight) (hev : nb.weight % 2 = 0) :
    Geo g T L ch t (arrivedFS s t r e frm nb.obs) := by
  have hsame := h.arrived_same (frm := frm) (o := nb.obs) hr hp he
  have hnodee : (arrivedFS s t r e frm nb.obs).node e = arrived s t r frm nb.obs := arrivedFS_self _ _ _ _ _ _
  have hnode : ∀ n, n ≠ e → (arrivedFS s t r e frm nb.obs).node n = s.node n := fun n hn => arrivedFS_ne _ _ _ _ _ _ hn
  have htop : ∀ x, ((arrivedFS s t r e frm nb.obs).reg x).top = (s.reg x).top := setReg_proj (·.top) (s.setNode e _) r _ rfl
  have hshr : ((arrivedFS s t r e frm nb.obs).reg r).shell = (s.reg r).shell ++ [e] := by
    unfold arrivedFS; rw [setReg_self]; rfl
  have hsh : ∀ x, x ≠ r → ((arrivedFS s t r e frm nb.obs).reg x).shell = (s.reg x).shell := fun x hx => by
    unfold arrivedFS; rw [setReg_ne _ _ hx]; rfl
  have hregs : (arrivedFS s t r e frm nb.obs).regs = s.regs := rfl
  generalize arrivedFS s t r e frm nb.obs = s' at *
  have hpot := hsame.pot
  have hpf : par s' = par s := by funext x; exact hsame.par x
  have hk : kidsOf s' = kidsOf s := by funext x; unfold kidsOf; rw [hsame.kids]
  have hy : y s' t = y s t := by funext x; unfold y; rw [hsame.radius]
  have hsl : ∀ x, sl s' x = sl s x := fun x => by unfold sl; rw [hsame.radius]
  have hsub : ∀ x n, n ∈ (s.reg x).shell → n ∈ (s'.reg x).shell := by
    intro x n hn
    by_cases hx : x = r
    · subst hx; rw [hshr]; exact List.mem_append_left _ hn
    · rw [hsh x hx]; exact hn
  have hne : ∀ x ∈ L, e ∉ (s.reg x).shell := fun x hx hn => by
    have := h.shell x hx e hn
    rw [he] at this; cases this
  have htr := h.top_self hr hp
  have hTe : ∀ a ∈ T, a ≠ e := by
    rintro a ha rfl
    obtain ⟨q, l, e1, -⟩ := h.event a ha
    rw [he] at e1; cases e1
  have hrade : rad s L ch t e = 0 := h.rad_empty he
  refine ⟨⟨?_, ?_, ?_, ?_, ?_, ?_, ?_, ?_, ?_, ?_, ?_, ?_, ?_, ?_, ?_, ?_, ?_⟩, ?_, ?_, ?_, ?_⟩
  · rw [hpf]; exact h.forest
  · rw [hpf, hk]; exact h.kids
  · unfold FS.depth; rw [hregs]; exact h.card
  · intro x hx; rw [htop, hpf]; exact h.top x hx
  · intro x hx; rw [hsame.radius]; exact h.valid x hx
  · intro x hx; rw [hpf, hsl]; exact h.still x hx
  · intro x hx; rw [hy]; exact h.ypos x hx
  · intro n q hn
    by_cases hne : n = e
    · subst hne
      rw [hnodee] at hn
      cases hn
      exact ⟨hr, by rw [hshr]; simp⟩
    · rw [hnode n hne] at hn
      exact ⟨(h.occ n q hn).1, hsub q n (h.occ n q hn).2⟩
  · intro n q hn
    rw [htop]
    by_cases hne : n = e
    · subst hne
      rw [hnodee] at hn ⊢
      cases hn
      rw [htr]; rfl
    · rw [hnode n hne] at hn ⊢
      exact h.otop n q hn
  · intro n q hn
    rw [hy]
    by_cases hne : n = e
    · subst hne
      rw [hnodee] at hn ⊢
      cases hn
      exact ⟨h.ypos r hr, le_refl _⟩
    · rw [hnode n hne] at hn ⊢
      exact h.orho n q hn
  · intro n q hn
    rw [hy]
    by_cases hne : n = e
    · subst hne
      rw [hnodee] at hn ⊢
      cases hn
      rw [h.chain_root hr hp]
      simp [arrived]
    · rw [hnode n hne] at hn ⊢
      exact h.owrap n q hn
  · intro n hn
    by_cases hne : n = e
    · subst hne
      rw [hnodee] at hn
      cases hn
    · rw [hnode n hne] at hn ⊢
      exact h.empty n hn
  · intro x hx n hn
    by_cases hxr : x = r
    · subst hxr
      rw [hshr] at hn
      rcases List.mem_append.1 hn with hn | hn
      · rw [hnode n (fun e1 => hne x hx (e1 ▸ hn))]
        exact h.shell x hx n hn
      · rw [List.mem_singleton] at hn
        subst hn
        rw [hnodee]; rfl
    · rw [hsh x hxr] at hn
      rw [hnode n (fun e1 => hne x hx (e1 ▸ hn))]
      exact h.shell x hx n hn
  · intro x hx
    by_cases hxr : x = r
    · subst hxr
      rw [hshr]
      exact List.Nodup.append (h.shellNodup x hx) (by simp) (by simpa using hne x hx)
    · rw [hsh x hxr]; exact h.shellNodup x hx
  · intro x hx
    have hold : (s.reg x).shell.Pairwise fun a b => (s'.node a).rho ≤ (s'.node b).rho := by
      refine (h.shellSorted x hx).imp_of_mem ?_
      intro a b ha hb hab
      rw [hnode a (fun e1 => hne x hx (e1 ▸ ha)), hnode b (fun e1 => hne x hx (e1 ▸ hb))]
      exact hab
    by_cases hxr : x = r
    · subst hxr
      rw [hshr, List.pairwise_append]
      refine ⟨hold, by simp, ?_⟩
      intro a ha b hb
      rw [List.mem_singleton] at hb
      subst hb
      rw [hnodee, hnode a (fun e1 => hne x hx (e1 ▸ ha))]
      exact (h.orho a x (h.shell x hx a ha)).2
    · rw [hsh x hxr]; exact hold
  · intro x hx hc
    rw [hsame.kids] at hc
    obtain ⟨a, l, e1, e2⟩ := h.seed x hx hc
    by_cases hxr : x = r
    · subst hxr
      exact ⟨a, l ++ [e], by rw [hshr, e1]; rfl, e2⟩
    · exact ⟨a, l, by rw [hsh x hxr, e1], e2⟩
  · intro a ha
    obtain ⟨x, l, e1, e2, e3, e4⟩ := h.event a ha
    rw [hnode a (hTe a ha)]
    by_cases hxr : x = r
    · subst hxr
      exact ⟨x, l ++ [e], e1, by rw [hsame.kids]; exact e2, by rw [hshr, e3]; rfl, e4⟩
    · exact ⟨x, l, e1, by rw [hsame.kids]; exact e2, by rw [hsh x hxr, e3], e4⟩
  · intro n q hn
    by_cases hne : n = e
    · subst hne
      rw [hnodee] at hn ⊢
      cases hn
      obtain ⟨q, hq, hqL, eq, -, -⟩ := h.node_top_live hf
      obtain ⟨a, haT, e1, e2, es, w1, w2, w3⟩ := h.src frm q hq
      have hat : (s.node a).top = some r := by rw [h.inR_top e2, eq]
      refine ⟨a, haT, e1, (hsame.inR haT).2 (h.inR_of_top hat), ?_⟩
      rw [Tight_congr hpot]
      refine ⟨es ++ [(frm, i)], walk_append w1 (.step hnb hv (.here _)), ?_, ?_⟩
      · rw [totalWeight_append, w2, h.D_inside haT hq e2, totalWeight_cons, slotWeight_eq hnb, totalWeight_nil,
          h.D_apart (.inr (by rw [hat, (h.arr_none_iff n).1 he]; simp)), hrade]
        omega
      · rw [totalObs_append, w3]
        simp [totalObs, slotObs_eq hnb, arrived]
    · rw [hnode n hne] at hn ⊢
      obtain ⟨a, ha, e1, e2, e3⟩ := h.src n q hn
      exact ⟨a, ha, e1, (hsame.inR ha).2 e2, (Tight_congr hpot _ _ _).2 e3⟩
  · rw [D_congr hpot]; exact h.flow
  · have htops : ∀ n q, (s'.node n).top = some q → (n = e ∧ q = r) ∨ (s.node n).top = some q := by
      intro n q hn
      by_cases hne : n = e
      · subst hne
        rw [hnodee] at hn
        cases hn
        exact .inl ⟨rfl, rfl⟩
      · rw [hnode n hne] at hn
        exact .inr hn
    rw [rad_congr hpot]
    intro u v q hu hv'
    rcases htops u q hu with ⟨rfl, rfl⟩ | hu <;> rcases htops v q hv' with ⟨rfl, e2⟩ | hv'
    · simp
    · have := h.even1 frm v q hf hv'
      omega
    · subst e2
      have := h.even1 frm u q hf hu
      omega
    · exact h.even1 u v q hu hv'
  · rw [rad_congr hpot]
    intro u q hu hq
    rw [hsl] at hq
    by_cases hne : u = e
    · subst hne
      rw [hnodee] at hu
      cases hu
      have := h.even2 frm r hf hq
      omega
    · rw [hnode u hne] at hu
      exact h.even2 u q hu hq

/-- One node turned from resting to growing, or from shrinking to resting. -/
def Moved (g : MGraph) (s s' : FS) : Prop :=
  ∃ e < g.nodes.length, (localRadius s e).slope < (localRadius s' e).slope ∧ ∀ x, x ≠ e → (localRadius s' x).slope = (localRadius s x).slope

theorem local_slope_congr {s s' : FS} {x : Nat} (h1 : (s'.node x).top = (s.node x).top) (h2 : ∀ r, (s'.reg r).radius = (s.reg r).radius) :
    (localRadius s' x).slope = (localRadius s x).slope := by
  cases h : (s.node x).top with
  | none => rw [BGeo.local_slope_none h, BGeo.local_slope_none (h1.trans h)]
  | some r => rw [BGeo.local_slope h, BGeo.local_slope (h1.trans h)]; unfold sl; rw [h2]

theorem entry_lt {u i : Nat} {n : Nbr} (h : entry g (u, i) = some n) : u < g.nodes.length := by
  unfold entry at h
  by_contra hc
  rw [List.getElem?_eq_none (by simpa using hc)] at h
  cases h

theorem target_lt (hg : Proper g) {u i v : Nat} {n : Nbr} (h : entry g (u, i) = some n) (hv : n.target = some v) : v < g.nodes.length := by
  obtain ⟨-, j, n', e1, -⟩ := hg.sym u i n v h hv
  exact entry_lt e1

theorem walk_end_lt (hg : Proper g) {u v : Nat} {es : List Slot} (h : Walk g u (some v) es) (hne : v ≠ u) : v < g.nodes.length := by
  obtain ⟨fs, h, -⟩ := walk_reverse hg h
  cases h with
  | here => exact absurd rfl hne
  | step h => exact entry_lt h

/-- `do_region_arriving_at_empty_detector_node`. -/
theorem arrive_spec (h : Geo g T L ch t s) (hg : Proper g) (ht : s.now = t) {X Y : Nat → Prop} (hs : Sched g L X Y s)
    {r e frm i : Nat} {nb : Nbr} (he : (s.node e).arr = none) (hf : (s.node frm).top = some r) (hnb : entry g (frm, i) = some nb)
    (hv : nb.target = some e) (hsl : sl s r = 1) (hw : rad s L ch t frm = nb.weight) :
    ∃ s', arrive g s r e frm i = .ok s' ∧ s'.now = t ∧ Geo g T L ch t s' ∧ Sched g L (fun u => X u ∧ u ≠ e) Y s' ∧
      Same T ch t s s' ∧ Moved g s s' := by
  obtain ⟨q, hq, hqL, eq, hr, hp⟩ := h.node_top_live hf
  have hG := h.arrive_geo hr hp he hf hnb hv hsl hw (hg.even _ _ _ hnb)
  have hS := h.arrived_same (frm := frm) (o := nb.obs) hr hp he
  obtain ⟨a, -, hsrc, -⟩ := h.src frm q hq
  have htr := h.top_self hr hp
  have e1 : arrive g s r e frm i = reschedule g (arrivedFS s t r e frm nb.obs) e := by
    unfold arrive
    rw [← entry_eq, hnb]
    simp only [deref, Res.bind, ht, htr]
    unfold computeWrapped
    simp only [setNode_self, hsrc, deref, Res.bind, sumBelow, if_true, zero_sub]
    congr 1
    unfold arrivedFS arrived y
    simp [FS.setNode, FS.setReg, hsrc]
  have hS2 := hs.touch h.toBGeo (s' := arrivedFS s t r e frm nb.obs) (x := e) (r := r) rfl (fun n hn => arrivedFS_ne _ _ _ _ _ _ hn)
    hS.par hS.radius (fun q hq => by unfold arrivedFS; rw [setReg_ne _ _ hq]; rfl)
    (fun q hq => by rw [he] at hq; cases hq) (fun _ _ h => by omega)
  have hsl1 : (localRadius (arrivedFS s t r e frm nb.obs) e).slope = 1 := by
    rw [BGeo.local_slope (r := r) (by
      have : (arrivedFS s t r e frm nb.obs).node e = arrived s t r frm nb.obs := arrivedFS_self _ _ _ _ _ _
      rw [this]; rfl)]
    unfold sl at hsl ⊢; rw [hS.radius, hsl]
  have hsle : (localRadius (arrivedFS s t r e frm nb.obs) e).slope ≠ -1 := by omega
  have hmv : Moved g s (arrivedFS s t r e frm nb.obs) := by
    refine ⟨e, target_lt hg hnb hv, ?_, fun x hx => local_slope_congr (by rw [arrivedFS_ne _ _ _ _ _ _ hx]) hS.radius⟩
    rw [hsl1, BGeo.local_slope_none ((h.arr_none_iff e).1 he)]; decide
  obtain ⟨w', a1, a2, a3⟩ := hG.reschedule_spec hg ht hS2 hsle
  refine ⟨_, by rw [e1]; exact a1, by unfold FS.now; simp only [a2]; exact ht, hG.withW w', ?_, hS.trans (Same.refl _ _), hmv⟩
  refine (a3.mono ?_).congrY ?_
  · rintro u ⟨u1 | u1, u2⟩
    · exact ⟨u1, u2⟩
    · exact absurd u1 u2
  · intro x _ _ hx
    have : x ≠ r := by
      rintro rfl
      have h2 : sl (arrivedFS s t x e frm nb.obs) x = -1 := hx
      unfold sl at h2 hsl
      rw [hS.radius] at h2
      omega
    simp [this]

/-! ## Leaving a node -/

/-- The state after node `n` left region `r`, before rescheduling. -/
def leftFS (s : FS) (r n : Nat) : FS := (s.setReg r fun R => { R with shell := R.shell.dropLast }).setNode n fun _ => .blank

theorem leftFS_proj {α : Type} (p : Region → α) (s : FS) (r n : Nat) (h : ∀ R l, p { R with shell := l } = p R) (x : Nat) :
    p ((leftFS s r n).reg x) = p (s.reg x) := setReg_proj p s r (fun R => { R with shell := R.shell.dropLast }) (h _ _) x

theorem Geo.left_same (h : Geo g T L ch t s) {r n : Nat} (hr : r ∈ L) (hp : par s r = none)
    (hn : (s.reg r).shell.getLast? = some n) (hy0 : y s t r = (s.node n).rho) (hnT : n ∉ T) : Same T ch t s (leftFS s r n) := by
  have hnarr := h.shell r hr n (List.mem_of_getLast? hn)
  have hnoden : (leftFS s r n).node n = .blank := setNode_self _ n _
  have hnode : ∀ m, m ≠ n → (leftFS s r n).node m = s.node m := fun m hm => setNode_ne _ _ hm
  have hrad : ∀ x, ((leftFS s r n).reg x).radius = (s.reg x).radius := leftFS_proj (·.radius) s r n (fun _ _ => rfl)
  have hy : ∀ x, y (leftFS s r n) t x = y s t x := fun x => by unfold y; rw [hrad]
  refine ⟨?_, ?_, leftFS_proj (·.parent) s r n (fun _ _ => rfl), leftFS_proj (·.children) s r n (fun _ _ => rfl), hrad, rfl⟩
  · funext R u
    cases u with
    | none => rfl
    | some m =>
      by_cases hm : m = n
      · subst hm
        rw [BGeo.pot_empty (by rw [hnoden]; rfl)]
        rw [BGeo.pot_arr hnarr, h.chain_root hr hp]
        simp only [List.mem_singleton]
        split
        · rename_i e1; subst e1; simp [hy0]
        · rfl
      · simp only [pot, hnode m hm, hy]
  · intro a ha
    rw [hnode a (fun e => hnT (e ▸ ha))]

theorem dropLast_of_getLast? {α : Type} {l : List α} {x : α} (h : l.getLast? = some x) : l = l.dropLast ++ [x] := by
  have hne : l ≠ [] := by rintro rfl; cases h
  rw [List.getLast?_eq_some_getLast hne, Option.some.injEq] at h
  rw [← h, List.dropLast_concat_getLast]

theorem Geo.leave_geo (h : Geo g T L ch t s) {r n : Nat} (hr : r ∈ L) (hp : par s r = none)
    (hn : (s.reg r).shell.getLast? = some n) (hy0 : y s t r = (s.node n).rho) (hnT : n ∉ T) : Geo g T L ch t (leftFS s r n) := by
  have hsame := h.left_same hr hp hn hy0 hnT
  have hnarr := h.shell r hr n (List.mem_of_getLast? hn)
  have hnoden : (leftFS s r n).node n = .blank := setNode_self _ n _
  have hnode : ∀ m, m ≠ n → (leftFS s r n).node m = s.node m := fun m hm => setNode_ne _ _ hm
  have htop : ∀ x, ((leftFS s r n).reg x).top = (s.reg x).top := leftFS_proj (·.top) s r n (fun _ _ => rfl)
  have hshr : ((leftFS s r n).reg r).shell = (s.reg r).shell.dropLast := by
    simp [leftFS, FS.setReg, FS.setNode]
  have hsh : ∀ x, x ≠ r → ((leftFS s r n).reg x).shell = (s.reg x).shell := fun x hx => by
    simp [leftFS, FS.setReg, FS.setNode, hx]
  have hregs : (leftFS s r n).regs = s.regs := rfl
  generalize leftFS s r n = s' at *
  have hpot := hsame.pot
  have hpf : par s' = par s := by funext x; exact hsame.par x
  have hk : kidsOf s' = kidsOf s := by funext x; unfold kidsOf; rw [hsame.kids]
  have hy : y s' t = y s t := by funext x; unfold y; rw [hsame.radius]
  have hsl : ∀ x, sl s' x = sl s x := fun x => by unfold sl; rw [hsame.radius]
  have hdl := dropLast_of_getLast? hn
  have hnd := h.shellNodup r hr
  rw [hdl] at hnd
  have hnotin : n ∉ (s.reg r).shell.dropLast := fun hm => by
    have := List.disjoint_of_nodup_append hnd hm
    simp at this
  have hsub : ∀ x ∈ L, ∀ m, m ∈ (s'.reg x).shell ↔ m ∈ (s.reg x).shell ∧ m ≠ n := by
    intro x hx m
    by_cases hxr : x = r
    · subst hxr
      rw [hshr]
      constructor
      · intro hm
        exact ⟨List.mem_of_mem_dropLast hm, fun e => hnotin (e ▸ hm)⟩
      · rintro ⟨hm, hmn⟩
        rw [hdl] at hm
        rcases List.mem_append.1 hm with hm | hm
        · exact hm
        · exact absurd (List.mem_singleton.1 hm) hmn
    · rw [hsh x hxr]
      refine ⟨fun hm => ⟨hm, ?_⟩, fun hm => hm.1⟩
      rintro rfl
      have := h.shell x hx m hm
      rw [hnarr, Option.some.injEq] at this
      exact hxr this.symm
  have hsubl : ∀ x, (s'.reg x).shell.Sublist (s.reg x).shell := by
    intro x
    by_cases hxr : x = r
    · subst hxr; rw [hshr]; exact List.dropLast_sublist _
    · rw [hsh x hxr]
  have harr : ∀ m q, (s'.node m).arr = some q → m ≠ n ∧ (s.node m).arr = some q := by
    intro m q hm
    by_cases hmn : m = n
    · subst hmn; rw [hnoden] at hm; cases hm
    · rw [hnode m hmn] at hm; exact ⟨hmn, hm⟩
  refine ⟨⟨?_, ?_, ?_, ?_, ?_, ?_, ?_, ?_, ?_, ?_, ?_, ?_, ?_, ?_, ?_, ?_, ?_⟩, ?_, ?_, ?_, ?_⟩
  · rw [hpf]; exact h.forest
  · rw [hpf, hk]; exact h.kids
  · unfold FS.depth; rw [hregs]; exact h.card
  · intro x hx; rw [htop, hpf]; exact h.top x hx
  · intro x hx; rw [hsame.radius]; exact h.valid x hx
  · intro x hx; rw [hpf, hsl]; exact h.still x hx
  · intro x hx; rw [hy]; exact h.ypos x hx
  · intro m q hm
    obtain ⟨hmn, hm⟩ := harr m q hm
    have := h.occ m q hm
    exact ⟨this.1, (hsub q this.1 m).2 ⟨this.2, hmn⟩⟩
  · intro m q hm
    obtain ⟨hmn, hm⟩ := harr m q hm
    rw [htop, hnode m hmn]; exact h.otop m q hm
  · intro m q hm
    obtain ⟨hmn, hm⟩ := harr m q hm
    rw [hy, hnode m hmn]; exact h.orho m q hm
  · intro m q hm
    obtain ⟨hmn, hm⟩ := harr m q hm
    rw [hy, hnode m hmn]; exact h.owrap m q hm
  · intro m hm
    by_cases hmn : m = n
    · subst hmn; exact hnoden
    · rw [hnode m hmn] at hm ⊢; exact h.empty m hm
  · intro x hx m hm
    obtain ⟨h1, h2⟩ := (hsub x hx m).1 hm
    rw [hnode m h2]; exact h.shell x hx m h1
  · intro x hx
    exact (h.shellNodup x hx).sublist (hsubl x)
  · intro x hx
    refine ((h.shellSorted x hx).sublist (hsubl x)).imp_of_mem ?_
    intro a b ha hb hab
    rw [hnode a ((hsub x hx a).1 ha).2, hnode b ((hsub x hx b).1 hb).2]
    exact hab
  · intro x hx hc
    rw [hsame.kids] at hc
    obtain ⟨a, l, e1, e2⟩ := h.seed x hx hc
    by_cases hxr : x = r
    · subst hxr
      cases l with
      | nil =>
        rw [e1] at hn
        simp at hn
        exact absurd (hn ▸ e2) hnT
      | cons b l => exact ⟨a, (b :: l).dropLast, by rw [hshr, e1]; rfl, e2⟩
    · exact ⟨a, l, by rw [hsh x hxr, e1], e2⟩
  · intro a ha
    obtain ⟨x, l, e1, e2, e3, e4⟩ := h.event a ha
    rw [hnode a (fun e => hnT (e ▸ ha))]
    by_cases hxr : x = r
    · subst hxr
      cases l with
      | nil =>
        rw [e3] at hn
        simp at hn
        exact absurd (hn ▸ ha) hnT
      | cons b l => exact ⟨x, (b :: l).dropLast, e1, by rw [hsame.kids]; exact e2, by rw [hshr, e3]; rfl, e4⟩
    · exact ⟨x, l, e1, by rw [hsame.kids]; exact e2, by rw [hsh x hxr, e3], e4⟩
  · intro m q hm
    obtain ⟨hmn, hm⟩ := harr m q hm
    rw [hnode m hmn]
    obtain ⟨a, ha, e1, e2, e3⟩ := h.src m q hm
    exact ⟨a, ha, e1, (hsame.inR ha).2 e2, (Tight_congr hpot _ _ _).2 e3⟩
  · rw [D_congr hpot]; exact h.flow
  · rw [rad_congr hpot]
    intro u v q hu hv
    have f : ∀ m, (s'.node m).top = some q → (s.node m).top = some q := by
      intro m hm
      by_cases hmn : m = n
      · subst hmn; rw [hnoden] at hm; cases hm
      · rw [hnode m hmn] at hm; exact hm
    exact h.even1 u v q (f u hu) (f v hv)
  · rw [rad_congr hpot]
    intro u q hu hq
    rw [hsl] at hq
    by_cases hmn : u = n
    · subst hmn; rw [hnoden] at hu; cases hu
    · rw [hnode u hmn] at hu; exact h.even2 u q hu hq

/-- `schedule_tentative_shrink_event`. -/
theorem scheduleShrink_spec (h : Geo g T L ch t s) (hg : Proper g) (ht : s.now = t) {X Y : Nat → Prop} (hs : Sched g L X Y s) {r : Nat}
    (hr : r ∈ L) (hp : par s r = none) (hsl : sl s r = -1) {u : Nat} {x : Option Nat} {es : List Slot}
    (hwk : Walk g u x es) (hu : (s.node u).top = some r) (hx : ∀ b, x = some b → (s.node b).top ≠ some r) :
    ∃ w', scheduleShrink s r = { s with w := w' } ∧ w'.q.cur = s.w.q.cur ∧
      Sched g L X (fun x => Y x ∧ x ≠ r) { s with w := w' } := by
  have hwin := h.shrink_window hg hr hp hwk hu hx
  have hyi : (s.reg r).radius.yIntercept = y s t r + t := by rw [y_eq, hsl]; omega
  have hτ : t ≤ shrinkTime s r ∧ shrinkTime s r < t + 2 ^ 31 := by
    rcases h.shrinkTime_cases hr hp with ⟨e1, e2⟩ | ⟨z, e1, e2, e3⟩
    · have := (hwin 0).2 e1
      have := h.ypos r hr
      omega
    · have := (hwin z).1 e1
      have := h.orho z r e2
      omega
  obtain ⟨w', a, b, c, d⟩ := wish_spec s hs.winv (.inr r) (shrinkTime s r) (by omega) (by omega)
  refine ⟨w', a, c, ⟨b, ?_, ?_, ?_⟩⟩
  · intro a i n τ hen hc hX hXv
    obtain ⟨t', e1, e2⟩ := hs.colls a i n τ hen hc hX hXv
    refine ⟨t', e1, ?_⟩
    have hw : ∀ v, want { s with w := w' } (.inl v) = want s (.inl v) := fun v => by
      unfold want; simp only [d]; rw [Function.update_of_ne (by simp)]
    simp only [hw]
    exact e2
  · intro a τ hX ha
    unfold want at ha
    simp only [d] at ha
    rw [Function.update_of_ne (by simp)] at ha
    exact hs.nodeWant a τ hX ha
  · intro q
    unfold want
    simp only [d]
    by_cases hq : q = r
    · subst hq
      rw [Function.update_self]
      exact ⟨fun _ => rfl, fun hno => absurd ⟨hr, hp, hsl, fun e => e.2 rfl⟩ hno⟩
    · rw [Function.update_of_ne (by simpa using hq)]
      have hY : (Y q ∧ q ≠ r) ↔ Y q := by simp [hq]
      rw [hY]
      exact hs.regWant q

/-- The last branch of `do_region_shrinking`. -/
theorem leave_spec (h : Geo g T L ch t s) (hg : Proper g) (ht : s.now = t) {X Y : Nat → Prop} (hs : Sched g L X Y s) {r n : Nat}
    (hr : r ∈ L) (hp : par s r = none) (hsl : sl s r = -1) (hYr : Y r)
    (hn : (s.reg r).shell.getLast? = some n) (hy0 : y s t r = (s.node n).rho)
    (hmore : ¬ ((s.reg r).shell.length = 1 ∧ (s.reg r).children.isEmpty))
    {u : Nat} {x : Option Nat} {es : List Slot}
    (hwk : Walk g u x es) (huT : u ∈ T) (hu : (s.node u).top = some r) (hx : ∀ b, x = some b → b ∈ T ∧ (s.node b).top ≠ some r) :
    ∃ s', leave g s r n = .ok s' ∧ s'.now = t ∧ Geo g T L ch t s' ∧ Sched g L (fun u => X u ∧ u ≠ n) (fun x => Y x ∧ x ≠ r) s' ∧
      Same T ch t s s' ∧ Moved g s s' := by
  have hnarr := h.shell r hr n (List.mem_of_getLast? hn)
  have hnT : n ∉ T := by
    intro hnT
    obtain ⟨q, l, e1, e2, e3, -⟩ := h.event n hnT
    rw [hnarr, Option.some.injEq] at e1
    subst e1
    apply hmore
    refine ⟨?_, by rw [e2]; rfl⟩
    have hnd := h.shellNodup r hr
    rw [e3] at hn hnd ⊢
    cases l with
    | nil => rfl
    | cons b l =>
      rw [List.getLast?_cons_cons] at hn
      exact absurd (List.mem_of_getLast? hn) (List.nodup_cons.1 hnd).1
  have hG := h.leave_geo hr hp hn hy0 hnT
  have hS := h.left_same hr hp hn hy0 hnT
  have hnode : ∀ m, m ≠ n → (leftFS s r n).node m = s.node m := fun m hm => setNode_ne _ _ hm
  have hS2 := hs.touch h.toBGeo (s' := leftFS s r n) (x := n) (r := r) rfl hnode
    hS.par hS.radius (fun q hq => by
      simp [leftFS, FS.setReg, FS.setNode, hq])
    (fun q hq => by rw [hnarr] at hq; exact (Option.some.inj hq).symm) (fun _ _ _ => hYr)
  have hsl0 : (localRadius (leftFS s r n) n).slope = 0 := by
    have : (leftFS s r n).node n = .blank := setNode_self _ n _
    rw [BGeo.local_slope_none (by rw [this]; rfl)]
  have hsle : (localRadius (leftFS s r n) n).slope ≠ -1 := by omega
  have hmv : Moved g s (leftFS s r n) := by
    obtain ⟨a, haT, -, -, es', hw', -⟩ := h.src n r hnarr
    refine ⟨n, walk_end_lt hg hw' (fun e => hnT (e ▸ haT)), ?_, fun x hx => local_slope_congr (by rw [hnode x hx]) hS.radius⟩
    have htop := h.otop n r hnarr
    rw [h.top_self hr hp] at htop
    rw [hsl0, BGeo.local_slope htop, hsl]; decide
  obtain ⟨w1, a1, a2, a3⟩ := hG.reschedule_spec hg ht hS2 hsle
  have hnu : u ≠ n := fun e => hnT (e ▸ huT)
  obtain ⟨w2, b1, b2, b3⟩ := scheduleShrink_spec (hG.withW w1) hg (by unfold FS.now; simp only [a2]; exact ht) a3 hr
    ((hS.par r).trans hp) (by have := hsl; unfold sl at this ⊢; rw [← this]; exact congrArg _ (hS.radius r)) hwk
    (by show ((leftFS s r n).node u).top = some r; rw [hnode u hnu]; exact hu)
    (fun b hb => by
      have hbn : b ≠ n := fun e => hnT (e ▸ (hx b hb).1)
      show ((leftFS s r n).node b).top ≠ some r
      rw [hnode b hbn]; exact (hx b hb).2)
  refine ⟨_, ?_, ?_, hG.withW w2, ?_, hS.trans (Same.refl _ _), hmv⟩
  · unfold leave
    show (reschedule g (leftFS s r n) n).bind _ = _
    rw [a1]
    simp only [Res.bind]
    rw [b1]
  · unfold FS.now; simp only [b2, a2]; exact ht
  · refine (b3.mono ?_).congrY ?_
    · rintro u ⟨u1 | u1, u2⟩
      · exact ⟨u1, u2⟩
      · exact absurd u1 u2
    · intro q _ _ _
      by_cases hq : q = r <;> simp [hq]

end Verif.SB
