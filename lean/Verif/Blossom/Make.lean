import Verif.Blossom.Retop

/-!
# Creating regions and blossoms
-/

namespace Verif.SB

open Verif Verif.Graph Verif.CE Verif.Vary Verif.Track Verif.Spec Verif.Mem
open Verif.Sch (Res better)

variable {g : MGraph} {T L : Finset Nat} {ch : Nat → List Nat} {t : Int} {s : FS}

/-! ## Only live regions matter -/

theorem BGeo.pot_off (h : BGeo g T L ch t s) {s' : FS} (hnode : s'.node = s.node) (hreg : ∀ r ∈ L, s'.reg r = s.reg r) :
    pot s' ch t = pot s ch t := by
  funext R u
  cases u with
  | none => rfl
  | some n =>
    simp only [pot, hnode]
    cases ha : (s.node n).arr with
    | none => rfl
    | some q =>
      simp only
      by_cases hR : R ∈ ch q
      · have : y s' t R = y s t R := by unfold y; rw [hreg R (h.forest.mem_live (h.occ n q ha).1 hR)]
        rw [this]
      · rw [if_neg hR, if_neg hR]

theorem Geo.off (h : Geo g T L ch t s) {s' : FS} (hnode : s'.node = s.node) (hreg : ∀ r ∈ L, s'.reg r = s.reg r)
    (hcard : L.card ≤ s'.depth) : Geo g T L ch t s' := by
  have hpot := h.pot_off hnode hreg
  have hpar : ∀ r ∈ L, par s' r = par s r := fun r hr => by unfold par; rw [hreg r hr]
  have hy : ∀ r ∈ L, y s' t r = y s t r := fun r hr => by unfold y; rw [hreg r hr]
  have hsl : ∀ r ∈ L, sl s' r = sl s r := fun r hr => by unfold sl; rw [hreg r hr]
  refine ⟨⟨?_, ?_, hcard, ?_, ?_, ?_, ?_, ?_, ?_, ?_, ?_, ?_, ?_, ?_, ?_, ?_, ?_⟩, ?_, ?_, ?_, ?_⟩
  · exact h.forest.congr hpar
  · constructor
    · intro r hr c
      unfold kidsOf
      rw [hreg r hr]
      rw [show (c ∈ (s.reg r).children.map (·.1)) ↔ _ from h.kids.mem r hr c]
      constructor
      · rintro ⟨h1, h2⟩; exact ⟨h1, by rw [hpar c h1]; exact h2⟩
      · rintro ⟨h1, h2⟩; exact ⟨h1, by rw [← hpar c h1]; exact h2⟩
    · intro r hr
      unfold kidsOf; rw [hreg r hr]; exact h.kids.nodup r hr
  · intro r hr; rw [hreg r hr, hpar _ (h.top_live hr)]; exact h.top r hr
  · intro r hr; rw [hreg r hr]; exact h.valid r hr
  · intro r hr; rw [hpar r hr, hsl r hr]; exact h.still r hr
  · intro r hr; rw [hy r hr]; exact h.ypos r hr
  · intro n r hn; rw [hnode] at hn; rw [hreg r (h.occ n r hn).1]; exact h.occ n r hn
  · intro n r hn; rw [hnode] at hn ⊢; rw [hreg r (h.occ n r hn).1]; exact h.otop n r hn
  · intro n r hn; rw [hnode] at hn ⊢; rw [hy r (h.occ n r hn).1]; exact h.orho n r hn
  · intro n r hn; rw [hnode] at hn ⊢
    rw [h.owrap n r hn]
    congr 2
    apply List.map_congr_left
    intro d hd
    exact (hy d (h.forest.mem_live (h.occ n r hn).1 (List.mem_of_mem_dropLast hd))).symm
  · rw [hnode]; exact h.empty
  · intro r hr; rw [hnode, hreg r hr]; exact h.shell r hr
  · intro r hr; rw [hreg r hr]; exact h.shellNodup r hr
  · intro r hr; rw [hnode, hreg r hr]; exact h.shellSorted r hr
  · intro r hr; rw [hreg r hr]; exact h.seed r hr
  · intro a ha
    obtain ⟨r, l, e1, e2⟩ := h.event a ha
    exact ⟨r, l, by rw [hnode, hreg r (h.occ a r e1).1]; exact ⟨e1, e2⟩⟩
  · intro n r hn
    rw [hnode] at hn ⊢
    obtain ⟨a, ha, e1, e2, e3⟩ := h.src n r hn
    refine ⟨a, ha, e1, ?_, (Tight_congr hpot _ _ _).2 e3⟩
    unfold InR at e2 ⊢; rw [hnode]; exact e2
  · rw [D_congr hpot]; exact h.flow
  · rw [rad_congr hpot, hnode]; exact h.even1
  · rw [rad_congr hpot, hnode]
    intro u r hu hs
    obtain ⟨-, -, -, -, hr, -⟩ := h.node_top_live hu
    rw [hsl r hr] at hs
    exact h.even2 u r hu hs

/-! ## The loop over the children of a new blossom -/

/-- Sum of the radii around a node, up to its top region. -/
def fullWrap (s : FS) (ch : Nat → List Nat) (t : Int) (n : Nat) : Int :=
  match (s.node n).arr with
  | none => 0
  | some q => ((ch q).map (y s t)).sum - (s.node n).rho

theorem growingZero_spec (t : Int) : (growingZeroAt t).Valid ∧ (growingZeroAt t).slope = 1 ∧ (growingZeroAt t).yIntercept = -t := by
  unfold Varying.Valid Varying.slope Varying.isGrowing Varying.bit0 Varying.yIntercept growingZeroAt
  refine ⟨by simp only; omega, ?_, by simp only; omega⟩
  have : ((-t * 4 + 1) % 2 == 1) = true := by simp only [beq_iff_eq]; omega
  simp only [this, if_true]

/-- The state after the children `done` were absorbed by `B`. -/
def absorbed (s : FS) (L : Finset Nat) (ch : Nat → List Nat) (t : Int) (B : Nat) (done : List Nat) (w : World Owner) : FS :=
  { s with
    node := fun n => if (∃ c ∈ done, (s.node n).top = some c) then { s.node n with top := some B, wrapped := fullWrap s ch t n }
      else s.node n
    reg := fun d => if d ∈ L ∧ (s.reg d).top ∈ done then
        { s.reg d with top := B, parent := if d ∈ done then some B else (s.reg d).parent,
                       radius := if d ∈ done then (s.reg d).radius.thenFrozenAt t else (s.reg d).radius }
      else s.reg d
    w := w }

theorem still_intercept {v : Varying} (h : v.slope = 0) (t : Int) : v.yIntercept = v.distanceAt t := by
  rw [distanceAt_eq, h]; omega

theorem absorb_spec (h : Geo g T L ch t s) {B c : Nat} {done : List Nat} {w : World Owner} (hw : WInv w) (ht : w.q.cur = t)
    (hB : B ∉ L) (hc : c ∈ L) (hcp : par s c = none) (hcd : c ∉ done) (hd : ∀ d ∈ done, d ∈ L ∧ par s d = none) :
    ∃ w', absorb B (absorbed s L ch t B done w) c = .ok (absorbed s L ch t B (done ++ [c]) w') ∧ WInv w' ∧ w'.q.cur = t ∧
      (absW w').want = Function.update (absW w).want (.inr c) none := by
  have htc := h.top_self hc hcp
  have hAc : (absorbed s L ch t B done w).reg c = s.reg c := by
    simp [absorbed, htc, hcd]
  generalize hA : absorbed s L ch t B done w = A at hAc
  have hAnode : ∀ n, (A.node n).src = (s.node n).src ∧ (A.node n).arr = (s.node n).arr ∧ (A.node n).rho = (s.node n).rho := by
    intro n; rw [← hA]; simp only [absorbed]; split <;> exact ⟨rfl, rfl, rfl⟩
  have hAreg : ∀ d, (A.reg d).children = (s.reg d).children ∧ (A.reg d).shell = (s.reg d).shell := by
    intro d; rw [← hA]; simp only [absorbed]; split <;> exact ⟨rfl, rfl⟩
  have hAreg' : ∀ d ∈ L, d ∉ done → (A.reg d).parent = (s.reg d).parent ∧ (A.reg d).radius = (s.reg d).radius := by
    intro d _ hdd; rw [← hA]; simp only [absorbed]; split
    · simp_all
    · exact ⟨rfl, rfl⟩
  have hAregs : A.regs = s.regs := by rw [← hA]; rfl
  have hAw : A.w = w := by rw [← hA]; rfl
  have hnow : A.now = t := by unfold FS.now; rw [hAw]; exact ht
  -- the state before the visit
  unfold absorb wrapInto
  rw [hnow]
  simp only
  generalize hs2 : ((A.setReg c fun R => { R with radius := R.radius.thenFrozenAt t }).setReg c fun R => { R with parent := some B }) = s2
  have h2c : s2.reg c = { s.reg c with radius := (s.reg c).radius.thenFrozenAt t, parent := some B } := by
    rw [← hs2, setReg_self, setReg_self, hAc]
  have h2ne : ∀ d, d ≠ c → s2.reg d = A.reg d := fun d hd => by rw [← hs2, setReg_ne _ _ hd, setReg_ne _ _ hd]
  have h2node : s2.node = A.node := by rw [← hs2]; rfl
  have h2kids : ∀ d, (s2.reg d).children = (s.reg d).children ∧ (s2.reg d).shell = (s.reg d).shell := by
    intro d
    by_cases hdc : d = c
    · subst hdc; rw [h2c]; exact ⟨rfl, rfl⟩
    · rw [h2ne d hdc]; exact hAreg d
  have h2depth : s2.depth = s.depth := by rw [← hs2]; show A.regs.allocated.length = _; rw [hAregs]; rfl
  have hk2 : kidsOf s2 = kidsOf s := by funext d; unfold kidsOf; rw [(h2kids d).1]
  have hmem : ∀ d, d ∈ regionsIn s2 c ↔ d ∈ L ∧ c ∈ ch d := by
    intro d
    unfold regionsIn
    rw [hk2, h2depth]
    exact SB.mem_desc h.forest h.kids h.card hc
  -- chains below c
  have hchain : ∀ d ∈ L, c ∈ ch d → d ≠ c → d ∉ done := by
    intro d hd' hcd' hne hdd
    have := h.chain_root (hd d hdd).1 (hd d hdd).2
    rw [this, List.mem_singleton] at hcd'
    exact hne hcd'.symm
  have hup : ∀ q ∈ L, c ∈ ch q → Up s2 (some B) q (ch q) := by
    intro q hq
    refine h.forest.induct (Q := fun q => c ∈ ch q → Up s2 (some B) q (ch q)) ?_ ?_ hq
    · intro r hr hp hcr
      rw [h.forest.root r hr hp, List.mem_singleton] at hcr
      subst hcr
      rw [h.forest.root c hr hp]
      refine .step (by rintro e; cases e; exact hB hr) (by rw [h2c]) (.here rfl)
    · intro r hr p hp hpar ih hcr
      obtain ⟨-, e⟩ := h.forest.step r hr p hpar
      have hrc : r ≠ c := by rintro rfl; rw [hcp] at hpar; cases hpar
      have hcp' : c ∈ ch p := by rw [e] at hcr; rcases List.mem_cons.1 hcr with e' | e'; exact absurd e'.symm hrc; exact e'
      rw [e]
      refine .step (by rintro e; cases e; exact hB hr) ?_ (ih hcp')
      rw [h2ne r hrc, (hAreg' r hr (hchain r hr hcr hrc)).1]
      exact hpar
  have hint : ∀ q ∈ L, c ∈ ch q → ∀ d ∈ ch q, (s2.reg d).radius.yIntercept = y s t d := by
    intro q hq hcq d hd'
    have hdL := h.forest.mem_live hq hd'
    by_cases hdc : d = c
    · subst hdc
      rw [h2c]
      simp only
      rw [(thenFrozen_spec _ _).2.2]; rfl
    · have hcd' : c ∈ ch d := by
        rcases h.forest.total hq hcq hd' with a | a
        · exact a
        · rw [h.chain_root hc hcp, List.mem_singleton] at a; exact absurd a hdc
      rw [h2ne d hdc, (hAreg' d hdL (hchain d hdL hcd' hdc)).2]
      refine still_intercept (h.still d hdL ?_) t
      intro hp
      rw [h.chain_root hdL hp, List.mem_singleton] at hcd'
      exact hdc hcd'.symm
  have hwv : ∀ d ∈ regionsIn s2 c, ∀ n ∈ (s2.reg d).shell, wrapVal s2 B n = .ok (fullWrap s ch t n) := by
    intro d hd' n hn
    obtain ⟨hdL, hcd'⟩ := (hmem d).1 hd'
    rw [(h2kids d).2] at hn
    have harr := h.shell d hdL n hn
    obtain ⟨a, -, hsrc, -⟩ := h.src n d harr
    obtain ⟨k1, k2, k3⟩ := hAnode n
    unfold wrapVal
    rw [h2node, k1, k2, k3, hsrc, harr]
    simp only [deref, Res.bind]
    rw [sumBelow_up (hup d hdL hcd')]
    · unfold fullWrap
      rw [harr]
      simp only
      rw [List.map_congr_left (hint d hdL hcd')]
    · have := h.forest.length_le hdL
      have := h.card
      omega
  rw [retopRegions B (fullWrap s ch t) _ hwv]
  simp only [Res.bind]
  have hW2 : s2.w = w := by rw [← hs2]; exact hAw
  obtain ⟨w', a1, a2, a3, a4⟩ := noWish_spec (retopR B (regionsIn s2 c) (fullWrap s ch t) s2) (by show WInv s2.w; rw [hW2]; exact hw) (.inr c)
  refine ⟨w', ?_, a2, ?_, ?_⟩
  · rw [a1]
    congr 1
    unfold absorbed retopR
    simp only
    have hregs2 : s2.regs = s.regs := by rw [← hs2]; exact hAregs
    rw [hregs2]
    congr 1
    · funext n
      have hiff : (n ∈ (regionsIn s2 c).flatMap fun d => (s2.reg d).shell) ↔ (s.node n).top = some c := by
        rw [List.mem_flatMap, ← h.inR_iff hc hcp]
        constructor
        · rintro ⟨d, hd', hn⟩
          obtain ⟨hdL, hcd'⟩ := (hmem d).1 hd'
          rw [(h2kids d).2] at hn
          exact ⟨d, h.shell d hdL n hn, hcd'⟩
        · rintro ⟨q, hq, hcq⟩
          have := h.occ n q hq
          exact ⟨q, (hmem q).2 ⟨this.1, hcq⟩, by rw [(h2kids q).2]; exact this.2⟩
      simp only [hiff, h2node]
      rw [← hA]
      simp only [absorbed]
      by_cases hn : (s.node n).top = some c
      · have h1 : ¬ ∃ c ∈ done, (s.node n).top = some c := by
          rintro ⟨c', hc', e⟩; rw [hn] at e; cases e; exact hcd hc'
        have h2 : ∃ c' ∈ done ++ [c], (s.node n).top = some c' := ⟨c, by simp, hn⟩
        simp only [hn, if_true]
        rw [if_neg (by rw [← hn]; exact h1), if_pos (by rw [← hn]; exact h2)]
      · rw [if_neg hn]
        have : (∃ c' ∈ done ++ [c], (s.node n).top = some c') ↔ ∃ c' ∈ done, (s.node n).top = some c' := by
          constructor
          · rintro ⟨c', hc', e⟩
            rcases List.mem_append.1 hc' with hc' | hc'
            · exact ⟨c', hc', e⟩
            · rw [List.mem_singleton] at hc'; subst hc'; exact absurd e hn
          · rintro ⟨c', hc', e⟩; exact ⟨c', by simp [hc'], e⟩
        simp only [this]
    · funext d
      simp only [hmem]
      by_cases hdc : d = c
      · subst hdc
        simp only [hc, h.forest.self_mem hc, and_self, if_true, h2c, htc, List.mem_append, List.mem_singleton, or_true]
      · have hdtop : ∀ (hdL : d ∈ L), (c ∈ ch d ↔ (s.reg d).top = c) := by
          intro hdL
          constructor
          · intro hcd'; rw [← h.top_chain hdL hcd', htc]
          · intro e; rw [← e]; exact (h.top d hdL).1
        rw [h2ne d hdc, ← hA]
        simp only [absorbed]
        by_cases hdL : d ∈ L
        · simp only [hdL, true_and, hdtop hdL, List.mem_append, List.mem_singleton, hdc, or_false]
          by_cases hdt : (s.reg d).top = c
          · have hdd : d ∉ done := hchain d hdL ((hdtop hdL).2 hdt) hdc
            simp [hdt, hcd, hdd]
          · simp [hdt]
        · simp [hdL]
  · rw [a3]; show s2.w.q.cur = t; rw [hW2]; exact ht
  · rw [a4]; show Function.update (absW s2.w).want _ _ = _; rw [hW2]

theorem absorbs_spec (h : Geo g T L ch t s) {B : Nat} (hB : B ∉ L) (todo : List Nat) : ∀ {done : List Nat} {w : World Owner},
    WInv w → w.q.cur = t → (done ++ todo).Nodup → (∀ d ∈ done ++ todo, d ∈ L ∧ par s d = none) →
    ∃ w', todo.foldlM (absorb B) (absorbed s L ch t B done w) = .ok (absorbed s L ch t B (done ++ todo) w') ∧ WInv w' ∧ w'.q.cur = t ∧
      ∀ o, (absW w').want o = if (∃ c ∈ todo, o = .inr c) then none else (absW w).want o := by
  induction todo with
  | nil =>
    intro done w hw ht _ _
    exact ⟨w, by simp; rfl, hw, ht, by simp⟩
  | cons c todo ih =>
    intro done w hw ht hnd hl
    have hcd : c ∉ done := by
      intro hc
      exact (List.disjoint_of_nodup_append hnd) hc (by simp)
    obtain ⟨w1, a1, a2, a3, a4⟩ := absorb_spec h (c := c) (done := done) hw ht hB (hl c (by simp)).1 (hl c (by simp)).2 hcd
      (fun d hd => hl d (by simp [hd]))
    obtain ⟨w2, b1, b2, b3, b4⟩ := ih (done := done ++ [c]) a2 a3 (by simpa using hnd) (fun d hd => hl d (by simpa using hd))
    refine ⟨w2, ?_, b2, b3, fun o => ?_⟩
    · rw [foldlM_cons_ok _ a1, b1]; simp
    · rw [b4, a4]
      by_cases h1 : ∃ d ∈ todo, o = .inr d
      · have h2 : ∃ d ∈ c :: todo, o = .inr d := by obtain ⟨d, hd, e⟩ := h1; exact ⟨d, by simp [hd], e⟩
        rw [if_pos h1, if_pos h2]
      · rw [if_neg h1]
        by_cases h3 : o = .inr c
        · rw [if_pos ⟨c, by simp, h3⟩, h3, Function.update_self]
        · rw [if_neg, Function.update_of_ne h3]
          rintro ⟨d, hd, e⟩
          rcases List.mem_cons.1 hd with rfl | hd
          · exact h3 e
          · exact h1 ⟨d, hd, e⟩

/-! ## The new blossom -/

/-- Chains after the regions `cyc` were wrapped into `B`. -/
def wrapCh (ch : Nat → List Nat) (B : Nat) (cyc : List Nat) (r : Nat) : List Nat :=
  if r = B then [B] else if (∃ c ∈ ch r, c ∈ cyc) then ch r ++ [B] else ch r

/-- How the state before and after the creation of blossom `B` are related. -/
structure WrapRel (L : Finset Nat) (ch : Nat → List Nat) (t : Int) (B : Nat) (cyc : List (Nat × CompressedEdge)) (s s' : FS) : Prop where
  dist : D s' (insert B L) (wrapCh ch B (cyc.map (·.1))) t = D s L ch t
  arr : ∀ n, (s'.node n).arr = (s.node n).arr
  parB : par s' B = none
  slB : sl s' B = 1
  kidsB : (s'.reg B).children = cyc
  parC : ∀ c ∈ cyc.map (·.1), par s' c = some B
  kids : ∀ r ∈ L, (s'.reg r).children = (s.reg r).children
  par : ∀ r ∈ L, r ∉ cyc.map (·.1) → par s' r = par s r
  radius : ∀ r ∈ L, r ∉ cyc.map (·.1) → (s'.reg r).radius = (s.reg r).radius

theorem mem_wrapCh {r R B : Nat} {cyc : List Nat} (hr : r ≠ B) (hR : R ≠ B) : R ∈ wrapCh ch B cyc r ↔ R ∈ ch r := by
  unfold wrapCh
  rw [if_neg hr]
  split
  · simp [hR]
  · rfl

theorem BGeo.top_cyc (h : BGeo g T L ch t s) {cyc : List Nat} (hcyc : ∀ c ∈ cyc, c ∈ L ∧ par s c = none) {d : Nat} (hd : d ∈ L) :
    (∃ c ∈ ch d, c ∈ cyc) ↔ (s.reg d).top ∈ cyc := by
  constructor
  · rintro ⟨c, h1, h2⟩
    rw [← h.top_chain hd h1, h.top_self (hcyc c h2).1 (hcyc c h2).2]; exact h2
  · intro hx; exact ⟨_, (h.top d hd).1, hx⟩

theorem Geo.absorbed_geo (h : Geo g T L ch t s) {B : Nat} (hB : B ∉ L) {cyc : List (Nat × CompressedEdge)} {w : World Owner}
    (hne : cyc ≠ []) (hnd : (cyc.map (·.1)).Nodup) (hcyc : ∀ c ∈ cyc.map (·.1), c ∈ L ∧ par s c = none)
    (hsl : ∀ c ∈ cyc.map (·.1), sl s c ≠ 0)
    (hregB : s.reg B = { Region.fresh B with radius := growingZeroAt t, children := cyc }) (hcard : (insert B L).card ≤ s.depth) :
    Geo g T (insert B L) (wrapCh ch B (cyc.map (·.1))) t (absorbed s L ch t B (cyc.map (·.1)) w) ∧
      WrapRel L ch t B cyc s (absorbed s L ch t B (cyc.map (·.1)) w) := by
  obtain ⟨gz1, gz2, gz3⟩ := growingZero_spec t
  have hcycB : ∀ c ∈ cyc.map (·.1), c ≠ B := fun c hc e => hB (e ▸ (hcyc c hc).1)
  have hne' : ∀ d ∈ L, d ≠ B := fun d hd e => hB (e ▸ hd)
  generalize hcs : cyc.map (·.1) = cs at *
  generalize hA : absorbed s L ch t B cs w = A
  have hAnode : ∀ n, (A.node n).src = (s.node n).src ∧ (A.node n).arr = (s.node n).arr ∧ (A.node n).rho = (s.node n).rho ∧
      (A.node n).obs = (s.node n).obs := by
    intro n; rw [← hA]; simp only [absorbed]; split <;> exact ⟨rfl, rfl, rfl, rfl⟩
  have hAin : ∀ n c, (s.node n).top = some c → c ∈ cs → (A.node n).top = some B ∧ (A.node n).wrapped = fullWrap s ch t n := by
    intro n c h1 h2
    have : ∃ c ∈ cs, (s.node n).top = some c := ⟨c, h2, h1⟩
    rw [← hA]; simp only [absorbed, if_pos this]
    exact ⟨trivial, trivial⟩
  have hAout : ∀ n, (∀ c ∈ cs, (s.node n).top ≠ some c) → A.node n = s.node n := by
    intro n h1
    have : ¬ ∃ c ∈ cs, (s.node n).top = some c := by rintro ⟨c, h2, h3⟩; exact h1 c h2 h3
    rw [← hA]; simp only [absorbed, if_neg this]
  have hAB : A.reg B = s.reg B := by rw [← hA]; simp [absorbed, hB]
  have hAreg : ∀ d, (A.reg d).children = (s.reg d).children ∧ (A.reg d).shell = (s.reg d).shell := by
    intro d; rw [← hA]; simp only [absorbed]; split <;> exact ⟨rfl, rfl⟩
  have hAnc : ∀ d ∈ L, d ∉ cs → par A d = par s d ∧ (A.reg d).radius = (s.reg d).radius := by
    intro d hd hdc; rw [← hA]; simp only [absorbed, par]; split
    · simp_all
    · exact ⟨rfl, rfl⟩
  have hAc : ∀ d ∈ cs, par A d = some B ∧ (A.reg d).radius = (s.reg d).radius.thenFrozenAt t := by
    intro d hd
    have h1 := hcyc d hd
    have h2 := h.top_self h1.1 h1.2
    rw [← hA]
    simp only [absorbed, par, h1.1, h2, hd, and_self, if_true]
  have hAtopIn : ∀ d ∈ L, (s.reg d).top ∈ cs → (A.reg d).top = B := by
    intro d hd ht'; rw [← hA]; simp only [absorbed, hd, ht', and_self, if_true]
  have hAtopOut : ∀ d ∈ L, (s.reg d).top ∉ cs → (A.reg d).top = (s.reg d).top := by
    intro d hd ht'; rw [← hA]; simp only [absorbed, ht', and_false, if_false]
  have hdepth : A.depth = s.depth := by rw [← hA]; rfl
  clear hA
  have hy : ∀ d ∈ L, y A t d = y s t d := by
    intro d hd
    unfold y
    by_cases hdc : d ∈ cs
    · obtain ⟨-, f1, f2⟩ := thenFrozen_spec (s.reg d).radius t
      rw [(hAc d hdc).2, distanceAt_eq, f1, f2]; omega
    · rw [(hAnc d hd hdc).2]
  have hyB : y A t B = 0 := by unfold y; rw [hAB, hregB]; simp only; rw [distanceAt_eq, gz2, gz3]; omega
  have hparB : par A B = none := by unfold par; rw [hAB, hregB]; rfl
  have hslB : sl A B = 1 := by unfold sl; rw [hAB, hregB]; exact gz2
  have hslC : ∀ c ∈ cs, sl A c = 0 := fun c hc => by unfold sl; rw [(hAc c hc).2]; exact (thenFrozen_spec _ _).2.1
  -- potentials
  have hpotB : ∀ u, pot A (wrapCh ch B cs) t B u = 0 := by
    intro u
    cases u with
    | none => rfl
    | some n =>
      cases ha : (s.node n).arr with
      | none => exact BGeo.pot_empty (by rw [(hAnode n).2.1]; exact ha) B
      | some q =>
        rw [BGeo.pot_arr (by rw [(hAnode n).2.1]; exact ha), hyB]
        split
        · rw [if_neg (fun e => hne' q (h.occ n q ha).1 e.symm)]
        · rfl
  have hpotL : ∀ R ∈ L, ∀ u, pot A (wrapCh ch B cs) t R u = pot s ch t R u := by
    intro R hR u
    cases u with
    | none => rfl
    | some n =>
      cases ha : (s.node n).arr with
      | none => rw [BGeo.pot_empty ha, BGeo.pot_empty (by rw [(hAnode n).2.1]; exact ha)]
      | some q =>
        rw [BGeo.pot_arr ha, BGeo.pot_arr (by rw [(hAnode n).2.1]; exact ha), (hAnode n).2.2.1, hy R hR]
        simp only [mem_wrapCh (hne' q (h.occ n q ha).1) (hne' R hR)]
  have hD : D A (insert B L) (wrapCh ch B cs) t = D s L ch t := by
    funext u v
    exact dist_insert hB hpotB hpotL u v
  have hrad : rad A (insert B L) (wrapCh ch B cs) t = rad s L ch t := by
    funext n; unfold rad; rw [hD]
  have hTight : ∀ a b o, Tight g A (insert B L) (wrapCh ch B cs) t a b o ↔ Tight g s L ch t a b o := by
    intro a b o; unfold Tight; rw [hD]
  have hInR : ∀ r ∈ L, ∀ n, InR s ch r n → InR A (wrapCh ch B cs) r n := by
    rintro r hr n ⟨q, h1, h2⟩
    exact ⟨q, by rw [(hAnode n).2.1]; exact h1, (mem_wrapCh (hne' q (h.occ n q h1).1) (hne' r hr)).2 h2⟩
  have hchin : ∀ d ∈ L, (s.reg d).top ∈ cs → wrapCh ch B cs d = ch d ++ [B] := by
    intro d hd ht'
    unfold wrapCh
    rw [if_neg (hne' d hd), if_pos ((h.top_cyc hcyc hd).2 ht')]
  have hchout : ∀ d ∈ L, (s.reg d).top ∉ cs → wrapCh ch B cs d = ch d := by
    intro d hd ht'
    unfold wrapCh
    rw [if_neg (hne' d hd), if_neg (fun e => ht' ((h.top_cyc hcyc hd).1 e))]
  have hnodetop : ∀ n r, (A.node n).top = some r → (r = B ∧ ∃ c ∈ cs, (s.node n).top = some c) ∨
      (r ∉ cs ∧ r ∈ L ∧ par s r = none ∧ (s.node n).top = some r) := by
    intro n r hn
    by_cases hx : ∃ c ∈ cs, (s.node n).top = some c
    · obtain ⟨c, hc, e⟩ := hx
      rw [(hAin n c e hc).1] at hn
      cases hn
      exact .inl ⟨rfl, c, hc, e⟩
    · right
      rw [hAout n (fun c hc e => hx ⟨c, hc, e⟩)] at hn
      obtain ⟨-, -, -, -, h1, h2⟩ := h.node_top_live hn
      exact ⟨fun hr => hx ⟨r, hr, hn⟩, h1, h2, hn⟩
  have hevencyc : ∀ n c, (s.node n).top = some c → c ∈ cs → (rad s L ch t n - t) % 2 = 0 := fun n c h1 h2 =>
    h.even2 n c h1 (hsl c h2)
  refine ⟨⟨⟨?_, ?_, ?_, ?_, ?_, ?_, ?_, ?_, ?_, ?_, ?_, ?_, ?_, ?_, ?_, ?_, ?_⟩, ?_, ?_, ?_, ?_⟩, ?_⟩
  · exact h.forest.wrap hB (· ∈ cs) hcyc hparB (fun c hc => (hAc c hc).1) (fun r hr hrc => (hAnc r hr hrc).1)
  · constructor
    · intro r hr c
      unfold kidsOf
      rw [(hAreg r).1]
      rcases Finset.mem_insert.1 hr with rfl | hr
      · rw [hregB]
        simp only [hcs, Finset.mem_insert]
        constructor
        · intro hc; exact ⟨.inr (hcyc c hc).1, (hAc c hc).1⟩
        · rintro ⟨rfl | h1, h2⟩
          · rw [hparB] at h2; cases h2
          · by_contra hc
            rw [(hAnc c h1 hc).1] at h2
            exact hB (h.forest.step c h1 r h2).1
      · rw [show (c ∈ (s.reg r).children.map (·.1)) ↔ _ from h.kids.mem r hr c, Finset.mem_insert]
        constructor
        · rintro ⟨h1, h2⟩
          refine ⟨.inr h1, ?_⟩
          rw [(hAnc c h1 (fun hc => by rw [(hcyc c hc).2] at h2; cases h2)).1]
          exact h2
        · rintro ⟨rfl | h1, h2⟩
          · rw [hparB] at h2; cases h2
          · refine ⟨h1, ?_⟩
            by_cases hc : c ∈ cs
            · rw [(hAc c hc).1] at h2; cases h2; exact absurd hr hB
            · rw [← (hAnc c h1 hc).1]; exact h2
    · intro r hr
      unfold kidsOf
      rw [(hAreg r).1]
      rcases Finset.mem_insert.1 hr with rfl | hr
      · rw [hregB]; simp only [hcs]; exact hnd
      · exact h.kids.nodup r hr
  · rw [hdepth]; exact hcard
  · intro r hr
    rcases Finset.mem_insert.1 hr with rfl | hr
    · have : (A.reg r).top = r := by rw [hAB, hregB]; rfl
      rw [this]
      refine ⟨?_, hparB⟩
      unfold wrapCh; rw [if_pos rfl]; simp
    · by_cases ht' : (s.reg r).top ∈ cs
      · rw [hAtopIn r hr ht', hchin r hr ht']
        exact ⟨by simp, hparB⟩
      · rw [hAtopOut r hr ht', hchout r hr ht', (hAnc _ (h.top_live hr) ht').1]
        exact h.top r hr
  · intro r hr
    rcases Finset.mem_insert.1 hr with rfl | hr
    · rw [hAB, hregB]; exact gz1
    · by_cases hrc : r ∈ cs
      · rw [(hAc r hrc).2]; exact (thenFrozen_spec _ _).1
      · rw [(hAnc r hr hrc).2]; exact h.valid r hr
  · intro r hr hp
    rcases Finset.mem_insert.1 hr with rfl | hr
    · exact absurd hparB hp
    · by_cases hrc : r ∈ cs
      · exact hslC r hrc
      · rw [(hAnc r hr hrc).1] at hp
        unfold sl
        rw [(hAnc r hr hrc).2]
        exact h.still r hr hp
  · intro r hr
    rcases Finset.mem_insert.1 hr with rfl | hr
    · rw [hyB]
    · rw [hy r hr]; exact h.ypos r hr
  · intro n q hn
    rw [(hAnode n).2.1] at hn
    have := h.occ n q hn
    exact ⟨Finset.mem_insert_of_mem this.1, by rw [(hAreg q).2]; exact this.2⟩
  · intro n q hn
    rw [(hAnode n).2.1] at hn
    have hq := (h.occ n q hn).1
    have htop := h.otop n q hn
    by_cases ht' : (s.reg q).top ∈ cs
    · rw [(hAin n _ htop ht').1, hAtopIn q hq ht']
    · rw [hAtopOut q hq ht', hAout n (fun c hc e => ht' (by rw [htop] at e; cases e; exact hc))]
      exact htop
  · intro n q hn
    rw [(hAnode n).2.1] at hn
    rw [(hAnode n).2.2.1, hy q (h.occ n q hn).1]
    exact h.orho n q hn
  · intro n q hn
    rw [(hAnode n).2.1] at hn
    have hq := (h.occ n q hn).1
    have htop := h.otop n q hn
    rw [(hAnode n).2.2.1]
    by_cases ht' : (s.reg q).top ∈ cs
    · rw [(hAin n _ htop ht').2, hchin q hq ht', List.dropLast_concat]
      unfold fullWrap
      rw [hn]
      simp only
      congr 2
      apply List.map_congr_left
      intro d hd
      exact (hy d (h.forest.mem_live hq hd)).symm
    · rw [hchout q hq ht', hAout n (fun c hc e => ht' (by rw [htop] at e; cases e; exact hc)), h.owrap n q hn]
      congr 2
      apply List.map_congr_left
      intro d hd
      exact (hy d (h.forest.mem_live hq (List.mem_of_mem_dropLast hd))).symm
  · intro n hn
    rw [(hAnode n).2.1] at hn
    rw [hAout n (fun c _ e => by rw [(h.arr_none_iff n).1 hn] at e; cases e)]
    exact h.empty n hn
  · intro r hr n hn
    rw [(hAreg r).2] at hn
    rw [(hAnode n).2.1]
    rcases Finset.mem_insert.1 hr with rfl | hr
    · rw [hregB] at hn; cases hn
    · exact h.shell r hr n hn
  · intro r hr
    rw [(hAreg r).2]
    rcases Finset.mem_insert.1 hr with rfl | hr
    · rw [hregB]; exact List.nodup_nil
    · exact h.shellNodup r hr
  · intro r hr
    rw [(hAreg r).2]
    rcases Finset.mem_insert.1 hr with rfl | hr
    · rw [hregB]; exact List.Pairwise.nil
    · refine (h.shellSorted r hr).imp ?_
      intro a b hab
      rw [(hAnode a).2.2.1, (hAnode b).2.2.1]
      exact hab
  · intro r hr hc
    rw [(hAreg r).1] at hc
    rw [(hAreg r).2]
    rcases Finset.mem_insert.1 hr with rfl | hr
    · rw [hregB] at hc; exact absurd hc hne
    · exact h.seed r hr hc
  · intro a ha
    obtain ⟨r, l, e1, e2, e3, e4, e5, e6⟩ := h.event a ha
    obtain ⟨k1, k2, k3, k4⟩ := hAnode a
    exact ⟨r, l, by rw [k2]; exact e1, by rw [(hAreg r).1]; exact e2, by rw [(hAreg r).2]; exact e3, by rw [k3]; exact e4,
      by rw [k1]; exact e5, by rw [k4]; exact e6⟩
  · intro n q hn
    obtain ⟨k1, k2, k3, k4⟩ := hAnode n
    rw [k2] at hn
    obtain ⟨a, ha, e1, e2, e3⟩ := h.src n q hn
    refine ⟨a, ha, by rw [k1]; exact e1, hInR q (h.occ n q hn).1 a e2, ?_⟩
    rw [hTight, k4]; exact e3
  · rw [hD]; exact h.flow
  · rw [hrad]
    intro u v r hu hv
    rcases hnodetop u r hu with ⟨rfl, c, hc, e⟩ | ⟨e1, e2, e3, e4⟩
    · rcases hnodetop v r hv with ⟨-, c', hc', e'⟩ | ⟨-, e2, -, -⟩
      · have := hevencyc u c e hc
        have := hevencyc v c' e' hc'
        omega
      · exact absurd e2 hB
    · rcases hnodetop v r hv with ⟨rfl, -⟩ | ⟨-, -, -, e4'⟩
      · exact absurd e2 hB
      · exact h.even1 u v r e4 e4'
  · rw [hrad]
    intro u r hu hs
    rcases hnodetop u r hu with ⟨rfl, c, hc, e⟩ | ⟨e1, e2, e3, e4⟩
    · exact hevencyc u c e hc
    · refine h.even2 u r e4 ?_
      unfold sl at hs ⊢
      rw [(hAnc r e2 e1).2] at hs
      exact hs
  · subst hcs
    exact ⟨hD, fun n => (hAnode n).2.1, hparB, hslB, by rw [hAB, hregB], fun c hc => (hAc c hc).1, fun r _ => (hAreg r).1,
      fun r hr hrc => (hAnc r hr hrc).1, fun r hr hrc => (hAnc r hr hrc).2⟩

theorem Sched.absorbed {X Y : Nat → Prop} (hs : Sched g L X Y s) (h : BGeo g T L ch t s) {B : Nat} (hB : B ∉ L)
    {cs : List Nat} {A : FS}
    (hwant : ∀ o, want A o = if (∃ c ∈ cs, o = .inr c) then none else Function.update (absW s.w).want (.inr B) none o) (hw : WInv A.w)
    (hout : ∀ n, (∀ c ∈ cs, (s.node n).top ≠ some c) → A.node n = s.node n)
    (hreg : ∀ r ∈ L, r ∉ cs → par A r = par s r ∧ (A.reg r).radius = (s.reg r).radius ∧ (A.reg r).shell = (s.reg r).shell)
    (hparC : ∀ c ∈ cs, par A c = some B) (hslB : sl A B = 1) :
    Sched g (insert B L) (fun u => X u ∨ ∃ c ∈ cs, (s.node u).top = some c) Y A := by
  have hne' : ∀ d ∈ L, d ≠ B := fun d hd e => hB (e ▸ hd)
  have hwl : ∀ u, want A (.inl u) = want s (.inl u) := by
    intro u
    rw [hwant, if_neg (by rintro ⟨c, -, e⟩; cases e), Function.update_of_ne (by simp)]
    rfl
  have hloc : ∀ n, (∀ c ∈ cs, (s.node n).top ≠ some c) → localRadius A n = localRadius s n := by
    intro n hn
    unfold localRadius
    rw [hout n hn]
    cases htop : (s.node n).top with
    | none => rfl
    | some r =>
      obtain ⟨-, -, -, -, hr, -⟩ := h.node_top_live htop
      simp only
      rw [(hreg r hr (fun hc => hn r hc htop)).2.1]
  refine ⟨hw, ?_, ?_, ?_⟩
  · intro u i n τ he hc hXu hXv
    push Not at hXu
    have hcs : coll s u n = some τ := by
      rw [← hc]
      unfold coll
      rw [hloc u hXu.2, hout u hXu.2]
      cases ht : n.target with
      | none => rfl
      | some v =>
        have := hXv v ht
        push Not at this
        simp only
        rw [hloc v this.2, hout v this.2]
    obtain ⟨t', e1, e2⟩ := hs.colls u i n τ he hcs hXu.1 (fun v hv x => hXv v hv (.inl x))
    refine ⟨t', e1, ?_⟩
    simp only [hwl]
    exact e2
  · intro u τ hX hu
    push Not at hX
    rw [hwl] at hu
    rw [hloc u hX.2]
    exact hs.nodeWant u τ hX.1 hu
  · intro r
    rw [hwant]
    by_cases hrB : r = B
    · subst hrB
      refine ⟨fun a => ?_, fun _ => ?_⟩
      · rw [hslB] at a; omega
      · rw [Function.update_self]; simp
    · by_cases hrc : r ∈ cs
      · rw [if_pos ⟨r, hrc, rfl⟩]
        refine ⟨fun a => ?_, fun _ => rfl⟩
        rw [hparC r hrc] at a; cases a.2.1
      · rw [if_neg (by rintro ⟨c, hc, e⟩; cases e; exact hrc hc), Function.update_of_ne (by simpa using hrB)]
        by_cases hrL : r ∈ L
        · obtain ⟨k1, k2, k3⟩ := hreg r hrL hrc
          have hsl : sl A r = sl s r := by unfold sl; rw [k2]
          rw [k1, hsl, Finset.mem_insert]
          have : (r = B ∨ r ∈ L) ↔ r ∈ L := by simp [hrB]
          rw [this]
          refine ⟨fun a => ?_, (hs.regWant r).2⟩
          refine ((hs.regWant r).1 a).trans ?_
          congr 1
          unfold shrinkTime
          rw [k2, k3]
          cases hz : (s.reg r).shell.getLast? with
          | none => rfl
          | some z =>
            simp only
            rw [hloc z]
            intro c hc e
            rw [h.otop z r (h.shell r hrL z (List.mem_of_getLast? hz)), h.top_self hrL a.2.1] at e
            cases e
            exact hrc hc
        · refine ⟨fun a => absurd a.1 (by simp [hrB, hrL]), fun _ => (hs.regWant r).2 (fun a => hrL a.1)⟩

/-- `create_blossom`, flooder part. -/
theorem blossomFl_spec (h : Geo g T L ch t s) (hg : Proper g) (hA : AInv L s.regs) (ht : s.now = t) {X Y : Nat → Prop}
    (hs : Sched g L X Y s) {cyc : List (Nat × CompressedEdge)} (hne : cyc ≠ []) (hnd : (cyc.map (·.1)).Nodup)
    (hcyc : ∀ c ∈ cyc.map (·.1), c ∈ L ∧ par s c = none) (hsl : ∀ c ∈ cyc.map (·.1), sl s c ≠ 0) :
    ∃ s' B, blossomFl g s cyc = .ok (s', B) ∧ B ∉ L ∧ s'.now = t ∧ AInv (insert B L) s'.regs ∧
      Geo g T (insert B L) (wrapCh ch B (cyc.map (·.1))) t s' ∧ Sched g (insert B L) X Y s' ∧ WrapRel L ch t B cyc s s' := by
  obtain ⟨ar, w0, B, a1, hB, a3, a4, a5, a6, a7⟩ := allocRegion_spec hA hs.winv
  unfold blossomFl
  rw [a1]
  simp only
  have hnow0 : ({ s with reg := Function.update s.reg B (.fresh B), regs := ar, w := w0 } : FS).now = t := by
    unfold FS.now at ht ⊢; simp only; omega
  rw [hnow0]
  generalize hs0 : (({ s with reg := Function.update s.reg B (.fresh B), regs := ar, w := w0 } : FS).setReg B fun R =>
    { R with radius := growingZeroAt t, children := cyc }) = s0
  have hne' : ∀ d ∈ L, d ≠ B := fun d hd e => hB (e ▸ hd)
  have h0node : s0.node = s.node := by rw [← hs0]; rfl
  have h0reg : ∀ r ∈ L, s0.reg r = s.reg r := by
    intro r hr; rw [← hs0, setReg_ne _ _ (hne' r hr)]; simp [Function.update_of_ne (hne' r hr)]
  have h0B : s0.reg B = { Region.fresh B with radius := growingZeroAt t, children := cyc } := by
    rw [← hs0, setReg_self]; simp
  have h0regs : s0.regs = ar := by rw [← hs0]; rfl
  have h0w : s0.w = w0 := by rw [← hs0]; rfl
  have hcard1 := a3.card_le
  have hcard : (insert B L).card ≤ s0.depth := by unfold FS.depth; rw [h0regs]; exact hcard1
  have hG0 : Geo g T L ch t s0 := h.off h0node h0reg (by
    have := Finset.card_le_card (Finset.subset_insert B L)
    omega)
  have hpot0 := h.pot_off h0node h0reg
  have hp0 : ∀ r ∈ L, par s0 r = par s r := fun r hr => by unfold par; rw [h0reg r hr]
  have hcyc0 : ∀ c ∈ cyc.map (·.1), c ∈ L ∧ par s0 c = none := fun c hc => ⟨(hcyc c hc).1, by rw [hp0 c (hcyc c hc).1]; exact (hcyc c hc).2⟩
  have hinit : s0 = absorbed s0 L ch t B [] w0 := by
    unfold absorbed; simp only [List.not_mem_nil, false_and, exists_false, if_false, and_false]
    rw [← h0w]
  obtain ⟨w1, b1, b2, b3, b4⟩ := absorbs_spec hG0 hB (cyc.map (·.1)) (done := []) (w := w0) a5 (by unfold FS.now at ht; omega)
    (by simpa using hnd) (by simpa using hcyc0)
  rw [← hinit, List.nil_append] at b1
  rw [b1]
  simp only [Res.bind]
  obtain ⟨c1, c2⟩ := hG0.absorbed_geo hB (w := w1) hne hnd hcyc0
    (fun c hc => by unfold sl; rw [h0reg c (hcyc c hc).1]; exact hsl c hc) h0B hcard
  have hD : D s0 L ch t = D s L ch t := D_congr hpot0
  have hrel : WrapRel L ch t B cyc s (absorbed s0 L ch t B (cyc.map (·.1)) w1) :=
    ⟨c2.dist.trans hD, fun n => by rw [c2.arr, h0node], c2.parB, c2.slB, c2.kidsB, c2.parC,
      fun r hr => by rw [c2.kids r hr, h0reg r hr], fun r hr hrc => by rw [c2.par r hr hrc, hp0 r hr],
      fun r hr hrc => by rw [c2.radius r hr hrc, h0reg r hr]⟩
  have hS := hs.absorbed (A := absorbed s0 L ch t B (cyc.map (·.1)) w1) h.toBGeo hB (fun o => by
      show (absW w1).want o = _
      rw [b4, a7]) b2 (fun n hn => by
      have : ¬ ∃ c ∈ cyc.map (·.1), (s0.node n).top = some c := by
        rintro ⟨c, hc, e⟩; rw [h0node] at e; exact hn c hc e
      unfold SB.absorbed; simp only [if_neg this]; rw [h0node])
    (fun r hr hrc => ⟨hrel.par r hr hrc, hrel.radius r hr hrc, by
      rw [← h0reg r hr]; unfold SB.absorbed; simp only; split <;> rfl⟩) hrel.parC hrel.slB
  have hAnow : (absorbed s0 L ch t B (cyc.map (·.1)) w1).now = t := by
    unfold FS.now at ht ⊢
    show w1.q.cur = t
    omega
  have hAregs : (absorbed s0 L ch t B (cyc.map (·.1)) w1).regs = ar := h0regs
  generalize absorbed s0 L ch t B (cyc.map (·.1)) w1 = A at c1 hrel hS hAnow hAregs
  have hBL : B ∈ insert B L := Finset.mem_insert_self _ _
  obtain ⟨w2, d1, d2, d3⟩ := Geo.rescheduleAll_spec hg (area A B) c1 hAnow hS (fun u hu => by
    rw [c1.toBGeo.mem_area_top hBL hrel.parB] at hu
    rw [BGeo.local_slope hu, hrel.slB]; omega)
  rw [d1]
  refine ⟨{ A with w := w2 }, B, rfl, hB, by unfold FS.now at hAnow ⊢; simp only; omega, by simpa [hAregs] using a3, c1.withW _,
    d3.mono ?_, ⟨hrel.dist, hrel.arr, hrel.parB, hrel.slB, hrel.kidsB, hrel.parC, hrel.kids, hrel.par, hrel.radius⟩⟩
  rintro u ⟨hX | ⟨c, hc, e⟩, hn⟩
  · exact hX
  · exfalso
    apply hn
    rw [c1.toBGeo.mem_area hBL]
    obtain ⟨q, e1, e2, e3, e4, -⟩ := h.node_top_live e
    refine ⟨q, by rw [hrel.arr]; exact e1, ?_⟩
    have hcq : c ∈ ch q := e3 ▸ (h.top q e2).1
    unfold wrapCh
    rw [if_neg (hne' q e2), if_pos]
    · simp
    · exact ⟨c, hcq, hc⟩

end Verif.SB
