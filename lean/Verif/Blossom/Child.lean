import Verif.Blossom.Hit

/-!
# Trees that hit matched regions
-/

namespace Verif.SB

open Verif Verif.Graph Verif.CE Verif.Mem Verif.Spec
open Verif.Sch (Res)

variable {V V' : View} {alt alt' : Nat → ANode} {A N : Finset Nat} {ach : Nat → List Nat} {E U U' : Nat → Prop} {ralt ralt' : Nat → Option Nat}
  {mate mate' : Nat → Mate} {Z : Finset Nat}
variable {g : MGraph} {T L : Finset Nat} {ch : Nat → List Nat} {t : Int} {X Y : Nat → Prop}

theorem AInv.alloc {ar : Arena} (h : AInv A ar) : ∃ ar' c, ar.alloc ar.allocated.length = (ar', c) ∧ c ∉ A ∧ AInv (insert c A) ar' := by
  have hm : ar.allocated.length ∉ ar.allocated := fun hx => by have := h.names _ hx; omega
  obtain ⟨i1, i2⟩ := inv_alloc h.inv hm
  have hnames : ∀ x ∈ (ar.alloc ar.allocated.length).1.allocated, x < (ar.alloc ar.allocated.length).1.allocated.length := by
    rcases List.eq_nil_or_concat ar.available with hx | ⟨l, x, hx⟩
    · rw [alloc_nil hx]
      intro x hx
      simp only [List.mem_append, List.mem_singleton, List.length_append, List.length_singleton] at hx ⊢
      rcases hx with hx | hx
      · have := h.names x hx; omega
      · omega
    · rw [List.concat_eq_append] at hx
      rw [alloc_cons hx]
      exact h.names
  cases hal : ar.alloc ar.allocated.length with
  | mk ar' c =>
    rw [hal] at i1 i2 hnames
    have hcA : c ∉ A := i2
    refine ⟨ar', c, rfl, hcA, ?_, hnames⟩
    rw [Finset.insert_val_of_notMem hcA]
    exact i1

/-- The node created by `make_child`. -/
theorem makeChild_eq (s : MS) {a c inn out : Nat} {i2o ce : CompressedEdge} {ar : Arena} (hal : s.alts.alloc s.alts.allocated.length = (ar, c)) (hne : a ≠ c) :
    makeChild s a inn out i2o ce = ({ s with
      alts := ar, ralt := Function.update (Function.update s.ralt inn (some c)) out (some c),
      alt := attached (Function.update s.alt c ⟨some inn, out, i2o, none, [], false⟩) a c ce }, c) := by
  unfold makeChild
  rw [hal]
  simp only
  rw [addChild_eq _ hne]
  rfl

/-- A new child of `a` with the regions `inn` and `out`, which start to shrink and grow. -/
theorem makeChild_spec (hg : Proper g) {s : MS} (hF : FOk g T L ch t X Y s.fl) (hN : Nodes (view g T L ch t s.fl) s.alt s.ralt N (fun _ => False))
    (hS : Shape (view g T L ch t s.fl) s.alt A ach Z) (hNA : N ⊆ A) (hA : AInv A s.alts) (hZA : Z ⊆ A) {a inn out : Nat} {i2o ce : CompressedEdge} (ha : a ∈ N)
    (hchain : ∀ z ∈ ach a, z ∉ Z)
    (hinn : (view g T L ch t s.fl).top inn ∧ sl s.fl inn = 0 ∧ s.ralt inn = none ∧ (view g T L ch t s.fl).ev inn)
    (hout : (view g T L ch t s.fl).top out ∧ sl s.fl out = 0 ∧ s.ralt out = none ∧ (view g T L ch t s.fl).ev out)
    (hio : inn ≠ out) (hlk : (view g T L ch t s.fl).lk ce (s.alt a).outer inn) (hlk2 : (view g T L ch t s.fl).lk i2o inn out) :
    ∃ ar c f', s.alts.alloc s.alts.allocated.length = (ar, c) ∧ c ∉ A ∧ a ≠ c ∧
      setGrowing g (setShrinking s.fl inn) out = .ok f' ∧
      FOk g T L ch t (fun x => (X x ∧ x ≠ inn) ∧ x ≠ out) (fun x => Y x ∧ x ≠ inn) f' ∧ f'.regs = s.fl.regs ∧
      view g T L ch t f' = { view g T L ch t s.fl with sl := Function.update (Function.update (sl s.fl) inn (-1)) out 1 } ∧
      AInv (insert c A) ar ∧
      Nodes (view g T L ch t f') (attached (Function.update s.alt c ⟨some inn, out, i2o, none, [], false⟩) a c ce)
        (Function.update (Function.update s.ralt inn (some c)) out (some c)) (insert c N) (fun _ => False) ∧
      (∃ ach', Shape (view g T L ch t f') (attached (Function.update s.alt c ⟨some inn, out, i2o, none, [], false⟩) a c ce) (insert c A) ach' Z ∧
        ach' c = c :: ach a ∧ ∀ x ∈ A, ach' x = ach x) ∧
      (∀ b ∈ N, ∀ r ∈ nregs s.alt b, r ≠ inn ∧ r ≠ out) := by
  obtain ⟨ar, c, hal, hcA, hA'⟩ := hA.alloc
  have haA := hNA ha
  have hac : a ≠ c := fun e => hcA (e ▸ haA)
  have hcN : c ∉ N := fun h => hcA (hNA h)
  have hne : ∀ b ∈ N, ∀ r ∈ nregs s.alt b, r ≠ inn ∧ r ≠ out := by
    intro b hb r hr
    constructor
    · rintro rfl; exact hN.not_free hb hr ⟨hinn.2.1, hinn.2.2.1⟩
    · rintro rfl; exact hN.not_free hb hr ⟨hout.2.1, hout.2.2.1⟩
  have hoa := hne a ha _ (mem_nregs.2 (.inl rfl))
  obtain ⟨hF1, hr1, hv1⟩ := hF.shrinking hg hinn.1 hinn.2.2.2 ⟨_, _, view_sym hg _ _ _ hlk, (hN.outer a ha).1, hoa.1⟩
  have hsl1 : sl (setShrinking s.fl inn) = Function.update (sl s.fl) inn (-1) := congrArg View.sl hv1
  obtain ⟨f', e2, hF2, hr2, hv2⟩ := hF1.growing hg (r := out) (by rw [hv1]; exact hout.1) (by rw [hv1]; exact hout.2.2.2)
  rw [hv1, hsl1] at hv2
  generalize hsl' : Function.update (Function.update (sl s.fl) inn (-1)) out 1 = sl' at hv2
  have hslx : ∀ x, x ≠ inn → x ≠ out → sl' x = sl s.fl x := fun x q1 q2 => by rw [← hsl', Function.update_of_ne q2, Function.update_of_ne q1]
  have hsli : sl' inn = -1 := by rw [← hsl', Function.update_of_ne hio, Function.update_self]
  have hslo : sl' out = 1 := by rw [← hsl', Function.update_self]
  have hreg := attached_regs (Function.update s.alt c ⟨some inn, out, i2o, none, [], false⟩) a c ce
  have hupd : ∀ x ∈ A, Function.update s.alt c ⟨some inn, out, i2o, none, [], false⟩ x = s.alt x := fun x hx =>
    Function.update_of_ne (show x ≠ c from fun e => hcA (e ▸ hx)) _ _
  refine ⟨ar, c, f', hal, hcA, hac, e2, hF2, hr2.trans hr1, by rw [hv2], hA', ?_, ?_, hne⟩
  · rw [hv2]
    have h1 := hN.slopes (sl' := sl') (fun b hb r hr => hslx r (hne b hb r hr).1 (hne b hb r hr).2)
    have h2 : Nodes { view g T L ch t s.fl with sl := sl' } (Function.update s.alt c ⟨some inn, out, i2o, none, [], false⟩)
        (Function.update (Function.update s.ralt inn (some c)) out (some c)) (insert c N) (fun _ => False) := by
      refine h1.add hcN (fun b hb => hupd b (hNA hb)) ?_ ?_ ?_ ?_ ?_ ?_
      · intro b hb
        obtain ⟨q1, q2⟩ := hne b hb _ (mem_nregs.2 (.inl rfl))
        rw [Function.update_of_ne q2, Function.update_of_ne q1]
      · rw [Function.update_self]
        exact ⟨hout.1, by rw [Function.update_self]⟩
      · rw [Function.update_self]
        show sl' out ≠ -1
        rw [hslo]; decide
      · intro _; rw [Function.update_self]; exact hslo
      · intro i hi
        rw [Function.update_self] at hi ⊢
        simp only [Option.some.injEq] at hi
        subst hi
        exact ⟨hinn.1, hsli, hlk2⟩
      · intro b hb i hi hbi
        rw [Function.update_self] at hi
        simp only [Option.some.injEq] at hi
        subst hi
        exact (hne b hb _ (mem_nregs.2 (.inr hbi))).1 rfl
    exact h2.congr (fun b _ => (hreg b).2.1) (fun b _ => (hreg b).1) (fun b _ => (hreg b).2.2.1) (fun b hb r _ ht => ⟨ht, rfl⟩)
      (fun _ _ _ h => h) (fun _ _ => rfl) (fun _ _ h => h)
  · rw [hv2]
    have hcZ : c ∉ Z := fun h => hcA (hZA h)
    have h1 : Shape { view g T L ch t s.fl with sl := sl' } s.alt A ach Z := hS.view (fun _ _ _ h => h)
    have h2 := h1.add (nd := ⟨some inn, out, i2o, none, [], false⟩) (Z' := insert c Z) hcA rfl rfl
      (fun x hx => by simp; intro e; exact absurd (e ▸ hx) hcA) (.inl (by simp))
    have hachA : ∀ x ∈ A, Function.update ach c [c] x = ach x := fun x hx => Function.update_of_ne (show x ≠ c from fun e => hcA (e ▸ hx)) _ _
    obtain ⟨ach', h3, h4⟩ := h2.attach (a := a) (c := c) (i := inn) (e := ce) (Finset.mem_insert_of_mem haA) (Finset.mem_insert_self _ _)
      (Finset.mem_insert_self _ _) (by
        intro z hz
        rw [hachA a haA] at hz
        rw [Finset.mem_insert]
        rintro (rfl | hzZ)
        · exact hcA (hS.forest.mem_live haA hz)
        · exact hchain z hz hzZ) (by rw [Function.update_self]) (by rw [hupd a haA]; exact hlk)
    rw [Finset.erase_insert hcZ] at h3
    have hca : ∀ x ∈ A, c ∉ ach x := fun x hx hm => hcA (hS.forest.mem_live hx hm)
    have hA2 : ∀ x ∈ A, ach' x = ach x := by
      intro x hx
      rw [h4 x (Finset.mem_insert_of_mem hx) (by rw [hachA x hx]; exact hca x hx), hachA x hx]
    refine ⟨ach', h3, ?_, hA2⟩
    have hstep := h3.forest.step c (Finset.mem_insert_self _ _) a (by simp [epar, attached, hcZ])
    rw [hstep.2, hA2 a haA]

/-- The top regions after `make_child`. -/
theorem Tops.child {sl' : Nat → Int} (h : Tops V alt ralt mate N U) {c inn out a : Nat} {i2o ce : CompressedEdge} (hc : c ∉ N)
    (hsl : ∀ x, x ≠ inn → x ≠ out → sl' x = V.sl x) (hinn : V.top inn) (hout : V.top out)
    (hU : ∀ x, U x → x ≠ inn → x ≠ out → U' x)
    (hmate : ∀ x, V.top x → ¬ U' x → Matched V ralt mate x → x ≠ inn → x ≠ out → mate' x = mate x ∧
      ∀ y, (mate x).region = some y → (mate y).region = some x → y ≠ inn ∧ y ≠ out ∧ mate' y = mate y) :
    Tops { V with sl := sl' } (attached (Function.update alt c ⟨some inn, out, i2o, none, [], false⟩) a c ce)
      (Function.update (Function.update ralt inn (some c)) out (some c)) mate' (insert c N) U' := by
  have hreg := attached_regs (Function.update alt c ⟨some inn, out, i2o, none, [], false⟩) a c ce
  constructor
  · intro r hr hUr
    by_cases hri : r = inn
    · exact .inl ⟨c, Finset.mem_insert_self _ _, mem_nregs.2 (.inr (by rw [(hreg c).1, Function.update_self, hri]))⟩
    · by_cases hro : r = out
      · exact .inl ⟨c, Finset.mem_insert_self _ _, mem_nregs.2 (.inl (by rw [(hreg c).2.1, Function.update_self, hro]))⟩
      · rcases h.cover r hr (fun e => hUr (hU r e hri hro)) with ⟨b, hb, hm⟩ | hm
        · refine .inl ⟨b, Finset.mem_insert_of_mem hb, ?_⟩
          have hbc : b ≠ c := fun e => hc (e ▸ hb)
          rw [mem_nregs, (hreg b).1, (hreg b).2.1, Function.update_of_ne hbc, ← mem_nregs]
          exact hm
        · obtain ⟨k1, k2⟩ := hmate r hr hUr hm hri hro
          refine .inr (hm.frame ?_ (fun _ _ h => h) (fun _ h => h))
          intro x hx
          rcases hx with rfl | ⟨h1, h2, h3, h4⟩
          · exact ⟨hsl x hri hro, by rw [Function.update_of_ne hro, Function.update_of_ne hri], k1, fun h => h⟩
          · obtain ⟨k3, k4, k5⟩ := k2 x h1 h4
            exact ⟨hsl x k3 k4, by rw [Function.update_of_ne k4, Function.update_of_ne k3], k5, fun h => h⟩
  · intro r hr hnt
    have h1 : r ≠ inn := by rintro rfl; exact hnt hinn
    have h2 : r ≠ out := by rintro rfl; exact hnt hout
    rw [Function.update_of_ne h2, Function.update_of_ne h1]
    exact h.inside r hr hnt

/-- `handle_tree_hitting_match` -/
theorem treeHitsMatch_spec (hg : Proper g) {s : MS} (h : SOk g T L ch t Y s A ach) {r m o : Nat} {e : CompressedEdge}
    (hr : (view g T L ch t s.fl).top r) (hsl : sl s.fl r = 1) (hm : (view g T L ch t s.fl).top m) (hslm : sl s.fl m = 0)
    (ho : (s.mate m).region = some o) (hlk : (view g T L ch t s.fl).lk e r m) (hY : ∀ x, ¬ Y x) :
    ∃ s' A' ach', treeHitsMatch g s r m e = .ok s' ∧ SOk g T L ch t Y s' A' ach' ∧
      Prog (view g T L ch t s.fl) (view g T L ch t s'.fl) s.alt s'.alt A A' L L := by
  obtain ⟨a, ha, hoa, hra⟩ := h.m.grower hr hsl
  have hM := h.m.frozen hm hslm
  obtain ⟨hoT, hom, hmo, hmoe, hlk2, hMo⟩ := hM.partner (view_sym hg) hm ho
  have hrm : r ≠ m := by rintro rfl; rw [hsl] at hslm; exact absurd hslm (by decide)
  have hevm : Ev T L ch t s.fl m := ev_link hg h.fl.geo hr.2 hm.2 hrm hlk (ev_of_slope h.fl.geo hr.1 hr.2 (by rw [hsl]; decide))
  have hevo : Ev T L ch t s.fl o := ev_link hg h.fl.geo hm.2 hoT.2 (Ne.symm hom) hlk2 hevm
  obtain ⟨ar, c, f', hal, hcA, hac, e2, hF2, hr2, hv2, hA2, hN2, ⟨ach', hS2, -, -⟩, hne⟩ := makeChild_spec hg h.fl h.m.nodes h.m.shape (subset_refl _) h.m.arena
    (by simp) ha (by simp) (i2o := (s.mate m).edge) (ce := e) ⟨hm, hslm, hM.free, hevm⟩ ⟨hoT, hMo.still, hMo.free, hevo⟩ (Ne.symm hom)
    (by rw [hoa]; exact hlk) hlk2
  generalize hs1 : ({ s with
      alts := ar, ralt := Function.update (Function.update s.ralt m (some c)) o (some c),
      alt := attached (Function.update s.alt c ⟨some m, o, (s.mate m).edge, none, [], false⟩) a c e } : MS) = s1
  have hreg := attached_regs (Function.update s.alt c ⟨some m, o, (s.mate m).edge, none, [], false⟩) a c e
  refine ⟨{ (s1.setMate o ⟨none, .cleared⟩).setMate m ⟨none, .cleared⟩ with fl := f' }, insert c A, ach', ?_, ?_, ?_⟩
  · unfold treeHitsMatch
    rw [hra, ho]
    simp only [deref, Res.bind, makeChild_eq s hal hac, hs1]
    show (setGrowing g (setShrinking s1.fl m) o).bind _ = _
    rw [show s1.fl = s.fl by rw [← hs1], e2]
    rfl
  · refine ⟨?_, ?_, ?_, ?_⟩
    · exact hF2.weaken (fun _ _ _ hx => hx.1.1) (fun x _ _ _ => by simp [hY x])
    · show AInv L f'.regs
      rw [hr2]; exact h.regs
    · show Cyc (view g T L ch t f')
      rw [hv2]; exact h.cyc.reslope _
    · rw [hv2] at hN2 hS2
      show MOk (view g T L ch t f') _ _ _
      rw [hv2]
      subst hs1
      refine ⟨⟨hN2, hS2, ?_, ?_, hA2⟩, ?_⟩
      · refine h.m.tops.child hcA ?_ hm hoT (fun _ h _ _ => h) ?_
        · intro x q1 q2
          rw [Function.update_of_ne q2, Function.update_of_ne q1]
          rfl
        · intro x hx _ hMx q1 q2
          refine ⟨by simp [MS.setMate, q1, q2], fun y hy hyx => ?_⟩
          have q3 : y ≠ m := by rintro rfl; rw [ho, Option.some.injEq] at hyx; exact q2 hyx.symm
          have q4 : y ≠ o := by rintro rfl; rw [hmo, Option.some.injEq] at hyx; exact q1 hyx.symm
          exact ⟨q3, q4, by simp [MS.setMate, q3, q4]⟩
      · intro b hb i hi
        have hi' : (attached (Function.update s.alt c ⟨some m, o, (s.mate m).edge, none, [], false⟩) a c e b).inner = some i := hi
        rw [(hreg b).1] at hi'
        show Function.update (Function.update s.ralt m (some c)) o (some c) i = some b
        rcases Finset.mem_insert.1 hb with rfl | hbA
        · rw [Function.update_self] at hi'
          simp only [Option.some.injEq] at hi'
          subst hi'
          rw [Function.update_of_ne (Ne.symm hom), Function.update_self]
        · rw [Function.update_of_ne (show b ≠ c from fun e => hcA (e ▸ hbA))] at hi'
          obtain ⟨q1, q2⟩ := hne b hbA i (mem_nregs.2 (.inr hi'))
          rw [Function.update_of_ne q2, Function.update_of_ne q1]
          exact h.m.ptr b hbA i hi'
      · intro b hb
        show (attached (Function.update s.alt c ⟨some m, o, (s.mate m).edge, none, [], false⟩) a c e b).visited = false
        rw [(hreg b).2.2.2]
        rcases Finset.mem_insert.1 hb with rfl | hbA
        · rw [Function.update_self]
        · rw [Function.update_of_ne (show b ≠ c from fun e => hcA (e ▸ hbA))]
          exact h.m.clean b hbA
  · have hslo : sl s.fl o = 0 := hMo.still
    refine .inr ⟨?_, ?_, .inl ?_⟩
    · intro b hb
      obtain ⟨hbI, hbi⟩ := Finset.mem_filter.1 hb
      subst hs1
      have hbi' : (attached (Function.update s.alt c ⟨some m, o, (s.mate m).edge, none, [], false⟩) a c e b).inner = none := hbi
      rw [(hreg b).1] at hbi'
      rcases Finset.mem_insert.1 hbI with rfl | hbA
      · rw [Function.update_self] at hbi'; cases hbi'
      · rw [Function.update_of_ne (show b ≠ c from fun e => hcA (e ▸ hbA))] at hbi'
        exact Finset.mem_filter.2 ⟨hbA, hbi'⟩
    · rintro x ⟨q, q1, q2, q3⟩
      show (view g T L ch t f').Out x
      rw [hv2]
      refine ⟨q, q1, ?_, q3⟩
      have hq : sl s.fl q = 1 := q2
      show Function.update (Function.update (sl s.fl) m (-1)) o 1 q = 1
      have n1 : q ≠ m := by rintro rfl; rw [hslm] at hq; exact absurd hq (by decide)
      have n2 : q ≠ o := by rintro rfl; rw [hslo] at hq; exact absurd hq (by decide)
      rw [Function.update_of_ne n2, Function.update_of_ne n1]; exact hq
    · obtain ⟨-, x, -, -, -, hxT, -, hx, -⟩ := hlk2
      refine ⟨x, ?_, ?_⟩
      · rintro ⟨q, q1, q2, -, q3⟩
        have e1 := (h.fl.geo.inR_iff hoT.1 hoT.2).1 hx
        rw [(h.fl.geo.inR_iff q1.1 q1.2).1 q3, Option.some.injEq] at e1
        subst e1
        have hq : sl s.fl q = 1 := q2
        rw [hslo] at hq; exact absurd hq (by decide)
      · show (view g T L ch t f').Out x
        rw [hv2]
        exact ⟨o, hoT, Function.update_self _ _ _, hxT, hx⟩

/-- `handle_tree_hitting_boundary_match` -/
theorem treeHitsBoundaryMatch_spec (hg : Proper g) {s : MS} (h : SOk g T L ch t Y s A ach) {r m : Nat} {e : CompressedEdge}
    (hr : (view g T L ch t s.fl).top r) (hsl : sl s.fl r = 1) (hm : (view g T L ch t s.fl).top m) (hslm : sl s.fl m = 0)
    (ho : (s.mate m).region = none) (hlk : (view g T L ch t s.fl).lk e r m) :
    ∃ s' A' ach', treeHitsBoundaryMatch g s r m e = .ok s' ∧ SOk g T L ch t Y s' A' ach' ∧
      Prog (view g T L ch t s.fl) (view g T L ch t s'.fl) s.alt s'.alt A A' L L := by
  obtain ⟨a, ha, hoa, hra⟩ := h.m.grower hr hsl
  have hM := h.m.frozen hm hslm
  have hrm : r ≠ m := by rintro rfl; rw [hsl] at hslm; exact absurd hslm (by decide)
  obtain ⟨f0, e0, hF0, hg0, hv0⟩ := h.fl.freeze hg (r := r) hr
  generalize hs0 : ({ addMatch s r m e with fl := f0 } : MS) = s0
  have hfl0 : s0.fl = f0 := by rw [← hs0]
  have halt0 : s0.alt = s.alt := by rw [← hs0]; rfl
  have hralt0 : s0.ralt = s.ralt := by rw [← hs0]; rfl
  have halts0 : s0.alts = s.alts := by rw [← hs0]; rfl
  have hmr : s0.mate r = ⟨some m, e⟩ := by rw [← hs0]; simp [addMatch, MS.setMate, hrm]
  have hmm : s0.mate m = ⟨some r, e.reversed⟩ := by rw [← hs0]; simp [addMatch, MS.setMate]
  have hmx : ∀ x, x ≠ r → x ≠ m → s0.mate x = s.mate x := fun x q1 q2 => by rw [← hs0]; simp [addMatch, MS.setMate, q1, q2]
  have hslx : ∀ x, x ≠ r → Function.update (sl s.fl) r 0 x = sl s.fl x := fun x q => Function.update_of_ne q _ _
  have hslr : Function.update (sl s.fl) r 0 r = 0 := Function.update_self _ _ _
  have hout : ∀ b ∈ A, b ≠ a → (s.alt b).outer ≠ r := fun b hb hba e => hba (h.m.nodes.outer_inj hb ha (e.trans hoa.symm))
  have hinr : ∀ b ∈ A, ∀ i, (s.alt b).inner = some i → i ≠ r := fun b hb i hi => by rw [← hoa]; exact h.m.nodes.inner_outer hb ha hi
  have hN0 : Nodes (view g T L ch t s0.fl) s0.alt s0.ralt A (fun x => x = a) := by
    rw [hfl0, hv0, halt0, hralt0]
    have hN := h.m.nodes
    refine ⟨hN.outer, ?_, ?_, ?_, hN.inj⟩
    · intro b hb
      show Function.update (sl s.fl) r 0 (s.alt b).outer ≠ -1
      by_cases hba : b = a
      · subst hba; rw [hoa, hslr]; decide
      · rw [hslx _ (hout b hb hba)]; exact hN.up b hb
    · intro b hb hba
      show Function.update (sl s.fl) r 0 (s.alt b).outer = 1
      rw [hslx _ (hout b hb hba)]; exact hN.grow b hb (fun h => h)
    · intro b hb i hi
      obtain ⟨k1, k2, k3⟩ := hN.inner b hb i hi
      refine ⟨k1, ?_, k3⟩
      show Function.update (sl s.fl) r 0 i = -1
      rw [hslx _ (hinr b hb i hi)]; exact k2
  have hS0 : Shape (view g T L ch t s0.fl) s0.alt A ach ∅ := by
    rw [hfl0, hv0, halt0]; exact h.m.shape.view (fun _ _ _ h => h)
  have hT0 : Tops (view g T L ch t s0.fl) s0.alt s0.ralt s0.mate A (fun x => x = r ∨ x = m) := by
    rw [hfl0, hv0, halt0, hralt0]
    refine ⟨fun x hx hU => ?_, h.m.tops.inside⟩
    push Not at hU
    rcases h.m.tops.cover x hx (fun h => h) with hb | hMx
    · exact .inl hb
    · refine .inr (hMx.frame ?_ (fun _ _ h => h) (fun _ h => h))
      rintro y (rfl | ⟨h1, h2, h3, h4⟩)
      · exact ⟨hslx y hU.1, rfl, hmx y hU.1 hU.2, fun h => h⟩
      · have q1 : y ≠ r := by rintro rfl; rw [hra] at h3; cases h3
        have q2 : y ≠ m := by rintro rfl; rw [ho] at h4; cases h4
        exact ⟨hslx y q1, rfl, hmx y q1 q2, fun h => h⟩
  rw [← hfl0] at hF0
  obtain ⟨alt1, ach1, e1, hS1, hN1, hT1, hp1, ho1, hk1, hrt1⟩ := reroot_spec hg hN0 hS0 hT0 (by rw [halts0]; exact h.m.arena) ha
  generalize hs1 : ({ s0 with alt := alt1 } : MS) = s1 at e1
  have hfl1 : s1.fl = s0.fl := by rw [← hs1]
  have halt1 : s1.alt = alt1 := by rw [← hs1]
  have hralt1 : s1.ralt = s0.ralt := by rw [← hs1]
  have hmate1 : s1.mate = s0.mate := by rw [← hs1]
  have halts1 : s1.alts = s0.alts := by rw [← hs1]
  rw [← hfl1, ← halt1] at hS1 hN1 hT1
  rw [← hralt1] at hN1 hT1
  rw [← hmate1] at hT1
  rw [← halt1] at hp1 ho1 hk1
  have hF1 := hF0
  rw [← hfl1] at hF1
  obtain ⟨s2, l, e2, hl, h2, hr2, hA2, hS2, hN2, hT2⟩ := shatterTree_spec hg hF1 hN1 hT1 hS1 (by rw [halts1, halts0]; exact h.m.arena) ha hp1
  have hl' : ∀ x ∈ l, x ∈ A := fun x hx => ((hl x).1 hx).1
  have hra1 : r ∈ nregs s1.alt a := mem_nregs.2 (.inl (by rw [ho1, halt0, hoa]))
  have hal : a ∈ l := (hl a).2 ⟨ha, by rw [hrt1 a ha, if_pos rfl]⟩
  obtain ⟨q1, q2, q3⟩ := hr2 r hra1
  have hmno : ∀ b ∈ A, m ∉ nregs s1.alt b := by
    intro b hb hmb
    refine hN1.not_free hb hmb ⟨?_, ?_⟩
    · rw [hfl1, hfl0, hv0]; exact (hslx m (Ne.symm hrm)).trans hslm
    · rw [hralt1, hralt0]; exact hM.free
  obtain ⟨p2, p3⟩ := h2.keep m (fun b hb _ => hmno b (hl' b hb))
  have p1 := h2.ralt m (fun b hb => hmno b (hl' b hb))
  obtain ⟨v1, v2, v3⟩ := h2.lk
  have hsl0 : sl s0.fl = Function.update (sl s.fl) r 0 := by rw [hfl0]; exact congrArg View.sl hv0
  have htop0 : (view g T L ch t s0.fl).top = (view g T L ch t s.fl).top := by rw [hfl0, hv0]
  have hlk0 : (view g T L ch t s0.fl).lk = (view g T L ch t s.fl).lk := by rw [hfl0, hv0]
  have a1 : sl s2.fl r = 0 := by rw [q2, hfl1, hsl0, hslr]
  have a2 : sl s2.fl m = 0 := by rw [p2, hfl1, hsl0, hslx m (Ne.symm hrm)]; exact hslm
  have a3 : s2.mate r = ⟨some m, e⟩ := by rw [q3, hmate1, hmr]
  have a4 : s2.mate m = ⟨some r, e.reversed⟩ := by rw [p3, hmate1, hmm]
  have a5 : s2.ralt m = none := by rw [p1, hralt1, hralt0]; exact hM.free
  have hlk2 : (view g T L ch t s2.fl).lk e r m := by rw [v2, hfl1, hlk0]; exact hlk
  have hT : (view g T L ch t s2.fl).top r ∧ (view g T L ch t s2.fl).top m := by rw [v1, hfl1, htop0]; exact ⟨hr, hm⟩
  refine ⟨s2, A \ l.toFinset, ach1, ?_, ⟨h2.fl, ?_, ?_, ⟨⟨?_, hS2, ?_, ?_, hA2⟩, ?_⟩⟩, ?_⟩
  · unfold treeHitsBoundaryMatch MS.onFl
    show ((setFrozen g s.fl r).bind _).bind _ = _
    rw [e0]
    show (deref (s.ralt r)).bind _ = _
    rw [hra, hs0]
    show (becomeRoot (s0.altDepth + 1) s0 a).bind _ = _
    rw [e1]
    exact e2
  · rw [h2.regs, hfl1, hfl0, hg0]; exact h.regs
  · have : Cyc (view g T L ch t s1.fl) := by rw [hfl1, hfl0, hv0]; exact h.cyc.reslope _
    exact this.shattered h2
  · refine ⟨hN2.outer, hN2.up, fun b hb _ => hN2.grow b hb ?_, hN2.inner, hN2.inj⟩
    rintro rfl
    exact (Finset.mem_sdiff.1 hb).2 (List.mem_toFinset.2 hal)
  · refine hT2.close (sl' := sl s2.fl) (fun x hx => ⟨hx, rfl⟩) ?_
    have M1 : Matched (view g T L ch t s2.fl) s2.ralt s2.mate r :=
      ⟨a1, q1, .inr ⟨m, by rw [a3], Ne.symm hrm, hT.2, a2, a5, by rw [a3, a4], by rw [a3]; exact hlk2⟩⟩
    have M2 : Matched (view g T L ch t s2.fl) s2.ralt s2.mate m :=
      ⟨a2, a5, .inr ⟨r, by rw [a4], hrm, hT.1, a1, q1, by rw [a3, a4]; rfl, by rw [a4]; exact view_sym hg _ _ _ hlk2⟩⟩
    rintro x hx ((hx1 | hx1) | hx1)
    · subst hx1; exact M1
    · subst hx1; exact M2
    · rw [ho1, halt0, hoa] at hx1; subst hx1; exact M1
  · intro b hb i hi
    obtain ⟨hbA, hbl⟩ := Finset.mem_sdiff.1 hb
    rw [List.mem_toFinset] at hbl
    rw [h2.alt b hbl] at hi
    rw [h2.ralt_of hN1 hl' hbA hbl (mem_nregs.2 (.inr hi)), hralt1, hralt0]
    have hroot : Forest.rootOf ach b ≠ Forest.rootOf ach a := fun e => hbl ((hl b).2 ⟨hbA, by rw [hrt1 b hbA, if_pos e]⟩)
    rw [hk1 b hbA hroot, halt0] at hi
    exact h.m.ptr b hbA i hi
  · intro b hb
    obtain ⟨hbA, hbl⟩ := Finset.mem_sdiff.1 hb
    rw [List.mem_toFinset] at hbl
    have hroot : Forest.rootOf ach b ≠ Forest.rootOf ach a := fun e => hbl ((hl b).2 ⟨hbA, by rw [hrt1 b hbA, if_pos e]⟩)
    rw [h2.alt b hbl, hk1 b hbA hroot, halt0]
    exact h.m.clean b hbA
  · obtain ⟨x, hxA, hxi, hxr⟩ := h.m.shape.treeRoot ha
    refine Prog.ofRoot hxA hxi ?_ ?_
    · rw [Finset.mem_sdiff, List.mem_toFinset]
      exact fun hm => hm.2 ((hl x).2 ⟨hxA, by rw [hrt1 x hxA, if_pos hxr]⟩)
    · intro b hb
      obtain ⟨hbA, hbl⟩ := Finset.mem_sdiff.1 hb
      rw [List.mem_toFinset] at hbl
      have hroot : Forest.rootOf ach b ≠ Forest.rootOf ach a := fun e => hbl ((hl b).2 ⟨hbA, by rw [hrt1 b hbA, if_pos e]⟩)
      exact ⟨hbA, by rw [h2.alt b hbl, hk1 b hbA hroot, halt0]⟩

end Verif.SB
