import Verif.Blossom.Match

/-!
# Trees that hit the boundary, a region matched to the boundary, or another tree
-/

namespace Verif.SB

open Verif Verif.Graph Verif.CE Verif.Mem Verif.Spec
open Verif.Sch (Res)

/-- The matcher is in order, except for the flags left by the search for a common ancestor. -/
structure MPre (V : View) (s : MS) (A : Finset Nat) (ach : Nat → List Nat) : Prop where
  nodes : Nodes V s.alt s.ralt A (fun _ => False)
  shape : Shape V s.alt A ach ∅
  tops : Tops V s.alt s.ralt s.mate A (fun _ => False)
  ptr : ∀ a ∈ A, ∀ i, (s.alt a).inner = some i → s.ralt i = some a
  arena : AInv A s.alts

/-- The matcher is in order. -/
structure MOk (V : View) (s : MS) (A : Finset Nat) (ach : Nat → List Nat) : Prop extends MPre V s A ach where
  clean : ∀ a ∈ A, (s.alt a).visited = false

/-- Children of blossoms form odd cycles of tight edges. -/
def Cyc (V : View) : Prop := ∀ r, V.live r → V.kids r = [] ∨ ((V.kids r).length % 2 = 1 ∧ 3 ≤ (V.kids r).length ∧ ∃ q, Chain V q (V.kids r) q)

/-- The decoder is in order at time `t`; the regions `Y` may be unscheduled. -/
structure SOk (g : MGraph) (T L : Finset Nat) (ch : Nat → List Nat) (t : Int) (Y : Nat → Prop) (s : MS) (A : Finset Nat) (ach : Nat → List Nat) : Prop where
  fl : FOk g T L ch t (fun _ => False) Y s.fl
  regs : AInv L s.fl.regs
  cyc : Cyc (view g T L ch t s.fl)
  m : MOk (view g T L ch t s.fl) s A ach

variable {V V' : View} {alt alt' : Nat → ANode} {A A' : Finset Nat} {ach : Nat → List Nat} {E U U' : Nat → Prop} {ralt ralt' : Nat → Option Nat}
  {mate mate' : Nat → Mate} {Z : Finset Nat}
variable {g : MGraph} {T L : Finset Nat} {ch : Nat → List Nat} {t : Int} {X Y : Nat → Prop}

/-! ## Progress -/

/-- The detection event is in a growing top region. -/
def View.Out (V : View) (a : Nat) : Prop := ∃ r, V.top r ∧ V.sl r = 1 ∧ V.has r a

/-- The roots of the trees. -/
def Roots (alt : Nat → ANode) (A : Finset Nat) : Finset Nat := A.filter fun a => (alt a).inner = none

/-- Progress of the matcher: fewer trees, or more detection events in growing regions, or fewer regions. -/
def Prog (V V' : View) (alt alt' : Nat → ANode) (A A' L L' : Finset Nat) : Prop :=
  Roots alt' A' ⊂ Roots alt A ∨
    (Roots alt' A' ⊆ Roots alt A ∧ (∀ a, V.Out a → V'.Out a) ∧ ((∃ a, ¬ V.Out a ∧ V'.Out a) ∨ L' ⊂ L))

theorem Prog.ofRoot {L L' : Finset Nat} {x : Nat} (hx : x ∈ A) (hi : (alt x).inner = none) (hx' : x ∉ A')
    (h : ∀ b ∈ A', b ∈ A ∧ (alt' b).inner = (alt b).inner) : Prog V V' alt alt' A A' L L' := by
  refine .inl (Finset.ssubset_iff_subset_ne.2 ⟨?_, ?_⟩)
  · intro b hb
    obtain ⟨h1, h2⟩ := Finset.mem_filter.1 hb
    obtain ⟨h3, h4⟩ := h b h1
    exact Finset.mem_filter.2 ⟨h3, h4 ▸ h2⟩
  · intro e
    have h1 : x ∈ Roots alt A := Finset.mem_filter.2 ⟨hx, hi⟩
    rw [← e] at h1
    exact hx' (Finset.mem_filter.1 h1).1

theorem Shape.treeRoot (h : Shape V alt A ach ∅) {a : Nat} (ha : a ∈ A) :
    ∃ x ∈ A, (alt x).inner = none ∧ Forest.rootOf ach x = Forest.rootOf ach a := by
  obtain ⟨r, hrA, hr, hrp⟩ := h.forest.rootOf_exists ha
  have hp : (alt r).parent = none := by
    unfold epar at hrp
    simpa using hrp
  exact ⟨r, hrA, h.root r hrA (by simp) hp, by rw [h.forest.rootOf_root hrA hrp, hr]⟩

theorem Chain.mono (h : ∀ e r r', V.lk e r r' → V'.lk e r r') : ∀ {l : List (Nat × CompressedEdge)} {r r' : Nat}, Chain V r l r' → Chain V' r l r' := by
  intro l
  induction l with
  | nil => intro r r' hc; exact hc
  | cons x l ih =>
    obtain ⟨x, e⟩ := x
    rintro r r' ⟨h1, p, h2, h3⟩
    exact ⟨h1, p, h e r p h2, ih h3⟩

theorem Cyc.reslope (h : Cyc V) (sl' : Nat → Int) : Cyc { V with sl := sl' } := by
  intro r hr
  rcases h r hr with h1 | ⟨h1, h2, q, h3⟩
  · exact .inl h1
  · exact .inr ⟨h1, h2, q, Chain.mono (V := V) (V' := { V with sl := sl' }) (fun _ _ _ h => h) h3⟩

theorem Shape.view (h : Shape V alt A ach Z) (hlk : ∀ e r r', V.lk e r r' → V'.lk e r r') : Shape V' alt A ach Z :=
  h.congr (fun _ _ => rfl) (fun _ _ => rfl) (fun _ _ _ _ _ e i _ hi hl => ⟨i, hi, hlk e _ _ hl⟩) (fun _ _ _ _ h => h)

/-- The regions in `U` became matched. -/
theorem Tops.close (h : Tops V alt ralt mate A U) {sl' : Nat → Int} (hx : ∀ x, V.sl x = 0 → sl' x = 0 ∧ mate' x = mate x)
    (hM : ∀ r, V.top r → U r → Matched { V with sl := sl' } ralt mate' r) : Tops { V with sl := sl' } alt ralt mate' A (fun _ => False) := by
  refine ⟨fun r hr _ => ?_, h.inside⟩
  by_cases hU : U r
  · exact .inr (hM r hr hU)
  · rcases h.cover r hr hU with h1 | hm
    · exact .inl h1
    · refine .inr (hm.frame ?_ (fun _ _ h => h) (fun _ h => h))
      intro x hx'
      have h0 : V.sl x = 0 := by
        rcases hx' with rfl | ⟨-, h2, -, -⟩
        · exact hm.still
        · exact h2
      exact ⟨(hx x h0).1.trans h0.symm, rfl, (hx x h0).2, fun h => h⟩

theorem Tops.nodes (h : Tops V alt ralt mate A U) (hn : ∀ a ∈ A, ∀ r ∈ nregs alt a, ∃ b ∈ A, r ∈ nregs alt' b) : Tops V alt' ralt mate A U := by
  refine ⟨fun r hr hU => ?_, h.inside⟩
  rcases h.cover r hr hU with ⟨a, ha, hm⟩ | hm
  · exact .inl (hn a ha r hm)
  · exact .inr hm

theorem Nodes.slopes (h : Nodes V alt ralt A E) {sl' : Nat → Int} (hsl : ∀ a ∈ A, ∀ r ∈ nregs alt a, sl' r = V.sl r) : Nodes { V with sl := sl' } alt ralt A E :=
  h.congr (fun _ _ => rfl) (fun _ _ => rfl) (fun _ _ => rfl) (fun a ha r hr ht => ⟨ht, hsl a ha r hr⟩) (fun _ _ _ h => h) (fun _ _ => rfl) (fun _ _ h => h)

/-- A growing top region is the outer region of a node. -/
theorem MOk.grower {s : MS} (h : MOk V s A ach) {r : Nat} (hr : V.top r) (hsl : V.sl r = 1) : ∃ a ∈ A, (s.alt a).outer = r ∧ s.ralt r = some a := by
  rcases h.tops.cover r hr (fun h => h) with ⟨a, ha, hm⟩ | hm
  · rcases mem_nregs.1 hm with rfl | hi
    · exact ⟨a, ha, rfl, (h.nodes.outer a ha).2⟩
    · have := (h.nodes.inner a ha r hi).2.1
      rw [hsl] at this; exact absurd this (by decide)
  · have := hm.still
    rw [hsl] at this; exact absurd this (by decide)

/-- A shrinking top region is the inner region of a node. -/
theorem MOk.shrinker {s : MS} (h : MOk V s A ach) {r : Nat} (hr : V.top r) (hsl : V.sl r = -1) : ∃ a ∈ A, (s.alt a).inner = some r ∧ s.ralt r = some a := by
  rcases h.tops.cover r hr (fun h => h) with ⟨a, ha, hm⟩ | hm
  · rcases mem_nregs.1 hm with rfl | hi
    · exact absurd hsl (h.nodes.up a ha)
    · exact ⟨a, ha, hi, h.ptr a ha r hi⟩
  · have := hm.still
    rw [hsl] at this; exact absurd this (by decide)

/-- A frozen top region is matched. -/
theorem MOk.frozen {s : MS} (h : MOk V s A ach) {r : Nat} (hr : V.top r) (hsl : V.sl r = 0) : Matched V s.ralt s.mate r := by
  rcases h.tops.cover r hr (fun h => h) with ⟨a, ha, hm⟩ | hm
  · rcases mem_nregs.1 hm with rfl | hi
    · have := h.nodes.grow a ha (fun h => h)
      rw [hsl] at this; exact absurd this (by decide)
    · have := (h.nodes.inner a ha r hi).2.1
      rw [hsl] at this; exact absurd this (by decide)
  · exact hm

theorem Shattered.ralt_of {s s' : MS} {l : List Nat} (h : Shattered g T L ch t X Y s s' l) (hN : Nodes V s.alt s.ralt A E) (hl : ∀ x ∈ l, x ∈ A) {b r : Nat}
    (hb : b ∈ A) (hbl : b ∉ l) (hr : r ∈ nregs s.alt b) : s'.ralt r = s.ralt r :=
  h.ralt r (fun a ha hra => hbl (hN.disj hb (hl a ha) hr hra ▸ ha))

theorem Shattered.lk {s s' : MS} {l : List Nat} (h : Shattered g T L ch t X Y s s' l) :
    (SB.view g T L ch t s'.fl).top = (SB.view g T L ch t s.fl).top ∧ (SB.view g T L ch t s'.fl).lk = (SB.view g T L ch t s.fl).lk ∧
      (SB.view g T L ch t s'.fl).blk = (SB.view g T L ch t s.fl).blk := by
  obtain ⟨sl', hv⟩ := h.view
  rw [hv]
  exact ⟨rfl, rfl, rfl⟩

theorem Cyc.shattered {s s' : MS} {l : List Nat} (hc : Cyc (view g T L ch t s.fl)) (h : Shattered g T L ch t X Y s s' l) : Cyc (view g T L ch t s'.fl) := by
  obtain ⟨sl', hv⟩ := h.view
  rw [hv]
  exact hc.reslope sl'

/-- `become_root` in terms of the invariants. -/
theorem reroot_spec (hg : Proper g) {s : MS} (hN : Nodes (view g T L ch t s.fl) s.alt s.ralt A E) (hS : Shape (view g T L ch t s.fl) s.alt A ach ∅)
    (hT : Tops (view g T L ch t s.fl) s.alt s.ralt s.mate A U) (hA : AInv A s.alts) {a : Nat} (ha : a ∈ A) :
    ∃ alt' ach', becomeRoot (s.altDepth + 1) s a = .ok { s with alt := alt' } ∧ Shape (view g T L ch t s.fl) alt' A ach' ∅ ∧
      Nodes (view g T L ch t s.fl) alt' s.ralt A E ∧ Tops (view g T L ch t s.fl) alt' s.ralt s.mate A U ∧ (alt' a).parent = none ∧
      (∀ x, (alt' x).outer = (s.alt x).outer) ∧ (∀ x ∈ A, Forest.rootOf ach x ≠ Forest.rootOf ach a → alt' x = s.alt x) ∧
      (∀ x ∈ A, Forest.rootOf ach' x = if Forest.rootOf ach x = Forest.rootOf ach a then some a else Forest.rootOf ach x) := by
  have hlen : (ach a).length ≤ s.altDepth + 1 := by
    have h1 := hS.forest.length_le ha
    have h2 : A.card ≤ s.altDepth := hA.card_le
    omega
  obtain ⟨alt', ach', e, h1, h2, h3, h4, h5, h6, h7, h8⟩ := becomeRoot_spec (view_sym hg) _ s E a hN ach hS ha hlen
  refine ⟨alt', ach', e, h1, h2, hT.nodes ?_, h3, h5, ?_, h7⟩
  · intro x hx r hr
    rcases mem_nregs.1 hr with rfl | hi
    · exact ⟨x, hx, mem_nregs.2 (.inl (h5 x).symm)⟩
    · obtain ⟨b, hb, hbi⟩ := h8 r ⟨x, hx, hi⟩
      exact ⟨b, hb, mem_nregs.2 (.inr hbi)⟩
  · intro x hx hne
    exact h4 x (fun hm => hne (hS.forest.rootOf_chain ha hm))

/-- `handle_tree_hitting_boundary` -/
theorem treeHitsBoundary_spec (hg : Proper g) {s : MS} (h : SOk g T L ch t Y s A ach) {r : Nat} {e : CompressedEdge}
    (hr : (view g T L ch t s.fl).top r) (hsl : (view g T L ch t s.fl).sl r = 1) (hblk : (view g T L ch t s.fl).blk e r) :
    ∃ s' A' ach', treeHitsBoundary g s r e = .ok s' ∧ SOk g T L ch t Y s' A' ach' ∧
      Prog (view g T L ch t s.fl) (view g T L ch t s'.fl) s.alt s'.alt A A' L L := by
  obtain ⟨a, ha, ho, hra⟩ := h.m.grower hr hsl
  obtain ⟨alt1, ach1, e1, hS1, hN1, hT1, hp1, ho1, hk1, hr1⟩ := reroot_spec hg h.m.nodes h.m.shape h.m.tops h.m.arena ha
  generalize hs1 : ({ s with alt := alt1 } : MS) = s1 at e1
  have hfl1 : s1.fl = s.fl := by rw [← hs1]
  have halt1 : s1.alt = alt1 := by rw [← hs1]
  have hralt1 : s1.ralt = s.ralt := by rw [← hs1]
  have hmate1 : s1.mate = s.mate := by rw [← hs1]
  have halts1 : s1.alts = s.alts := by rw [← hs1]
  rw [← hfl1, ← halt1] at hS1 hN1 hT1
  rw [← hralt1] at hN1 hT1
  rw [← hmate1] at hT1
  rw [← halt1] at hp1 ho1 hk1
  have hF1 := h.fl
  rw [← hfl1] at hF1
  obtain ⟨s2, l, e2, hl, h2, hr2, hA2, hS2, hN2, hT2⟩ := shatterTree_spec hg hF1 hN1 hT1 hS1 (by rw [halts1]; exact h.m.arena) ha hp1
  have hl' : ∀ x ∈ l, x ∈ A := fun x hx => ((hl x).1 hx).1
  have hra1 : r ∈ nregs s1.alt a := mem_nregs.2 (.inl (by rw [ho1, ho]))
  have hal : a ∈ l := (hl a).2 ⟨ha, by rw [hr1 a ha, if_pos rfl]⟩
  obtain ⟨q1, q2, q3⟩ := hr2 r hra1
  obtain ⟨v1, v2, v3⟩ := h2.lk
  obtain ⟨f3, e3, hF3, hg3, hv3⟩ := h2.fl.freeze hg (r := r) (by rw [v1, hfl1]; exact hr)
  have hnotr : ∀ b ∈ A \ l.toFinset, r ∉ nregs s2.alt b := by
    intro b hb hrb
    obtain ⟨hbA, hbl⟩ := Finset.mem_sdiff.1 hb
    rw [List.mem_toFinset] at hbl
    unfold nregs at hrb
    rw [h2.alt b hbl] at hrb
    exact hbl (hN1.disj ha hbA hra1 hrb ▸ hal)
  refine ⟨{ s2.setMate r ⟨none, e⟩ with fl := f3 }, A \ l.toFinset, ach1, ?_, ?_, ?_⟩
  · unfold treeHitsBoundary
    rw [hra]
    simp only [deref, Res.bind, e1, e2]
    unfold MS.onFl
    show (setFrozen g s2.fl r).bind _ = _
    rw [e3]
    rfl
  · have hcy : Cyc (view g T L ch t f3) := by
      have h4 : Cyc (view g T L ch t s1.fl) := by rw [hfl1]; exact h.cyc
      have := h4.shattered h2
      rw [hv3]; exact this.reslope _
    refine ⟨hF3, ?_, hcy, ?_⟩
    · show AInv L f3.regs
      rw [hg3, h2.regs, hfl1]; exact h.regs
    · have hsl3 : ∀ x, x ≠ r → Function.update (sl s2.fl) r 0 x = sl s2.fl x := fun x hx => Function.update_of_ne hx _ _
      show MOk (view g T L ch t f3) _ _ _
      rw [hv3]
      refine ⟨⟨?_, ?_, ?_, ?_, hA2⟩, ?_⟩
      · refine hN2.slopes (fun b hb x hx => hsl3 x ?_)
        rintro rfl
        exact hnotr b hb hx
      · exact hS2.view (fun _ _ _ h => h)
      · have hmx : ∀ x, x ≠ r → (s2.setMate r ⟨none, e⟩).mate x = s2.mate x := fun x hx => by simp [MS.setMate, hx]
        have hmr : (s2.setMate r ⟨none, e⟩).mate r = ⟨none, e⟩ := by simp [MS.setMate]
        refine hT2.close ?_ ?_
        · intro x hx
          have hxr : x ≠ r := by
            rintro rfl
            have h5 : sl s2.fl x = 0 := hx
            rw [q2, hfl1] at h5
            rw [show sl s.fl x = 1 from hsl] at h5
            exact absurd h5 (by decide)
          exact ⟨(hsl3 x hxr).trans hx, hmx x hxr⟩
        · rintro x hx (hf | rfl)
          · exact hf.elim
          · rw [ho1, ho]
            refine ⟨by show Function.update (sl s2.fl) r 0 r = 0; rw [Function.update_self], q1, .inl ?_⟩
            show ((s2.setMate r ⟨none, e⟩).mate r).region = none ∧ (view g T L ch t s2.fl).blk ((s2.setMate r ⟨none, e⟩).mate r).edge r
            rw [hmr, v3, hfl1]
            exact ⟨rfl, hblk⟩
      · intro b hb i hi
        obtain ⟨hbA, hbl⟩ := Finset.mem_sdiff.1 hb
        rw [List.mem_toFinset] at hbl
        have hi' : (s2.alt b).inner = some i := hi
        rw [h2.alt b hbl] at hi'
        show s2.ralt i = some b
        rw [h2.ralt_of hN1 hl' hbA hbl (mem_nregs.2 (.inr hi')), hralt1]
        have hroot : Forest.rootOf ach b ≠ Forest.rootOf ach a := fun e => hbl ((hl b).2 ⟨hbA, by rw [hr1 b hbA, if_pos e]⟩)
        rw [hk1 b hbA hroot] at hi'
        exact h.m.ptr b hbA i hi'
      · intro b hb
        obtain ⟨hbA, hbl⟩ := Finset.mem_sdiff.1 hb
        rw [List.mem_toFinset] at hbl
        show (s2.alt b).visited = false
        have hroot : Forest.rootOf ach b ≠ Forest.rootOf ach a := fun e => hbl ((hl b).2 ⟨hbA, by rw [hr1 b hbA, if_pos e]⟩)
        rw [h2.alt b hbl, hk1 b hbA hroot]
        exact h.m.clean b hbA
  · obtain ⟨x, hxA, hxi, hxr⟩ := h.m.shape.treeRoot ha
    refine Prog.ofRoot hxA hxi ?_ ?_
    · rw [Finset.mem_sdiff, List.mem_toFinset]
      exact fun hm => hm.2 ((hl x).2 ⟨hxA, by rw [hr1 x hxA, if_pos hxr]⟩)
    · intro b hb
      obtain ⟨hbA, hbl⟩ := Finset.mem_sdiff.1 hb
      rw [List.mem_toFinset] at hbl
      have hroot : Forest.rootOf ach b ≠ Forest.rootOf ach a := fun e => hbl ((hl b).2 ⟨hbA, by rw [hr1 b hbA, if_pos e]⟩)
      refine ⟨hbA, ?_⟩
      show (s2.alt b).inner = _
      rw [h2.alt b hbl, hk1 b hbA hroot]

/-- `handle_tree_hitting_other_tree` -/
theorem treeHitsTree_spec (hg : Proper g) {s : MS} (hF : FOk g T L ch t (fun _ => False) Y s.fl) (hregs : AInv L s.fl.regs) (hcyc : Cyc (view g T L ch t s.fl))
    (h : MPre (view g T L ch t s.fl) s A ach) {a1 a2 : Nat} {e : CompressedEdge} (ha1 : a1 ∈ A) (ha2 : a2 ∈ A)
    (hroots : Forest.rootOf ach a1 ≠ Forest.rootOf ach a2)
    (hclean : ∀ x ∈ A, Forest.rootOf ach x ≠ Forest.rootOf ach a1 → Forest.rootOf ach x ≠ Forest.rootOf ach a2 → (s.alt x).visited = false)
    (hlk : (view g T L ch t s.fl).lk e (s.alt a1).outer (s.alt a2).outer) :
    ∃ s' A' ach', treeHitsTree g s (s.alt a1).outer (s.alt a2).outer e = .ok s' ∧ SOk g T L ch t Y s' A' ach' ∧
      Prog (view g T L ch t s.fl) (view g T L ch t s'.fl) s.alt s'.alt A A' L L := by
  obtain ⟨hr1T, hra1⟩ := h.nodes.outer a1 ha1
  obtain ⟨hr2T, hra2⟩ := h.nodes.outer a2 ha2
  have hsl1 := h.nodes.grow a1 ha1 (fun h => h)
  have hsl2 := h.nodes.grow a2 ha2 (fun h => h)
  have ha12 : a1 ≠ a2 := by rintro rfl; exact hroots rfl
  have hr12 : (s.alt a1).outer ≠ (s.alt a2).outer := fun e => ha12 (h.nodes.outer_inj ha1 ha2 e)
  generalize hr1 : (s.alt a1).outer = r1 at *
  generalize hr2 : (s.alt a2).outer = r2 at *
  -- both become roots
  obtain ⟨alt1, ach1, e1, hS1, hN1, hT1, hp1, ho1, hk1, hrt1⟩ := reroot_spec hg h.nodes h.shape h.tops h.arena ha1
  generalize hs1 : ({ s with alt := alt1 } : MS) = s1 at e1
  have hfl1 : s1.fl = s.fl := by rw [← hs1]
  have halt1 : s1.alt = alt1 := by rw [← hs1]
  have hralt1 : s1.ralt = s.ralt := by rw [← hs1]
  have hmate1 : s1.mate = s.mate := by rw [← hs1]
  have halts1 : s1.alts = s.alts := by rw [← hs1]
  rw [← hfl1, ← halt1] at hS1 hN1 hT1
  rw [← hralt1] at hN1 hT1
  rw [← hmate1] at hT1
  rw [← halt1] at hp1 ho1 hk1
  obtain ⟨alt2, ach2, e2, hS2, hN2, hT2, hp2, ho2, hk2, hrt2⟩ := reroot_spec hg hN1 hS1 hT1 (by rw [halts1]; exact h.arena) ha2
  have hrt12 : Forest.rootOf ach1 a2 = Forest.rootOf ach a2 := by rw [hrt1 a2 ha2, if_neg (Ne.symm hroots)]
  have hrt11 : Forest.rootOf ach1 a1 = some a1 := by rw [hrt1 a1 ha1, if_pos rfl]
  have hroots1 : Forest.rootOf ach1 a1 ≠ Forest.rootOf ach1 a2 := by
    rw [hrt11, hrt12]
    intro e3
    have h4 := (h.shape.forest.rootOf_iff ha2).1 e3.symm
    exact hroots (h.shape.forest.rootOf_chain ha2 h4.1)
  generalize hs2 : ({ s1 with alt := alt2 } : MS) = s2 at e2
  have hfl2 : s2.fl = s1.fl := by rw [← hs2]
  have halt2 : s2.alt = alt2 := by rw [← hs2]
  have hralt2 : s2.ralt = s1.ralt := by rw [← hs2]
  have hmate2 : s2.mate = s1.mate := by rw [← hs2]
  have halts2 : s2.alts = s1.alts := by rw [← hs2]
  rw [← hfl2, ← halt2] at hS2 hN2 hT2
  rw [← hralt2] at hN2 hT2
  rw [← hmate2] at hT2
  rw [← halt2] at hp2 ho2 hk2
  have hF2 := hF
  rw [← hfl1, ← hfl2] at hF2
  have hp21 : (s2.alt a1).parent = none := by rw [hk2 a1 ha1 hroots1]; exact hp1
  have hout2 : ∀ x, (s2.alt x).outer = (s.alt x).outer := fun x => by rw [ho2, ho1]
  have hrt21 : Forest.rootOf ach2 a1 = some a1 := by rw [hrt2 a1 ha1, if_neg hroots1, hrt11]
  have hrt22 : Forest.rootOf ach2 a2 = some a2 := by rw [hrt2 a2 ha2, if_pos rfl]
  -- both are shattered
  obtain ⟨s3, l3, e3, hl3, h3, hr3, hA3, hS3, hN3, hT3⟩ := shatterTree_spec hg hF2 hN2 hT2 hS2 (by rw [halts2, halts1]; exact h.arena) ha1 hp21
  have ha2l3 : a2 ∉ l3 := fun hm => by
    have := ((hl3 a2).1 hm).2
    rw [hrt22, Option.some.injEq] at this
    exact ha12 this.symm
  have ha2A3 : a2 ∈ A \ l3.toFinset := Finset.mem_sdiff.2 ⟨ha2, by rw [List.mem_toFinset]; exact ha2l3⟩
  have halt32 : s3.alt a2 = s2.alt a2 := h3.alt a2 ha2l3
  obtain ⟨s4, l4, e4, hl4, h4, hr4, hA4, hS4, hN4, hT4⟩ := shatterTree_spec hg h3.fl hN3 hT3 hS3 hA3 ha2A3 (by rw [halt32]; exact hp2)
  generalize hA4e : (A \ l3.toFinset) \ l4.toFinset = A4 at *
  have hmem4 : ∀ b ∈ A4, b ∈ A ∧ b ∉ l3 ∧ b ∉ l4 := by
    intro b hb
    rw [← hA4e] at hb
    simpa [and_assoc] using hb
  have hmem3 : ∀ b ∈ A4, b ∈ A \ l3.toFinset := fun b hb => by
    rw [Finset.mem_sdiff, List.mem_toFinset]; exact ⟨(hmem4 b hb).1, (hmem4 b hb).2.1⟩
  have hl3' : ∀ x ∈ l3, x ∈ A := fun x hx => ((hl3 x).1 hx).1
  have hl4' : ∀ x ∈ l4, x ∈ A \ l3.toFinset := fun x hx => ((hl4 x).1 hx).1
  have ha1l3 : a1 ∈ l3 := (hl3 a1).2 ⟨ha1, hrt21⟩
  have ha2l4 : a2 ∈ l4 := (hl4 a2).2 ⟨ha2A3, hrt22⟩
  have halt4 : ∀ b ∈ A4, s4.alt b = s2.alt b := fun b hb => by rw [h4.alt b (hmem4 b hb).2.2, h3.alt b (hmem4 b hb).2.1]
  have hroot4 : ∀ b ∈ A4, Forest.rootOf ach b ≠ Forest.rootOf ach a1 ∧ Forest.rootOf ach b ≠ Forest.rootOf ach a2 := by
    intro b hb
    obtain ⟨hbA, hb3, hb4⟩ := hmem4 b hb
    have hq1 : Forest.rootOf ach b ≠ Forest.rootOf ach a1 := by
      intro e5
      have h6 : Forest.rootOf ach1 b = some a1 := by rw [hrt1 b hbA, if_pos e5]
      have h7 : Forest.rootOf ach2 b = some a1 := by rw [hrt2 b hbA, if_neg (by rw [h6, ← hrt11]; exact hroots1), h6]
      exact hb3 ((hl3 b).2 ⟨hbA, h7⟩)
    refine ⟨hq1, fun e5 => ?_⟩
    have h6 : Forest.rootOf ach1 b = Forest.rootOf ach1 a2 := by rw [hrt1 b hbA, if_neg hq1, hrt12, e5]
    have h7 : Forest.rootOf ach2 b = some a2 := by rw [hrt2 b hbA, if_pos h6]
    exact hb4 ((hl4 b).2 ⟨hmem3 b hb, h7⟩)
  have halt4s : ∀ b ∈ A4, s4.alt b = s.alt b := by
    intro b hb
    obtain ⟨hbA, hb3, hb4⟩ := hmem4 b hb
    obtain ⟨q1, q2⟩ := hroot4 b hb
    rw [halt4 b hb, hk2 b hbA (by rw [hrt12, hrt1 b hbA, if_neg q1]; exact q2), hk1 b hbA q1]
  -- regions r1 and r2
  have hr1n : r1 ∈ nregs s2.alt a1 := mem_nregs.2 (.inl (by rw [hout2, hr1]))
  have hr2n : r2 ∈ nregs s2.alt a2 := mem_nregs.2 (.inl (by rw [hout2, hr2]))
  have hr2n3 : r2 ∈ nregs s3.alt a2 := by unfold nregs; rw [halt32]; exact hr2n
  obtain ⟨x1, x2, x3⟩ := hr3 r1 hr1n
  obtain ⟨y1, y2, y3⟩ := hr4 r2 hr2n3
  have hr1no : ∀ b ∈ A \ l3.toFinset, r1 ∉ nregs s3.alt b := by
    intro b hb hrb
    obtain ⟨hbA, hbl⟩ := Finset.mem_sdiff.1 hb
    rw [List.mem_toFinset] at hbl
    unfold nregs at hrb
    rw [h3.alt b hbl] at hrb
    exact hbl (hN2.disj ha1 hbA hr1n hrb ▸ ha1l3)
  have z1 : s4.ralt r1 = none := by rw [h4.ralt r1 (fun b hb => hr1no b (hl4' b hb)), x1]
  obtain ⟨z2, z3⟩ := h4.keep r1 (fun b hb _ => hr1no b (hl4' b hb))
  have hr2sl3 : sl s3.fl r2 = 1 := by
    rw [(h3.keep r2 (fun b hb _ hrb => ha2l3 (hN2.disj ha2 (hl3' b hb) hr2n hrb ▸ hb))).1, hfl2, hfl1]; exact hsl2
  have hsl41 : sl s4.fl r1 = 1 := by rw [z2, x2, hfl2, hfl1]; exact hsl1
  have hsl42 : sl s4.fl r2 = 1 := by rw [y2, hr2sl3]
  have hno4 : ∀ b ∈ A4, r1 ∉ nregs s4.alt b ∧ r2 ∉ nregs s4.alt b := by
    intro b hb
    obtain ⟨hbA, hb3, hb4⟩ := hmem4 b hb
    unfold nregs
    rw [halt4 b hb]
    exact ⟨fun hrb => hb3 (hN2.disj ha1 hbA hr1n hrb ▸ ha1l3), fun hrb => hb4 (hN2.disj ha2 hbA hr2n hrb ▸ ha2l4)⟩
  obtain ⟨v1, v2, v3⟩ := h3.lk
  obtain ⟨u1, u2, u3⟩ := h4.lk
  obtain ⟨f5, e5, hF5, hg5, hv5⟩ := h4.fl.freeze hg (r := r1) (by rw [u1, v1, hfl2, hfl1]; exact hr1T)
  obtain ⟨f6, e6, hF6, hg6, hv6⟩ := hF5.freeze hg (r := r2) (by rw [hv5]; show (view g T L ch t s4.fl).top r2; rw [u1, v1, hfl2, hfl1]; exact hr2T)
  have hsl5 : sl f5 = Function.update (sl s4.fl) r1 0 := congrArg View.sl hv5
  rw [hv5, hsl5] at hv6
  refine ⟨{ addMatch s4 r1 r2 e with fl := f6 }, A4, ach2, ?_, ?_, ?_⟩
  · unfold treeHitsTree
    rw [hra1, hra2]
    show (becomeRoot (s.altDepth + 1) s a1).bind _ = _
    rw [e1]
    show (becomeRoot (s1.altDepth + 1) s1 a2).bind _ = _
    rw [e2]
    show (shatterTree g s2 a1).bind _ = _
    rw [e3]
    show (shatterTree g s3 a2).bind _ = _
    rw [e4]
    show ((setFrozen g s4.fl r1).bind _).bind _ = _
    rw [e5]
    show (setFrozen g f5 r2).bind _ = _
    rw [e6]
    rfl
  · have hcy : Cyc (view g T L ch t f6) := by
      have h7 : Cyc (view g T L ch t s2.fl) := by rw [hfl2, hfl1]; exact hcyc
      have := (h7.shattered h3).shattered h4
      rw [hv6]; exact this.reslope _
    refine ⟨hF6, ?_, hcy, ?_⟩
    · show AInv L f6.regs
      rw [hg6, hg5, h4.regs, h3.regs, hfl2, hfl1]; exact hregs
    · generalize hsl' : Function.update (Function.update (sl s4.fl) r1 0) r2 0 = sl' at hv6
      have hslx : ∀ x, x ≠ r1 → x ≠ r2 → sl' x = sl s4.fl x := fun x q1 q2 => by rw [← hsl', Function.update_of_ne q2, Function.update_of_ne q1]
      have hslr1 : sl' r1 = 0 := by rw [← hsl', Function.update_of_ne hr12, Function.update_self]
      have hslr2 : sl' r2 = 0 := by rw [← hsl', Function.update_self]
      show MOk (view g T L ch t f6) _ _ _
      rw [hv6]
      have hm1 : (addMatch s4 r1 r2 e).mate r1 = ⟨some r2, e⟩ := by simp [addMatch, MS.setMate, hr12]
      have hm2 : (addMatch s4 r1 r2 e).mate r2 = ⟨some r1, e.reversed⟩ := by simp [addMatch, MS.setMate]
      have hlk4 : (view g T L ch t s4.fl).lk e r1 r2 := by rw [u2, v2, hfl2, hfl1]; exact hlk
      have hT1' : (view g T L ch t s4.fl).top r1 := by rw [u1, v1, hfl2, hfl1]; exact hr1T
      have hT2' : (view g T L ch t s4.fl).top r2 := by rw [u1, v1, hfl2, hfl1]; exact hr2T
      refine ⟨⟨?_, ?_, ?_, ?_, hA4⟩, ?_⟩
      · refine hN4.slopes (fun b hb x hx => hslx x ?_ ?_)
        · rintro rfl; exact (hno4 b hb).1 hx
        · rintro rfl; exact (hno4 b hb).2 hx
      · exact hS4.view (fun _ _ _ h => h)
      · refine hT4.close ?_ ?_
        · intro x hx
          have hx0 : sl s4.fl x = 0 := hx
          have q1 : x ≠ r1 := by rintro rfl; rw [hsl41] at hx0; exact absurd hx0 (by decide)
          have q2 : x ≠ r2 := by rintro rfl; rw [hsl42] at hx0; exact absurd hx0 (by decide)
          exact ⟨(hslx x q1 q2).trans hx0, by simp [addMatch, MS.setMate, q1, q2]⟩
        · have M1 : Matched { view g T L ch t s4.fl with sl := sl' } s4.ralt (addMatch s4 r1 r2 e).mate r1 :=
            ⟨hslr1, z1, .inr ⟨r2, by rw [hm1], Ne.symm hr12, hT2', hslr2, y1, by rw [hm2, hm1], by rw [hm1]; exact hlk4⟩⟩
          have M2 : Matched { view g T L ch t s4.fl with sl := sl' } s4.ralt (addMatch s4 r1 r2 e).mate r2 :=
            ⟨hslr2, y1, .inr ⟨r1, by rw [hm2], hr12, hT1', hslr1, z1, by rw [hm2, hm1]; rfl, by rw [hm2]; exact view_sym hg _ _ _ hlk4⟩⟩
          rintro x hx ((hf | hx1) | hx2)
          · exact hf.elim
          · rw [hout2, hr1] at hx1; subst hx1; exact M1
          · rw [halt32, hout2, hr2] at hx2; subst hx2; exact M2
      · intro b hb i hi
        obtain ⟨hbA, hb3, hb4⟩ := hmem4 b hb
        have hi' : (s4.alt b).inner = some i := hi
        have hi2 := hi'
        rw [halt4 b hb] at hi2
        show s4.ralt i = some b
        rw [h4.ralt_of hN3 hl4' (hmem3 b hb) hb4 (mem_nregs.2 (.inr (by rw [h3.alt b hb3]; exact hi2))),
          h3.ralt_of hN2 hl3' hbA hb3 (mem_nregs.2 (.inr hi2)), hralt2, hralt1]
        rw [halt4s b hb] at hi'
        exact h.ptr b hbA i hi'
      · intro b hb
        show (s4.alt b).visited = false
        rw [halt4s b hb]
        exact hclean b (hmem4 b hb).1 (hroot4 b hb).1 (hroot4 b hb).2
  · obtain ⟨x, hxA, hxi, hxr⟩ := h.shape.treeRoot ha1
    refine Prog.ofRoot hxA hxi (fun hx => (hroot4 x hx).1 hxr) (fun b hb => ⟨(hmem4 b hb).1, ?_⟩)
    show (s4.alt b).inner = _
    rw [halt4s b hb]

end Verif.SB
