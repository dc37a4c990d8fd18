import Verif.Blossom.Tree

/-!
# Matched regions, and shattering of alternating trees
-/

namespace Verif.SB

open Verif Verif.Graph Verif.CE Verif.Mem Verif.Spec
open Verif.Sch (Res)

/-- Region `r` is matched to the boundary or to another region, through a tight edge, and frozen. -/
structure Matched (V : View) (ralt : Nat → Option Nat) (mate : Nat → Mate) (r : Nat) : Prop where
  still : V.sl r = 0
  free : ralt r = none
  mate : ((mate r).region = none ∧ V.blk (mate r).edge r) ∨
    ∃ m, (mate r).region = some m ∧ m ≠ r ∧ V.top m ∧ V.sl m = 0 ∧ ralt m = none ∧ mate m = ⟨some r, (mate r).edge.reversed⟩ ∧ V.lk (mate r).edge r m

/-- Every top region outside of `U` belongs to a node in `A` or is matched. -/
structure Tops (V : View) (alt : Nat → ANode) (ralt : Nat → Option Nat) (mate : Nat → Mate) (A : Finset Nat) (U : Nat → Prop) : Prop where
  cover : ∀ r, V.top r → ¬ U r → (∃ a ∈ A, r ∈ nregs alt a) ∨ Matched V ralt mate r
  inside : ∀ r, V.live r → ¬ V.top r → ralt r = none

variable {V V' : View} {alt alt' : Nat → ANode} {A A' : Finset Nat} {ach : Nat → List Nat} {E U U' : Nat → Prop} {ralt ralt' : Nat → Option Nat}
  {mate mate' : Nat → Mate}

theorem Matched.partner (hV : V.Sym) {r m : Nat} (h : Matched V ralt mate r) (hr : V.top r) (hm : (mate r).region = some m) :
    V.top m ∧ m ≠ r ∧ (mate m).region = some r ∧ (mate m).edge = (mate r).edge.reversed ∧ V.lk (mate r).edge r m ∧ Matched V ralt mate m := by
  rcases h.mate with ⟨h1, -⟩ | ⟨m', h1, h2, h3, h4, h5, h6, h7⟩
  · rw [h1] at hm; cases hm
  · rw [h1, Option.some.injEq] at hm
    subst hm
    have h8 : (mate m').region = some r := by rw [h6]
    have h9 : (mate m').edge = (mate r).edge.reversed := by rw [h6]
    refine ⟨h3, h2, h8, h9, h7, h4, h5, .inr ⟨r, h8, Ne.symm h2, hr, h.still, h.free, ?_, ?_⟩⟩
    · rw [h9, reversed_reversed, ← h1]
    · rw [h9]; exact hV _ _ _ h7

/-- A matched region stays matched if it and its partner do not change. -/
theorem Matched.frame {r : Nat} (h : Matched V ralt mate r)
    (hx : ∀ x, x = r ∨ ((mate r).region = some x ∧ V.sl x = 0 ∧ ralt x = none ∧ (mate x).region = some r) →
      V'.sl x = V.sl x ∧ ralt' x = ralt x ∧ mate' x = mate x ∧ (V.top x → V'.top x))
    (hlk : ∀ e m, V.lk e r m → V'.lk e r m) (hblk : ∀ e, V.blk e r → V'.blk e r) : Matched V' ralt' mate' r := by
  obtain ⟨k1, k2, k3, -⟩ := hx r (.inl rfl)
  refine ⟨k1.trans h.still, k2.trans h.free, ?_⟩
  rw [k3]
  rcases h.mate with ⟨h1, h2⟩ | ⟨m, h1, h2, h3, h4, h5, h6, h7⟩
  · exact .inl ⟨h1, hblk _ h2⟩
  · obtain ⟨l1, l2, l3, l4⟩ := hx m (.inr ⟨h1, h4, h5, by rw [h6]⟩)
    exact .inr ⟨m, h1, h2, l4 h3, l1.trans h4, l2.trans h5, l3.trans h6, hlk _ _ h7⟩

theorem mem_nregs {alt : Nat → ANode} {a r : Nat} : r ∈ nregs alt a ↔ r = (alt a).outer ∨ (alt a).inner = some r := by
  unfold nregs
  simp [Option.mem_toList]

/-- Regions of nodes are not matched. -/
theorem Nodes.not_free (h : Nodes V alt ralt A E) {a r : Nat} (ha : a ∈ A) (hr : r ∈ nregs alt a) : ¬ (V.sl r = 0 ∧ ralt r = none) := by
  rintro ⟨h1, h2⟩
  rcases mem_nregs.1 hr with rfl | hi
  · rw [(h.outer a ha).2] at h2; cases h2
  · rw [(h.inner a ha r hi).2.1] at h1; exact absurd h1 (by decide)

/-- Different nodes have different regions. -/
theorem Nodes.disj (h : Nodes V alt ralt A E) {a b r : Nat} (ha : a ∈ A) (hb : b ∈ A) (hra : r ∈ nregs alt a) (hrb : r ∈ nregs alt b) : a = b := by
  rcases mem_nregs.1 hra with h1 | h1 <;> rcases mem_nregs.1 hrb with h2 | h2
  · exact h.outer_inj ha hb (h1 ▸ h2)
  · exact absurd h1 (h.inner_outer hb ha h2)
  · exact absurd h2 (h.inner_outer ha hb h1)
  · exact h.inj a ha b hb r h1 h2

/-! ## Shattering one node -/

variable {g : MGraph} {T L : Finset Nat} {ch : Nat → List Nat} {t : Int} {X Y : Nat → Prop}

/-- What shattering of the nodes `l` did. -/
structure Shattered (g : MGraph) (T L : Finset Nat) (ch : Nat → List Nat) (t : Int) (X Y : Nat → Prop) (s s' : MS) (l : List Nat) : Prop where
  fl : FOk g T L ch t X Y s'.fl
  regs : s'.fl.regs = s.fl.regs
  view : ∃ sl', view g T L ch t s'.fl = { view g T L ch t s.fl with sl := sl' }
  alts : s'.alts = l.foldl Arena.del s.alts
  alt : ∀ x, x ∉ l → s'.alt x = s.alt x
  ralt : ∀ r, (∀ a ∈ l, r ∉ nregs s.alt a) → s'.ralt r = s.ralt r
  gone : ∀ a ∈ l, ∀ r ∈ nregs s.alt a, s'.ralt r = none
  keep : ∀ r, (∀ a ∈ l, (s.alt a).inner ≠ none → r ∉ nregs s.alt a) → sl s'.fl r = sl s.fl r ∧ s'.mate r = s.mate r

theorem shatterNode_spec (hg : Proper g) {s : MS} (hF : FOk g T L ch t X Y s.fl) (hN : Nodes (view g T L ch t s.fl) s.alt s.ralt A E)
    (hT : Tops (view g T L ch t s.fl) s.alt s.ralt s.mate A U) {a : Nat} (ha : a ∈ A) :
    ∃ s', shatterNode g s a = .ok s' ∧ Shattered g T L ch t X Y s s' [a] ∧
      Nodes (view g T L ch t s'.fl) s'.alt s'.ralt (A.erase a) E ∧
      Tops (view g T L ch t s'.fl) s'.alt s'.ralt s'.mate (A.erase a) (fun r => U r ∨ ((s.alt a).inner = none ∧ r = (s.alt a).outer)) := by
  have hO := hN.outer a ha
  cases hi : (s.alt a).inner with
  | none =>
    refine ⟨dropNode s a (s.alt a).outer, by unfold shatterNode; simp only [hi], ?_, ?_, ?_⟩
    · refine ⟨hF, rfl, ⟨_, rfl⟩, rfl, fun x _ => rfl, ?_, ?_, fun r _ => ⟨rfl, rfl⟩⟩
      · intro r hr
        have : r ≠ (s.alt a).outer := fun e => hr a (by simp) (mem_nregs.2 (.inl e))
        simp [dropNode, MS.setRalt, this]
      · intro b hb r hr
        rw [List.mem_singleton] at hb
        subst hb
        rcases mem_nregs.1 hr with rfl | h
        · simp [dropNode, MS.setRalt]
        · rw [hi] at h; cases h
    · refine hN.sub (Finset.erase_subset _ _) ?_
      intro b hb
      obtain ⟨hba, hbA⟩ := Finset.mem_erase.1 hb
      have : (s.alt b).outer ≠ (s.alt a).outer := fun e => hba (hN.outer_inj hbA ha e)
      simp [dropNode, MS.setRalt, this]
    · constructor
      · intro r hr hUr
        have hro : r ≠ (s.alt a).outer := fun e => hUr (.inr ⟨rfl, e⟩)
        rcases hT.cover r hr (fun e => hUr (.inl e)) with ⟨b, hb, hm⟩ | hm
        · refine .inl ⟨b, Finset.mem_erase.2 ⟨?_, hb⟩, hm⟩
          rintro rfl
          rcases mem_nregs.1 hm with h | h
          · exact hro h
          · rw [hi] at h; cases h
        · refine .inr (hm.frame ?_ (fun _ _ h => h) (fun _ h => h))
          intro x hx
          refine ⟨rfl, ?_, rfl, fun h => h⟩
          have hxo : x ≠ (s.alt a).outer := by
            rintro rfl
            rcases hx with h | ⟨-, -, h, -⟩
            · exact hro h.symm
            · rw [hO.2] at h; cases h
          simp [dropNode, MS.setRalt, hxo]
      · intro r hr hnt
        have := hT.inside r hr hnt
        unfold dropNode MS.setRalt
        by_cases hro : r = (s.alt a).outer
        · subst hro; simp
        · simp [hro, this]
  | some i =>
    obtain ⟨hiT, hisl, hilk⟩ := hN.inner a ha i hi
    have hio : i ≠ (s.alt a).outer := hN.inner_outer ha ha hi
    obtain ⟨f1, e1, hF1, hr1, hv1⟩ := hF.freeze hg hiT
    have hoT1 : (view g T L ch t f1).top (s.alt a).outer := by rw [hv1]; exact hO.1
    obtain ⟨f2, e2, hF2, hr2, hv2⟩ := hF1.freeze hg hoT1
    have hsl1 : sl f1 = Function.update (sl s.fl) i 0 := congrArg View.sl hv1
    rw [hv1, hsl1] at hv2
    have hsl2 : sl f2 = Function.update (Function.update (sl s.fl) i 0) (s.alt a).outer 0 := congrArg View.sl hv2
    have hslx : ∀ x, x ≠ i → x ≠ (s.alt a).outer → sl f2 x = sl s.fl x := by
      intro x h1 h2; rw [hsl2, Function.update_of_ne h2, Function.update_of_ne h1]
    have hsli : sl f2 i = 0 := by rw [hsl2, Function.update_of_ne hio, Function.update_self]
    have hslo : sl f2 (s.alt a).outer = 0 := by rw [hsl2, Function.update_self]
    generalize hres : (dropNode ((({ (addMatch (s.setAlt a fun A => { A with parent := none }) i (s.alt a).outer (s.alt a).i2o) with fl := f2 }).setRalt i none).setRalt
      (s.alt a).outer none) a (s.alt a).outer) = s'
    have hfl' : s'.fl = f2 := by rw [← hres]; rfl
    have halts : s'.alts = s.alts.del a := by rw [← hres]; rfl
    have halt : ∀ x, x ≠ a → s'.alt x = s.alt x := by
      intro x hx; rw [← hres]; simp [dropNode, MS.setRalt, addMatch, MS.setMate, MS.setAlt, hx]
    have hralt : ∀ x, s'.ralt x = if x ∈ nregs s.alt a then none else s.ralt x := by
      intro x
      rw [← hres]
      simp only [mem_nregs, hi, Option.some.injEq]
      by_cases hxo : x = (s.alt a).outer
      · subst hxo; simp [dropNode, MS.setRalt]
      · by_cases hxi : x = i
        · subst hxi; simp [dropNode, MS.setRalt, hxo]
        · simp [dropNode, MS.setRalt, addMatch, MS.setMate, MS.setAlt, hxo, hxi, Ne.symm hxi]
    have hmi : s'.mate i = ⟨some (s.alt a).outer, (s.alt a).i2o⟩ := by
      rw [← hres]; simp [dropNode, MS.setRalt, addMatch, MS.setMate, MS.setAlt, hio]
    have hmo : s'.mate (s.alt a).outer = ⟨some i, (s.alt a).i2o.reversed⟩ := by
      rw [← hres]; simp [dropNode, MS.setRalt, addMatch, MS.setMate, MS.setAlt]
    have hmx : ∀ x, x ∉ nregs s.alt a → s'.mate x = s.mate x := by
      intro x hx
      rw [mem_nregs, hi, Option.some.injEq] at hx
      rw [← hres]
      have h1 : x ≠ (s.alt a).outer := fun e => hx (.inl e)
      have h2 : x ≠ i := fun e => hx (.inr e.symm)
      simp [dropNode, MS.setRalt, addMatch, MS.setMate, MS.setAlt, h1, h2]
    have hslN : ∀ x, x ∉ nregs s.alt a → sl f2 x = sl s.fl x := by
      intro x hx
      rw [mem_nregs, hi, Option.some.injEq] at hx
      exact hslx x (fun e => hx (.inr e.symm)) (fun e => hx (.inl e))
    have hon : ∀ b ∈ A.erase a, ∀ r ∈ nregs s.alt b, r ∉ nregs s.alt a := by
      intro b hb r hr hra
      obtain ⟨hba, hbA⟩ := Finset.mem_erase.1 hb
      exact hba (hN.disj hbA ha hr hra)
    refine ⟨s', ?_, ?_, ?_, ?_⟩
    · unfold shatterNode MS.onFl
      simp only [hi]
      show ((setFrozen g s.fl i).bind _).bind _ = _
      rw [e1]
      show ((setFrozen g f1 (s.alt a).outer).bind _).bind _ = _
      rw [e2, ← hres]
      simp [Res.bind, addMatch, MS.setMate, MS.setAlt, MS.setRalt]
    · refine ⟨by rw [hfl']; exact hF2, by rw [hfl', hr2, hr1], ⟨_, by rw [hfl']; exact hv2⟩, halts, fun x hx => halt x (by simpa using hx), ?_, ?_, ?_⟩
      · intro r hr; rw [hralt, if_neg (hr a (by simp))]
      · intro b hb r hr
        rw [List.mem_singleton] at hb
        subst hb
        rw [hralt, if_pos hr]
      · intro r hr
        have := hr a (by simp) (by rw [hi]; simp)
        rw [hfl']
        exact ⟨hslN r this, hmx r this⟩
    · rw [hfl', hv2]
      have hsub : Nodes (view g T L ch t s.fl) s.alt s.ralt (A.erase a) E := hN.sub (Finset.erase_subset _ _) (fun _ _ => rfl)
      refine hsub.congr (fun b hb => by rw [halt b (Finset.mem_erase.1 hb).1]) (fun b hb => by rw [halt b (Finset.mem_erase.1 hb).1])
        (fun b hb => by rw [halt b (Finset.mem_erase.1 hb).1]) ?_ (fun e r r' h => h) ?_ (fun _ _ h => h)
      · intro b hb r hr ht
        refine ⟨ht, ?_⟩
        have := hslN r (hon b hb r hr)
        rw [hsl2] at this
        exact this
      · intro b hb
        rw [hralt, if_neg (hon b hb _ (mem_nregs.2 (.inl rfl)))]
    · rw [hfl', hv2, ← hsl2]
      constructor
      · intro r hr hUr
        by_cases hra : r ∈ nregs s.alt a
        · right
          rcases mem_nregs.1 hra with rfl | hri
          · refine ⟨hslo, by rw [hralt, if_pos hra], .inr ⟨i, by rw [hmo], hio, hiT, hsli, by rw [hralt, if_pos (mem_nregs.2 (.inr hi))], ?_, ?_⟩⟩
            · rw [hmi, hmo]; rfl
            · rw [hmo]; exact view_sym hg _ _ _ hilk
          · rw [hi, Option.some.injEq] at hri
            subst hri
            refine ⟨hsli, by rw [hralt, if_pos hra], .inr ⟨(s.alt a).outer, by rw [hmi], Ne.symm hio, hO.1, hslo,
              by rw [hralt, if_pos (mem_nregs.2 (.inl rfl))], ?_, ?_⟩⟩
            · rw [hmi, hmo]
            · rw [hmi]; exact hilk
        · rcases hT.cover r hr (fun e => hUr (.inl e)) with ⟨b, hb, hm⟩ | hm
          · have hba : b ≠ a := by rintro rfl; exact hra hm
            refine .inl ⟨b, Finset.mem_erase.2 ⟨hba, hb⟩, ?_⟩
            unfold nregs at hm ⊢
            rw [halt b hba]; exact hm
          · refine .inr (hm.frame ?_ (fun _ _ h => h) (fun _ h => h))
            intro x hx
            have hxa : x ∉ nregs s.alt a := by
              rcases hx with rfl | ⟨h1, h2, h3, -⟩
              · exact hra
              · exact fun hxa => hN.not_free ha hxa ⟨h2, h3⟩
            exact ⟨hslN x hxa, by rw [hralt, if_neg hxa], hmx x hxa, fun h => h⟩
      · intro r hr hnt
        rw [hralt]
        split
        · rfl
        · exact hT.inside r hr hnt

theorem shatterList_spec (hg : Proper g) : ∀ (l : List Nat) (s : MS) (A : Finset Nat) (U : Nat → Prop), FOk g T L ch t X Y s.fl →
    Nodes (view g T L ch t s.fl) s.alt s.ralt A E → Tops (view g T L ch t s.fl) s.alt s.ralt s.mate A U → l.Nodup → (∀ a ∈ l, a ∈ A) →
    ∃ s', l.foldlM (shatterNode g) s = .ok s' ∧ Shattered g T L ch t X Y s s' l ∧
      Nodes (view g T L ch t s'.fl) s'.alt s'.ralt (A \ l.toFinset) E ∧
      Tops (view g T L ch t s'.fl) s'.alt s'.ralt s'.mate (A \ l.toFinset) (fun r => U r ∨ ∃ a ∈ l, (s.alt a).inner = none ∧ r = (s.alt a).outer) := by
  intro l
  induction l with
  | nil =>
    intro s A U hF hN hT _ _
    refine ⟨s, rfl, ⟨hF, rfl, ⟨_, rfl⟩, rfl, fun _ _ => rfl, fun _ _ => rfl, by simp, fun _ _ => ⟨rfl, rfl⟩⟩, by simpa using hN, by simpa using hT⟩
  | cons a l ih =>
    intro s A U hF hN hT hnd hl
    obtain ⟨hal, hnd⟩ := List.nodup_cons.1 hnd
    have haA := hl a (by simp)
    obtain ⟨s1, e1, h1, hN1, hT1⟩ := shatterNode_spec hg hF hN hT haA
    obtain ⟨s2, e2, h2, hN2, hT2⟩ := ih s1 (A.erase a) _ h1.fl hN1 hT1 hnd
      (fun b hb => Finset.mem_erase.2 ⟨fun e => hal (e ▸ hb), hl b (List.mem_cons_of_mem _ hb)⟩)
    have hAe : A \ (a :: l).toFinset = A.erase a \ l.toFinset := by ext x; simp; tauto
    have hlx : ∀ b ∈ l, s1.alt b = s.alt b := fun b hb => h1.alt b (by simp; rintro rfl; exact hal hb)
    have hnr : ∀ b ∈ l, nregs s1.alt b = nregs s.alt b := fun b hb => by unfold nregs; rw [hlx b hb]
    refine ⟨s2, by rw [List.foldlM_cons, e1]; exact e2, ⟨h2.fl, h2.regs.trans h1.regs, ?_, ?_, ?_, ?_, ?_, ?_⟩, by rw [hAe]; exact hN2, ?_⟩
    · obtain ⟨sl1, v1⟩ := h1.view
      obtain ⟨sl2, v2⟩ := h2.view
      exact ⟨sl2, by rw [v2, v1]⟩
    · rw [h2.alts, h1.alts]; rfl
    · intro x hx
      rw [List.mem_cons, not_or] at hx
      rw [h2.alt x hx.2, h1.alt x (by simpa using hx.1)]
    · intro r hr
      rw [h2.ralt r (fun b hb => by rw [hnr b hb]; exact hr b (List.mem_cons_of_mem _ hb)), h1.ralt r (by simpa using hr a (by simp))]
    · intro b hb r hr
      by_cases hrl : ∃ c ∈ l, r ∈ nregs s.alt c
      · obtain ⟨c, hc, hrc⟩ := hrl
        exact h2.gone c hc r (by rw [hnr c hc]; exact hrc)
      · push Not at hrl
        rcases List.mem_cons.1 hb with rfl | hb
        · rw [h2.ralt r (fun c hc => by rw [hnr c hc]; exact hrl c hc)]
          exact h1.gone b (by simp) r hr
        · exact absurd hr (hrl b hb)
    · intro r hr
      obtain ⟨k1, k2⟩ := h1.keep r (by simpa using hr a (by simp))
      obtain ⟨k3, k4⟩ := h2.keep r (fun b hb hbi => by
        rw [hnr b hb]; rw [hlx b hb] at hbi; exact hr b (List.mem_cons_of_mem _ hb) hbi)
      exact ⟨k3.trans k1, k4.trans k2⟩
    · rw [hAe]
      refine ⟨fun r hr hUr => hT2.cover r hr (fun hx => hUr ?_), hT2.inside⟩
      rcases hx with (hx | ⟨hx1, hx2⟩) | ⟨b, hb, hx1, hx2⟩
      · exact .inl hx
      · exact .inr ⟨a, by simp, hx1, hx2⟩
      · rw [hlx b hb] at hx1 hx2
        exact .inr ⟨b, List.mem_cons_of_mem _ hb, hx1, hx2⟩

theorem AInv.dels : ∀ (l : List Nat) {A : Finset Nat} {ar : Arena}, AInv A ar → l.Nodup → (∀ a ∈ l, a ∈ A) → AInv (A \ l.toFinset) (l.foldl Arena.del ar) := by
  intro l
  induction l with
  | nil => intro A ar h _ _; simpa using h
  | cons a l ih =>
    intro A ar h hnd hl
    obtain ⟨hal, hnd⟩ := List.nodup_cons.1 hnd
    have := ih (h.del (hl a (by simp))) hnd (fun b hb => Finset.mem_erase.2 ⟨fun e => hal (e ▸ hb), hl b (List.mem_cons_of_mem _ hb)⟩)
    have hAe : A \ (a :: l).toFinset = A.erase a \ l.toFinset := by ext x; simp; tauto
    rw [hAe]; exact this

/-- Shattering of the tree with root `a`: the remaining nodes `A'` are those of the other trees. -/
theorem shatterTree_spec (hg : Proper g) {s : MS} (hF : FOk g T L ch t X Y s.fl) (hN : Nodes (view g T L ch t s.fl) s.alt s.ralt A E)
    (hT : Tops (view g T L ch t s.fl) s.alt s.ralt s.mate A U) (hS : Shape (view g T L ch t s.fl) s.alt A ach ∅) (hA : AInv A s.alts) {a : Nat} (ha : a ∈ A)
    (hroot : (s.alt a).parent = none) :
    ∃ s' l, shatterTree g s a = .ok s' ∧ (∀ x, x ∈ l ↔ x ∈ A ∧ Forest.rootOf ach x = some a) ∧ Shattered g T L ch t X Y s s' l ∧
      (∀ r, r ∈ nregs s.alt a → s'.ralt r = none ∧ sl s'.fl r = sl s.fl r ∧ s'.mate r = s.mate r) ∧
      AInv (A \ l.toFinset) s'.alts ∧
      Shape (view g T L ch t s'.fl) s'.alt (A \ l.toFinset) ach ∅ ∧
      Nodes (view g T L ch t s'.fl) s'.alt s'.ralt (A \ l.toFinset) E ∧
      Tops (view g T L ch t s'.fl) s'.alt s'.ralt s'.mate (A \ l.toFinset) (fun r => U r ∨ r = (s.alt a).outer) := by
  have hk : Kids A (epar s.alt ∅) (altKids s) := hS.kids
  have hpara : epar s.alt ∅ a = none := by simp [epar, hroot]
  have hmem : ∀ x, x ∈ descPost (altKids s) s.altDepth a ↔ x ∈ A ∧ Forest.rootOf ach x = some a := by
    intro x
    rw [mem_descPost hS.forest hk (show A.card ≤ s.altDepth from hA.card_le) ha]
    constructor
    · rintro ⟨h1, h2⟩; exact ⟨h1, (hS.forest.rootOf_iff h1).2 ⟨h2, hpara⟩⟩
    · rintro ⟨h1, h2⟩; exact ⟨h1, ((hS.forest.rootOf_iff h1).1 h2).1⟩
  have hnd := descPost_nodup hS.forest hk s.altDepth ha
  unfold shatterTree
  generalize descPost (altKids s) s.altDepth a = l at hmem hnd
  obtain ⟨s', e, h1, h2, h3⟩ := shatterList_spec hg l s A U hF hN hT hnd (fun x hx => ((hmem x).1 hx).1)
  have hini : ∀ x ∈ A, (s.alt x).inner = none ↔ (s.alt x).parent = none := by
    intro x hx
    constructor
    · intro hi
      cases hp : (s.alt x).parent with
      | none => rfl
      | some pe =>
        obtain ⟨-, -, i, hi', -⟩ := hS.child hx (by simp) (p := pe.1) (pe := pe.2) hp
        rw [hi'] at hi; cases hi
    · exact hS.root x hx (by simp)
  have hone : ∀ x ∈ l, (s.alt x).inner = none → x = a := by
    intro x hx hi
    obtain ⟨hxA, hxr⟩ := (hmem x).1 hx
    have : epar s.alt ∅ x = none := by simp [epar, (hini x hxA).1 hi]
    have h4 : Forest.rootOf ach x = some x := (hS.forest.rootOf_iff hxA).2 ⟨hS.forest.self_mem hxA, this⟩
    rw [h4] at hxr
    exact Option.some.inj hxr
  have hal : a ∈ l := (hmem a).2 ⟨ha, (hS.forest.rootOf_iff ha).2 ⟨hS.forest.self_mem ha, hpara⟩⟩
  have hia : (s.alt a).inner = none := hS.root a ha (by simp) hroot
  have hmemA : ∀ x, x ∈ A \ l.toFinset ↔ x ∈ A ∧ Forest.rootOf ach x ≠ some a := by
    intro x
    rw [Finset.mem_sdiff, List.mem_toFinset, hmem]
    tauto
  refine ⟨s', l, e, hmem, h1, ?_, ?_, ?_, h2, ?_⟩
  · intro r hr
    refine ⟨h1.gone a hal r hr, h1.keep r ?_⟩
    intro b hb hbi hrb
    have := hN.disj ha ((hmem b).1 hb).1 hr hrb
    subst this
    exact hbi hia
  · rw [h1.alts]; exact hA.dels l hnd (fun x hx => ((hmem x).1 hx).1)
  · obtain ⟨sl', hv⟩ := h1.view
    have hrt : ∀ x ∈ A, ∀ p, epar s.alt ∅ x = some p → Forest.rootOf ach x = Forest.rootOf ach p := by
      intro x hx p hp
      refine (hS.forest.rootOf_chain hx ?_).symm
      rw [(hS.forest.step x hx p hp).2]
      exact List.mem_cons_of_mem _ (hS.forest.self_mem (hS.forest.step x hx p hp).1)
    have hR := hS.restrict (A' := A \ l.toFinset) Finset.sdiff_subset (fun x hx p hp => by
        obtain ⟨hxA, hxr⟩ := (hmemA x).1 hx
        exact (hmemA p).2 ⟨(hS.forest.step x hxA p hp).1, by rw [← hrt x hxA p hp]; exact hxr⟩)
      (fun x hx c hc hp => by
        obtain ⟨hxA, hxr⟩ := (hmemA x).1 hx
        exact (hmemA c).2 ⟨hc, by rw [hrt c hc x hp]; exact hxr⟩)
    have halt : ∀ x ∈ A \ l.toFinset, s'.alt x = s.alt x := fun x hx => h1.alt x (fun hm => (Finset.mem_sdiff.1 hx).2 (List.mem_toFinset.2 hm))
    refine hR.congr (fun x hx => by rw [halt x hx]) (fun x hx => by rw [halt x hx]) ?_ (fun x hx _ _ h => by rw [halt x hx]; exact h)
    intro x hx c hc _ e i _ hi hlk
    exact ⟨i, by rw [halt c hc]; exact hi, by rw [hv, halt x hx]; exact hlk⟩
  · refine ⟨fun r hr hUr => h3.cover r hr (fun hx => hUr ?_), h3.inside⟩
    rcases hx with hx | ⟨b, hb, hb1, hb2⟩
    · exact .inl hx
    · have := hone b hb hb1
      subst this
      exact .inr hb2

end Verif.SB
