import Verif.Blossom.Break

/-!
# New detection events
-/

namespace Verif.SB

open Verif Verif.Graph Verif.CE Verif.Vary Verif.Track Verif.Spec Verif.Mem
open Verif.Sch (Res better)

variable {g : MGraph} {T L : Finset Nat} {ch : Nat → List Nat} {t : Int} {s : FS}

/-- The state after region `r` was created at node `n`. -/
def seeded (s : FS) (r n : Nat) (ar : Arena) (w : World Owner) : FS :=
  { node := Function.update s.node n ⟨some r, some r, 0, some n, 0, 0⟩
    reg := Function.update s.reg r { Region.fresh r with shell := [n] }
    regs := ar
    w := w }

theorem fresh_radius : (⟨1⟩ : Varying).Valid ∧ (⟨1⟩ : Varying).slope = 1 ∧ (⟨1⟩ : Varying).yIntercept = 0 :=
  ⟨by unfold Varying.Valid; decide, by decide, by decide⟩

/-- How the state before and after the creation of region `r` at node `n` are related. -/
structure SeedRel (T L : Finset Nat) (ch : Nat → List Nat) (t : Int) (r n : Nat) (s s' : FS) : Prop where
  dist : D s' (insert r L) (Function.update ch r [r]) t = D s L ch t
  arr : ∀ m, m ≠ n → s'.node m = s.node m
  arrN : (s'.node n).arr = some r
  parR : SB.par s' r = none
  slR : sl s' r = 1
  kidsR : (s'.reg r).children = []
  reg : ∀ q ∈ L, s'.reg q = s.reg q

theorem Geo.seeded_geo (h : Geo g T L ch 0 s) {r n : Nat} (hr : r ∉ L) (hn : (s.node n).arr = none) {ar : Arena} {w : World Owner}
    (hcard : (insert r L).card ≤ ar.allocated.length) :
    Geo g (insert n T) (insert r L) (Function.update ch r [r]) 0 (seeded s r n ar w) ∧ SeedRel T L ch 0 r n s (seeded s r n ar w) := by
  obtain ⟨fr1, fr2, fr3⟩ := fresh_radius
  have hne' : ∀ d ∈ L, d ≠ r := fun d hd e => hr (e ▸ hd)
  generalize hA : seeded s r n ar w = A
  have hAn : A.node n = ⟨some r, some r, 0, some n, 0, 0⟩ := by rw [← hA]; simp [seeded]
  have hAm : ∀ m, m ≠ n → A.node m = s.node m := fun m hm => by rw [← hA]; simp [seeded, hm]
  have hAr : A.reg r = { Region.fresh r with shell := [n] } := by rw [← hA]; simp [seeded]
  have hAq : ∀ q, q ≠ r → A.reg q = s.reg q := fun q hq => by rw [← hA]; simp [seeded, hq]
  have hAdepth : A.depth = ar.allocated.length := by rw [← hA]; rfl
  clear hA
  generalize hch : Function.update ch r [r] = ch'
  have hchr : ch' r = [r] := by rw [← hch]; simp
  have hchq : ∀ q, q ≠ r → ch' q = ch q := fun q hq => by rw [← hch]; simp [hq]
  clear hch
  have hyr : y A 0 r = 0 := by unfold y; rw [hAr, distanceAt_eq]; exact (by simp [Region.fresh, fr2, fr3])
  have hyq : ∀ q ∈ L, y A 0 q = y s 0 q := fun q hq => by unfold y; rw [hAq q (hne' q hq)]
  have hparr : par A r = none := by unfold par; rw [hAr]; rfl
  have hparq : ∀ q ∈ L, par A q = par s q := fun q hq => by unfold par; rw [hAq q (hne' q hq)]
  have hslr : sl A r = 1 := by unfold sl; rw [hAr]; exact fr2
  have hslq : ∀ q ∈ L, sl A q = sl s q := fun q hq => by unfold sl; rw [hAq q (hne' q hq)]
  have hoccn : ∀ m q, (s.node m).arr = some q → m ≠ n := by rintro m q hm rfl; rw [hn] at hm; cases hm
  have hcase : ∀ m q, (A.node m).arr = some q → (m = n ∧ q = r) ∨ (m ≠ n ∧ (s.node m).arr = some q ∧ q ∈ L) := by
    intro m q hm
    by_cases e : m = n
    · subst e; rw [hAn] at hm; cases hm; exact .inl ⟨rfl, rfl⟩
    · rw [hAm m e] at hm; exact .inr ⟨e, hm, (h.occ m q hm).1⟩
  have hcaset : ∀ m q, (A.node m).top = some q → (m = n ∧ q = r) ∨ (m ≠ n ∧ (s.node m).top = some q ∧ q ∈ L) := by
    intro m q hm
    by_cases e : m = n
    · subst e; rw [hAn] at hm; cases hm; exact .inl ⟨rfl, rfl⟩
    · rw [hAm m e] at hm
      obtain ⟨-, -, -, -, h5, -⟩ := h.node_top_live hm
      exact .inr ⟨e, hm, h5⟩
  have hpotr : ∀ u, pot A ch' 0 r u = 0 := by
    intro u
    cases u with
    | none => rfl
    | some m =>
      cases ha : (A.node m).arr with
      | none => exact BGeo.pot_empty ha r
      | some q =>
        rw [BGeo.pot_arr ha]
        rcases hcase m q ha with ⟨rfl, rfl⟩ | ⟨-, h2, h3⟩
        · simp [hchr, hyr, hAn]
        · rw [if_neg]
          rw [hchq q (hne' q h3)]
          exact fun e => hr (h.forest.mem_live h3 e)
  have hpotq : ∀ R ∈ L, ∀ u, pot A ch' 0 R u = pot s ch 0 R u := by
    intro R hR u
    cases u with
    | none => rfl
    | some m =>
      by_cases e : m = n
      · subst e
        rw [BGeo.pot_arr (q := r) (by rw [hAn]), BGeo.pot_empty hn, if_neg]
        rw [hchr, List.mem_singleton]; exact hne' R hR
      · cases ha : (s.node m).arr with
        | none => rw [BGeo.pot_empty ha, BGeo.pot_empty (by rw [hAm m e]; exact ha)]
        | some q =>
          rw [BGeo.pot_arr ha, BGeo.pot_arr (by rw [hAm m e]; exact ha), hAm m e, hchq q (hne' q (h.occ m q ha).1), hyq R hR]
  have hD : D A (insert r L) ch' 0 = D s L ch 0 := by
    funext u v
    exact dist_insert hr hpotr hpotq u v
  have hrad : rad A (insert r L) ch' 0 = rad s L ch 0 := by funext m; unfold rad; rw [hD]
  have hradn : rad s L ch 0 n = 0 := h.rad_empty hn
  have hInR : ∀ q ∈ L, ∀ m, InR s ch q m → InR A ch' q m := by
    rintro q hq m ⟨q', h1, h2⟩
    have := (h.occ m q' h1).1
    exact ⟨q', by rw [hAm m (hoccn m q' h1)]; exact h1, by rw [hchq q' (hne' q' this)]; exact h2⟩
  have hTight : ∀ a b o, Tight g A (insert r L) ch' 0 a b o ↔ Tight g s L ch 0 a b o := by
    intro a b o; unfold Tight; rw [hD]
  refine ⟨⟨⟨?_, ?_, ?_, ?_, ?_, ?_, ?_, ?_, ?_, ?_, ?_, ?_, ?_, ?_, ?_, ?_, ?_⟩, ?_, ?_, ?_, ?_⟩, ?_⟩
  · constructor
    · intro q hq hp
      rcases Finset.mem_insert.1 hq with rfl | hq
      · exact hchr
      · rw [hchq q (hne' q hq)]; rw [hparq q hq] at hp; exact h.forest.root q hq hp
    · intro q hq p hp
      rcases Finset.mem_insert.1 hq with rfl | hq
      · rw [hparr] at hp; cases hp
      · rw [hparq q hq] at hp
        obtain ⟨h1, h2⟩ := h.forest.step q hq p hp
        refine ⟨Finset.mem_insert_of_mem h1, ?_⟩
        rw [hchq q (hne' q hq), hchq p (hne' p h1)]; exact h2
  · constructor
    · intro q hq c
      unfold kidsOf
      rcases Finset.mem_insert.1 hq with rfl | hq
      · rw [hAr]
        simp only [Region.fresh, List.map_nil, List.not_mem_nil, false_iff]
        rintro ⟨h1, h2⟩
        rcases Finset.mem_insert.1 h1 with rfl | h1
        · rw [hparr] at h2; cases h2
        · rw [hparq c h1] at h2
          exact hr (h.forest.step c h1 q h2).1
      · rw [hAq q (hne' q hq), show (c ∈ (s.reg q).children.map (·.1)) ↔ _ from h.kids.mem q hq c]
        constructor
        · rintro ⟨h1, h2⟩; exact ⟨Finset.mem_insert_of_mem h1, by rw [hparq c h1]; exact h2⟩
        · rintro ⟨h1, h2⟩
          rcases Finset.mem_insert.1 h1 with rfl | h1
          · rw [hparr] at h2; cases h2
          · exact ⟨h1, by rw [← hparq c h1]; exact h2⟩
    · intro q hq
      unfold kidsOf
      rcases Finset.mem_insert.1 hq with rfl | hq
      · rw [hAr]; exact List.nodup_nil
      · rw [hAq q (hne' q hq)]; exact h.kids.nodup q hq
  · rw [hAdepth]; exact hcard
  · intro q hq
    rcases Finset.mem_insert.1 hq with rfl | hq
    · rw [hAr]
      show q ∈ ch' q ∧ par A q = none
      exact ⟨by simp [hchr], hparr⟩
    · rw [hAq q (hne' q hq), hchq q (hne' q hq), hparq _ (h.top_live hq)]; exact h.top q hq
  · intro q hq
    rcases Finset.mem_insert.1 hq with rfl | hq
    · rw [hAr]; exact fr1
    · rw [hAq q (hne' q hq)]; exact h.valid q hq
  · intro q hq hp
    rcases Finset.mem_insert.1 hq with rfl | hq
    · exact absurd hparr hp
    · rw [hslq q hq]; rw [hparq q hq] at hp; exact h.still q hq hp
  · intro q hq
    rcases Finset.mem_insert.1 hq with rfl | hq
    · rw [hyr]
    · rw [hyq q hq]; exact h.ypos q hq
  · intro m q hm
    rcases hcase m q hm with ⟨rfl, rfl⟩ | ⟨-, h2, h3⟩
    · exact ⟨Finset.mem_insert_self _ _, by rw [hAr]; simp⟩
    · exact ⟨Finset.mem_insert_of_mem h3, by rw [hAq q (hne' q h3)]; exact (h.occ m q h2).2⟩
  · intro m q hm
    rcases hcase m q hm with ⟨rfl, rfl⟩ | ⟨h1, h2, h3⟩
    · rw [hAn, hAr]; rfl
    · rw [hAm m h1, hAq q (hne' q h3)]; exact h.otop m q h2
  · intro m q hm
    rcases hcase m q hm with ⟨rfl, rfl⟩ | ⟨h1, h2, h3⟩
    · rw [hAn, hyr]; exact ⟨le_refl _, le_refl _⟩
    · rw [hAm m h1, hyq q h3]; exact h.orho m q h2
  · intro m q hm
    rcases hcase m q hm with ⟨rfl, rfl⟩ | ⟨h1, h2, h3⟩
    · rw [hAn, hchr]; simp
    · rw [hAm m h1, hchq q (hne' q h3), h.owrap m q h2]
      congr 2
      apply List.map_congr_left
      intro d hd
      exact (hyq d (h.forest.mem_live h3 (List.mem_of_mem_dropLast hd))).symm
  · intro m hm
    by_cases e : m = n
    · subst e; rw [hAn] at hm; cases hm
    · rw [hAm m e] at hm ⊢; exact h.empty m hm
  · intro q hq m hm
    rcases Finset.mem_insert.1 hq with rfl | hq
    · rw [hAr] at hm; simp only [List.mem_singleton] at hm; subst hm; rw [hAn]
    · rw [hAq q (hne' q hq)] at hm
      have := h.shell q hq m hm
      rw [hAm m (hoccn m q this)]; exact this
  · intro q hq
    rcases Finset.mem_insert.1 hq with rfl | hq
    · rw [hAr]; simp
    · rw [hAq q (hne' q hq)]; exact h.shellNodup q hq
  · intro q hq
    rcases Finset.mem_insert.1 hq with rfl | hq
    · rw [hAr]; simp
    · rw [hAq q (hne' q hq)]
      refine (h.shellSorted q hq).imp_of_mem ?_
      intro a b ha hb hab
      rw [hAm a (hoccn a q (h.shell q hq a ha)), hAm b (hoccn b q (h.shell q hq b hb))]
      exact hab
  · intro q hq hc
    rcases Finset.mem_insert.1 hq with rfl | hq
    · rw [hAr]; exact ⟨n, [], rfl, Finset.mem_insert_self _ _⟩
    · rw [hAq q (hne' q hq)] at hc ⊢
      obtain ⟨a, l, e1, e2⟩ := h.seed q hq hc
      exact ⟨a, l, e1, Finset.mem_insert_of_mem e2⟩
  · intro a ha
    by_cases e : a = n
    · subst e
      exact ⟨r, [], by rw [hAn], by rw [hAr]; rfl, by rw [hAr], by rw [hAn], by rw [hAn], by rw [hAn]⟩
    · have ha' : a ∈ T := by rcases Finset.mem_insert.1 ha with e' | e'; exact absurd e' e; exact e'
      obtain ⟨q, l, e1, e2⟩ := h.event a ha'
      exact ⟨q, l, by rw [hAm a e, hAq q (hne' q (h.occ a q e1).1)]; exact ⟨e1, e2⟩⟩
  · intro m q hm
    rcases hcase m q hm with ⟨rfl, rfl⟩ | ⟨h1, h2, h3⟩
    · refine ⟨m, Finset.mem_insert_self _ _, by rw [hAn], ⟨q, by rw [hAn], by simp [hchr]⟩, [], .here m, ?_, ?_⟩
      · rw [hD]; unfold D; rw [dist_self]; rfl
      · rw [hAn]; rfl
    · obtain ⟨a, ha, e1, e2, e3⟩ := h.src m q h2
      rw [hAm m h1]
      exact ⟨a, Finset.mem_insert_of_mem ha, e1, hInR q h3 a e2, (hTight _ _ _).2 e3⟩
  · rw [hD]; exact h.flow
  · rw [hrad]
    intro u v q hu hv
    rcases hcaset u q hu with ⟨rfl, rfl⟩ | ⟨h1, h2, h3⟩
    · rcases hcaset v q hv with ⟨rfl, -⟩ | ⟨-, -, h3⟩
      · simp
      · exact absurd h3 hr
    · rcases hcaset v q hv with ⟨rfl, rfl⟩ | ⟨-, h2', -⟩
      · exact absurd h3 hr
      · exact h.even1 u v q h2 h2'
  · rw [hrad]
    intro u q hu hsq
    rcases hcaset u q hu with ⟨rfl, rfl⟩ | ⟨h1, h2, h3⟩
    · rw [hradn]; rfl
    · rw [hslq q h3] at hsq; exact h.even2 u q h2 hsq
  · have hch2 : Function.update ch r [r] = ch' := by
      funext q
      by_cases e : q = r
      · subst e; simp [hchr]
      · simp [e, hchq q e]
    exact ⟨by rw [hch2]; exact hD, hAm, by rw [hAn], hparr, hslr, by rw [hAr]; rfl, fun q hq => hAq q (hne' q hq)⟩

/-- `do_region_created_at_empty_detector_node` on a fresh region. -/
theorem seed_spec (h : Geo g T L ch 0 s) (hg : Proper g) (hA : AInv L s.regs) (ht : s.now = 0) {X Y : Nat → Prop} (hs : Sched g L X Y s)
    {n : Nat} (hn : (s.node n).arr = none) :
    ∃ s1 r s', allocRegion s = (s1, r) ∧ r ∉ L ∧ createRegionAt g s1 r n = .ok s' ∧ s'.now = 0 ∧ AInv (insert r L) s'.regs ∧
      Geo g (insert n T) (insert r L) (Function.update ch r [r]) 0 s' ∧ Sched g (insert r L) X Y s' ∧ SeedRel T L ch 0 r n s s' := by
  obtain ⟨ar, w0, r, a1, hr, a3, a4, a5, a6, a7⟩ := allocRegion_spec hA hs.winv
  have hne' : ∀ d ∈ L, d ≠ r := fun d hd e => hr (e ▸ hd)
  have hform : (({ s with reg := Function.update s.reg r (.fresh r), regs := ar, w := w0 } : FS).setNode n fun N =>
      { N with src := some n, rho := 0, arr := some r, top := some r, wrapped := 0 }).setReg r
      (fun R => { R with shell := R.shell ++ [n] }) = seeded s r n ar w0 := by
    unfold seeded FS.setNode FS.setReg
    simp only [Function.update_self]
    congr 1
    · rw [h.empty n hn]; rfl
    · simp [Region.fresh]
  obtain ⟨c1, c2⟩ := h.seeded_geo (ar := ar) (w := w0) hr hn a3.card_le
  have hnow : (seeded s r n ar w0).now = 0 := by unfold FS.now at ht ⊢; show w0.q.cur = 0; omega
  have hregs : (seeded s r n ar w0).regs = ar := rfl
  have hw : (seeded s r n ar w0).w = w0 := rfl
  generalize hAA : seeded s r n ar w0 = A at *
  have hwant : ∀ o, want A o = Function.update (absW s.w).want (.inr r) none o := fun o => by unfold want; rw [hw, a7]
  have hwl : ∀ u, want A (.inl u) = want s (.inl u) := fun u => by rw [hwant, Function.update_of_ne (by simp)]; rfl
  have hloc : ∀ m, m ≠ n → localRadius A m = localRadius s m := by
    intro m hm
    unfold localRadius
    rw [c2.arr m hm]
    cases htop : (s.node m).top with
    | none => rfl
    | some q =>
      obtain ⟨-, -, -, -, hq, -⟩ := h.node_top_live htop
      simp only
      rw [c2.reg q hq]
  have hS : Sched g (insert r L) (fun u => X u ∨ u = n) Y A := by
    refine ⟨by rw [hw]; exact a5, ?_, ?_, ?_⟩
    · intro u i nb τ he hc hXu hXv
      push Not at hXu
      have hcs : coll s u nb = some τ := by
        rw [← hc]
        unfold coll
        rw [hloc u hXu.2, c2.arr u hXu.2]
        cases ht : nb.target with
        | none => rfl
        | some v =>
          have := hXv v ht
          push Not at this
          simp only
          rw [hloc v this.2, c2.arr v this.2]
      obtain ⟨t', e1, e2⟩ := hs.colls u i nb τ he hcs hXu.1 (fun v hv x => hXv v hv (.inl x))
      refine ⟨t', e1, ?_⟩
      simp only [hwl]
      exact e2
    · intro u τ hX hu
      push Not at hX
      rw [hwl] at hu
      rw [hloc u hX.2]
      exact hs.nodeWant u τ hX.1 hu
    · intro q
      rw [hwant]
      by_cases hq : q = r
      · subst hq
        refine ⟨fun a => ?_, fun _ => ?_⟩
        · rw [c2.slR] at a; omega
        · rw [Function.update_self]
      · rw [Function.update_of_ne (by simpa using hq)]
        by_cases hqL : q ∈ L
        · have e1 : par A q = par s q := by unfold par; rw [c2.reg q hqL]
          have e2 : sl A q = sl s q := by unfold sl; rw [c2.reg q hqL]
          rw [e1, e2, Finset.mem_insert]
          have : (q = r ∨ q ∈ L) ↔ q ∈ L := by simp [hq]
          rw [this]
          refine ⟨fun a => ?_, (hs.regWant q).2⟩
          refine ((hs.regWant q).1 a).trans ?_
          congr 1
          unfold shrinkTime
          rw [c2.reg q hqL]
          cases hz : (s.reg q).shell.getLast? with
          | none => rfl
          | some z =>
            simp only
            rw [hloc z]
            rintro rfl
            rw [h.shell q hqL z (List.mem_of_getLast? hz)] at hn; cases hn
        · exact ⟨fun a => absurd a.1 (by simp [hq, hqL]), fun _ => (hs.regWant q).2 (fun a => hqL a.1)⟩
  have hAn : (A.node n).top = some r := by
    rw [c1.otop n r c2.arrN, c1.top_self (Finset.mem_insert_self _ _) c2.parR]
  obtain ⟨w1, d1, d2, d3⟩ := c1.reschedule_spec hg hnow hS (u := n) (by rw [BGeo.local_slope hAn, c2.slR]; omega)
  refine ⟨_, r, { A with w := w1 }, a1, hr, ?_, ?_, ?_, c1.withW _, d3.mono ?_, ⟨c2.dist, c2.arr, c2.arrN, c2.parR, c2.slR, c2.kidsR, c2.reg⟩⟩
  · unfold createRegionAt
    simp only
    rw [hform]
    exact d1
  · unfold FS.now at hnow ⊢; simp only; omega
  · simp only [hregs]; exact a3
  · intro u hu
    have : u ≠ n := hu.2
    rcases hu.1 with e | e
    · exact e
    · exact absurd e this

end Verif.SB
