import Verif.Blossom.Cycle

/-!
# What the tree and the matches look like after a blossom was shattered
-/

namespace Verif.SB

open Verif Verif.Graph Verif.CE Verif.Mem Verif.Spec
open Verif.Sch (Res)

variable {g : MGraph} {A : Finset Nat}

theorem live_eq {L : Finset Nat} {a : Arena} (h : AInv L a) : live a = L := by
  have hn := h.inv.nodup
  have hs := h.inv.split
  have h1 : (L.val + (a.available : Multiset Nat)).Nodup := by rw [← hs]; exact Multiset.coe_nodup.2 hn
  have h2 := (Multiset.nodup_add.1 h1).2.2
  ext x
  have h3 : x ∈ a.allocated ↔ x ∈ L ∨ x ∈ a.available := by
    rw [← Multiset.mem_coe, hs, Multiset.mem_add, Multiset.mem_coe]
    rfl
  unfold live
  rw [Finset.mem_sdiff, List.mem_toFinset, List.mem_toFinset, h3]
  constructor
  · rintro ⟨h | h, h'⟩
    · exact h
    · exact absurd h h'
  · intro h
    exact ⟨.inl h, fun h' => Multiset.disjoint_left.1 h2 h (Multiset.mem_coe.2 h')⟩

/-- All but the children and the visited mark. -/
def SameNode (x y : ANode) : Prop := x.inner = y.inner ∧ x.outer = y.outer ∧ x.i2o = y.i2o ∧ x.parent = y.parent

theorem onFl_keeps {s s1 : MS} {f : FS → Res FS} (h : s.onFl f = .ok s1) : s1.alts = s.alts ∧ s1.mate = s.mate ∧ s1.alt = s.alt := by
  unfold MS.onFl at h
  cases hf : f s.fl with
  | throws => rw [hf] at h; cases h
  | ub => rw [hf] at h; cases h
  | ok z => rw [hf] at h; cases h; exact ⟨rfl, rfl, rfl⟩

theorem insertPath_thread : ∀ (l : Path) (s : MS) (cur : Nat) (ce : CompressedEdge) (A : Finset Nat) {s' : MS} {cur' : Nat} {ce' : CompressedEdge},
    insertPath g l s cur ce = .ok (s', cur', ce') → AInv A s.alts → cur ∈ A →
    ∃ A', AInv A' s'.alts ∧ A ⊆ A' ∧ cur' ∈ A' ∧ s'.mate = s.mate ∧ (∀ x ∈ A, SameNode (s'.alt x) (s.alt x)) ∧
      ∀ (alt : Nat → ANode) (N : Finset Nat), A' ⊆ N → (∀ x ∈ A', x ∉ A → SameNode (alt x) (s'.alt x)) → Thread alt N A cur ce l cur' ce' := by
  intro l
  induction l with
  | nil =>
    intro s cur ce A s' cur' ce' he hA hc
    cases he
    exact ⟨A, hA, fun _ h => h, hc, rfl, fun _ _ => ⟨rfl, rfl, rfl, rfl⟩, fun _ _ _ _ => ⟨rfl, rfl⟩⟩
  | cons x l ih =>
    obtain ⟨r1, r2, i2o, nx⟩ := x
    intro s cur ce A s' cur' ce' he hA hc
    obtain ⟨ar, c, e3, hcA, hA'⟩ := hA.alloc
    have hcc : cur ≠ c := fun e => hcA (e ▸ hc)
    generalize hm : makeChild s cur r1 r2 i2o ce = m at *
    have hm2 : m.2 = c := by rw [← hm]; simp [makeChild, e3]
    have hma : m.1.alts = ar := by rw [← hm]; simp [makeChild, e3, addChild, MS.setAlt, MS.setRalt]
    have hmm : m.1.mate = s.mate := by rw [← hm]; simp [makeChild, addChild, MS.setAlt, MS.setRalt]
    have hold : ∀ x ∈ A, SameNode (m.1.alt x) (s.alt x) := by
      intro x hx
      have hxc : x ≠ c := fun e => hcA (e ▸ hx)
      rw [← hm]
      by_cases hxcur : x = cur
      · subst hxcur
        simp [makeChild, e3, addChild, MS.setAlt, MS.setRalt, hxc, SameNode]
      · simp [makeChild, e3, addChild, MS.setAlt, MS.setRalt, hxc, hxcur, SameNode]
    have hnew : (m.1.alt c).inner = some r1 ∧ (m.1.alt c).outer = r2 ∧ (m.1.alt c).i2o = i2o ∧ (m.1.alt c).parent = some (cur, ce.reversed) := by
      rw [← hm]
      simp [makeChild, e3, addChild, MS.setAlt, MS.setRalt, hcc.symm]
    unfold insertPath at he
    rw [hm, hm2] at he
    cases hs : startInnerOuter g m.1 r1 r2 with
    | throws => rw [hs] at he; cases he
    | ub => rw [hs] at he; cases he
    | ok s1 =>
      rw [hs] at he
      have hs1 := onFl_keeps hs
      obtain ⟨A', k1, k2, k3, k4, k5, k6⟩ := ih s1 c nx (insert c A) he (by rw [hs1.1, hma]; exact hA') (Finset.mem_insert_self _ _)
      have ht : ∀ {x y z : ANode}, SameNode x y → SameNode y z → SameNode x z := by
        rintro x y z ⟨a1, a2, a3, a4⟩ ⟨b1, b2, b3, b4⟩
        exact ⟨a1.trans b1, a2.trans b2, a3.trans b3, a4.trans b4⟩
      refine ⟨A', k1, fun x hx => k2 (Finset.mem_insert_of_mem hx), k3, by rw [k4, hs1.2.1, hmm], ?_, ?_⟩
      · intro x hx
        have := k5 x (Finset.mem_insert_of_mem hx)
        rw [hs1.2.2] at this
        exact ht this (hold x hx)
      · intro alt N hN halt
        have h1 := ht (halt c (k2 (Finset.mem_insert_self _ _)) hcA) (k5 c (Finset.mem_insert_self _ _))
        rw [hs1.2.2] at h1
        refine ⟨c, hN (k2 (Finset.mem_insert_self _ _)), hcA, h1.1.trans hnew.1, h1.2.1.trans hnew.2.1, h1.2.2.1.trans hnew.2.2.1, h1.2.2.2.trans hnew.2.2.2, ?_⟩
        exact k6 alt N hN fun x hx hxA => halt x hx fun h => hxA (Finset.mem_insert_of_mem h)

theorem matchList_thread : ∀ (l : List (Nat × Nat × CompressedEdge)) (s : MS) {s' : MS}, matchList g l s = .ok s' → (matchRegs l).Nodup →
    s'.alts = s.alts ∧ s'.alt = s.alt ∧ Paired s'.mate l ∧ ∀ x, x ∉ matchRegs l → s'.mate x = s.mate x := by
  intro l
  induction l with
  | nil => intro s s' h _; cases h; exact ⟨rfl, rfl, fun _ _ _ h => (nomatch h), fun _ _ => rfl⟩
  | cons x l ih =>
    obtain ⟨r1, r2, e⟩ := x
    intro s s' h hnd
    unfold matchList at h
    cases h1 : (addMatch s r1 r2 e).onFl fun fl => rescheduleAll g fl (area fl r1) with
    | throws => rw [h1] at h; cases h
    | ub => rw [h1] at h; cases h
    | ok s1 =>
      rw [h1] at h
      simp only [Res.bind] at h
      cases h2 : s1.onFl fun fl => rescheduleAll g fl (area fl r2) with
      | throws => rw [h2] at h; cases h
      | ub => rw [h2] at h; cases h
      | ok s2 =>
        rw [h2] at h
        have hmr : matchRegs ((r1, r2, e) :: l) = r1 :: r2 :: matchRegs l := by simp [matchRegs]
        rw [hmr] at hnd ⊢
        have n1 := (List.nodup_cons.1 hnd).1
        have n2 := (List.nodup_cons.1 (List.nodup_cons.1 hnd).2).1
        have hne : r1 ≠ r2 := fun e => n1 (by rw [e]; simp)
        obtain ⟨a0, a1, a2, a3⟩ := ih s2 h (List.nodup_cons.1 (List.nodup_cons.1 hnd).2).2
        have hm : ∀ x, s2.mate x = (addMatch s r1 r2 e).mate x := fun x => by rw [(onFl_keeps h2).2.1, (onFl_keeps h1).2.1]
        refine ⟨by rw [a0, (onFl_keeps h2).1, (onFl_keeps h1).1]; rfl, by rw [a1, (onFl_keeps h2).2.2, (onFl_keeps h1).2.2]; rfl, ?_, ?_⟩
        · intro q1 q2 e' hq
          rcases List.mem_cons.1 hq with hq | hq
          · cases hq
            rw [a3 r1 (fun h => n1 (List.mem_cons_of_mem _ h)), a3 r2 n2, hm, hm]
            simp [addMatch, MS.setMate, hne]
          · exact a2 q1 q2 e' hq
        · intro x hx
          have x1 : x ≠ r1 := fun e => hx (by rw [e]; simp)
          have x2 : x ≠ r2 := fun e => hx (by rw [e]; simp)
          rw [a3 x (fun h => hx (List.mem_cons_of_mem _ (List.mem_cons_of_mem _ h))), hm]
          simp [addMatch, MS.setMate, x1, x2]

variable {cyc : List (Nat × CompressedEdge)}

theorem around_adjacent (h : 0 < cyc.length) (i : Nat) : Adjacent cyc (around cyc h i).2 (around cyc h i).1 (around cyc h (i + 1)).1 := by
  refine ⟨i % cyc.length, _, (around cyc h (i + 1)).1, _, around_get h i, ?_, .inl ⟨rfl, rfl, rfl⟩⟩
  rw [Nat.mod_add_mod, around_get h (i + 1)]
  rfl

theorem Adjacent.symm {e : CompressedEdge} {r r' : Nat} (h : Adjacent cyc e r r') : Adjacent cyc e.reversed r' r := by
  obtain ⟨i, q, q', e', h1, h2, h3⟩ := h
  refine ⟨i, q, q', e', h1, h2, ?_⟩
  rcases h3 with ⟨rfl, rfl, rfl⟩ | ⟨rfl, rfl, rfl⟩
  · exact .inr ⟨rfl, rfl, rfl⟩
  · exact .inl ⟨rfl, rfl, by simp [CompressedEdge.reversed]⟩

theorem along_even (h : 0 < cyc.length) : ∀ n i, Along cyc (around cyc h i).1 (evenPath cyc h n i) (around cyc h (i + 2 * n)).1 := by
  intro n
  induction n with
  | zero => intro i; rfl
  | succ n ih =>
    intro i
    refine ⟨rfl, around_adjacent h i, _, around_adjacent h (i + 1), ?_⟩
    have := ih (i + 2)
    rw [show i + 2 + 2 * n = i + 2 * (n + 1) by omega] at this
    exact this

theorem along_odd (h : 0 < cyc.length) : ∀ n j, 2 * n ≤ j → Along cyc (around cyc h j).1 (oddPath cyc h n j) (around cyc h (j - 2 * n)).1 := by
  intro n
  induction n with
  | zero => intro j _; rfl
  | succ n ih =>
    intro j hj
    have h1 := (around_adjacent h (j - 1)).symm
    have h2 := (around_adjacent h (j - 2)).symm
    rw [show j - 1 + 1 = j by omega] at h1
    rw [show j - 2 + 1 = j - 1 by omega] at h2
    refine ⟨rfl, h1, _, h2, ?_⟩
    have := ih (j - 2) (by omega)
    rw [show j - 2 - 2 * n = j - 2 * (n + 1) by omega] at this
    exact this

theorem evenPairs_adjacent (h : 0 < cyc.length) : ∀ n i, ∀ x ∈ evenPairs cyc h n i, Adjacent cyc x.2.2 x.1 x.2.1 := by
  intro n
  induction n with
  | zero => intro i x hx; cases hx
  | succ n ih =>
    intro i x hx
    rcases List.mem_cons.1 hx with rfl | hx
    · exact around_adjacent h i
    · exact ih (i + 2) x hx

end Verif.SB
