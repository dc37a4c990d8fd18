import Verif.Blossom.Model

/-!
# Cutting and grafting forests
-/

namespace Verif.SB

open Verif Verif.CE

namespace Forest

variable {L : Finset Nat} {par par' : Nat → Option Nat} {ch : Nat → List Nat}

/-- Ancestors of `a` and below, within a chain. -/
def upTo (a : Nat) (l : List Nat) : List Nat := l.takeWhile (· ≠ a) ++ [a]

theorem upTo_cons_self (a : Nat) (l : List Nat) : upTo a (a :: l) = [a] := by simp [upTo]

theorem upTo_cons_ne {a x : Nat} (h : x ≠ a) (l : List Nat) : upTo a (x :: l) = x :: upTo a l := by simp [upTo, h]

/-- Only some of the objects. -/
theorem restrict (h : Forest L par ch) {L' : Finset Nat} (hsub : L' ⊆ L) (hc : ∀ x ∈ L', ∀ p, par x = some p → p ∈ L')
    (hp : ∀ x ∈ L', par' x = par x) : Forest L' par' ch where
  root := fun x hx e => h.root x (hsub hx) (by rw [← hp x hx]; exact e)
  step := fun x hx p e => by
    rw [hp x hx] at e
    exact ⟨hc x hx p e, (h.step x (hsub hx) p e).2⟩

/-- Cut `a` off its parent. -/
theorem cut (h : Forest L par ch) {a : Nat} (_ha : a ∈ L) (hpa : par' a = none) (hp : ∀ x ∈ L, x ≠ a → par' x = par x) :
    Forest L par' (fun x => if a ∈ ch x then upTo a (ch x) else ch x) := by
  constructor
  · intro x hx e
    by_cases hxa : x = a
    · subst hxa
      rcases h.cases hx with ⟨-, e'⟩ | ⟨p, -, -, e'⟩ <;> simp [e', upTo]
    · rw [hp x hx hxa] at e
      simp [h.root x hx e, Ne.symm hxa]
  · intro x hx p e
    by_cases hxa : x = a
    · subst hxa; rw [hpa] at e; cases e
    · rw [hp x hx hxa] at e
      obtain ⟨h1, h2⟩ := h.step x hx p e
      refine ⟨h1, ?_⟩
      simp only [h2, List.mem_cons, Ne.symm hxa, false_or]
      split
      · exact upTo_cons_ne hxa _
      · rfl

/-- Put the root `b` below `a`. -/
theorem graft (h : Forest L par ch) {a b : Nat} (ha : a ∈ L) (hb : b ∈ L) (hpb : par b = none) (hba : b ∉ ch a)
    (hpb' : par' b = some a) (hp : ∀ x ∈ L, x ≠ b → par' x = par x) :
    Forest L par' (fun x => if b ∈ ch x then ch x ++ ch a else ch x) := by
  constructor
  · intro x hx e
    by_cases hxb : x = b
    · subst hxb; rw [hpb'] at e; cases e
    · rw [hp x hx hxb] at e
      simp [h.root x hx e, Ne.symm hxb]
  · intro x hx p e
    by_cases hxb : x = b
    · subst hxb
      rw [hpb'] at e
      cases e
      refine ⟨ha, ?_⟩
      simp [h.root x hx hpb, hba]
    · rw [hp x hx hxb] at e
      obtain ⟨h1, h2⟩ := h.step x hx p e
      refine ⟨h1, ?_⟩
      simp only [h2, List.mem_cons, Ne.symm hxb, false_or]
      split <;> simp

/-- A new object without parent. -/
theorem add (h : Forest L par ch) {c : Nat} (hc : c ∉ L) (hpc : par' c = none) (hp : ∀ x ∈ L, par' x = par x) :
    Forest (insert c L) par' (Function.update ch c [c]) := by
  have hne : ∀ x ∈ L, x ≠ c := fun x hx e => hc (e ▸ hx)
  constructor
  · intro x hx e
    rcases Finset.mem_insert.1 hx with rfl | hx
    · simp
    · rw [hp x hx] at e
      rw [Function.update_of_ne (hne x hx)]
      exact h.root x hx e
  · intro x hx p e
    rcases Finset.mem_insert.1 hx with rfl | hx
    · rw [hpc] at e; cases e
    · rw [hp x hx] at e
      obtain ⟨h1, h2⟩ := h.step x hx p e
      refine ⟨Finset.mem_insert_of_mem h1, ?_⟩
      rw [Function.update_of_ne (hne x hx), Function.update_of_ne (hne p h1)]
      exact h2

/-- Remove `a`; its children become roots. -/
theorem drop (h : Forest L par ch) {a : Nat} (hp : ∀ x ∈ L, x ≠ a → par' x = if par x = some a then none else par x) :
    Forest (L.erase a) par' (fun x => (ch x).takeWhile (· ≠ a)) := by
  constructor
  · intro x hx e
    obtain ⟨hxa, hx⟩ := Finset.mem_erase.1 hx
    rw [hp x hx hxa] at e
    by_cases hxp : par x = some a
    · obtain ⟨h1, h2⟩ := h.step x hx a hxp
      have h3 : ∃ l, ch a = a :: l := by
        rcases h.cases h1 with ⟨-, e'⟩ | ⟨p, -, -, e'⟩
        · exact ⟨[], e'⟩
        · exact ⟨_, e'⟩
      obtain ⟨l, h3⟩ := h3
      simp [h2, h3, hxa]
    · rw [if_neg hxp] at e
      simp [h.root x hx e, hxa]
  · intro x hx p e
    obtain ⟨hxa, hx⟩ := Finset.mem_erase.1 hx
    rw [hp x hx hxa] at e
    by_cases hxp : par x = some a
    · rw [if_pos hxp] at e; cases e
    · rw [if_neg hxp] at e
      obtain ⟨h1, h2⟩ := h.step x hx p e
      refine ⟨Finset.mem_erase.2 ⟨?_, h1⟩, ?_⟩
      · rintro rfl; exact hxp e
      · simp [h2, hxa]

/-- The root above `x`. -/
def rootOf (ch : Nat → List Nat) (x : Nat) : Option Nat := (ch x).getLast?

theorem rootOf_iff (h : Forest L par ch) {x r : Nat} (hx : x ∈ L) : rootOf ch x = some r ↔ r ∈ ch x ∧ par r = none := h.last_iff hx

theorem rootOf_exists (h : Forest L par ch) {x : Nat} (hx : x ∈ L) : ∃ r ∈ L, rootOf ch x = some r ∧ par r = none := by
  obtain ⟨r, h1, h2⟩ := h.exists_root hx
  exact ⟨r, h.mem_live hx h1, (h.rootOf_iff hx).2 ⟨h1, h2⟩, h2⟩

theorem rootOf_root (h : Forest L par ch) {x : Nat} (hx : x ∈ L) (hp : par x = none) : rootOf ch x = some x :=
  (h.rootOf_iff hx).2 ⟨h.self_mem hx, hp⟩

/-- Objects on one chain have the same root. -/
theorem rootOf_chain (h : Forest L par ch) {x p : Nat} (hx : x ∈ L) (hp : p ∈ ch x) : rootOf ch p = rootOf ch x := by
  obtain ⟨r, h1, h2, h3⟩ := h.rootOf_exists (h.mem_live hx hp)
  rw [h2]
  have := (h.rootOf_iff (h.mem_live hx hp)).1 h2
  exact ((h.rootOf_iff hx).2 ⟨h.trans hx hp this.1, h3⟩).symm

theorem chain_self (h : Forest L par ch) {x : Nat} (hx : x ∈ L) : ∃ l, ch x = x :: l := by
  rcases h.cases hx with ⟨-, e⟩ | ⟨p, -, -, e⟩
  · exact ⟨[], e⟩
  · exact ⟨_, e⟩

/-- The part of the chain of `x` from `p` on is the chain of `p`. -/
theorem chain_split (h : Forest L par ch) {x p : Nat} (hx : x ∈ L) {l1 l2 : List Nat} (e : ch x = l1 ++ p :: l2) : ch p = p :: l2 := by
  have hp : p ∈ ch x := by rw [e]; simp
  obtain ⟨l3, h3⟩ := h.suffix hx hp
  obtain ⟨l4, h4⟩ := h.chain_self (h.mem_live hx hp)
  rw [h4] at h3 ⊢
  have hnd := h.nodup hx
  rw [e] at h3
  have h5 : l3.length = l1.length := by
    by_contra hne
    have hget : ∀ i : Nat, (l3 ++ p :: l4)[i]? = (l1 ++ p :: l2)[i]? := fun i => by rw [h3]
    have h6 : (l1 ++ p :: l2)[l1.length]? = some p := by simp
    have h7 : (l1 ++ p :: l2)[l3.length]? = some p := by rw [← hget]; simp
    rw [e] at hnd
    have hl1 : l1.length < (l1 ++ p :: l2).length := by simp
    have := (List.nodup_iff_getElem?_ne_getElem?.1 hnd)
    rcases Nat.lt_or_gt_of_ne hne with h8 | h8
    · exact this _ _ h8 hl1 (h7.trans h6.symm)
    · have hl3 : l3.length < (l1 ++ p :: l2).length := by
        by_contra hh
        rw [List.getElem?_eq_none (by omega)] at h7
        cases h7
      exact this _ _ h8 hl3 (h6.trans h7.symm)
  have := (List.append_inj h3 h5).2
  exact this

end Forest

/-! ## `unstable_erase` -/

theorem eraseKid_perm {l : List (Nat × CompressedEdge)} {a : Nat} (h : a ∈ l.map (·.1)) :
    ∃ e, (a, e) ∈ l ∧ ((a, e) :: eraseKid l a).Perm l := by
  have h1 : ∃ x ∈ l, (x.1 == a) = true := by
    obtain ⟨x, hx, e⟩ := List.mem_map.1 h
    exact ⟨x, hx, by simpa using e⟩
  cases hi : l.findIdx? (fun x => x.1 == a) with
  | none =>
    rw [List.findIdx?_eq_none_iff] at hi
    obtain ⟨x, hx, e⟩ := h1
    rw [hi x hx] at e; cases e
  | some i =>
    obtain ⟨hlt, hia, -⟩ := List.findIdx?_eq_some_iff_getElem.1 hi
    have hia' : l[i].1 = a := by simpa using hia
    have hne : l ≠ [] := by rintro rfl; simp at hlt
    obtain ⟨l', z, rfl⟩ : ∃ l' z, l = l' ++ [z] := ⟨l.dropLast, l.getLast hne, (List.dropLast_concat_getLast hne).symm⟩
    refine ⟨(l' ++ [z])[i].2, ?_, ?_⟩
    · have : (a, (l' ++ [z])[i].2) = (l' ++ [z])[i] := by rw [← hia']
      rw [this]; exact List.getElem_mem hlt
    · have hpair : (a, (l' ++ [z])[i].2) = (l' ++ [z])[i] := by rw [← hia']
      rw [hpair]
      unfold eraseKid
      rw [hi, List.getLast?_concat]
      simp only
      by_cases hil : i < l'.length
      · rw [List.set_append_left _ _ hil, List.dropLast_concat, List.getElem_append_left hil]
        have := List.set_perm_cons_eraseIdx hil z
        refine (List.Perm.cons _ this).trans ?_
        refine (List.Perm.swap _ _ _).trans ?_
        refine (List.Perm.cons _ (List.getElem_cons_eraseIdx_perm hil)).trans ?_
        exact (List.perm_append_singleton z l').symm
      · have hi2 : i = l'.length := by simp at hlt; omega
        subst hi2
        rw [List.set_append_right _ _ (le_refl _)]
        simp only [Nat.sub_self, List.set_cons_zero, List.dropLast_concat]
        rw [List.getElem_append_right (le_refl _)]
        simp only [Nat.sub_self, List.getElem_cons_zero]
        exact (List.perm_append_singleton z l').symm

theorem mem_eraseKid {l : List (Nat × CompressedEdge)} {a : Nat} (h : a ∈ l.map (·.1)) (hnd : (l.map (·.1)).Nodup)
    (x : Nat × CompressedEdge) : x ∈ eraseKid l a ↔ x ∈ l ∧ x.1 ≠ a := by
  obtain ⟨e, he, hp⟩ := eraseKid_perm h
  have hnd2 : (((a, e) :: eraseKid l a).map (·.1)).Nodup := (hp.map _).nodup_iff.2 hnd
  rw [← hp.mem_iff]
  simp only [List.map_cons, List.nodup_cons] at hnd2
  constructor
  · intro hx
    refine ⟨by simp [hx], ?_⟩
    rintro rfl
    exact hnd2.1 (List.mem_map_of_mem hx)
  · rintro ⟨hx, hne⟩
    rcases List.mem_cons.1 hx with rfl | hx
    · exact absurd rfl hne
    · exact hx

theorem eraseKid_nodup {l : List (Nat × CompressedEdge)} {a : Nat} (h : a ∈ l.map (·.1)) (hnd : (l.map (·.1)).Nodup) :
    ((eraseKid l a).map (·.1)).Nodup := by
  obtain ⟨e, he, hp⟩ := eraseKid_perm h
  have hnd2 : (((a, e) :: eraseKid l a).map (·.1)).Nodup := (hp.map _).nodup_iff.2 hnd
  simp only [List.map_cons, List.nodup_cons] at hnd2
  exact hnd2.2

end Verif.SB
