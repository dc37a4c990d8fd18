import Mathlib.Data.Finset.Card
import Mathlib.Data.Finset.Insert
import Mathlib.Data.List.Nodup
import Mathlib.Data.List.Lemmas
import Mathlib.Data.List.Infix
import Mathlib.Tactic.Common

/-!
# Forests given by parent pointers

Blossom parents (`graph_fill_region.h`) and alternating tree parents (`alternating_tree.h`) both are parent pointers
between live objects.  `ch x` lists `x` and its ancestors, from `x` up to the root; a finite list for each object says that
following parent pointers ends.  Proof library, no part of the code is modelled here.
-/

namespace Verif.SB

/-- `ch` lists the ancestors of the live objects `L` along the parent pointers `par`. -/
structure Forest (L : Finset Nat) (par : Nat → Option Nat) (ch : Nat → List Nat) : Prop where
  root : ∀ r ∈ L, par r = none → ch r = [r]
  step : ∀ r ∈ L, ∀ p, par r = some p → p ∈ L ∧ ch r = r :: ch p

namespace Forest

variable {L : Finset Nat} {par : Nat → Option Nat} {ch : Nat → List Nat}

theorem cases (h : Forest L par ch) {r : Nat} (hr : r ∈ L) :
    (par r = none ∧ ch r = [r]) ∨ ∃ p, par r = some p ∧ p ∈ L ∧ ch r = r :: ch p := by
  cases hp : par r with
  | none => exact .inl ⟨rfl, h.root r hr hp⟩
  | some p => exact .inr ⟨p, rfl, h.step r hr p hp⟩

/-- Induction from the roots down. -/
theorem induct (h : Forest L par ch) {Q : Nat → Prop} (hroot : ∀ r ∈ L, par r = none → Q r)
    (hstep : ∀ r ∈ L, ∀ p ∈ L, par r = some p → Q p → Q r) {r : Nat} (hr : r ∈ L) : Q r := by
  suffices H : ∀ n r, r ∈ L → (ch r).length = n → Q r from H _ r hr rfl
  intro n
  induction n using Nat.strong_induction_on with
  | _ n ih =>
    intro r hr hn
    rcases h.cases hr with ⟨hp, _⟩ | ⟨p, hp, hpL, he⟩
    · exact hroot r hr hp
    · exact hstep r hr p hpL hp (ih _ (by rw [← hn, he]; simp) p hpL rfl)

theorem self_mem (h : Forest L par ch) {r : Nat} (hr : r ∈ L) : r ∈ ch r := by
  rcases h.cases hr with ⟨_, e⟩ | ⟨p, _, _, e⟩ <;> rw [e] <;> simp

theorem mem_live (h : Forest L par ch) {r x : Nat} (hr : r ∈ L) (hx : x ∈ ch r) : x ∈ L := by
  revert hx
  refine h.induct (Q := fun r => x ∈ ch r → x ∈ L) ?_ ?_ hr
  · intro r hr hp hx
    rw [h.root r hr hp] at hx
    simp at hx; exact hx ▸ hr
  · intro r hr p _ hp ih hx
    rw [(h.step r hr p hp).2] at hx
    rcases List.mem_cons.1 hx with e | e
    · exact e ▸ hr
    · exact ih e

theorem suffix (h : Forest L par ch) {r x : Nat} (hr : r ∈ L) (hx : x ∈ ch r) : ch x <:+ ch r := by
  revert hx
  refine h.induct (Q := fun r => x ∈ ch r → ch x <:+ ch r) ?_ ?_ hr
  · intro r hr hp hx
    rw [h.root r hr hp] at hx
    simp at hx; exact hx ▸ List.suffix_rfl
  · intro r hr p _ hp ih hx
    have e := (h.step r hr p hp).2
    rw [e] at hx
    rcases List.mem_cons.1 hx with e' | e'
    · exact e' ▸ List.suffix_rfl
    · rw [e]; exact (ih e').trans (List.suffix_cons _ _)

theorem trans (h : Forest L par ch) {r x y : Nat} (hr : r ∈ L) (hx : x ∈ ch r) (hy : y ∈ ch x) : y ∈ ch r :=
  (h.suffix hr hx).subset hy

theorem nodup (h : Forest L par ch) {r : Nat} (hr : r ∈ L) : (ch r).Nodup := by
  refine h.induct (Q := fun r => (ch r).Nodup) ?_ ?_ hr
  · intro r hr hp
    rw [h.root r hr hp]; simp
  · intro r hr p hpL hp ih
    have e := (h.step r hr p hp).2
    rw [e, List.nodup_cons]
    refine ⟨fun hm => ?_, ih⟩
    have h1 := (h.suffix hpL hm).length_le
    rw [e] at h1
    simp at h1
    omega

theorem antisymm (h : Forest L par ch) {r x : Nat} (hr : r ∈ L) (hx : x ∈ ch r) (hx' : r ∈ ch x) : x = r := by
  rcases h.cases hr with ⟨_, e⟩ | ⟨p, _, hpL, e⟩
  · rw [e] at hx; simpa using hx
  · rw [e] at hx
    rcases List.mem_cons.1 hx with e' | e'
    · exact e'
    · have h1 := (h.suffix (h.mem_live hpL e') hx').length_le
      have h2 := (h.suffix hpL e').length_le
      rw [e] at h1
      simp at h1; omega

/-- Ancestors of one object are comparable. -/
theorem total (h : Forest L par ch) {r x y : Nat} (hr : r ∈ L) (hx : x ∈ ch r) (hy : y ∈ ch r) : x ∈ ch y ∨ y ∈ ch x := by
  have s1 := h.suffix hr hx
  have s2 := h.suffix hr hy
  rcases List.suffix_or_suffix_of_suffix s1 s2 with s | s
  · exact .inl (s.subset (h.self_mem (h.mem_live hr hx)))
  · exact .inr (s.subset (h.self_mem (h.mem_live hr hy)))

/-- The root is the last of the list. -/
theorem last_iff (h : Forest L par ch) {r x : Nat} (hr : r ∈ L) : (ch r).getLast? = some x ↔ x ∈ ch r ∧ par x = none := by
  refine h.induct (Q := fun r => (ch r).getLast? = some x ↔ x ∈ ch r ∧ par x = none) ?_ ?_ hr
  · intro r hr hp
    rw [h.root r hr hp]
    simp
    constructor
    · rintro rfl; exact ⟨rfl, hp⟩
    · rintro ⟨rfl, _⟩; rfl
  · intro r hr p hpL hp ih
    have e := (h.step r hr p hp).2
    rw [e]
    have hne : ch p ≠ [] := List.ne_nil_of_mem (h.self_mem hpL)
    rw [List.getLast?_cons_of_ne_nil hne, ih]
    constructor
    · rintro ⟨h1, h2⟩; exact ⟨List.mem_cons_of_mem _ h1, h2⟩
    · rintro ⟨h1, h2⟩
      rcases List.mem_cons.1 h1 with e' | e'
      · rw [e', hp] at h2; cases h2
      · exact ⟨e', h2⟩

theorem exists_root (h : Forest L par ch) {r : Nat} (hr : r ∈ L) : ∃ x ∈ ch r, par x = none := by
  have hne : ch r ≠ [] := List.ne_nil_of_mem (h.self_mem hr)
  cases hl : (ch r).getLast? with
  | none => rw [List.getLast?_eq_none_iff] at hl; exact absurd hl hne
  | some x => exact ⟨x, (h.last_iff hr).1 hl⟩

theorem root_unique (h : Forest L par ch) {r x y : Nat} (hr : r ∈ L) (hx : x ∈ ch r) (hx' : par x = none) (hy : y ∈ ch r)
    (hy' : par y = none) : x = y := by
  have a := (h.last_iff hr).2 ⟨hx, hx'⟩
  have b := (h.last_iff hr).2 ⟨hy, hy'⟩
  rw [a] at b; exact Option.some.inj b

/-- A strict ancestor is reached through one of its children. -/
theorem via_child (h : Forest L par ch) {r x : Nat} (hr : r ∈ L) (hx : x ∈ ch r) (hne : x ≠ r) :
    ∃ c ∈ ch r, c ∈ L ∧ par c = some x := by
  revert hx hne
  refine h.induct (Q := fun r => x ∈ ch r → x ≠ r → ∃ c ∈ ch r, c ∈ L ∧ par c = some x) ?_ ?_ hr
  · intro r hr hp hx hne
    rw [h.root r hr hp] at hx
    simp at hx; exact absurd hx hne
  · intro r hr p hpL hp ih hx hne
    have e := (h.step r hr p hp).2
    by_cases hxp : x = p
    · exact ⟨r, h.self_mem hr, hr, hxp ▸ hp⟩
    · rw [e] at hx
      rcases List.mem_cons.1 hx with e' | e'
      · exact absurd e' hne
      · obtain ⟨c, h1, h2, h3⟩ := ih e' hxp
        exact ⟨c, by rw [e]; exact List.mem_cons_of_mem _ h1, h2, h3⟩

theorem child_unique (h : Forest L par ch) {r x c d : Nat} (hr : r ∈ L) (hc : c ∈ ch r) (hd : d ∈ ch r) (hcp : par c = some x)
    (hdp : par d = some x) : c = d := by
  have hcL := h.mem_live hr hc
  have hdL := h.mem_live hr hd
  have ec := (h.step c hcL x hcp).2
  have ed := (h.step d hdL x hdp).2
  have hlen : (ch c).length = (ch d).length := by rw [ec, ed]; simp
  rcases h.total hr hc hd with e | e
  · have := (h.suffix hdL e).eq_of_length hlen
    rw [ec, ed] at this
    exact (List.cons.inj this).1
  · have := (h.suffix hcL e).eq_of_length hlen.symm
    rw [ec, ed] at this
    exact (List.cons.inj this).1.symm

theorem length_le (h : Forest L par ch) {r : Nat} (hr : r ∈ L) : (ch r).length ≤ L.card := by
  rw [← List.toFinset_card_of_nodup (h.nodup hr)]
  apply Finset.card_le_card
  intro x hx
  exact h.mem_live hr (List.mem_toFinset.1 hx)

theorem congr (h : Forest L par ch) {par' : Nat → Option Nat} (hp : ∀ r ∈ L, par' r = par r) : Forest L par' ch where
  root r hr e := h.root r hr (by rw [← hp r hr]; exact e)
  step r hr p e := h.step r hr p (by rw [← hp r hr]; exact e)

/-- Join some trees under a new root `B`. -/
theorem wrap (h : Forest L par ch) {B : Nat} (hB : B ∉ L) (C : Nat → Prop) [DecidablePred C]
    (hC : ∀ c, C c → c ∈ L ∧ par c = none) {par' : Nat → Option Nat} (hpB : par' B = none)
    (hpC : ∀ c, C c → par' c = some B) (hpr : ∀ r ∈ L, ¬ C r → par' r = par r) :
    Forest (insert B L) par' (fun r => if r = B then [B] else if (∃ c ∈ ch r, C c) then ch r ++ [B] else ch r) := by
  have hne : ∀ r ∈ L, r ≠ B := fun r hr e => hB (e ▸ hr)
  constructor
  · intro r hr hp
    rcases Finset.mem_insert.1 hr with rfl | hr
    · simp
    · have hnC : ¬ C r := fun hc => by rw [hpC r hc] at hp; cases hp
      rw [hpr r hr hnC] at hp
      simp only [hne r hr, if_false, h.root r hr hp]
      simp [hnC]
  · intro r hr p hp
    rcases Finset.mem_insert.1 hr with rfl | hr
    · rw [hpB] at hp; cases hp
    · by_cases hc : C r
      · rw [hpC r hc] at hp
        obtain rfl := Option.some.inj hp
        refine ⟨Finset.mem_insert_self _ _, ?_⟩
        simp only [hne r hr, if_false, h.root r hr (hC r hc).2]
        simp [hc]
      · rw [hpr r hr hc] at hp
        obtain ⟨hpL, e⟩ := h.step r hr p hp
        refine ⟨Finset.mem_insert_of_mem hpL, ?_⟩
        have hiff : (∃ c ∈ ch r, C c) ↔ ∃ c ∈ ch p, C c := by rw [e]; simp [hc]
        by_cases hx : ∃ c ∈ ch p, C c
        · simp only [hne r hr, hne p hpL, if_false, if_pos (hiff.2 hx), if_pos hx]
          rw [e, List.cons_append]
        · simp only [hne r hr, hne p hpL, if_false, if_neg (fun y => hx (hiff.1 y)), if_neg hx]
          exact e

/-- Remove a root `B`. -/
theorem unwrap (h : Forest L par ch) {B : Nat} (hB : B ∈ L) (hpB : par B = none) {par' : Nat → Option Nat}
    (hp' : ∀ r ∈ L, r ≠ B → par' r = if par r = some B then none else par r) :
    Forest (L.erase B) par' (fun r => if B ∈ ch r then (ch r).dropLast else ch r) := by
  constructor
  · intro r hr hp
    obtain ⟨hrB, hr⟩ := Finset.mem_erase.1 hr
    rw [hp' r hr hrB] at hp
    by_cases e : par r = some B
    · obtain ⟨_, e'⟩ := h.step r hr B e
      simp [e', h.root B hB hpB]
    · simp only [e, if_false] at hp
      simp [h.root r hr hp, Ne.symm hrB]
  · intro r hr p hp
    obtain ⟨hrB, hr⟩ := Finset.mem_erase.1 hr
    rw [hp' r hr hrB] at hp
    by_cases e : par r = some B
    · simp [e] at hp
    · simp only [e, if_false] at hp
      obtain ⟨hpL, e'⟩ := h.step r hr p hp
      have hpB' : p ≠ B := fun x => e (x ▸ hp)
      refine ⟨Finset.mem_erase.2 ⟨hpB', hpL⟩, ?_⟩
      simp only [e', List.mem_cons, Ne.symm hrB, false_or]
      split
      · rw [List.dropLast_cons_of_ne_nil (List.ne_nil_of_mem (h.self_mem hpL))]
      · rfl

end Forest

/-! ## Visiting all descendants -/

/-- All descendants of `r`, parents before children; `f` bounds the depth of the recursion. -/
def desc (kids : Nat → List Nat) : Nat → Nat → List Nat
  | 0, _ => []
  | f + 1, r => r :: (kids r).flatMap (desc kids f)

/-- All descendants of `r`, children before parents. -/
def descPost (kids : Nat → List Nat) : Nat → Nat → List Nat
  | 0, _ => []
  | f + 1, r => (kids r).flatMap (descPost kids f) ++ [r]

/-- `kids` inverts `par`. -/
structure Kids (L : Finset Nat) (par : Nat → Option Nat) (kids : Nat → List Nat) : Prop where
  mem : ∀ r ∈ L, ∀ c, c ∈ kids r ↔ c ∈ L ∧ par c = some r
  nodup : ∀ r ∈ L, (kids r).Nodup

section
variable {L : Finset Nat} {par : Nat → Option Nat} {ch : Nat → List Nat} {kids : Nat → List Nat}

theorem mem_desc_aux (h : Forest L par ch) (hk : Kids L par kids) (f : Nat) :
    ∀ r ∈ L, ∀ x, x ∈ desc kids f r ↔ x ∈ L ∧ r ∈ ch x ∧ (ch x).length < (ch r).length + f := by
  induction f with
  | zero =>
    intro r hr x
    simp only [desc, List.not_mem_nil, false_iff, not_and, not_lt, Nat.add_zero]
    intro hx hm
    exact (h.suffix hx hm).length_le
  | succ f ih =>
    intro r hr x
    simp only [desc, List.mem_cons, List.mem_flatMap]
    constructor
    · rintro (rfl | ⟨c, hc, hx⟩)
      · exact ⟨hr, h.self_mem hr, by omega⟩
      · obtain ⟨hcL, hcp⟩ := (hk.mem r hr c).1 hc
        obtain ⟨h1, h2, h3⟩ := (ih c hcL x).1 hx
        have e := (h.step c hcL r hcp).2
        refine ⟨h1, h.trans h1 h2 (by rw [e]; exact List.mem_cons_of_mem _ (h.self_mem hr)), ?_⟩
        rw [e] at h3
        simp at h3; omega
    · rintro ⟨hx, hm, hl⟩
      by_cases e : r = x
      · exact .inl e.symm
      · obtain ⟨c, h1, h2, h3⟩ := h.via_child hx hm e
        refine .inr ⟨c, (hk.mem r hr c).2 ⟨h2, h3⟩, (ih c h2 x).2 ⟨hx, h1, ?_⟩⟩
        rw [(h.step c h2 r h3).2]
        simp; omega

/-- With enough depth, exactly the descendants are visited. -/
theorem mem_desc (h : Forest L par ch) (hk : Kids L par kids) {f r : Nat} (hf : L.card ≤ f) (hr : r ∈ L) {x : Nat} :
    x ∈ desc kids f r ↔ x ∈ L ∧ r ∈ ch x := by
  rw [mem_desc_aux h hk f r hr x]
  constructor
  · rintro ⟨a, b, _⟩; exact ⟨a, b⟩
  · rintro ⟨a, b⟩
    have h1 := h.length_le a
    have h2 : 0 < (ch r).length := List.length_pos_of_mem (h.self_mem hr)
    exact ⟨a, b, by omega⟩

theorem desc_nodup (h : Forest L par ch) (hk : Kids L par kids) (f : Nat) : ∀ r ∈ L, (desc kids f r).Nodup := by
  induction f with
  | zero => intro r _; simp [desc]
  | succ f ih =>
    intro r hr
    rw [desc, List.nodup_cons, List.nodup_flatMap]
    refine ⟨?_, fun c hc => ih c ((hk.mem r hr c).1 hc).1, ?_⟩
    · rw [List.mem_flatMap]
      rintro ⟨c, hc, hx⟩
      obtain ⟨hcL, hcp⟩ := (hk.mem r hr c).1 hc
      have h1 := ((mem_desc_aux h hk f c hcL r).1 hx).2.1
      have e := (h.step c hcL r hcp).2
      have h2 := (h.suffix hr h1).length_le
      rw [e] at h2
      simp at h2
      omega
    · refine (hk.nodup r hr).pairwise_of_forall_ne ?_
      intro c hc d hd hne x hx hx'
      obtain ⟨hcL, hcp⟩ := (hk.mem r hr c).1 hc
      obtain ⟨hdL, hdp⟩ := (hk.mem r hr d).1 hd
      have h1 := (mem_desc_aux h hk f c hcL x).1 hx
      have h2 := (mem_desc_aux h hk f d hdL x).1 hx'
      exact hne (h.child_unique h1.1 h1.2.1 h2.2.1 hcp hdp)

theorem descPost_perm (kids : Nat → List Nat) (f : Nat) : ∀ r, (descPost kids f r).Perm (desc kids f r) := by
  induction f with
  | zero => intro r; exact .refl _
  | succ f ih =>
    intro r
    rw [descPost, desc]
    refine List.perm_append_comm.trans (List.Perm.cons _ ?_)
    induction kids r with
    | nil => exact .refl _
    | cons c cs ih' => rw [List.flatMap_cons, List.flatMap_cons]; exact (ih c).append ih'

theorem mem_descPost (h : Forest L par ch) (hk : Kids L par kids) {f r : Nat} (hf : L.card ≤ f) (hr : r ∈ L) {x : Nat} :
    x ∈ descPost kids f r ↔ x ∈ L ∧ r ∈ ch x := by
  rw [(descPost_perm kids f r).mem_iff, mem_desc h hk hf hr]

theorem descPost_nodup (h : Forest L par ch) (hk : Kids L par kids) (f : Nat) {r : Nat} (hr : r ∈ L) :
    (descPost kids f r).Nodup := (descPost_perm kids f r).nodup_iff.2 (desc_nodup h hk f r hr)

end

end Verif.SB
