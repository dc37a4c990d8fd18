import Verif.Blossom.Metric
import Mathlib.Algebra.BigOperators.Intervals
import Mathlib.Algebra.Order.Ring.Int

/-!
# The dual certificate

Feasible potentials bound the weight of every correction from below.
-/

namespace Verif.SB

open Verif Verif.Graph Verif.Spec Verif.CE

/-- Other end of a slot. -/
def far (g : MGraph) (e : Slot) : Option Nat :=
  match entry g e with
  | some n => n.target
  | none => some e.1

/-- The parity of crossings of a set of nodes is the parity of the events in it. -/
theorem crossings {g : MGraph} (S : Nat → Prop) [DecidablePred S] (es : List Slot) (hes : ∀ e ∈ es, (entry g e).isSome)
    (F : Finset Nat) (hF : ∀ e ∈ es, e.1 ∈ F ∧ ∀ v, far g e = some v → v ∈ F) :
    (∑ x ∈ F with S x, totalEnds g x es) =
      (es.map fun e => (if S e.1 then 1 else 0) + (match far g e with | some v => if S v then 1 else 0 | none => 0)).sum := by
  induction es with
  | nil => simp [totalEnds]
  | cons e es ih =>
    have ih := ih (fun e he => hes e (List.mem_cons_of_mem _ he)) (fun e he => hF e (List.mem_cons_of_mem _ he))
    simp only [totalEnds_cons, Finset.sum_add_distrib, List.map_cons, List.sum_cons, ih]
    congr 1
    obtain ⟨n, hn⟩ := Option.isSome_iff_exists.1 (hes e (by simp))
    have hF' := hF e (by simp)
    simp only [far, hn] at hF'
    simp only [slotEnds, hn, far, Finset.sum_add_distrib]
    congr 1
    · rw [Finset.sum_ite_eq]
      simp [hF'.1]
    · cases ht : n.target with
      | none => simp
      | some v =>
        have := hF'.2 v ht
        simp only [Option.some.injEq]
        rw [Finset.sum_ite_eq]
        simp [this]

/-- An odd set of nodes is left by some edge of the correction. -/
theorem exists_crossing {g : MGraph} {T : Finset Nat} {es : List Slot} (hc : Corrects g T es) (S : Nat → Prop) [DecidablePred S]
    (hodd : (T.filter S).card % 2 = 1) :
    ∃ e ∈ es, (S e.1 ∧ ¬ ∃ v, far g e = some v ∧ S v) ∨ (¬ S e.1 ∧ ∃ v, far g e = some v ∧ S v) := by
  by_contra hno
  push Not at hno
  let F : Finset Nat := T ∪ (es.map (·.1)).toFinset ∪ (es.filterMap (far g)).toFinset
  have h := crossings S es hc.1 F (fun e he => ⟨by
    simp only [F, Finset.mem_union, List.mem_toFinset, List.mem_map]; left; right; exact ⟨e, he, rfl⟩, fun v hv => by
    simp only [F, Finset.mem_union, List.mem_toFinset, List.mem_filterMap]; right; exact ⟨e, he, hv⟩⟩)
  have h1 : (∑ x ∈ F with S x, totalEnds g x es) % 2 = (T.filter S).card % 2 := by
    have : ((T.filter S).card : Nat) = ∑ x ∈ F with S x, (if x ∈ T then 1 else 0) := by
      rw [Finset.sum_ite_mem, Finset.sum_const, nsmul_eq_mul, mul_one, Nat.cast_id]
      congr 1
      ext x
      simp only [Finset.mem_filter, Finset.mem_inter]
      exact ⟨fun h => ⟨⟨by simp [F, h.1], h.2⟩, h.1⟩, fun h => ⟨h.2, h.1.2⟩⟩
    rw [this, Finset.sum_nat_mod, Finset.sum_nat_mod (f := fun x => if x ∈ T then 1 else 0)]
    congr 1
    refine Finset.sum_congr rfl fun x _ => ?_
    have := hc.2 x
    by_cases hx : x ∈ T
    · simp [hx, this.1 hx]
    · have : totalEnds g x es % 2 ≠ 1 := fun hh => hx (this.2 hh)
      simp only [hx, if_false]
      omega
  have h2 : (es.map fun e => (if S e.1 then 1 else 0) + (match far g e with | some v => if S v then 1 else 0 | none => 0)).sum % 2
      = 0 := by
    clear h h1
    clear_value F
    have hes := hc.1
    clear hc hodd
    induction es with
    | nil => rfl
    | cons e es ih =>
      have ih := ih (fun e he => hno e (List.mem_cons_of_mem _ he)) (fun e he => hes e (List.mem_cons_of_mem _ he))
      rw [List.map_cons, List.sum_cons]
      have hne := hno e (by simp)
      by_cases hs : S e.1
      · obtain ⟨v, hv, hsv⟩ := hne.1 hs
        simp only [hs, hv, hsv, if_true]
        omega
      · have := hne.2 hs
        cases hf : far g e with
        | none => simp only [hs, if_false]; omega
        | some v =>
          have := this v hf
          simp only [hs, this, if_false]; omega
  rw [← h] at h2
  omega

theorem abs_levels (Y : Nat) (a b : Int) (ha : 0 ≤ a) (haY : a ≤ Y) (hb : 0 ≤ b) (hbY : b ≤ Y) :
    |a - b| = ∑ k ∈ Finset.range Y, (if ((k : Int) < a ∧ ¬ (k : Int) < b) ∨ (¬ (k : Int) < a ∧ (k : Int) < b) then (1 : Int) else 0) := by
  wlog hab : b ≤ a generalizing a b with H
  · rw [abs_sub_comm, H b a hb hbY ha haY (by omega)]
    exact Finset.sum_congr rfl fun k _ => by congr 1; simp only [eq_iff_iff]; tauto
  rw [abs_of_nonneg (by omega), Finset.sum_ite, Finset.sum_const_zero, add_zero, Finset.sum_const, nsmul_eq_mul, mul_one]
  have : (Finset.range Y).filter (fun k : Nat => ((k : Int) < a ∧ ¬ (k : Int) < b) ∨ (¬ (k : Int) < a ∧ (k : Int) < b)) =
      Finset.Ico b.toNat a.toNat := by
    ext k
    simp only [Finset.mem_filter, Finset.mem_range, Finset.mem_Ico]
    omega
  rw [this, Nat.card_Ico]
  omega

/-- One potential: the correction pays at least `Y`. -/
theorem pays {g : MGraph} {T : Finset Nat} {es : List Slot} (hc : Corrects g T es) (p : Option Nat → Int) (Y : Nat)
    (h0 : p none = 0) (hp : ∀ u, 0 ≤ p u ∧ p u ≤ Y) (hT : ∀ a ∈ T, p (some a) = 0 ∨ p (some a) = Y)
    (hodd : (T.filter fun a => p (some a) = Y).card % 2 = 1) :
    (Y : Int) ≤ (es.map fun e => |p (some e.1) - p (far g e)|).sum := by
  have h1 : (es.map fun e => |p (some e.1) - p (far g e)|).sum = ∑ k ∈ Finset.range Y,
      (es.map fun e => if ((k : Int) < p (some e.1) ∧ ¬ (k : Int) < p (far g e)) ∨
        (¬ (k : Int) < p (some e.1) ∧ (k : Int) < p (far g e)) then (1 : Int) else 0).sum := by
    clear hc
    induction es with
    | nil => simp
    | cons e es ih =>
      simp only [List.map_cons, List.sum_cons, Finset.sum_add_distrib, ih]
      rw [abs_levels Y _ _ (hp _).1 (hp _).2 (hp _).1 (hp _).2]
  rw [h1]
  have h2 : ∀ k ∈ Finset.range Y, (1 : Int) ≤ (es.map fun e => if ((k : Int) < p (some e.1) ∧ ¬ (k : Int) < p (far g e)) ∨
        (¬ (k : Int) < p (some e.1) ∧ (k : Int) < p (far g e)) then (1 : Int) else 0).sum := by
    intro k hk
    rw [Finset.mem_range] at hk
    obtain ⟨e, he, hcr⟩ := exists_crossing hc (fun x => (k : Int) < p (some x)) (by
      rw [← hodd]
      congr 2
      ext a
      simp only [Finset.mem_filter, and_congr_right_iff]
      intro ha
      rcases hT a ha with h | h <;> rw [h] <;> omega)
    have hone : (if ((k : Int) < p (some e.1) ∧ ¬ (k : Int) < p (far g e)) ∨
        (¬ (k : Int) < p (some e.1) ∧ (k : Int) < p (far g e)) then (1 : Int) else 0) = 1 := by
      rw [if_pos]
      rcases hcr with ⟨a1, a2⟩ | ⟨a1, v, hv, a2⟩
      · left
        refine ⟨a1, fun hh => ?_⟩
        cases hf : far g e with
        | none => rw [hf, h0] at hh; omega
        | some v => rw [hf] at hh; exact a2 ⟨v, hf, hh⟩
      · right
        rw [hv]
        exact ⟨a1, a2⟩
    refine le_trans (le_of_eq hone.symm) (List.single_le_sum ?_ _ (List.mem_map.2 ⟨e, he, rfl⟩))
    intro x hx
    obtain ⟨e', -, rfl⟩ := List.mem_map.1 hx
    split <;> omega
  calc (Y : Int) = ∑ k ∈ Finset.range Y, (1 : Int) := by simp
    _ ≤ _ := Finset.sum_le_sum h2

/-- Feasible potentials bound the weight of every correction. -/
theorem certificate {g : MGraph} {L : Finset Nat} {p : Nat → Option Nat → Int} {y : Nat → Int} {T : Finset Nat}
    (h0 : ∀ R ∈ L, p R none = 0) (hp : ∀ R ∈ L, ∀ u, 0 ≤ p R u ∧ p R u ≤ y R)
    (hT : ∀ R ∈ L, ∀ a ∈ T, p R (some a) = 0 ∨ p R (some a) = y R)
    (hodd : ∀ R ∈ L, 0 < y R → (T.filter fun a => p R (some a) = y R).card % 2 = 1)
    (hf : ∀ u i n, entry g (u, i) = some n → dist L p (some u) n.target ≤ n.weight) {es : List Slot} (hc : Corrects g T es) :
    ∑ R ∈ L, y R ≤ totalWeight g es := by
  have h1 : ∀ R ∈ L, y R ≤ (es.map fun e => |p R (some e.1) - p R (far g e)|).sum := by
    intro R hR
    have hy0 : 0 ≤ y R := le_trans (hp R hR none).1 (hp R hR none).2
    by_cases hy : 0 < y R
    · have e : ((y R).toNat : Int) = y R := by omega
      have := pays hc (p R) (y R).toNat (h0 R hR) (by rw [e]; exact hp R hR) (by rw [e]; exact hT R hR) (by
        rw [e]; exact hodd R hR hy)
      rw [e] at this
      exact this
    · have : y R = 0 := by omega
      rw [this]
      refine List.sum_nonneg fun x hx => ?_
      obtain ⟨e, -, rfl⟩ := List.mem_map.1 hx
      exact abs_nonneg _
  refine le_trans (Finset.sum_le_sum h1) ?_
  have hes := hc.1
  clear hc h1 hodd hT
  induction es with
  | nil => simp [totalWeight]
  | cons e es ih =>
    simp only [List.map_cons, List.sum_cons, Finset.sum_add_distrib, totalWeight_cons]
    have ih := ih (fun e he => hes e (List.mem_cons_of_mem _ he))
    obtain ⟨n, hn⟩ := Option.isSome_iff_exists.1 (hes e (by simp))
    have := hf e.1 e.2 n hn
    rw [slotWeight_eq hn]
    have hfar : far g e = n.target := by simp [far, hn]
    rw [hfar]
    unfold dist at this
    omega

end Verif.SB
