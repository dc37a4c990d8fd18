import Verif.Spec.Matching
import Mathlib.Algebra.BigOperators.Group.Finset.Basic
import Mathlib.Algebra.BigOperators.Group.Finset.Piecewise
import Mathlib.Algebra.Order.BigOperators.Group.Finset
import Mathlib.Algebra.Order.Group.Unbundled.Abs
import Mathlib.Algebra.Order.Group.Abs
import Mathlib.Algebra.Order.Group.Int
import Mathlib.Tactic.Linarith
import Mathlib.Tactic.Ring

/-!
# Walks, and the distance given by a family of potentials
-/

namespace Verif.SB

open Verif Verif.Graph Verif.Spec Verif.CE

/-! ## Walks -/

theorem totalWeight_nil (g : MGraph) : totalWeight g [] = 0 := rfl
theorem totalWeight_cons (g : MGraph) (e : Slot) (es : List Slot) :
    totalWeight g (e :: es) = slotWeight g e + totalWeight g es := by simp [totalWeight]
theorem totalWeight_append (g : MGraph) (es fs : List Slot) :
    totalWeight g (es ++ fs) = totalWeight g es + totalWeight g fs := by simp [totalWeight]
theorem totalObs_append (g : MGraph) (es fs : List Slot) : totalObs g (es ++ fs) = totalObs g es ^^^ totalObs g fs := by
  induction es with
  | nil => simp [totalObs]
  | cons e es ih => simp [totalObs, ih, BitVec.xor_assoc]
theorem totalEnds_append (g : MGraph) (x : Nat) (es fs : List Slot) :
    totalEnds g x (es ++ fs) = totalEnds g x es + totalEnds g x fs := by simp [totalEnds]
theorem totalEnds_cons (g : MGraph) (x : Nat) (e : Slot) (es : List Slot) :
    totalEnds g x (e :: es) = slotEnds g x e + totalEnds g x es := by simp [totalEnds]

theorem slotWeight_eq {g : MGraph} {e : Slot} {n : Nbr} (h : entry g e = some n) : slotWeight g e = n.weight := by
  simp [slotWeight, h]
theorem slotObs_eq {g : MGraph} {e : Slot} {n : Nbr} (h : entry g e = some n) : slotObs g e = n.obs := by
  simp [slotObs, h]

theorem walk_append {g : MGraph} {u v : Nat} {t : Option Nat} {es fs : List Slot} (h1 : Walk g u (some v) es)
    (h2 : Walk g v t fs) : Walk g u t (es ++ fs) := by
  generalize hx : (some v : Option Nat) = x at h1
  induction h1 with
  | here u => cases hx; exact h2
  | step h hv w ih => exact .step h hv (ih hx)
  | exit h hv => cases hx

theorem walk_reverse {g : MGraph} (hg : Proper g) {u v : Nat} {es : List Slot} (h : Walk g u (some v) es) :
    ∃ fs, Walk g v (some u) fs ∧ totalWeight g fs = totalWeight g es ∧ totalObs g fs = totalObs g es := by
  generalize hx : (some v : Option Nat) = x at h
  induction h with
  | here u => cases hx; exact ⟨[], .here _, rfl, rfl⟩
  | @step u i w n t es h hv _ ih =>
    obtain ⟨fs, f1, f2, f3⟩ := ih hx
    obtain ⟨-, j, n', e1, e2, e3, e4⟩ := hg.sym u i n w h hv
    refine ⟨fs ++ [(w, j)], walk_append f1 (.step e1 e2 (.here u)), ?_, ?_⟩
    · rw [totalWeight_append, totalWeight_cons, totalWeight_cons, f2, slotWeight_eq e1, slotWeight_eq h, e3, totalWeight_nil]
      ring
    · rw [totalObs_append, f3]
      simp only [totalObs, slotObs_eq e1, slotObs_eq h, e4]
      rw [BitVec.xor_comm]; simp
  | exit h hv => cases hx

theorem walk_even {g : MGraph} (hg : Proper g) {u : Nat} {t : Option Nat} {es : List Slot} (h : Walk g u t es) :
    totalWeight g es % 2 = 0 := by
  induction h with
  | here u => rfl
  | @step u i w n t es h hv _ ih =>
    have := hg.even u i n h
    rw [totalWeight_cons, slotWeight_eq h]; omega
  | @exit u i n h hv =>
    have := hg.even u i n h
    rw [totalWeight_cons, slotWeight_eq h, totalWeight_nil]; omega

theorem walk_slots {g : MGraph} {u : Nat} {t : Option Nat} {es : List Slot} (h : Walk g u t es) :
    ∀ e ∈ es, (entry g e).isSome := by
  induction h with
  | here u => simp
  | step h hv _ ih =>
    intro e he
    rcases List.mem_cons.1 he with rfl | he
    · simp [h]
    · exact ih e he
  | exit h hv =>
    intro e he
    rw [List.mem_singleton] at he
    simp [he, h]

/-- A walk touches exactly its ends an odd number of times. -/
theorem walk_ends {g : MGraph} {u : Nat} {t : Option Nat} {es : List Slot} (h : Walk g u t es) (x : Nat) :
    totalEnds g x es % 2 = ((if u = x then 1 else 0) + (if t = some x then 1 else 0)) % 2 := by
  induction h with
  | here u =>
    simp only [totalEnds, List.map_nil, List.sum_nil, Option.some.injEq]
    split <;> rfl
  | @step u i v n t es h hv _ ih =>
    rw [totalEnds_cons]
    have : slotEnds g x (u, i) = (if u = x then 1 else 0) + (if v = x then 1 else 0) := by simp [slotEnds, h, hv]
    rw [this]
    omega
  | @exit u i n h hv =>
    have : slotEnds g x (u, i) = (if u = x then 1 else 0) + 0 := by simp [slotEnds, h, hv]
    simp [totalEnds, this]

/-! ## The distance of a family of potentials -/

/-- Distance of two places (`none`: the boundary), given the potentials `p R` of the members `R` of `L`. -/
def dist (L : Finset Nat) (p : Nat → Option Nat → Int) (u v : Option Nat) : Int := ∑ R ∈ L, |p R u - p R v|

section
variable {L : Finset Nat} {p q : Nat → Option Nat → Int}

theorem dist_self (u : Option Nat) : dist L p u u = 0 := by simp [dist]

theorem dist_comm (u v : Option Nat) : dist L p u v = dist L p v u := Finset.sum_congr rfl fun _ _ => abs_sub_comm _ _

theorem dist_nonneg (u v : Option Nat) : 0 ≤ dist L p u v := Finset.sum_nonneg fun _ _ => abs_nonneg _

theorem dist_triangle (u v w : Option Nat) : dist L p u w ≤ dist L p u v + dist L p v w := by
  unfold dist
  rw [← Finset.sum_add_distrib]
  exact Finset.sum_le_sum fun R _ => abs_sub_le _ _ _

theorem dist_congr (h : ∀ R ∈ L, ∀ u, p R u = q R u) (u v : Option Nat) : dist L p u v = dist L q u v :=
  Finset.sum_congr rfl fun R hR => by rw [h R hR, h R hR]

theorem dist_insert {B : Nat} (hB : B ∉ L) (h0 : ∀ u, q B u = 0) (h : ∀ R ∈ L, ∀ u, q R u = p R u) (u v : Option Nat) :
    dist (insert B L) q u v = dist L p u v := by
  unfold dist
  rw [Finset.sum_insert hB, h0, h0]
  simp only [sub_self, abs_zero, zero_add]
  exact Finset.sum_congr rfl fun R hR => by rw [h R hR, h R hR]

theorem dist_erase {B : Nat} (h0 : ∀ u, p B u = 0) (h : ∀ R ∈ L, R ≠ B → ∀ u, q R u = p R u) (u v : Option Nat) :
    dist (L.erase B) q u v = dist L p u v := by
  by_cases hB : B ∈ L
  · have := dist_insert (L := L.erase B) (p := q) (q := p) (B := B) (by simp) h0
      (fun R hR u => (h R (Finset.mem_of_mem_erase hR) (Finset.ne_of_mem_erase hR) u).symm) u v
    rw [Finset.insert_erase hB] at this
    exact this.symm
  · rw [Finset.erase_eq_of_notMem hB]
    exact dist_congr (fun R hR => h R hR (fun e => hB (e ▸ hR))) u v

/-- Distance to the boundary. -/
theorem dist_none (h0 : ∀ R ∈ L, p R none = 0) (hp : ∀ R ∈ L, ∀ u, 0 ≤ p R u) (u : Option Nat) :
    dist L p u none = ∑ R ∈ L, p R u :=
  Finset.sum_congr rfl fun R hR => by rw [h0 R hR, sub_zero, abs_of_nonneg (hp R hR u)]

/-- Places without a common potential: the distances to the boundary add up. -/
theorem dist_apart (h0 : ∀ R ∈ L, p R none = 0) (hp : ∀ R ∈ L, ∀ u, 0 ≤ p R u) {u v : Option Nat}
    (h : ∀ R ∈ L, p R u = 0 ∨ p R v = 0) : dist L p u v = dist L p u none + dist L p v none := by
  rw [dist_none h0 hp, dist_none h0 hp, ← Finset.sum_add_distrib]
  refine Finset.sum_congr rfl fun R hR => ?_
  rcases h R hR with h | h
  · rw [h, zero_sub, abs_neg, abs_of_nonneg (hp R hR v), zero_add]
  · rw [h, sub_zero, abs_of_nonneg (hp R hR u), add_zero]

/-- A place inside: the distances to the boundary are subtracted. -/
theorem dist_inside (h0 : ∀ R ∈ L, p R none = 0) (hp : ∀ R ∈ L, ∀ u, 0 ≤ p R u) {u v : Option Nat}
    (h : ∀ R ∈ L, p R v ≤ p R u) : dist L p u v = dist L p u none - dist L p v none := by
  rw [dist_none h0 hp, dist_none h0 hp, ← Finset.sum_sub_distrib]
  exact Finset.sum_congr rfl fun R hR => abs_of_nonneg (by have := h R hR; omega)

theorem dist_parity (u v : Option Nat) : (dist L p u v - dist L p u none - dist L p v none) % 2 = 0 := by
  unfold dist
  induction L using Finset.induction_on with
  | empty => rfl
  | insert a s ha ih =>
    rw [Finset.sum_insert ha, Finset.sum_insert ha, Finset.sum_insert ha]
    have h : ∀ x : Int, |x| % 2 = x % 2 := fun x => by
      rcases abs_choice x with h | h <;> rw [h]
      omega
    have h1 := h (p a u - p a v)
    have h2 := h (p a u - p a none)
    have h3 := h (p a v - p a none)
    omega

theorem dist_le_walk {g : MGraph}
    (hf : ∀ u i n, entry g (u, i) = some n → dist L p (some u) n.target ≤ n.weight) {u : Nat} {t : Option Nat} {es : List Slot}
    (h : Walk g u t es) : dist L p (some u) t ≤ totalWeight g es := by
  induction h with
  | here u => rw [dist_self]; rfl
  | @step u i v n t es h hv _ ih =>
    have h1 := hf u i n h
    rw [hv] at h1
    have := dist_triangle (L := L) (p := p) (some u) (some v) t
    rw [totalWeight_cons, slotWeight_eq h]
    omega
  | @exit u i n h hv =>
    have h1 := hf u i n h
    rw [hv] at h1
    rw [totalWeight_cons, slotWeight_eq h, totalWeight_nil]
    omega

end

end Verif.SB
