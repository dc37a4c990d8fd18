import Verif.Syndrome
import Mathlib.Data.List.Sort
import Mathlib.Tactic.Ring
import Mathlib.Tactic.Linarith

/-!
# Syndrome arrays (C37)
-/

namespace Verif.Props.Syndrome

open Verif.Syn

theorem mem_nonzero (z : List Nat) (i : Nat) : i ∈ nonzero z ↔ ∃ x, z[i]? = some x ∧ x ≠ 0 := by
  unfold nonzero
  simp only [List.mem_map, List.mem_filter, decide_eq_true_eq, Prod.exists, exists_eq_right]
  constructor
  · rintro ⟨a, h1, h2⟩
    rw [List.mem_zipIdx_iff_getElem?] at h1
    exact ⟨a, h1, h2⟩
  · rintro ⟨a, h1, h2⟩
    exact ⟨a, by rw [List.mem_zipIdx_iff_getElem?]; exact h1, h2⟩

/-- C37 (one dimension).  A syndrome is accepted iff its length is between the number of detectors and the number of nodes,
and then the events are exactly the positions of its non-zero entries, each once, in increasing order. -/
theorem C37_one_dim (nd nb : Nat) (z : List Nat) :
    (toEvents nd nb (.d1 z) = none ↔ ¬ (nd ≤ z.length ∧ z.length ≤ nd + nb)) ∧
    ∀ ev, toEvents nd nb (.d1 z) = some ev →
      ev.Pairwise (· < ·) ∧ ∀ i, i ∈ ev ↔ ∃ x, z[i]? = some x ∧ x ≠ 0 := by
  simp only [toEvents]
  split
  · rename_i h
    refine ⟨by simp [h], ?_⟩
    rintro ev ⟨⟩
    refine ⟨?_, mem_nonzero z⟩
    unfold nonzero
    rw [List.pairwise_map]
    refine List.Pairwise.filter _ ?_
    rw [← List.pairwise_map (f := fun x : Nat × Nat => x.2) (R := (· < ·)), List.zipIdx_map_snd]
    exact List.pairwise_lt_range'
  · rename_i h
    exact ⟨by simp [h], by simp⟩

theorem mem_nonzero2 (r c : Nat) (z : Nat → Nat → Nat) (k : Nat) :
    k ∈ nonzero2 r c z ↔ ∃ i j, i < r ∧ j < c ∧ z i j ≠ 0 ∧ k = j * r + i := by
  unfold nonzero2
  simp only [List.mem_flatMap, List.mem_range, List.mem_map, List.mem_filter, decide_eq_true_eq]
  constructor
  · rintro ⟨j, hj, i, ⟨hi, hz⟩, rfl⟩
    exact ⟨i, j, hi, hj, hz, rfl⟩
  · rintro ⟨i, j, hi, hj, hz, rfl⟩
    exact ⟨j, hj, i, ⟨hi, hz⟩, rfl⟩

/-- C37 (two dimensions).  A syndrome with `r` rows and `c` columns is accepted iff `r * c` is the number of detectors; then
the events are exactly the numbers `j * r + i` for the non-zero entries `(i, j)`, each once, in increasing order, and all are
detectors. -/
theorem C37_two_dim (nd nb r c : Nat) (z : Nat → Nat → Nat) :
    (toEvents nd nb (.d2 r c z) = none ↔ r * c ≠ nd) ∧
    ∀ ev, toEvents nd nb (.d2 r c z) = some ev →
      ev.Pairwise (· < ·) ∧ (∀ k ∈ ev, k < nd) ∧ ∀ i j, i < r → j < c → (j * r + i ∈ ev ↔ z i j ≠ 0) := by
  simp only [toEvents]
  split
  · rename_i h
    refine ⟨by simp [h], ?_⟩
    rintro ev ⟨⟩
    refine ⟨?_, ?_, ?_⟩
    · unfold nonzero2
      rw [List.pairwise_flatMap]
      constructor
      · intro t _
        rw [List.pairwise_map]
        refine List.Pairwise.imp ?_ (List.Pairwise.filter _ List.pairwise_lt_range)
        intro a b hab
        omega
      · refine List.Pairwise.imp ?_ List.pairwise_lt_range
        intro t t' htt x hx y hy
        simp only [List.mem_map, List.mem_filter, List.mem_range] at hx hy
        obtain ⟨i, ⟨hi, -⟩, rfl⟩ := hx
        obtain ⟨i', -, rfl⟩ := hy
        have : (t + 1) * r ≤ t' * r := Nat.mul_le_mul_right r htt
        nlinarith
    · intro k hk
      obtain ⟨i, j, hi, hj, -, rfl⟩ := (mem_nonzero2 r c z k).1 hk
      have : (j + 1) * r ≤ c * r := Nat.mul_le_mul_right r hj
      rw [← h]
      nlinarith
    · intro i j hi hj
      rw [mem_nonzero2]
      constructor
      · rintro ⟨i', j', hi', hj', hz, he⟩
        have hr : 0 < r := by omega
        have hmod : i = i' := by
          have := congrArg (· % r) he
          simpa [Nat.mul_add_mod', Nat.mod_eq_of_lt hi, Nat.mod_eq_of_lt hi'] using this
        have hdiv : j = j' := by
          subst hmod
          have : j * r = j' * r := by omega
          exact Nat.eq_of_mul_eq_mul_right hr this
        rw [hmod, hdiv]
        exact hz
      · intro hz
        exact ⟨i, j, hi, hj, hz, rfl⟩
  · rename_i h
    exact ⟨by simp [h], by simp⟩

/-- C37 (one to one).  Two syndromes of the same shape with the same events agree on which entries are non-zero. -/
theorem C37_injective (nd nb : Nat) :
    (∀ z z' ev, z.length = z'.length → toEvents nd nb (.d1 z) = some ev → toEvents nd nb (.d1 z') = some ev →
      ∀ i (h : i < z.length) (h' : i < z'.length), z[i] = 0 ↔ z'[i] = 0) ∧
    (∀ r c z z' ev, toEvents nd nb (.d2 r c z) = some ev → toEvents nd nb (.d2 r c z') = some ev →
      ∀ i j, i < r → j < c → (z i j = 0 ↔ z' i j = 0)) := by
  constructor
  · intro z z' ev hl h1 h2 i hi hi'
    have m1 := ((C37_one_dim nd nb z).2 ev h1).2 i
    have m2 := ((C37_one_dim nd nb z').2 ev h2).2 i
    rw [List.getElem?_eq_getElem hi] at m1
    rw [List.getElem?_eq_getElem hi'] at m2
    simp only [Option.some.injEq, exists_eq_left'] at m1 m2
    rw [← not_iff_not]
    exact m1.symm.trans m2
  · intro r c z z' ev h1 h2 i j hi hj
    have m1 := ((C37_two_dim nd nb r c z).2 ev h1).2.2 i j hi hj
    have m2 := ((C37_two_dim nd nb r c z').2 ev h2).2.2 i j hi hj
    rw [← not_iff_not]
    exact m1.symm.trans m2

/-- C37 (other shapes).  Anything else is rejected. -/
theorem C37_rejected (nd nb : Nat) : toEvents nd nb .other = none := rfl

example : toEvents 6 1 (.d2 2 3 fun i j => if (i, j) = (1, 2) ∨ (i, j) = (0, 1) then 1 else 0) = some [2, 5] := by decide
example : toEvents 3 1 (.d1 [0, 1, 0, 2]) = some [1, 3] ∧ toEvents 3 0 (.d1 [0, 1, 0, 2]) = none := by decide

end Verif.Props.Syndrome
