import Verif.Props.Graph
import Mathlib.Algebra.BigOperators.Fin
import Mathlib.Algebra.BigOperators.Ring.Finset
import Mathlib.Algebra.Order.Group.Unbundled.Int
import Mathlib.Algebra.Order.BigOperators.Group.Finset
import Mathlib.Tactic.Ring

/-!
# Property of negative edge weights (C14)

The decoder is given a problem with edge weights of either sign.  It stores absolute values, and changes syndrome,
observables and weight by the precomputed contribution of all negative edges (`negDets`, `negObs`, `negSum`).
-/

namespace Verif.Props.NegWeights

open Verif.Graph Verif.Props.Graph

/-! ## Specification: corrections -/

/-- A correction is a set of inserted edges (by position, so parallel edges and self-loops are distinguished). -/
abbrev Correction (ops : List EdgeIns) := Finset (Fin ops.length)

/-- Number of chosen edge ends at detector `x`. -/
def degree {ops : List EdgeIns} (c : Correction ops) (x : Nat) : Nat := ∑ i ∈ c, (ops[i]).incidence x

/-- Number of times observable `k` is crossed. -/
def crossed {ops : List EdgeIns} (c : Correction ops) (k : Nat) : Nat := ∑ i ∈ c, (ops[i]).obs.count k

/-- Total signed weight. -/
def weight {ops : List EdgeIns} (c : Correction ops) : Int := ∑ i ∈ c, (ops[i]).w

/-- Total absolute weight (the weights that the decoding graph stores). -/
def absWeight {ops : List EdgeIns} (c : Correction ops) : Int := ∑ i ∈ c, |(ops[i]).w|

/-- The correction explains the syndrome `s`: its odd-degree detectors are exactly `s`. -/
def Explains {ops : List EdgeIns} (c : Correction ops) (s : Finset Nat) : Prop :=
  ∀ x, x ∈ s ↔ degree c x % 2 = 1

/-- Least weight explanation with respect to a weight function. -/
def Optimal {ops : List EdgeIns} (wt : Correction ops → Int) (c : Correction ops) (s : Finset Nat) : Prop :=
  Explains c s ∧ ∀ c', Explains c' s → wt c ≤ wt c'

/-- The negative edges. -/
def negatives (ops : List EdgeIns) : Correction ops := Finset.univ.filter fun i => (ops[i]).w < 0

/-! ## Lemmas -/

theorem sum_negatives {M : Type} [AddCommMonoid M] (ops : List EdgeIns) (f : EdgeIns → M) :
    ∑ i ∈ negatives ops, f ops[i] = ((ops.filter (·.w < 0)).map f).sum := by
  unfold negatives
  rw [Finset.sum_filter]
  have h1 : ((ops.filter (·.w < 0)).map f).sum = (ops.map (fun o => if o.w < 0 then f o else 0)).sum := by
    induction ops with
    | nil => rfl
    | cons o os ih =>
      rw [List.filter_cons]
      by_cases h : o.w < 0
      · simp [h, ih]
      · simp [h, ih]
  rw [h1, ← Fin.sum_univ_fun_getElem ops (fun o => if o.w < 0 then f o else 0)]
  rfl

theorem sum_symmDiff_mod {n : Nat} (a b : Finset (Fin n)) (f : Fin n → Nat) :
    (∑ i ∈ symmDiff a b, f i) % 2 = ((∑ i ∈ a, f i) + (∑ i ∈ b, f i)) % 2 := by
  have hd : Disjoint (a \ b) (b \ a) := disjoint_sdiff_sdiff
  have h1 : ∑ i ∈ symmDiff a b, f i = (∑ i ∈ a \ b, f i) + ∑ i ∈ b \ a, f i := by
    rw [symmDiff_def, Finset.sup_eq_union, Finset.sum_union hd]
  have h2 := Finset.sum_inter_add_sum_sdiff a b f
  have h3 := Finset.sum_inter_add_sum_sdiff b a f
  rw [Finset.inter_comm b a] at h3
  omega

theorem weight_symmDiff (ops : List EdgeIns) (c : Correction ops) :
    weight (symmDiff c (negatives ops)) = absWeight c + weight (negatives ops) := by
  set N := negatives ops with hN
  have hmem : ∀ i, i ∈ N ↔ (ops[i]).w < 0 := by intro i; simp [hN, negatives]
  unfold weight absWeight
  have hd : Disjoint (c \ N) (N \ c) := disjoint_sdiff_sdiff
  rw [symmDiff_def, Finset.sup_eq_union, Finset.sum_union hd]
  have h1 := Finset.sum_inter_add_sum_sdiff c N (fun i => |(ops[i]).w|)
  have h2 := Finset.sum_inter_add_sum_sdiff N c (fun i => (ops[i]).w)
  have h3 : ∑ i ∈ c \ N, |(ops[i]).w| = ∑ i ∈ c \ N, (ops[i]).w := by
    apply Finset.sum_congr rfl
    intro i hi
    rw [Finset.mem_sdiff, hmem] at hi
    exact abs_of_nonneg (not_lt.1 hi.2)
  have h4 : ∑ i ∈ c ∩ N, |(ops[i]).w| = - ∑ i ∈ N ∩ c, (ops[i]).w := by
    rw [Finset.inter_comm, ← Finset.sum_neg_distrib]
    apply Finset.sum_congr rfl
    intro i hi
    rw [Finset.mem_inter, hmem] at hi
    exact abs_of_neg hi.1
  omega

/-! ## C14 -/

/-- C14 (translation).  Xoring with the negative edges translates between explanations of `s` with signed weights and
explanations of `s` xor `negDets` with absolute weights; weights and observables change exactly by the precomputed
`negSum` and `negObs`. -/
theorem C14_translation (numNodes numObs : Nat) (ops : List EdgeIns) (g : MGraph)
    (h : run (MGraph.empty numNodes numObs) ops = some g) (s : Finset Nat) (c : Correction ops) :
    (Explains (symmDiff c (negatives ops)) s ↔ Explains c (symmDiff s g.negDets)) ∧
    weight (symmDiff c (negatives ops)) = absWeight c + g.negSum ∧
    ∀ k, (crossed (symmDiff c (negatives ops)) k % 2 = 1 ↔ ¬ (crossed c k % 2 = 1 ↔ k ∈ g.negObs)) := by
  obtain ⟨h1, h2, h3⟩ := C15_negative_bookkeeping numNodes numObs ops g h
  refine ⟨?_, ?_, ?_⟩
  · have key : ∀ x, (degree (symmDiff c (negatives ops)) x % 2 = 1 ↔ ¬ (degree c x % 2 = 1 ↔ x ∈ g.negDets)) := by
      intro x
      unfold degree
      rw [sum_symmDiff_mod, h1 x, ← sum_negatives ops (EdgeIns.incidence x)]
      omega
    constructor
    · intro he x
      have a := he x
      have b := key x
      rw [Finset.mem_symmDiff]
      constructor
      · rintro (⟨p, q⟩ | ⟨p, q⟩)
        · have := b.1 (a.1 p); tauto
        · have : ¬ degree (symmDiff c (negatives ops)) x % 2 = 1 := fun hh => q (a.2 hh)
          have := mt b.2 this; tauto
      · intro hd
        by_cases p : x ∈ s
        · have := b.1 (a.1 p); tauto
        · have : ¬ degree (symmDiff c (negatives ops)) x % 2 = 1 := fun hh => p (a.2 hh)
          have := mt b.2 this; tauto
    · intro he x
      have a := he x
      have b := key x
      rw [Finset.mem_symmDiff] at a
      rw [b]
      tauto
  · rw [weight_symmDiff, h3, ← sum_negatives ops EdgeIns.w]
    rfl
  · intro k
    unfold crossed
    rw [sum_symmDiff_mod, h2 k, ← sum_negatives ops (fun o => o.obs.count k)]
    omega

/-- C14 (optimality).  If `c` is a least-absolute-weight explanation of the syndrome xored with `negDets`, then `c` xor
the negative edges is a least-weight explanation of the original syndrome with the signed weights; its weight is the
absolute weight of `c` plus `negSum`, and it crosses observable `k` oddly iff exactly one of `c` does / `k` is in `negObs`. -/
theorem C14_negative_weights_optimal (numNodes numObs : Nat) (ops : List EdgeIns) (g : MGraph)
    (h : run (MGraph.empty numNodes numObs) ops = some g) (s : Finset Nat) (c : Correction ops)
    (hc : Optimal absWeight c (symmDiff s g.negDets)) :
    Optimal weight (symmDiff c (negatives ops)) s ∧
    weight (symmDiff c (negatives ops)) = absWeight c + g.negSum ∧
    ∀ k, (crossed (symmDiff c (negatives ops)) k % 2 = 1 ↔ ¬ (crossed c k % 2 = 1 ↔ k ∈ g.negObs)) := by
  obtain ⟨t1, t2, t3⟩ := C14_translation numNodes numObs ops g h s c
  refine ⟨⟨t1.2 hc.1, fun c' hc' => ?_⟩, t2, t3⟩
  obtain ⟨u1, u2, -⟩ := C14_translation numNodes numObs ops g h s (symmDiff c' (negatives ops))
  rw [symmDiff_symmDiff_cancel_right] at u1 u2
  have := hc.2 _ (u1.1 hc')
  omega

/-- Non-trivial instance: a path 0 -(-4)- 1 -(6)- boundary; syndrome `{0, 1}`.  `negDets = {0, 1}`, so the
absolute problem has the empty syndrome, solved by the empty correction; the answer is the negative edge. -/
example : ∃ g, run (MGraph.empty 2 1) [.edge 0 1 (-4) [0], .bdry 1 6 []] = some g ∧
    Optimal (ops := [.edge 0 1 (-4) [0], .bdry 1 6 []]) absWeight ∅ (symmDiff {0, 1} g.negDets) ∧
    weight (ops := [.edge 0 1 (-4) [0], .bdry 1 6 []]) (symmDiff ∅ (negatives _)) = -4 := by
  refine ⟨_, rfl, ⟨?_, ?_⟩, by decide⟩
  · have : ∀ s : Finset Nat, s = ∅ → Explains (ops := [.edge 0 1 (-4) [0], .bdry 1 6 []]) ∅ s := by
      rintro s rfl x; simp [degree]
    exact this _ (by decide)
  · intro c' _
    unfold absWeight
    simp only [Finset.sum_empty]
    exact Finset.sum_nonneg (fun i _ => abs_nonneg _)

end Verif.Props.NegWeights
