import Mathlib.Analysis.SpecialFunctions.Log.Basic

/-!
# Merging log-likelihood weights

Models `pm::merge_weights` (`/repo/src/pymatching/sparse_blossom/driver/user_graph.cc:33-37`) and
`to_weight_for_correlations` / `std::log((1 - p) / p)` (user_graph.cc:29-31, 336, 338) over the real numbers
(the code uses `double`; rounding, infinities and the sign of zero are not modelled).
-/

namespace Verif.MW

noncomputable section

/-- `std::copysign(1, a)` for `a` a real number (`copysign(1, +0.0) = 1`). -/
def sgn (a : ℝ) : ℝ := if a < 0 then -1 else 1

/-- `pm::merge_weights` (user_graph.cc:33-37). -/
def mergeWeights (a b : ℝ) : ℝ :=
  let s := sgn a * sgn b
  let signedMin := s * min |a| |b|
  signedMin + Real.log (1 + Real.exp (-|a + b|)) - Real.log (1 + Real.exp (-|a - b|))

/-- `std::log((1 - p) / p)` (user_graph.cc:29-31). -/
def toWeight (p : ℝ) : ℝ := Real.log ((1 - p) / p)

theorem log_one_add_exp_neg_abs (x : ℝ) : Real.log (1 + Real.exp (-|x|)) = Real.log (1 + Real.exp x) - max x 0 := by
  rcases le_or_gt 0 x with h | h
  · rw [abs_of_nonneg h, max_eq_left h]
    have : 1 + Real.exp (-x) = (1 + Real.exp x) / Real.exp x := by
      rw [Real.exp_neg, add_div, div_self (Real.exp_ne_zero x), one_div, add_comm]
    rw [this, Real.log_div (by positivity) (Real.exp_ne_zero x), Real.log_exp]
  · rw [abs_of_neg h, max_eq_right h.le, neg_neg, sub_zero]

theorem signedMin_eq (a b : ℝ) : sgn a * sgn b * min |a| |b| = max (a + b) 0 - max a b := by
  unfold sgn
  rcases lt_or_ge a 0 with ha | ha <;> rcases lt_or_ge b 0 with hb | hb
  · rw [if_pos ha, if_pos hb, abs_of_neg ha, abs_of_neg hb, max_eq_right (by linarith)]
    rcases le_total a b with h | h
    · rw [min_eq_right (by linarith), max_eq_right h]; ring
    · rw [min_eq_left (by linarith), max_eq_left h]; ring
  · rw [if_pos ha, if_neg (not_lt.2 hb), abs_of_neg ha, abs_of_nonneg hb, max_eq_right (a := a) (by linarith)]
    rcases le_total 0 (a + b) with h | h
    · rw [max_eq_left h, min_eq_left (by linarith)]; ring
    · rw [max_eq_right h, min_eq_right (by linarith)]; ring
  · rw [if_neg (not_lt.2 ha), if_pos hb, abs_of_nonneg ha, abs_of_neg hb, max_eq_left (b := b) (by linarith)]
    rcases le_total 0 (a + b) with h | h
    · rw [max_eq_left h, min_eq_right (by linarith)]; ring
    · rw [max_eq_right h, min_eq_left (by linarith)]; ring
  · rw [if_neg (not_lt.2 ha), if_neg (not_lt.2 hb), abs_of_nonneg ha, abs_of_nonneg hb, max_eq_left (b := 0) (by linarith)]
    rcases le_total a b with h | h
    · rw [min_eq_left h, max_eq_right h]; ring
    · rw [min_eq_right h, max_eq_left h]; ring

/-- The merged weight in closed form. -/
theorem mergeWeights_eq (a b : ℝ) :
    mergeWeights a b = Real.log ((1 + Real.exp (a + b)) / (Real.exp a + Real.exp b)) := by
  have h1 : Real.log (1 + Real.exp (a - b)) = Real.log (Real.exp a + Real.exp b) - b := by
    have : 1 + Real.exp (a - b) = (Real.exp a + Real.exp b) / Real.exp b := by
      rw [Real.exp_sub, add_div, div_self (Real.exp_ne_zero b), add_comm]
    rw [this, Real.log_div (by positivity) (Real.exp_ne_zero b), Real.log_exp]
  have h2 : max (a - b) 0 = max a b - b := by
    rcases le_total a b with h | h
    · rw [max_eq_right h, max_eq_right (by linarith)]; ring
    · rw [max_eq_left h, max_eq_left (by linarith)]
  unfold mergeWeights
  simp only
  rw [signedMin_eq, log_one_add_exp_neg_abs, log_one_add_exp_neg_abs, h1, h2, Real.log_div (by positivity) (by positivity)]
  ring

/-- `1 - 2 p` as a function of the weight. -/
def bias (w : ℝ) : ℝ := (Real.exp w - 1) / (Real.exp w + 1)

theorem bias_merge (a b : ℝ) : bias (mergeWeights a b) = bias a * bias b := by
  unfold bias
  have : Real.exp (mergeWeights a b) = (1 + Real.exp (a + b)) / (Real.exp a + Real.exp b) := by
    rw [mergeWeights_eq, Real.exp_log (by positivity)]
  rw [this, Real.exp_add]
  have ha := Real.exp_pos a
  have hb := Real.exp_pos b
  generalize Real.exp a = x at *
  generalize Real.exp b = y at *
  have h1 : x + y ≠ 0 := by positivity
  have h2 : x + 1 ≠ 0 := by positivity
  have h3 : y + 1 ≠ 0 := by positivity
  have h4 : 1 + x * y + (x + y) ≠ 0 := by positivity
  field_simp
  ring

theorem bias_strictMono : StrictMono bias := by
  intro a b h
  unfold bias
  have h1 := Real.exp_lt_exp.2 h
  have ha := Real.exp_pos a
  have hb := Real.exp_pos b
  rw [div_lt_div_iff₀ (by positivity) (by positivity)]
  nlinarith

theorem bias_toWeight (p : ℝ) (h0 : 0 < p) (h1 : p < 1) : bias (toWeight p) = 1 - 2 * p := by
  unfold bias toWeight
  rw [Real.exp_log (div_pos (by linarith) h0)]
  have : p ≠ 0 := h0.ne'
  field_simp
  ring

theorem bias_neg (a : ℝ) : bias (-a) = - bias a := by
  unfold bias
  rw [Real.exp_neg]
  have ha := Real.exp_pos a
  generalize Real.exp a = x at *
  have h2 : x + 1 ≠ 0 := by positivity
  have h3 : 1 + x ≠ 0 := by positivity
  have h4 : x ≠ 0 := ha.ne'
  field_simp
  ring

theorem bias_abs (a : ℝ) : bias |a| = |bias a| := by
  have h0 : bias 0 = 0 := by simp [bias]
  rcases le_or_gt 0 a with h | h
  · rw [abs_of_nonneg h, abs_of_nonneg]
    rw [← h0]; exact bias_strictMono.monotone h
  · have : bias a < 0 := by rw [← h0]; exact bias_strictMono h
    rw [abs_of_neg h, abs_of_neg this, bias_neg]

theorem abs_bias_le_one (a : ℝ) : |bias a| ≤ 1 := by
  unfold bias
  have ha := Real.exp_pos a
  rw [abs_le]
  constructor
  · rw [le_div_iff₀ (by positivity)]; linarith
  · rw [div_le_iff₀ (by positivity)]; linarith

end

end Verif.MW
