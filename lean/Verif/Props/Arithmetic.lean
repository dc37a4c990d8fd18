import Verif.DemD
import Verif.DoubleLemmas
import Verif.Props.LikelihoodD
import Mathlib.Analysis.SpecialFunctions.Log.Deriv
import Mathlib.Analysis.Complex.ExponentialBounds

/-!
# C70: the precision of the weights of a detector error model
-/

namespace Verif.Props.Arithmetic

open Verif Verif.Dbl Verif.Dem Verif.DemD Verif.Props.Dem Verif.Props.LikelihoodD
open Verif.Props.MergeWeights (llr)
open Verif.MW (mergeWeights)

/-! ## Specification -/

/-- `ex` and `ln` are within `η` of the exponential function and the logarithm, at numbers with 53 bits: an absolute error for `exp` (at negative arguments), a mixed one
for `log`. -/
structure Library (ex ln : ℚ → ℚ) (η : ℝ) : Prop where
  nonneg : 0 ≤ η
  le_one : η ≤ 1
  exp : ∀ x, rnd x = x → x ≤ 0 → 0 ≤ ex x ∧ |(ex x : ℝ) - Real.exp x| ≤ η
  log : ∀ x, rnd x = x → 0 < x → |(ln x : ℝ) - Real.log x| ≤ η * (1 + |Real.log x|)

/-! ## Lemmas -/

/-- Less than the smallest positive double. -/
theorem tiny : ((1 / 2 ^ 1075 : ℚ) : ℝ) ≤ 1 / 2 ^ 200 ∧ 0 ≤ ((1 / 2 ^ 1075 : ℚ) : ℝ) := by
  have h : (1 / 2 ^ 1075 : ℚ) ≤ 1 / 2 ^ 200 := one_div_le_one_div_of_le (by positivity) (pow_le_pow_right₀ (by norm_num) (by norm_num))
  constructor
  · have := (Rat.cast_le (K := ℝ)).2 h
    refine le_trans this ?_
    push_cast
    exact le_rfl
  · have : (0 : ℚ) ≤ 1 / 2 ^ 1075 := by positivity
    exact_mod_cast this

theorem rnd_real (x : ℚ) : |(rnd x : ℝ) - x| ≤ |(x : ℝ)| / 2 ^ 53 + 1 / 2 ^ 200 := by
  have h := (Rat.cast_le (K := ℝ)).2 (rnd_err x)
  have ht := tiny.1
  generalize (1 / 2 ^ 1075 : ℚ) = t at h ht
  push_cast at h
  linarith

theorem rnd_rnd (x : ℚ) : rnd (rnd x) = rnd x := rnd_rep (rep_rnd x)

theorem rnd_relative {x : ℚ} (hx : 1 / 2 ^ 60 ≤ x) : ∃ ε : ℝ, |ε| ≤ 1 / 2 ^ 52 ∧ (rnd x : ℝ) = x * (1 + ε) := by
  have hx' : (1 : ℝ) / 2 ^ 60 ≤ x := by
    have := (Rat.cast_le (K := ℝ)).2 hx
    push_cast at this
    exact this
  have hpos : (0 : ℝ) < x := lt_of_lt_of_le (by positivity) hx'
  refine ⟨(rnd x - x) / x, ?_, by field_simp; ring⟩
  rw [abs_div, abs_of_pos hpos, div_le_iff₀ hpos]
  have := rnd_real x
  rw [abs_of_pos hpos] at this
  have h1 : (1 : ℝ) / 2 ^ 200 ≤ x / 2 ^ 53 := by
    rw [le_div_iff₀ (by positivity)]
    refine le_trans ?_ hx'
    norm_num
  calc |(rnd x : ℝ) - x| ≤ x / 2 ^ 53 + x / 2 ^ 53 := by linarith
    _ = 1 / 2 ^ 52 * x := by ring

theorem log_close {ε : ℝ} (h : |ε| ≤ 1 / 2 ^ 52) : |Real.log (1 + ε)| ≤ 1 / 2 ^ 51 := by
  obtain ⟨h1, h2⟩ := abs_le.1 h
  have hn : (1 : ℝ) / 2 ^ 52 ≤ 1 / 2 := by norm_num
  have hp : 0 < 1 + ε := by linarith
  rw [abs_le]
  constructor
  · have := Real.one_sub_inv_le_log_of_pos hp
    have h3 : (1 + ε)⁻¹ ≤ 1 + 1 / 2 ^ 51 := by
      rw [inv_le_iff_one_le_mul₀ hp]
      have : (1 + 1 / 2 ^ 51) * (1 - 1 / 2 ^ 52) ≤ (1 + 1 / 2 ^ 51) * (1 + ε) := mul_le_mul_of_nonneg_left (by linarith) (by positivity)
      refine le_trans ?_ this
      norm_num
    linarith
  · have := Real.log_le_sub_one_of_pos hp
    have : (1 : ℝ) / 2 ^ 52 ≤ 1 / 2 ^ 51 := by norm_num
    linarith

theorem log_lip {x y : ℝ} (hx : 1 ≤ x) (hy : 1 ≤ y) : |Real.log x - Real.log y| ≤ |x - y| := by
  have key : ∀ x y : ℝ, 1 ≤ x → x ≤ y → Real.log y - Real.log x ≤ y - x := by
    intro x y h1 h2
    rw [← Real.log_div (by linarith) (by linarith)]
    refine le_trans (Real.log_le_sub_one_of_pos (by apply div_pos <;> linarith)) ?_
    rw [div_sub_one (by linarith)]
    exact div_le_self (by linarith) h1
  rcases le_total x y with h | h
  · rw [abs_sub_comm, abs_of_nonneg (sub_nonneg.2 (Real.log_le_log (by linarith) h)), abs_sub_comm, abs_of_nonneg (sub_nonneg.2 h)]
    exact key x y hx h
  · rw [abs_of_nonneg (sub_nonneg.2 (Real.log_le_log (by linarith) h)), abs_of_nonneg (sub_nonneg.2 h)]
    exact key y x hy h

theorem exp_lip {x y : ℝ} (hx : x ≤ 0) (hy : y ≤ 0) : |Real.exp x - Real.exp y| ≤ |x - y| := by
  have key : ∀ x y : ℝ, y ≤ 0 → x ≤ y → Real.exp y - Real.exp x ≤ y - x := by
    intro x y h1 h2
    have e : Real.exp x = Real.exp y * Real.exp (x - y) := by rw [← Real.exp_add]; congr 1; ring
    have h3 := Real.add_one_le_exp (x - y)
    have h4 : Real.exp y ≤ 1 := Real.exp_le_one_iff.2 h1
    have h5 := Real.exp_pos y
    rw [e]
    nlinarith
  rcases le_total x y with h | h
  · rw [abs_sub_comm, abs_of_nonneg (sub_nonneg.2 (Real.exp_le_exp.2 h)), abs_sub_comm, abs_of_nonneg (sub_nonneg.2 h)]
    exact key x y hy h
  · rw [abs_of_nonneg (sub_nonneg.2 (Real.exp_le_exp.2 h)), abs_of_nonneg (sub_nonneg.2 h)]
    exact key y x hx h

/-- The logarithm of a probability that is a double. -/
theorem llr_bound {p : ℚ} (h1 : 1 / 2 ^ 1022 ≤ p) (h2 : p ≤ 1 - 1 / 2 ^ 53) : |llr p| ≤ 709 := by
  have hp : (0 : ℚ) < p := lt_of_lt_of_le (by positivity) h1
  have hp' : (0 : ℝ) < p := by exact_mod_cast hp
  have hq' : (1 : ℝ) / 2 ^ 53 ≤ 1 - p := by
    have := (Rat.cast_le (K := ℝ)).2 h2
    push_cast at this
    linarith
  have hq : (0 : ℝ) < 1 - p := lt_of_lt_of_le (by positivity) hq'
  unfold llr
  rw [Real.log_div hq.ne' hp'.ne', abs_le]
  have l2 := Real.log_two_lt_d9
  have l3 := Real.log_two_gt_d9
  have a1 : Real.log (1 - p) ≤ 0 := Real.log_nonpos hq.le (by linarith)
  have a2 : Real.log p ≤ 0 := Real.log_nonpos hp'.le (by linarith)
  have a3 : -(53 * Real.log 2) ≤ Real.log (1 - p) := by
    have := Real.log_le_log (by positivity) hq'
    rw [one_div, Real.log_inv, Real.log_pow] at this
    exact_mod_cast this
  have a4 : -(1022 * Real.log 2) ≤ Real.log p := by
    have h1 := (Rat.cast_le (K := ℝ)).2 h1
    have e : ((1 / 2 ^ 1022 : ℚ) : ℝ) = ((2 : ℝ) ^ 1022)⁻¹ := by
      rw [one_div]
      push_cast
      rfl
    rw [e] at h1
    have := Real.log_le_log (inv_pos.2 (pow_pos (by norm_num) _)) h1
    rw [Real.log_inv, Real.log_pow] at this
    exact_mod_cast this
  constructor <;> linarith

section
variable {ex ln : ℚ → ℚ} {η : ℝ} (hl : Library ex ln η)
include hl

theorem weight_close {p : ℚ} (h1 : 1 / 2 ^ 1022 ≤ p) (h2 : p ≤ 1 - 1 / 2 ^ 53) : |(weightD ln p : ℝ) - llr p| ≤ 1 / 2 ^ 40 + 711 * η := by
  have hb := llr_bound h1 h2
  have hp : (0 : ℚ) < p := lt_of_lt_of_le (by positivity) h1
  have hp' : (0 : ℝ) < p := by exact_mod_cast hp
  have hq : (1 : ℚ) / 2 ^ 53 ≤ 1 - p := by linarith
  obtain ⟨ε1, e1, k1⟩ := rnd_relative (x := 1 - p) (le_trans (by norm_num) hq)
  have hr : (1 : ℚ) / 2 ^ 53 ≤ rnd (1 - p) := by
    have := rnd_mono hq
    rwa [rnd_rep ⟨1, -53, by norm_num, by norm_num, by norm_num⟩] at this
  have hr0 : (0 : ℚ) < rnd (1 - p) := lt_of_lt_of_le (by norm_num) hr
  have hp1 : p ≤ 1 := le_trans h2 (by norm_num)
  have hd : (1 : ℚ) / 2 ^ 53 ≤ rnd (1 - p) / p := le_trans hr (by rw [le_div_iff₀ hp]; nlinarith)
  obtain ⟨ε2, e2, k2⟩ := rnd_relative (x := rnd (1 - p) / p) (le_trans (by norm_num) hd)
  have n52 : (1 : ℝ) / 2 ^ 52 ≤ 1 / 2 := by norm_num
  have p1 : 0 < 1 + ε1 := by linarith [(abs_le.1 e1).1]
  have p2 : 0 < 1 + ε2 := by linarith [(abs_le.1 e2).1]
  have hq' : (0 : ℝ) < 1 - p := by
    have : (0 : ℚ) < 1 - p := lt_of_lt_of_le (by norm_num) hq
    exact_mod_cast this
  have hlog : Real.log ((rnd (rnd (1 - p) / p) : ℚ) : ℝ) = llr p + Real.log (1 + ε1) + Real.log (1 + ε2) := by
    rw [k2]
    push_cast
    rw [k1]
    push_cast
    unfold llr
    rw [Real.log_mul (by positivity) p2.ne', mul_div_right_comm, Real.log_mul (by positivity) p1.ne']
  have hpos : 0 < rnd (rnd (1 - p) / p) := by
    have := rnd_mono hd
    rw [rnd_rep ⟨1, -53, by norm_num, by norm_num, by norm_num⟩] at this
    exact lt_of_lt_of_le (by norm_num) this
  have h3 := hl.log _ (rnd_rnd _) hpos
  have c1 := abs_le.1 (log_close e1)
  have c2 := abs_le.1 (log_close e2)
  have n51 : (1 : ℝ) / 2 ^ 51 ≤ 1 / 2 ^ 42 := by norm_num
  have n42 : (1 : ℝ) / 2 ^ 42 ≤ 1 / 2 := by norm_num
  have n40 : (1 : ℝ) / 2 ^ 42 + 1 / 2 ^ 42 ≤ 1 / 2 ^ 40 := by norm_num
  have h4 : |Real.log ((rnd (rnd (1 - p) / p) : ℚ) : ℝ)| ≤ 710 := by
    rw [hlog, abs_le]
    have := abs_le.1 hb
    constructor <;> linarith
  have h5 : η * (1 + |Real.log ((rnd (rnd (1 - p) / p) : ℚ) : ℝ)|) ≤ η * 711 := mul_le_mul_of_nonneg_left (by linarith) hl.nonneg
  have h6 := abs_le.1 (le_trans h3 h5)
  unfold weightD
  rw [hlog] at h6
  rw [abs_le]
  constructor <;> linarith [h6.1, h6.2]

/-- One of the two logarithms in `merge_weights`. -/
theorem soft_close {x : ℚ} (hx : |(x : ℝ)| ≤ 2000) :
    |(ln (rnd (1 + ex (-|rnd x|))) : ℝ) - Real.log (1 + Real.exp (-|(x : ℝ)|))| ≤ 1 / 2 ^ 42 + 1 / 2 ^ 50 + 5 * η := by
  have hη := hl.nonneg
  have hη1 := hl.le_one
  have hf : rnd (-|rnd x|) = -|rnd x| := by rw [rnd_neg, rnd_abs, rnd_rnd]
  obtain ⟨h0, h1⟩ := hl.exp (-|rnd x|) hf (by simp)
  generalize hE : ex (-|rnd x|) = E at *
  have n1 : (2000 : ℝ) / 2 ^ 53 + 1 / 2 ^ 200 ≤ 1 / 2 ^ 42 := by norm_num
  have h2 : |(-|(rnd x : ℝ)|) - (-|(x : ℝ)|)| ≤ 1 / 2 ^ 42 := by
    rw [neg_sub_neg]
    refine le_trans (abs_abs_sub_abs_le_abs_sub _ _) ?_
    rw [abs_sub_comm]
    have := rnd_real x
    have : |(x : ℝ)| / 2 ^ 53 ≤ 2000 / 2 ^ 53 := div_le_div_of_nonneg_right hx (by positivity)
    linarith
  have h3 := exp_lip (x := -|(rnd x : ℝ)|) (y := -|(x : ℝ)|) (by simp) (by simp)
  have hc : (((-|rnd x| : ℚ) : ℚ) : ℝ) = -|(rnd x : ℝ)| := by push_cast; rfl
  rw [hc] at h1
  have hexp1 : Real.exp (-|(rnd x : ℝ)|) ≤ 1 := Real.exp_le_one_iff.2 (by simp)
  have hEr : (0 : ℝ) ≤ E := by exact_mod_cast h0
  have h1' := abs_le.1 h1
  have hE2 : (E : ℝ) ≤ 2 := by linarith
  have hv : |((1 + E : ℚ) : ℝ)| ≤ 3 := by
    push_cast
    rw [abs_of_nonneg (by linarith)]
    linarith
  have n2 : (3 : ℝ) / 2 ^ 53 + 1 / 2 ^ 200 ≤ 1 / 2 ^ 50 := by norm_num
  have h4 : |(rnd (1 + E) : ℝ) - (1 + E)| ≤ 1 / 2 ^ 50 := by
    have := rnd_real (1 + E)
    have h5 : |((1 + E : ℚ) : ℝ)| / 2 ^ 53 ≤ 3 / 2 ^ 53 := div_le_div_of_nonneg_right hv (by positivity)
    push_cast at this h5
    linarith
  have hge : (1 : ℚ) ≤ rnd (1 + E) := by
    have := rnd_mono (show (1 : ℚ) ≤ 1 + E by linarith)
    rwa [rnd_rep ⟨1, 0, by norm_num, by norm_num, by norm_num⟩] at this
  have hge' : (1 : ℝ) ≤ rnd (1 + E) := by exact_mod_cast hge
  have h5 := log_lip hge' (y := 1 + Real.exp (-|(x : ℝ)|)) (by linarith [Real.exp_pos (-|(x : ℝ)|)])
  have h6 := hl.log _ (rnd_rnd (1 + E)) (by linarith)
  have n3 : (1 : ℝ) / 2 ^ 50 ≤ 1 := by norm_num
  have h4' := abs_le.1 h4
  have h7 : |Real.log (rnd (1 + E) : ℝ)| ≤ 3 := by
    rw [abs_of_nonneg (Real.log_nonneg hge')]
    have := Real.log_le_sub_one_of_pos (show (0 : ℝ) < rnd (1 + E) by linarith)
    linarith
  have h8 : η * (1 + |Real.log (rnd (1 + E) : ℝ)|) ≤ η * 4 := mul_le_mul_of_nonneg_left (by linarith) hη
  have h9 : |(rnd (1 + E) : ℝ) - (1 + Real.exp (-|(x : ℝ)|))| ≤ 1 / 2 ^ 42 + 1 / 2 ^ 50 + η := by
    have a := abs_le.1 h2
    have b := abs_le.1 (le_trans h3 h2)
    rw [abs_le]
    constructor <;> linarith [h4'.1, h4'.2, h1'.1, h1'.2, b.1, b.2]
  have a := abs_le.1 (le_trans h6 h8)
  have b := abs_le.1 (le_trans h5 h9)
  rw [abs_le]
  constructor <;> linarith [a.1, a.2, b.1, b.2]

theorem sgn_real (a : ℚ) : ((sgnD a : ℚ) : ℝ) = MW.sgn a := by
  unfold sgnD MW.sgn
  by_cases h : a < 0
  · rw [if_pos h, if_pos (by exact_mod_cast h)]; norm_num
  · rw [if_neg h, if_neg (by exact_mod_cast h)]; norm_num

theorem soft_small (x : ℝ) : 0 ≤ Real.log (1 + Real.exp (-|x|)) ∧ Real.log (1 + Real.exp (-|x|)) ≤ 1 := by
  have h := Real.exp_pos (-|x|)
  have h1 : Real.exp (-|x|) ≤ 1 := Real.exp_le_one_iff.2 (by simp)
  refine ⟨Real.log_nonneg (by linarith), ?_⟩
  have := Real.log_le_sub_one_of_pos (show 0 < 1 + Real.exp (-|x|) by linarith)
  linarith

theorem merge_close {a b : ℚ} (ha : |(a : ℝ)| ≤ 1000) (hb : |(b : ℝ)| ≤ 1000) : |(mergeD ex ln a b : ℝ) - mergeWeights a b| ≤ 1 / 2 ^ 40 + 711 * η := by
  have hη := hl.nonneg
  have hη1 := hl.le_one
  have hs : |((a + b : ℚ) : ℝ)| ≤ 2000 := by
    push_cast
    exact le_trans (abs_add_le _ _) (by linarith)
  have hd : |((a - b : ℚ) : ℝ)| ≤ 2000 := by
    push_cast
    exact le_trans (abs_sub _ _) (by linarith)
  have h1 := soft_close hl hs
  have h2 := soft_close hl hd
  unfold mergeD mergeWeights
  simp only
  push_cast at h1 h2
  generalize ln (rnd (1 + ex (-|rnd (a + b)|))) = l1 at *
  generalize ln (rnd (1 + ex (-|rnd (a - b)|))) = l2 at *
  have s1 := soft_small hl ((a : ℝ) + b)
  have s2 := soft_small hl ((a : ℝ) - b)
  generalize Real.log (1 + Real.exp (-|(a : ℝ) + b|)) = t1 at *
  generalize Real.log (1 + Real.exp (-|(a : ℝ) - b|)) = t2 at *
  have hM : ((sgnD a * sgnD b * min |a| |b| : ℚ) : ℝ) = MW.sgn a * MW.sgn b * min |(a : ℝ)| |(b : ℝ)| := by
    push_cast
    rw [sgn_real hl, sgn_real hl]
  have hM2 : abs (MW.sgn a * MW.sgn b * min |(a : ℝ)| |(b : ℝ)|) ≤ 1000 := by
    have e : ∀ x : ℝ, |MW.sgn x| = 1 := by intro x; unfold MW.sgn; split_ifs <;> simp
    rw [abs_mul, abs_mul, e, e, one_mul, one_mul, abs_of_nonneg (le_min (abs_nonneg _) (abs_nonneg _))]
    exact le_trans (min_le_left _ _) ha
  generalize sgnD a * sgnD b * min |a| |b| = M at *
  rw [← hM] at hM2 ⊢
  have n1 : (1 : ℝ) / 2 ^ 42 + 1 / 2 ^ 50 ≤ 1 := by norm_num
  have a1 := abs_le.1 h1
  have a2 := abs_le.1 h2
  have aM := abs_le.1 hM2
  have b1 := rnd_real (M + l1)
  have n2 : (1100 : ℝ) / 2 ^ 53 + 1 / 2 ^ 200 ≤ 3 / 2 ^ 44 := by norm_num
  have c1 : |((M + l1 : ℚ) : ℝ)| ≤ 1100 := by
    push_cast
    rw [abs_le]
    constructor <;> linarith [a1.1, a1.2]
  have d1 : |((rnd (M + l1) : ℚ) : ℝ) - (M + l1)| ≤ 3 / 2 ^ 44 := by
    have : |((M + l1 : ℚ) : ℝ)| / 2 ^ 53 ≤ 1100 / 2 ^ 53 := div_le_div_of_nonneg_right c1 (by positivity)
    push_cast at b1 this
    linarith
  have e1 := abs_le.1 d1
  have b2 := rnd_real (rnd (M + l1) - l2)
  have n3 : (3 : ℝ) / 2 ^ 44 ≤ 1 := by norm_num
  have c2 : |((rnd (M + l1) - l2 : ℚ) : ℝ)| ≤ 1100 := by
    push_cast
    rw [abs_le]
    constructor <;> linarith [a1.1, a1.2, a2.1, a2.2]
  have d2 : |((rnd (rnd (M + l1) - l2) : ℚ) : ℝ) - (rnd (M + l1) - l2)| ≤ 3 / 2 ^ 44 := by
    have : |((rnd (M + l1) - l2 : ℚ) : ℝ)| / 2 ^ 53 ≤ 1100 / 2 ^ 53 := div_le_div_of_nonneg_right c2 (by positivity)
    push_cast at b2 this
    linarith
  have e2 := abs_le.1 d2
  have n4 : (3 : ℝ) / 2 ^ 44 + 3 / 2 ^ 44 + 2 * (1 / 2 ^ 42 + 1 / 2 ^ 50) ≤ 1 / 2 ^ 40 := by norm_num
  rw [abs_le]
  constructor <;> linarith [a1.1, a1.2, a2.1, a2.2, e1.1, e1.2, e2.1, e2.2]

/-! ## Theorems -/

/-- C70: what the two formulas of the code give in double precision, if `std::exp` and `std::log` are accurate to `η`: an error of at most `2^-40 + 711 η` each, for all
probabilities that are at least the smallest normal double and less than 1 as a double, and for weights up to 1000. -/
theorem C70_arithmetic : (∀ p : ℚ, 1 / 2 ^ 1022 ≤ p → p ≤ 1 - 1 / 2 ^ 53 → |(weightD ln p : ℝ) - Real.log ((1 - p) / p)| ≤ 1 / 2 ^ 40 + 711 * η) ∧
    ∀ a b : ℚ, |(a : ℝ)| ≤ 1000 → |(b : ℝ)| ≤ 1000 →
      |(mergeD ex ln a b : ℝ) - Real.log ((1 + Real.exp (a + b)) / (Real.exp a + Real.exp b))| ≤ 1 / 2 ^ 40 + 711 * η := by
  refine ⟨fun p h1 h2 => weight_close hl h1 h2, fun a b ha hb => ?_⟩
  rw [← MW.mergeWeights_eq]
  exact merge_close hl ha hb

/-- C70: the formulas of the code are precise enough for `C70_most_likely`, for every model with up to about `2^46` components (if `η` is about `2^-52`). -/
theorem C70_precise {m : Model ℚ} (hm : ∀ e ∈ m.errors, e.p ≠ 0 → 1 / 2 ^ 1022 ≤ e.p ∧ e.p ≤ 1 - 1 / 2 ^ 53) (hs : size m * (1 / 2 ^ 40 + 711 * η) ≤ 145) :
    Precise m (mergeD ex ln) (weightD ln) 1000 (1 / 2 ^ 40 + 711 * η) where
  nonneg := by have := hl.nonneg; positivity
  weight := fun e he h0 => weight_close hl (hm e he h0).1 (hm e he h0).2
  merge := fun a b => merge_close hl
  room := fun e he h0 => by
    have := llr_bound (hm e he h0).1 (hm e he h0).2
    linarith

end

/-- Functions as accurate as one likes exist. -/
theorem library_exists {η : ℝ} (h0 : 0 < η) (h1 : η ≤ 1) : ∃ ex ln, Library ex ln η := by
  have hex : ∀ x : ℚ, ∃ y : ℚ, 0 ≤ y ∧ |(y : ℝ) - Real.exp x| ≤ η := by
    intro x
    obtain ⟨y, hy1, hy2⟩ := exists_rat_btwn (show Real.exp x < Real.exp x + η by linarith)
    refine ⟨y, ?_, ?_⟩
    · have : (0 : ℝ) < y := lt_trans (Real.exp_pos _) hy1
      exact_mod_cast this.le
    · rw [abs_le]; constructor <;> linarith
  have hln : ∀ x : ℚ, ∃ y : ℚ, |(y : ℝ) - Real.log x| ≤ η * (1 + |Real.log x|) := by
    intro x
    obtain ⟨y, hy1, hy2⟩ := exists_rat_btwn (show Real.log x < Real.log x + η by linarith)
    refine ⟨y, le_trans (b := η) ?_ (by nlinarith [abs_nonneg (Real.log (x : ℝ))])⟩
    rw [abs_le]; constructor <;> linarith
  choose ex hex using hex
  choose ln hln using hln
  exact ⟨ex, ln, h0.le, h1, fun x _ _ => hex x, fun x _ _ => hln x⟩

/-- The sample of C56: two detectors, each with an error of its own, and two parallel errors between them. -/
def sampleD : Model ℚ := ⟨[⟨1 / 10, [.det 0, .obs 0]⟩, ⟨1 / 10, [.det 0, .det 1]⟩, ⟨1 / 10, [.det 1]⟩, ⟨1 / 5, [.det 1, .det 0]⟩], 2, 1⟩

theorem sampleD_real : real sampleD = Likelihood.sample := by
  simp [real, sampleD, Likelihood.sample]

theorem sampleD_edges (mw : ℚ → ℚ → ℚ) (lg : ℚ → ℚ) : (load mw lg sampleD).edges =
    [⟨0, none, [0], lg (1 / 10), 1 / 10, []⟩, ⟨0, some 1, [], mw (lg (1 / 5)) (lg (1 / 10)), 13 / 50, []⟩, ⟨1, none, [], lg (1 / 10), 1 / 10, []⟩] := by
  have h1 : (0 : ℚ) < 1 / 10 := by norm_num
  have h2 : (0 : ℚ) < 1 / 5 := by norm_num
  simp only [load, sampleD, List.foldl_cons, List.foldl_nil, edgeCalls, h1, h2, if_true, List.nil_append, List.cons_append, handle]
  simp [UG.UGraph.new, UG.UGraph.addBoundaryEdge, UG.UGraph.addEdge, UG.grow, UG.UGraph.edgeTo, UG.bumpObs, UG.UGraph.mergeEdge, UG.mergeData, UG.validProb, List.modify,
    List.replicate, UG.UNode.fresh, UG.leadsTo]
  norm_num

/-- The sample, with the formulas of the code and library functions that are accurate to `2^-52`; `C70_precise` applies. -/
theorem sampleD_meets : ∃ ex ln, Library ex ln (1 / 2 ^ 52) ∧ Dem.Valid (real sampleD) ∧ Likelihood.Graphlike (real sampleD) ∧
      (∀ e ∈ sampleD.errors, e.p ≠ 0 → 1 / 2 ^ 1022 ≤ e.p ∧ e.p ≤ 1 - 1 / 2 ^ 53) ∧
      Precise sampleD (mergeD ex ln) (weightD ln) 1000 (1 / 2 ^ 40 + 711 * (1 / 2 ^ 52)) ∧ (1000 : ℝ) ≤ 2 ^ 24 - 1 ∧ size sampleD < 2 ^ 38 ∧
      NotTiny (load (mergeD ex ln) (weightD ln) sampleD) ∧
      DoubleHistory.NearD (load (mergeD ex ln) (weightD ln) sampleD) := by
  obtain ⟨ex, ln, hl⟩ := library_exists (η := 1 / 2 ^ 52) (by positivity) (by norm_num)
  have hp : ∀ e ∈ sampleD.errors, e.p ≠ 0 → 1 / 2 ^ 1022 ≤ e.p ∧ e.p ≤ 1 - 1 / 2 ^ 53 := by
    have hb : (1 : ℚ) / 2 ^ 1022 ≤ 1 / 10 := by
      refine le_trans (one_div_le_one_div_of_le (by norm_num) (pow_le_pow_right₀ (by norm_num) (show 4 ≤ 1022 by norm_num))) ?_
      norm_num
    intro e he _
    simp only [sampleD, List.mem_cons, List.not_mem_nil, or_false] at he
    rcases he with rfl | rfl | rfl | rfl <;> refine ⟨le_trans hb (by norm_num), by norm_num⟩
  have hsz : size sampleD = 4 := by
    have : ∀ e ∈ sampleD.errors, (components e).length = 1 := by
      intro e he
      simp only [sampleD, List.mem_cons, List.not_mem_nil, or_false] at he
      rcases he with rfl | rfl | rfl | rfl <;> rw [← segs_components] <;> rfl
    unfold size
    rw [List.map_congr_left this]
    rfl
  have hprec : Precise sampleD (mergeD ex ln) (weightD ln) 1000 (1 / 2 ^ 40 + 711 * (1 / 2 ^ 52)) := C70_precise hl hp (by rw [hsz]; norm_num)
  have hv : Dem.Valid (real sampleD) := by rw [sampleD_real]; exact Likelihood.sample_valid
  have ht : NotTiny (load (mergeD ex ln) (weightD ln) sampleD) := by
    refine .inr ⟨⟨0, none, [0], weightD ln (1 / 10), 1 / 10, []⟩, by rw [sampleD_edges]; simp, ?_⟩
    have h1 := (C70_arithmetic hl).1 (1 / 10) (hp ⟨1 / 10, [.det 0, .obs 0]⟩ (by simp [sampleD]) (by norm_num)).1 (by norm_num)
    have h2 : 1 + 1 / 2 ≤ Real.log ((1 - ((1 / 10 : ℚ) : ℝ)) / ((1 / 10 : ℚ) : ℝ)) := by
      have : (1 - ((1 / 10 : ℚ) : ℝ)) / ((1 / 10 : ℚ) : ℝ) = 9 := by push_cast; norm_num
      rw [this]
      have h8 : Real.log 8 ≤ Real.log 9 := Real.log_le_log (by norm_num) (by norm_num)
      have : Real.log 8 = 3 * Real.log 2 := by rw [show (8 : ℝ) = 2 ^ 3 by norm_num, Real.log_pow]; norm_num
      linarith [Real.log_two_gt_d9]
    have n : (1 : ℝ) / 2 ^ 40 + 711 * (1 / 2 ^ 52) ≤ 1 / 2 := by norm_num
    have h3 : (1 : ℝ) ≤ weightD ln (1 / 10) := by linarith [(abs_le.1 h1).1]
    have h4 : (1 : ℚ) ≤ weightD ln (1 / 10) := by exact_mod_cast h3
    refine le_trans ?_ (le_trans h4 (le_abs_self _))
    rw [div_le_one (by positivity)]
    exact one_le_pow₀ (by norm_num)
  refine ⟨ex, ln, hl, hv, by rw [sampleD_real]; exact Likelihood.sample_graphlike, hp, hprec, by norm_num, by rw [hsz]; norm_num, ht, ?_⟩
  · have hpar := par_valid hv hprec
    refine Double.C65_near hpar.wfd (usable_load hv hprec (by norm_num) ht) (.inl ?_)
    rw [hpar.nodes, (Likelihood.start (real sampleD) hv).nodes]
    show 2 ≤ 65
    norm_num

/-- The hypotheses of `C70_most_likely` and `C70_most_likely_int32` hold for the sample, for any number of shots. -/
example (shots : List (List Nat)) (hs : ∀ events ∈ shots, events = [0, 1] ∨ events = [1]) :
    ∃ ex ln, Library ex ln (1 / 2 ^ 52) ∧ Dem.Valid (real sampleD) ∧ Likelihood.Graphlike (real sampleD) ∧
      (∀ e ∈ sampleD.errors, e.p ≠ 0 → 1 / 2 ^ 1022 ≤ e.p ∧ e.p ≤ 1 - 1 / 2 ^ 53) ∧
      Precise sampleD (mergeD ex ln) (weightD ln) 1000 (1 / 2 ^ 40 + 711 * (1 / 2 ^ 52)) ∧ (1000 : ℝ) ≤ 2 ^ 24 - 1 ∧ size sampleD < 2 ^ 38 ∧
      NotTiny (load (mergeD ex ln) (weightD ln) sampleD) ∧ (∀ events ∈ shots, events.Nodup ∧ ∀ d ∈ events, d < sampleD.numDets) ∧
      DoubleHistory.NearD (load (mergeD ex ln) (weightD ln) sampleD) := by
  obtain ⟨ex, ln, h1, h2, h3, h4, h5, h6, h7, h8, h9⟩ := sampleD_meets
  refine ⟨ex, ln, h1, h2, h3, h4, h5, h6, h7, h8, fun events he => ?_, h9⟩
  rcases hs events he with rfl | rfl <;> decide

end Verif.Props.Arithmetic
