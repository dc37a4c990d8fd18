import Verif.Double

/-!
# Facts about rounding to double precision
-/

namespace Verif.Dbl

/-! ## Specification -/

/-- The number has at most 53 significant bits, and no bit below `2^-1074`: it is a double, or would be if exponents were not bounded above. -/
def Rep (x : ℚ) : Prop := ∃ (m e : ℤ), |m| < 2 ^ 53 ∧ -1074 ≤ e ∧ x = m * 2 ^ e

/-! ## Nearest integers -/

theorem rne_err (x : ℚ) : |(rne x : ℚ) - x| ≤ 1 / 2 := by
  have h1 := Int.floor_le x
  have h2 := Int.lt_floor_add_one x
  unfold rne
  rw [abs_le]
  split
  · constructor <;> linarith
  · split
    · push_cast; constructor <;> linarith
    · split
      · constructor <;> linarith
      · push_cast; constructor <;> linarith

theorem rne_int (n : ℤ) : rne (n : ℚ) = n := by
  unfold rne
  rw [if_pos (by simp)]
  simp

theorem rne_mono {x y : ℚ} (h : x ≤ y) : rne x ≤ rne y := by
  by_contra hc
  have hc : rne y + 1 ≤ rne x := by omega
  have hx := abs_le.1 (rne_err x)
  have hy := abs_le.1 (rne_err y)
  have hq : (rne y : ℚ) + 1 ≤ rne x := by exact_mod_cast hc
  have e : x = y := by linarith
  rw [e] at hc
  omega

theorem rne_neg (x : ℚ) : rne (-x) = -rne x := by
  have h1 := Int.floor_le x
  have h2 := Int.lt_floor_add_one x
  rcases eq_or_lt_of_le h1 with h | h
  · have : x = ((⌊x⌋ : ℤ) : ℚ) := h.symm
    rw [this, rne_int, show -((⌊x⌋ : ℤ) : ℚ) = ((-⌊x⌋ : ℤ) : ℚ) by push_cast; ring, rne_int]
  · have e : ⌊-x⌋ = -⌊x⌋ - 1 := by
      rw [Int.floor_eq_iff]
      push_cast
      constructor <;> linarith
    unfold rne
    rw [e]
    push_cast
    rcases lt_trichotomy (x - ⌊x⌋) (1 / 2) with h3 | h3 | h3
    · rw [if_neg (by linarith), if_pos (by linarith), if_pos h3]; ring
    · have k1 : ¬ (-x - (-(⌊x⌋ : ℚ) - 1) < 1 / 2) := by linarith
      have k2 : ¬ (1 / 2 < -x - (-(⌊x⌋ : ℚ) - 1)) := by linarith
      have k3 : ¬ (x - ⌊x⌋ < 1 / 2) := by linarith
      have k4 : ¬ (1 / 2 < x - ⌊x⌋) := by linarith
      rw [if_neg k1, if_neg k2, if_neg k3, if_neg k4]
      by_cases k5 : ⌊x⌋ % 2 = 0
      · rw [if_pos k5, if_neg (by omega)]; omega
      · rw [if_neg k5, if_pos (by omega)]; omega
    · rw [if_pos (by linarith), if_neg (by linarith), if_pos h3]; ring

theorem rne_le {x : ℚ} {n : ℤ} (h : x ≤ n) : rne x ≤ n := by
  have := rne_mono h
  rwa [rne_int] at this

theorem le_rne {x : ℚ} {n : ℤ} (h : (n : ℚ) ≤ x) : n ≤ rne x := by
  have := rne_mono h
  rwa [rne_int] at this

/-! ## Rounding -/

theorem pow_pos' (e : ℤ) : (0 : ℚ) < 2 ^ e := zpow_pos (by norm_num) e

theorem lastBit_neg (x : ℚ) : lastBit (-x) = lastBit x := by
  unfold lastBit
  rw [abs_neg]

theorem rnd_neg (x : ℚ) : rnd (-x) = -rnd x := by
  unfold rnd
  rw [lastBit_neg, neg_div, rne_neg]
  push_cast
  ring

theorem rnd_zero : rnd 0 = 0 := by
  unfold rnd
  rw [zero_div]
  have : rne 0 = 0 := by have := rne_int 0; simpa using this
  rw [this]
  simp

theorem lt_top {x : ℚ} (h : 0 < x) : x / 2 ^ lastBit x < 2 ^ (53 : ℕ) := by
  have h1 : x < (2 : ℚ) ^ (Int.log 2 x + 1) := by
    have := Int.lt_zpow_succ_log_self (R := ℚ) (b := 2) (by norm_num) x
    exact_mod_cast this
  rw [div_lt_iff₀ (pow_pos' _)]
  refine lt_of_lt_of_le h1 ?_
  rw [← zpow_natCast, ← zpow_add₀ (by norm_num)]
  refine zpow_le_zpow_right₀ (by norm_num) ?_
  unfold lastBit
  rw [abs_of_pos h]
  push_cast
  omega

theorem top_le {x : ℚ} (h : 0 < x) (hl : -1074 < lastBit x) : 2 ^ (52 : ℕ) ≤ x / 2 ^ lastBit x := by
  have h1 : (2 : ℚ) ^ (Int.log 2 x) ≤ x := by
    have := Int.zpow_log_le_self (R := ℚ) (b := 2) (by norm_num) h
    exact_mod_cast this
  rw [le_div_iff₀ (pow_pos' _)]
  refine le_trans ?_ h1
  rw [← zpow_natCast, ← zpow_add₀ (by norm_num)]
  refine zpow_le_zpow_right₀ (by norm_num) ?_
  unfold lastBit at hl ⊢
  rw [abs_of_pos h] at hl ⊢
  push_cast
  omega

theorem lastBit_mono {x y : ℚ} (h : 0 < x) (hy : x ≤ y) : lastBit x ≤ lastBit y := by
  unfold lastBit
  rw [abs_of_pos h, abs_of_pos (lt_of_lt_of_le h hy)]
  have := Int.log_mono_right (b := 2) h hy
  omega

theorem rnd_nonneg {x : ℚ} (h : 0 ≤ x) : 0 ≤ rnd x := by
  unfold rnd
  have : (0 : ℤ) ≤ rne (x / 2 ^ lastBit x) := le_rne (by push_cast; exact div_nonneg h (pow_pos' _).le)
  exact mul_nonneg (by exact_mod_cast this) (pow_pos' _).le

theorem rnd_mono_pos {x y : ℚ} (h : 0 < x) (hy : x ≤ y) : rnd x ≤ rnd y := by
  rcases eq_or_lt_of_le (lastBit_mono h hy) with e | e
  · unfold rnd
    rw [← e]
    refine mul_le_mul_of_nonneg_right ?_ (pow_pos' _).le
    exact_mod_cast rne_mono (div_le_div_of_nonneg_right hy (pow_pos' _).le)
  · have hy0 := lt_of_lt_of_le h hy
    have hb : -1074 < lastBit y := lt_of_le_of_lt (le_max_right _ _) e
    have h1 : rne (x / 2 ^ lastBit x) ≤ 2 ^ 53 := rne_le (by push_cast; exact (lt_top h).le)
    have h2 : (2 : ℤ) ^ 52 ≤ rne (y / 2 ^ lastBit y) := le_rne (by push_cast; exact top_le hy0 hb)
    have h1' : (rne (x / 2 ^ lastBit x) : ℚ) ≤ 2 ^ 53 := by exact_mod_cast h1
    have h2' : (2 : ℚ) ^ 52 ≤ rne (y / 2 ^ lastBit y) := by exact_mod_cast h2
    have h3 : (2 : ℚ) ^ lastBit x * 2 ≤ 2 ^ lastBit y := by
      rw [← zpow_add_one₀ (by norm_num)]
      exact zpow_le_zpow_right₀ (by norm_num) (by omega)
    unfold rnd
    calc (rne (x / 2 ^ lastBit x) : ℚ) * 2 ^ lastBit x ≤ 2 ^ 53 * 2 ^ lastBit x := mul_le_mul_of_nonneg_right h1' (pow_pos' _).le
      _ = 2 ^ 52 * (2 ^ lastBit x * 2) := by ring
      _ ≤ 2 ^ 52 * 2 ^ lastBit y := mul_le_mul_of_nonneg_left h3 (by norm_num)
      _ ≤ _ := mul_le_mul_of_nonneg_right h2' (pow_pos' _).le

theorem rnd_nonpos {x : ℚ} (h : x ≤ 0) : rnd x ≤ 0 := by
  have := rnd_nonneg (x := -x) (by linarith)
  rw [rnd_neg] at this
  linarith

theorem rnd_mono {x y : ℚ} (h : x ≤ y) : rnd x ≤ rnd y := by
  rcases lt_or_ge 0 x with hx | hx
  · exact rnd_mono_pos hx h
  · rcases lt_or_ge y 0 with hy | hy
    · have := rnd_mono_pos (x := -y) (y := -x) (by linarith) (by linarith)
      rw [rnd_neg, rnd_neg] at this
      linarith
    · exact le_trans (rnd_nonpos hx) (rnd_nonneg hy)

theorem rnd_rep {x : ℚ} (h : Rep x) : rnd x = x := by
  obtain ⟨m, e, hm, he, hx⟩ := h
  by_cases h0 : x = 0
  · rw [h0, rnd_zero]
  have key : lastBit x ≤ e := by
    by_contra hc
    have hc : e < lastBit x := by omega
    have hl : lastBit |x| = lastBit x := by unfold lastBit; rw [abs_abs]
    have h1 := top_le (x := |x|) (abs_pos.2 h0) (by omega)
    rw [hl, le_div_iff₀ (pow_pos' _)] at h1
    have h2 : |x| = |(m : ℚ)| * 2 ^ e := by rw [hx, abs_mul, abs_of_pos (pow_pos' e)]
    have h3 : (2 : ℚ) ^ e * 2 ≤ 2 ^ lastBit x := by
      rw [← zpow_add_one₀ (by norm_num)]
      exact zpow_le_zpow_right₀ (by norm_num) (by omega)
    have h4 : |(m : ℚ)| < 2 ^ 53 := by exact_mod_cast hm
    have h5 := mul_lt_mul_of_pos_right h4 (pow_pos' e)
    have h6 : (2 : ℚ) ^ 52 * (2 ^ e * 2) ≤ 2 ^ 52 * 2 ^ lastBit x := mul_le_mul_of_nonneg_left h3 (by norm_num)
    nlinarith
  obtain ⟨k, hk⟩ := Int.eq_ofNat_of_zero_le (show 0 ≤ e - lastBit x by omega)
  have hq : x / 2 ^ lastBit x = ((m * 2 ^ k : ℤ) : ℚ) := by
    generalize lastBit x = b at hk ⊢
    rw [div_eq_iff (pow_pos' _).ne', hx, show e = (k : ℤ) + b by omega, zpow_add₀ (by norm_num), zpow_natCast]
    push_cast
    ring
  unfold rnd
  rw [hq, rne_int, ← hq, div_mul_cancel₀ _ (pow_pos' _).ne']

theorem rep_neg {x : ℚ} (h : Rep x) : Rep (-x) := by
  obtain ⟨m, e, hm, he, hx⟩ := h
  exact ⟨-m, e, by rwa [abs_neg], he, by rw [hx]; push_cast; ring⟩

theorem rep_zero : Rep 0 := ⟨0, 0, by norm_num, by norm_num, by norm_num⟩

theorem rep_rnd_pos {x : ℚ} (h : 0 < x) : Rep (rnd x) := by
  have h1 : rne (x / 2 ^ lastBit x) ≤ 2 ^ 53 := rne_le (by push_cast; exact (lt_top h).le)
  have h2 : (0 : ℤ) ≤ rne (x / 2 ^ lastBit x) := le_rne (by push_cast; exact div_nonneg h.le (pow_pos' _).le)
  have hl : -1074 ≤ lastBit x := le_max_right _ _
  rcases eq_or_lt_of_le h1 with e | e
  · refine ⟨2 ^ 52, lastBit x + 1, by norm_num, by omega, ?_⟩
    unfold rnd
    rw [e, zpow_add_one₀ (by norm_num)]
    push_cast
    ring
  · exact ⟨_, lastBit x, by rw [abs_of_nonneg h2]; exact e, hl, rfl⟩

theorem rep_rnd (x : ℚ) : Rep (rnd x) := by
  rcases lt_trichotomy x 0 with h | h | h
  · have := rep_neg (rep_rnd_pos (x := -x) (by linarith))
    rwa [rnd_neg, neg_neg] at this
  · rw [h, rnd_zero]; exact rep_zero
  · exact rep_rnd_pos h

theorem rep_int {n : ℤ} (h : |n| < 2 ^ 53) : Rep (n : ℚ) := ⟨n, 0, h, by norm_num, by simp⟩

theorem rep_twice {x : ℚ} (h : Rep x) : Rep (x * 2) := by
  obtain ⟨m, e, hm, he, hx⟩ := h
  exact ⟨m, e + 1, hm, by omega, by rw [hx, zpow_add_one₀ (by norm_num)]; ring⟩

/-- The error of one operation. -/
theorem rnd_err (x : ℚ) : |rnd x - x| ≤ |x| / 2 ^ 53 + 1 / 2 ^ 1075 := by
  by_cases h0 : x = 0
  · rw [h0, rnd_zero]; simp
  have h1 : |rnd x - x| ≤ 1 / 2 * 2 ^ lastBit x := by
    have e : rnd x - x = ((rne (x / 2 ^ lastBit x) : ℚ) - x / 2 ^ lastBit x) * 2 ^ lastBit x := by
      rw [sub_mul, div_mul_cancel₀ _ (pow_pos' _).ne']
      rfl
    rw [e, abs_mul, abs_of_pos (pow_pos' _)]
    exact mul_le_mul_of_nonneg_right (rne_err _) (pow_pos' _).le
  refine le_trans h1 ?_
  rcases eq_or_lt_of_le (show -1074 ≤ lastBit x from le_max_right _ _) with e | e
  · rw [← e]
    have : (1 / 2 : ℚ) * 2 ^ (-1074 : ℤ) = 1 / 2 ^ 1075 := by
      rw [zpow_neg, show (1074 : ℤ) = ((1074 : ℕ) : ℤ) by norm_num, zpow_natCast, show (1075 : ℕ) = 1074 + 1 by norm_num, pow_succ]
      field_simp
    rw [this]
    have : 0 ≤ |x| / 2 ^ 53 := by positivity
    linarith
  · have hl : lastBit |x| = lastBit x := by unfold lastBit; rw [abs_abs]
    have h2 := top_le (x := |x|) (abs_pos.2 h0) (by omega)
    rw [hl, le_div_iff₀ (pow_pos' _)] at h2
    have h3 : (0 : ℚ) < 1 / 2 ^ 1075 := by positivity
    have : 1 / 2 * 2 ^ lastBit x ≤ |x| / 2 ^ 53 := by
      rw [le_div_iff₀ (by norm_num)]
      calc 1 / 2 * 2 ^ lastBit x * 2 ^ 53 = 2 ^ 52 * 2 ^ lastBit x := by ring
        _ ≤ _ := h2
    linarith

theorem rnd_abs (x : ℚ) : |rnd x| = rnd |x| := by
  rcases le_or_gt 0 x with h | h
  · rw [abs_of_nonneg h, abs_of_nonneg (rnd_nonneg h)]
  · rw [abs_of_neg h, rnd_neg, abs_of_nonpos (rnd_nonpos h.le)]

theorem rnd_le {x y : ℚ} (h : x ≤ y) (hy : Rep y) : rnd x ≤ y := by
  have := rnd_mono h
  rwa [rnd_rep hy] at this

theorem le_rnd {x y : ℚ} (h : y ≤ x) (hy : Rep y) : y ≤ rnd x := by
  have := rnd_mono h
  rwa [rnd_rep hy] at this

theorem rep_pow (n : ℕ) : Rep (2 ^ n) := ⟨1, n, by norm_num, by omega, by rw [zpow_natCast]; simp⟩

theorem of_rep {x : ℚ} (h : Rep x) (hx : |x| < 2 ^ (1024 : ℕ)) : Double.of x = .num x := by
  unfold Double.of
  rw [rnd_rep h, if_pos hx]

/-- No overflow below `2^1023`. -/
theorem of_small {x : ℚ} (hx : |x| ≤ 2 ^ (1023 : ℕ)) : Double.of x = .num (rnd x) := by
  unfold Double.of
  rw [if_pos]
  rw [rnd_abs]
  refine lt_of_le_of_lt (rnd_le hx (rep_pow _)) ?_
  exact pow_lt_pow_right₀ (by norm_num) (by norm_num)

/-- Overflow from `2^1024`. -/
theorem of_large {x : ℚ} (hx : 2 ^ (1024 : ℕ) ≤ |x|) : Double.of x = .inf (decide (x < 0)) := by
  unfold Double.of
  rw [if_neg]
  rw [rnd_abs, not_lt]
  exact le_rnd hx (rep_pow _)

end Verif.Dbl
