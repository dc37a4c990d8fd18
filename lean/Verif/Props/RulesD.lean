import Verif.Props.Arithmetic
import Verif.Props.DemRules

/-!
# C82: models that are loaded with correlations, in double precision
-/

namespace Verif.Props.RulesD

open Verif Verif.SB Verif.UG Verif.Obj Verif.Dbl Verif.ObjD Verif.Session Verif.Dem Verif.DemD
open Verif.Props.UserEdges Verif.Props.UserGraph
open Verif.Props.Dem (components connects multiplicity fires)
open Verif.Props.Session (Rule Link Net)
open Verif.Props.MatrixSession (placeAll)
open Verif.Props.DemSession (demLinks linkOf)
open Verif.Props.DemRules
open Verif.Props.Arithmetic (Library weight_close merge_close llr_bound)
open Verif.Props.MergeWeights (llr)
open Verif.MW (mergeWeights)
open Verif.Props.Edges (Completes)

/-! ## Specification -/

/-- The log-likelihood ratio of a probability. -/
noncomputable def ratio (p : ℚ) : ℝ := Real.log ((1 - p) / p)

/-- The probability that an odd number of the errors of a link happens. -/
def chance (m : Model ℚ) (l : Link) : ℚ := odd (shared m l l)

/-- The conditional probability of the second link, given the first one; at most one half. -/
def given (m : Model ℚ) (l l' : Link) : ℚ := min (1 / 2) (odd (shared m l l') / chance m l)

/-- The conditions on the model: probabilities are zero or not extremely small, there are not too many errors, and no error has two components with the same detectors. -/
structure Usual (m : Model ℚ) (δ : ℝ) : Prop where
  probs : ∀ e ∈ m.errors, e.p = 0 ∨ 1 / 2 ^ 1000 ≤ e.p
  few : m.errors.length * δ ≤ 100
  once : ∀ e ∈ m.errors, Once e

section
variable (m : Model ℚ) (N : Net)

/-- The exact weights of the links. -/
noncomputable def own (j : Fin N.links.length) : ℝ := ratio (chance m N.links[j])

/-- The exact weights that link `j` may have in the second pass if `C` is the explanation found in the first: its own, and those of the conditional probabilities given the links of `C` that
share an error with it.  (Links from a node to itself do not count.) -/
def options (C : N.Links) (j : Fin N.links.length) : Set ℝ :=
  {x | x = own m N j ∨ ∃ i ∈ C, N.links[i].b ≠ some N.links[i].a ∧ ¬ N.links[j].Joins N.links[i].a N.links[i].b ∧ shared m N.links[i] N.links[j] ≠ [] ∧
    x = ratio (given m N.links[i] N.links[j])}

variable {N}

/-- An explanation that no other beats by more than `D` per link. -/
def Nearly (D : ℝ) (weights : Fin N.links.length → ℝ) (fires : Nat → Prop) (C : N.Links) : Prop :=
  Session.Explained C fires ∧ ∀ C' : N.Links, Session.Explained C' fires → ∑ i ∈ C, weights i ≤ ∑ i ∈ C', weights i + (C.card + C'.card : ℕ) * D

/-- The exact weights for which the answer is nearly the best explanation: those of the links; with correlations, for each link the least of its options after a first pass. -/
def Weights (D : ℝ) (fires : Nat → Prop) (corr : Bool) (ρ : Fin N.links.length → ℝ) : Prop :=
  if corr then ∃ C : N.Links, Nearly D (own m N) fires C ∧ ∀ j, IsLeast (options m N C j) (ρ j) else ρ = own m N

/-- The returned weight. -/
def Returned (D : ℝ) (ρ : Fin N.links.length → ℝ) (C : N.Links) (x : Double) : Prop :=
  ∃ q, x = .num q ∧ |(q : ℝ) - ∑ i ∈ C, ρ i| ≤ C.card * D + 1 / 2 ^ 1074

variable (N)

/-- What the replies to questions mean for the probabilities of the model. -/
def Means (D : ℝ) : Stmt → Reply → Prop
  | .decode z rw corr, r =>
    (Session.Shaped N z ∧ ∃ (ρ : _) (C : N.Links) (row : _) (x : _),
      Weights m D (Session.Fires z) corr ρ ∧ Nearly D ρ (Session.Fires z) C ∧ Session.Tells C row ∧ Returned D ρ C x ∧ r = if rw then .pair row x else .array row) ∨
    (r = .raised ∧ (Session.Shaped N z → ∀ C : N.Links, ¬ Session.Explained C (Session.Fires z)))
  | .decodeToEdgesArray z corr, r =>
    (Session.Shaped N z ∧ ∃ (ρ : _) (C : N.Links) (es : _),
      Weights m D (Session.Fires z) corr ρ ∧ Nearly D ρ (Session.Fires z) C ∧ Session.Lists es C ∧ r = .edges es) ∨
    (r = .raised ∧ (Session.Shaped N z → ∀ C : N.Links, ¬ Session.Explained C (Session.Fires z)))
  | .decodeBatch ps pp rw corr cols rows, r =>
    (Session.ShotsShaped N ps cols ∧ ∃ outs ws, outs.length = rows.length ∧ ws.length = rows.length ∧
      List.Forall₂ (fun row (y : List (BitVec 8) × Double) => ∃ (ρ : _) (C : N.Links),
        Weights m D (Session.ShotFires ps row) corr ρ ∧ Nearly D ρ (Session.ShotFires ps row) C ∧ Session.TellsIn pp C y.1 ∧ Returned D ρ C y.2) rows (outs.zip ws) ∧
      r = if rw then .rowsAndWeights outs ws else .rows outs) ∨
    (r = .raised ∧ (Session.ShotsShaped N ps cols → ∃ row ∈ rows, ∀ C : N.Links, ¬ Session.Explained C (Session.ShotFires ps row)))
  | _, _ => True

end

/-! ## Lemmas: relative errors -/

/-- A relative error of one rounding, with a margin. -/
def unit : ℚ := 1 / 2 ^ 51

theorem unit_pos : 0 < unit := by unfold unit; positivity

/-- `y` is `x` up to `c` relative errors. -/
def Near (c : Nat) (x y : ℚ) : Prop := x ≤ y * (1 + unit) ^ c ∧ y ≤ x * (1 + unit) ^ c

theorem one_le_grow (c : Nat) : 1 ≤ (1 + unit) ^ c := one_le_pow₀ (by linarith [unit_pos])

theorem grow_pos (c : Nat) : 0 < (1 + unit) ^ c := lt_of_lt_of_le one_pos (one_le_grow c)

theorem Near.refl (x : ℚ) : Near 0 x x := by simp [Near]

theorem Near.mono {c d : Nat} {x y : ℚ} (hx : 0 ≤ x) (hy : 0 ≤ y) (h : Near c x y) (hcd : c ≤ d) : Near d x y := by
  have : (1 + unit) ^ c ≤ (1 + unit) ^ d := pow_le_pow_right₀ (by linarith [unit_pos]) hcd
  exact ⟨le_trans h.1 (mul_le_mul_of_nonneg_left this hy), le_trans h.2 (mul_le_mul_of_nonneg_left this hx)⟩

theorem Near.trans {c d : Nat} {x y z : ℚ} (h : Near c x y) (h' : Near d y z) : Near (c + d) x z := by
  have h1 := grow_pos c
  have h2 := grow_pos d
  refine ⟨?_, ?_⟩
  · refine le_trans h.1 (le_trans (mul_le_mul_of_nonneg_right h'.1 h1.le) (le_of_eq ?_))
    rw [pow_add]; ring
  · refine le_trans h'.2 (le_trans (mul_le_mul_of_nonneg_right h.2 h2.le) (le_of_eq ?_))
    rw [pow_add]; ring

theorem Near.mul {c d : Nat} {x y x' y' : ℚ} (hx : 0 ≤ x) (hy : 0 ≤ y) (hx' : 0 ≤ x') (hy' : 0 ≤ y') (h : Near c x y) (h' : Near d x' y') :
    Near (c + d) (x * x') (y * y') := by
  have h1 := (grow_pos c).le
  have h2 := (grow_pos d).le
  refine ⟨?_, ?_⟩
  · refine le_trans (mul_le_mul h.1 h'.1 hx' (mul_nonneg hy h1)) (le_of_eq ?_)
    rw [pow_add]; ring
  · refine le_trans (mul_le_mul h.2 h'.2 hy' (mul_nonneg hx h1)) (le_of_eq ?_)
    rw [pow_add]; ring

theorem Near.add {c : Nat} {x y x' y' : ℚ} (h : Near c x y) (h' : Near c x' y') : Near c (x + x') (y + y') := by
  unfold Near at *
  rw [add_mul, add_mul]
  exact ⟨add_le_add h.1 h'.1, add_le_add h.2 h'.2⟩

theorem Near.div {c d : Nat} {x y x' y' : ℚ} (hx : 0 ≤ x) (hy : 0 ≤ y) (hx' : 0 < x') (hy' : 0 < y') (h : Near c x y) (h' : Near d x' y') :
    Near (c + d) (x / x') (y / y') := by
  have h1 := (grow_pos c).le
  have h2 := (grow_pos d).le
  refine ⟨?_, ?_⟩
  · rw [div_mul_eq_mul_div, div_le_div_iff₀ hx' hy']
    calc x * y' ≤ (y * (1 + unit) ^ c) * (x' * (1 + unit) ^ d) := mul_le_mul h.1 h'.2 hy'.le (mul_nonneg hy h1)
      _ = _ := by rw [pow_add]; ring
  · rw [div_mul_eq_mul_div, div_le_div_iff₀ hy' hx']
    calc y * x' ≤ (x * (1 + unit) ^ c) * (y' * (1 + unit) ^ d) := mul_le_mul h.2 h'.1 hx'.le (mul_nonneg hx h1)
      _ = _ := by rw [pow_add]; ring

theorem Near.min {c : Nat} {x y : ℚ} (h : Near c x y) : Near c (min (1 / 2) x) (min (1 / 2) y) := by
  have h1 := one_le_grow c
  have h2 : (1 / 2 : ℚ) ≤ 1 / 2 * (1 + unit) ^ c := by linarith
  unfold Near
  rw [min_mul_of_nonneg _ _ (grow_pos c).le, min_mul_of_nonneg _ _ (grow_pos c).le]
  exact ⟨min_le_min h2 h.1, min_le_min h2 h.2⟩

/-- Numbers that are not tiny are rounded with a small relative error. -/
theorem rnd_near {x : ℚ} (hx : x = 0 ∨ 1 / 2 ^ 1010 ≤ x) : Near 1 x (rnd x) := by
  rcases hx with rfl | hx
  · rw [rnd_zero]; simp [Near]
  · have h0 : 0 < x := lt_of_lt_of_le (by positivity) hx
    have h := rnd_err x
    rw [abs_of_pos h0] at h
    have ht : (1 : ℚ) / 2 ^ 1075 ≤ x / 2 ^ 53 := by
      rw [le_div_iff₀ (by positivity)]
      refine le_trans ?_ hx
      have : (1 : ℚ) / 2 ^ 1075 = 1 / 2 ^ 1010 * (1 / 2 ^ 65) := by
        rw [show (1075 : ℕ) = 1010 + 65 from rfl, pow_add]
        generalize (2 : ℚ) ^ 1010 = a
        rw [one_div_mul_one_div]
      rw [this, mul_assoc]
      exact mul_le_of_le_one_right (by positivity) (by norm_num)
    generalize (1 : ℚ) / 2 ^ 1075 = t at h ht
    have h1 := abs_le.1 h
    unfold Near unit
    rw [pow_one]
    constructor <;> nlinarith [h1.1, h1.2]

/-- Few relative errors are small. -/
theorem grow_le {c : Nat} (h : c * unit ≤ 1 / 2) : (1 + unit) ^ c ≤ 1 + 2 * (c * unit) := by
  have hu := unit_pos
  have hu1 : unit ≤ 1 := by unfold unit; norm_num
  have h1 : 1 - c * unit ≤ (1 - unit) ^ c := by
    have := one_add_mul_le_pow (a := -unit) (by linarith) c
    have e : 1 + -unit = 1 - unit := by ring
    rw [e] at this
    linarith
  have h2 : (1 + unit) ^ c * (1 - unit) ^ c ≤ 1 := by
    rw [← mul_pow]
    exact pow_le_one₀ (mul_nonneg (by linarith) (by linarith)) (by nlinarith)
  have h3 := one_le_grow c
  have h4 : (1 + unit) ^ c * (1 - c * unit) ≤ 1 := le_trans (mul_le_mul_of_nonneg_left h1 (by linarith)) h2
  have h0 : 0 ≤ c * unit := by positivity
  generalize (c : ℚ) * unit = t at *
  generalize (1 + unit) ^ c = y at *
  nlinarith

/-- A probability that is zero or not tiny. -/
def Big (x : ℚ) : Prop := 1 / 2 ^ 1000 ≤ x

theorem big_eq : (1 : ℚ) / 2 ^ 1000 = 1024 * (1 / 2 ^ 1010) := by
  rw [show (1010 : ℕ) = 1000 + 10 from rfl, pow_add]
  generalize (2 : ℚ) ^ 1000 = a
  rw [← one_div_mul_one_div]
  ring

theorem Big.pos {x : ℚ} (h : Big x) : 0 < x := lt_of_lt_of_le (by positivity) h

/-- Combining adds three relative errors. -/
theorem xor_near {c : Nat} {x y p : ℚ} (hx : x = 0 ∨ Big x) (hx2 : x ≤ 1 / 2) (hy : 0 ≤ y) (hp : Big p) (hp2 : p ≤ 1 / 2) (hc : (1 + unit) ^ c ≤ 3 / 2) (h : Near c x y) :
    Near (c + 3) (bxor x p) (rounded.xor y p) ∧ 0 ≤ rounded.xor y p := by
  have hp0 := hp.pos
  have hx0 : 0 ≤ x := by rcases hx with rfl | hx; exact le_rfl; exact hx.pos.le
  unfold Big at hp
  unfold Big at hx
  rw [big_eq] at hp hx
  have ht : (0 : ℚ) < 1 / 2 ^ 1010 := by positivity
  have hsmall : (1 : ℚ) / 2 ^ 1010 ≤ 1 / 8 := le_trans (one_div_le_one_div_of_le (by norm_num) (pow_le_pow_right₀ (by norm_num) (show 3 ≤ 1010 by norm_num))) (by norm_num)
  have hr : ∀ z : ℚ, z = 0 ∨ 1 / 2 ^ 1010 ≤ z → Near 1 z (rnd z) := fun z => rnd_near
  generalize (1 : ℚ) / 2 ^ 1010 = t at *
  have hu : unit ≤ 1 := by unfold unit; norm_num
  have hu0 := unit_pos
  have hg := one_le_grow c
  have hy2 : y ≤ 3 / 4 := by
    have := h.2
    nlinarith
  have hyt : y = 0 ∨ 512 * t ≤ y := by
    rcases hx with rfl | hx
    · left
      have := h.2
      rw [zero_mul] at this
      linarith
    · right
      have := h.1
      nlinarith
  have ha := hr (1 - p) (.inr (by linarith))
  have hb := hr (1 - y) (.inr (by linarith))
  have ha0 : 1 / 4 ≤ rnd (1 - p) := by
    have := ha.1
    rw [pow_one] at this
    nlinarith
  have hb0 : 1 / 8 ≤ rnd (1 - y) := by
    have := hb.1
    rw [pow_one] at this
    nlinarith
  have h1 := hr (y * rnd (1 - p)) (by
    rcases hyt with rfl | hyt
    · left; rw [zero_mul]
    · right; nlinarith)
  have h2 := hr (p * rnd (1 - y)) (.inr (by nlinarith))
  have n1 : 0 ≤ rnd (y * rnd (1 - p)) := rnd_nonneg (mul_nonneg hy (by linarith))
  have n2 : t ≤ rnd (p * rnd (1 - y)) := by
    have h3 := h2.1
    rw [pow_one] at h3
    have h4 : 128 * t ≤ p * rnd (1 - y) := by nlinarith
    nlinarith
  have e1 : Near 2 (y * (1 - p)) (rnd (y * rnd (1 - p))) := by
    have := (Near.mul hy hy (by linarith) (by linarith) (Near.refl y) ha).trans h1
    exact this
  have e2 : Near 2 (p * (1 - y)) (rnd (p * rnd (1 - y))) := by
    have := (Near.mul hp0.le hp0.le (by linarith) (by linarith) (Near.refl p) hb).trans h2
    exact this
  have e3 := (e1.add e2).trans (hr (rnd (y * rnd (1 - p)) + rnd (p * rnd (1 - y))) (.inr (by linarith)))
  have e4 : Near c (bxor x p) (y * (1 - p) + p * (1 - y)) := by
    have k1 := Near.mul hx0 hy (x' := 1 - 2 * p) (y' := 1 - 2 * p) (by linarith) (by linarith) h (Near.refl _)
    have k2 := Near.add k1 ((Near.refl p).mono hp0.le hp0.le (Nat.zero_le _))
    have q1 : bxor x p = x * (1 - 2 * p) + p := by unfold bxor; ring
    have q2 : y * (1 - p) + p * (1 - y) = y * (1 - 2 * p) + p := by ring
    rw [q1, q2]
    exact k2
  exact ⟨e4.trans e3, rnd_nonneg (by linarith)⟩

/-- How the combined probability of at most `2 ^ 47` errors is off. -/
theorem combined_near (ps : List ℚ) (h : ∀ p ∈ ps, Big p ∧ p ≤ 1 / 2) (hn : ps.length ≤ 2 ^ 47) :
    Near (3 * ps.length) (odd ps) (combined rounded ps) ∧ 0 ≤ combined rounded ps := by
  have key : ∀ (ps : List ℚ) (x y : ℚ) (c : Nat), (∀ p ∈ ps, Big p ∧ p ≤ 1 / 2) → (x = 0 ∨ Big x) → x ≤ 1 / 2 → 0 ≤ y → c + 3 * ps.length ≤ 3 * 2 ^ 47 → Near c x y →
      Near (c + 3 * ps.length) (ps.foldl (Arith.exact : Arith ℚ).xor x) (ps.foldl rounded.xor y) ∧ 0 ≤ ps.foldl rounded.xor y := by
    intro ps
    induction ps with
    | nil => intro x y c _ _ _ hy _ h; exact ⟨h, hy⟩
    | cons p ps ih =>
      intro x y c hps hx hx2 hy hc h
      simp only [List.length_cons] at hc
      obtain ⟨p1, p2⟩ := hps p (by simp)
      have hg : (1 + unit) ^ c ≤ 3 / 2 := by
        have hc' : (c : ℚ) ≤ 3 * 2 ^ 47 := by
          have : c ≤ 3 * 2 ^ 47 := by omega
          exact_mod_cast this
        have h1 : (c : ℚ) * unit ≤ 3 / 16 := le_trans (mul_le_mul_of_nonneg_right hc' unit_pos.le) (by unfold unit; norm_num)
        have h2 := grow_le (c := c) (by linarith)
        linarith
      obtain ⟨k1, k2⟩ := xor_near hx hx2 hy p1 p2 hg h
      have x0 : 0 ≤ x := by rcases hx with rfl | hx; exact le_rfl; exact hx.pos.le
      have p0 := p1.pos
      have b1 : Big (bxor x p) := le_trans p1 (by unfold bxor; nlinarith)
      have b2 : bxor x p ≤ 1 / 2 := by unfold bxor; nlinarith
      have := ih (bxor x p) (rounded.xor y p) (c + 3) (fun q hq => hps q (by simp [hq])) (.inr b1) b2 k2 (by omega) k1
      rw [List.foldl_cons, List.foldl_cons, List.length_cons, show c + 3 * (ps.length + 1) = c + 3 + 3 * ps.length by ring]
      exact this
  have := key ps 0 0 0 h (.inl rfl) (by norm_num) le_rfl (by omega) (Near.refl 0)
  rw [zero_add] at this
  rw [← combined_exact]
  exact this

/-- Relative errors of probabilities are absolute errors of their weights. -/
theorem llr_near {c : Nat} {x y : ℚ} (hx : 0 < x) (hx2 : x ≤ 1 / 2) (hy : 0 < y) (hy2 : y ≤ 1 / 2) (hc : c * unit ≤ 1 / 2) (h : Near c x y) :
    |llr y - llr x| ≤ ((3 * (c * unit) : ℚ) : ℝ) := by
  have key : ∀ x y : ℚ, 0 < x → x ≤ 1 / 2 → 0 < y → y ≤ 1 / 2 → x ≤ y * (1 + unit) ^ c →
      Real.log x - Real.log y ≤ ((c * unit : ℚ) : ℝ) ∧ Real.log (1 - y) - Real.log (1 - x) ≤ 2 * ((c * unit : ℚ) : ℝ) := by
    intro x y hx hx2 hy hy2 h
    have hx' : (0 : ℝ) < x := by exact_mod_cast hx
    have hy' : (0 : ℝ) < y := by exact_mod_cast hy
    have hu : (0 : ℝ) < (unit : ℚ) := by exact_mod_cast unit_pos
    have hr : (x : ℝ) ≤ y * (1 + (unit : ℚ)) ^ c := by exact_mod_cast h
    have hx2' : (x : ℝ) ≤ 1 / 2 := by
      have := (Rat.cast_le (K := ℝ)).2 hx2
      push_cast at this
      exact this
    have hy2' : (y : ℝ) ≤ 1 / 2 := by
      have := (Rat.cast_le (K := ℝ)).2 hy2
      push_cast at this
      exact this
    constructor
    · have h1 := Real.log_le_log hx' hr
      rw [Real.log_mul hy'.ne' (by positivity), Real.log_pow] at h1
      have h2 := Real.log_le_sub_one_of_pos (show (0 : ℝ) < 1 + (unit : ℚ) by positivity)
      have h3 : (c : ℝ) * Real.log (1 + (unit : ℚ)) ≤ c * (unit : ℚ) := mul_le_mul_of_nonneg_left (by linarith) (by positivity)
      push_cast
      linarith
    · have hd : x - y ≤ c * unit := by
        have h1 := mul_le_mul_of_nonneg_left (grow_le hc) hy.le
        have h2 : (0 : ℚ) ≤ c * unit := mul_nonneg (by positivity) unit_pos.le
        generalize (c : ℚ) * unit = t at h1 h2
        nlinarith
      have hd' : (x : ℝ) - y ≤ ((c * unit : ℚ) : ℝ) := by exact_mod_cast hd
      have h0 : (0 : ℝ) ≤ ((c * unit : ℚ) : ℝ) := by
        have : (0 : ℚ) ≤ c * unit := mul_nonneg (by positivity) unit_pos.le
        exact_mod_cast this
      rw [← Real.log_div (by linarith) (by linarith)]
      have h1 := Real.log_le_sub_one_of_pos (show (0 : ℝ) < (1 - y) / (1 - x) from div_pos (by linarith) (by linarith))
      refine le_trans h1 ?_
      rw [sub_le_iff_le_add, div_le_iff₀ (by linarith)]
      nlinarith
  obtain ⟨a1, a2⟩ := key x y hx hx2 hy hy2 h.1
  obtain ⟨b1, b2⟩ := key y x hy hy2 hx hx2 h.2
  have hx' : (0 : ℝ) < x := by exact_mod_cast hx
  have hy' : (0 : ℝ) < y := by exact_mod_cast hy
  have hx3 : (0 : ℝ) < 1 - x := by
    have : 0 < 1 - x := by linarith
    exact_mod_cast this
  have hy3 : (0 : ℝ) < 1 - y := by
    have : 0 < 1 - y := by linarith
    exact_mod_cast this
  unfold llr
  rw [Real.log_div hy3.ne' hy'.ne', Real.log_div hx3.ne' hx'.ne', abs_le]
  have e : ((3 * (c * unit) : ℚ) : ℝ) = 3 * ((c * unit : ℚ) : ℝ) := by push_cast; ring
  rw [e]
  constructor <;> linarith

theorem odd_big : ∀ ps : List ℚ, (∀ p ∈ ps, Big p ∧ p ≤ 1 / 2) → ps ≠ [] → Big (odd ps) ∧ odd ps ≤ 1 / 2
  | [], _, h => absurd rfl h
  | p :: ps, h, _ => by
    obtain ⟨p1, p2⟩ := h p (by simp)
    have p0 := p1.pos
    obtain ⟨a, b, _⟩ := odd_range ps fun q hq => ⟨(h q (by simp [hq])).1.pos, (h q (by simp [hq])).2⟩
    exact ⟨le_trans p1 (by unfold odd; nlinarith), by unfold odd; nlinarith⟩

/-- The conditional probability, as doubles have it. -/
theorem given_near {ps qs : List ℚ} (hp : ∀ p ∈ ps, Big p ∧ p ≤ 1 / 2) (hq : ∀ q ∈ qs, Big q ∧ q ≤ 1 / 2) (hp0 : ps ≠ []) (hq0 : qs ≠ []) (hn : ps.length ≤ 2 ^ 47)
    (hle : qs.length ≤ ps.length) :
    combined rounded ps ≠ 0 ∧ 1 / 2 ^ 1022 ≤ min (1 / 2) (rounded.div (combined rounded qs) (combined rounded ps)) ∧
      Near (7 * ps.length) (min (1 / 2) (odd qs / odd ps)) (min (1 / 2) (rounded.div (combined rounded qs) (combined rounded ps))) := by
  obtain ⟨a1, a2⟩ := combined_near ps hp hn
  obtain ⟨b1, b2⟩ := combined_near qs hq (le_trans hle hn)
  obtain ⟨c1, c2⟩ := odd_big ps hp hp0
  obtain ⟨d1, d2⟩ := odd_big qs hq hq0
  have hg : ∀ n : Nat, n ≤ 2 ^ 47 → (1 + unit) ^ (3 * n) ≤ 3 / 2 := by
    intro n hn
    have hn' : ((3 * n : ℕ) : ℚ) ≤ 3 * 2 ^ 47 := by
      have : 3 * n ≤ 3 * 2 ^ 47 := by omega
      exact_mod_cast this
    have h1 : ((3 * n : ℕ) : ℚ) * unit ≤ 3 / 16 := le_trans (mul_le_mul_of_nonneg_right hn' unit_pos.le) (by unfold unit; norm_num)
    have h2 := grow_le (c := 3 * n) (by linarith)
    linarith
  have g1 := hg _ hn
  have g2 := hg _ (le_trans hle hn)
  have c0 := c1.pos
  have d0 := d1.pos
  have x0 : 0 < combined rounded ps := by
    by_contra hc
    have : combined rounded ps = 0 := by linarith
    have := a1.1
    rw [‹combined rounded ps = 0›, zero_mul] at this
    linarith
  have x1 : combined rounded ps ≤ 3 / 4 := by
    have := a1.2
    nlinarith [one_le_grow (3 * ps.length)]
  unfold Big at d1
  rw [big_eq] at d1
  have ht : (0 : ℚ) < 1 / 2 ^ 1010 := by positivity
  have hs : (1 : ℚ) / 2 ^ 1022 ≤ 1 / 2 ^ 1010 / 2 := by
    rw [show (1022 : ℕ) = 1010 + 12 from rfl, pow_add]
    generalize (2 : ℚ) ^ 1010 = a at ht
    rw [← one_div_mul_one_div]
    nlinarith
  have hs2 : (1 : ℚ) / 2 ^ 1022 ≤ 1 / 2 := le_trans (one_div_le_one_div_of_le (by norm_num) (pow_le_pow_right₀ (by norm_num) (show 1 ≤ 1022 by norm_num))) (by norm_num)
  have hr : ∀ z : ℚ, z = 0 ∨ 1 / 2 ^ 1010 ≤ z → Near 1 z (rnd z) := fun z => rnd_near
  generalize (1 : ℚ) / 2 ^ 1010 = t at *
  generalize (1 : ℚ) / 2 ^ 1022 = t' at *
  have y0 : 512 * t ≤ combined rounded qs := by
    have := b1.1
    nlinarith [one_le_grow (3 * qs.length)]
  have z0 : t ≤ combined rounded qs / combined rounded ps := by
    rw [le_div_iff₀ x0]
    nlinarith
  have e1 := Near.div d0.le b2 c0 x0 b1 a1
  have e2 := hr _ (.inr z0)
  refine ⟨x0.ne', le_min hs2 ?_, (Near.mono (c := 3 * qs.length + 3 * ps.length + 1) ?_ ?_ (Near.min (e1.trans e2)) ?_)⟩
  · have := e2.1
    rw [pow_one] at this
    show t' ≤ rnd _
    have hu : unit ≤ 1 := by unfold unit; norm_num
    have hu0 := unit_pos
    nlinarith
  · exact le_min (by norm_num) (by positivity)
  · exact le_min (by norm_num) (rnd_nonneg (by positivity))
  · have : 0 < ps.length := List.length_pos_iff.2 hp0
    omega

section
variable {ex ln : ℚ → ℚ} {η : ℝ} (hl : Library ex ln η)
include hl

/-- The weight of a rule. -/
theorem rule_close {ps qs : List ℚ} (hp : ∀ p ∈ ps, Big p ∧ p ≤ 1 / 2) (hq : ∀ q ∈ qs, Big q ∧ q ≤ 1 / 2) (hp0 : ps ≠ []) (hq0 : qs ≠ []) (hn : ps.length ≤ 2 ^ 47)
    (hle : qs.length ≤ ps.length) :
    |(weightD ln (min (1 / 2) (rounded.div (combined rounded qs) (combined rounded ps))) : ℝ) - llr (min (1 / 2) (odd qs / odd ps) : ℚ)| ≤
      2 * ps.length * (1 / 2 ^ 40 + 711 * η) := by
  obtain ⟨-, h1, h2⟩ := given_near hp hq hp0 hq0 hn hle
  have c0 := (odd_big ps hp hp0).1.pos
  have d0 := (odd_big qs hq hq0).1.pos
  have h3 := weight_close hl h1 (le_trans (min_le_left _ _) (by norm_num))
  have hn' : ((7 * ps.length : ℕ) : ℚ) ≤ 7 * 2 ^ 47 := by
    have : 7 * ps.length ≤ 7 * 2 ^ 47 := by omega
    exact_mod_cast this
  have h4 := llr_near (lt_min (by norm_num) (div_pos d0 c0)) (min_le_left _ _) (lt_of_lt_of_le (by positivity) h1) (min_le_left _ _)
    (le_trans (mul_le_mul_of_nonneg_right hn' unit_pos.le) (by unfold unit; norm_num)) h2
  have hk : (1 : ℝ) ≤ ps.length := by
    have : 0 < ps.length := List.length_pos_iff.2 hp0
    exact_mod_cast this
  have e : ((3 * ((7 * ps.length : ℕ) * unit) : ℚ) : ℝ) ≤ ps.length * (1 / 2 ^ 40) := by
    unfold unit
    push_cast
    nlinarith
  have hη := hl.nonneg
  have h5 := abs_le.1 h3
  have h6 := abs_le.1 (le_trans h4 e)
  rw [abs_le]
  have h7 : (1 : ℝ) / 2 ^ 40 + 711 * η ≤ ps.length * (1 / 2 ^ 40 + 711 * η) := le_mul_of_one_le_left (by positivity) hk
  have h8 : 0 ≤ ps.length * (711 * η) := by positivity
  constructor <;> nlinarith

end

/-! ## Lemmas: the weights of the links -/

theorem odd_snoc (ps : List ℚ) (p : ℚ) : odd (ps ++ [p]) = odd (p :: ps) := by
  rw [← odd_eq, ← odd_eq]
  unfold MergeWeights.oddOf
  rw [List.map_append, List.prod_append, List.map_cons, List.map_cons, List.prod_cons, List.prod_cons, List.map_nil, List.prod_nil, mul_one, mul_comm]

/-- Adding a probability merges its weight with that of the others. -/
theorem llr_snoc {ps : List ℚ} {p : ℚ} (hps : ∀ p ∈ ps, Big p ∧ p ≤ 1 / 2) (h0 : ps ≠ []) (hp : Big p) (hp2 : p ≤ 1 / 2) :
    llr (odd (ps ++ [p]) : ℚ) = mergeWeights (llr p) (llr (odd ps : ℚ)) := by
  obtain ⟨c1, c2⟩ := odd_big ps hps h0
  have r : ∀ x : ℚ, 0 < x → x ≤ 1 / 2 → (0 : ℝ) < x ∧ (x : ℝ) < 1 := by
    intro x h1 h2
    have : x < 1 := by linarith
    exact ⟨by exact_mod_cast h1, by exact_mod_cast this⟩
  rw [MergeWeights.C20_merge_is_llr_of_xor _ _ (r p hp.pos hp2) (r _ c1.pos c2), odd_snoc]
  congr 1
  show ((p * (1 - odd ps) + odd ps * (1 - p) : ℚ) : ℝ) = _
  unfold MergeWeights.exactlyOne
  push_cast
  ring

/-- The probabilities of the links with the given ends. -/
def story (ls : List Link) (k : Key) : List ℚ := (ls.filter fun l => key l.a l.b = k).map Link.prob

/-- The links have weights close to those of the probabilities in `h`. -/
structure Acc (δ : ℝ) (h : Key → List ℚ) (N : Net) : Prop where
  link : ∀ l ∈ N.links, h (key l.a l.b) ≠ [] ∧ |(l.weight : ℝ) - llr (odd (h (key l.a l.b)) : ℚ)| ≤ (2 * (h (key l.a l.b)).length - 1) * δ
  covered : ∀ k, h k ≠ [] → ∃ l ∈ N.links, key l.a l.b = k

section
variable {ex ln : ℚ → ℚ} {η : ℝ} (hl : Library ex ln η)
include hl

theorem place_acc {n : Nat} (hn : n * (1 / 2 ^ 40 + 711 * η) ≤ 100) : ∀ (ls : List Link) {N N' : Net} {h : Key → List ℚ}, placeAll (mergeD ex ln) .independent N ls = some N' →
    (∀ l ∈ ls, l.weight = weightD ln l.prob ∧ Big l.prob ∧ l.prob ≤ 1 / 2) → (∀ k, ∀ p ∈ h k, Big p ∧ p ≤ 1 / 2) → (∀ k, (h k ++ story ls k).length ≤ n) →
    Acc (1 / 2 ^ 40 + 711 * η) h N → Acc (1 / 2 ^ 40 + 711 * η) (fun k => h k ++ story ls k) N' := by
  have hη := hl.nonneg
  have hδ : 0 ≤ 1 / 2 ^ 40 + 711 * η := by positivity
  have hsmall : ∀ k : Nat, k ≤ n → k * (1 / 2 ^ 40 + 711 * η) ≤ 100 := fun k hk =>
    le_trans (mul_le_mul_of_nonneg_right (by exact_mod_cast hk) hδ) hn
  have h22 : (1 : ℚ) / 2 ^ 1022 ≤ 1 / 2 ^ 1000 := one_div_le_one_div_of_le (by positivity) (pow_le_pow_right₀ (by norm_num) (by norm_num))
  have hwt : ∀ p : ℚ, Big p → p ≤ 1 / 2 → |(weightD ln p : ℝ) - llr p| ≤ 1 / 2 ^ 40 + 711 * η ∧ |llr p| ≤ 709 := fun p h1 h2 =>
    ⟨weight_close hl (le_trans h22 h1) (le_trans h2 (by norm_num)), llr_bound (le_trans h22 h1) (le_trans h2 (by norm_num))⟩
  have hmc : ∀ {a b : ℚ}, |(a : ℝ)| ≤ 1000 → |(b : ℝ)| ≤ 1000 → |(mergeD ex ln a b : ℝ) - mergeWeights a b| ≤ 1 / 2 ^ 40 + 711 * η := merge_close hl
  generalize (1 : ℝ) / 2 ^ 40 + 711 * η = δ at *
  clear h22
  intro ls
  induction ls with
  | nil =>
    intro N N' h h1 _ _ _ hA
    cases h1
    simpa [story] using hA
  | cons l ls ih =>
    intro N N' h h1 hls hh hlen hA
    obtain ⟨w1, w2, w3⟩ := hls l (by simp)
    obtain ⟨v1, v2⟩ := hwt l.prob w2 w3
    unfold placeAll at h1
    generalize hp : N.place (mergeD ex ln) l .independent = r at h1
    obtain ⟨N1, rep⟩ := r
    cases rep <;> try cases h1
    simp only at h1
    have hstory : ∀ k, story (l :: ls) k = (if key l.a l.b = k then [l.prob] else []) ++ story ls k := by
      intro k
      unfold story
      rw [List.filter_cons]
      split_ifs with h1 h2 h2 <;> simp_all
    have hlen1 : ∀ k, (h k ++ if key l.a l.b = k then [l.prob] else []).length ≤ n := by
      intro k
      have := hlen k
      rw [hstory, ← List.append_assoc, List.length_append] at this
      omega
    have key1 : Acc δ (fun k => h k ++ if key l.a l.b = k then [l.prob] else []) N1 := by
      unfold Net.place at hp
      split at hp
      · rename_i hex
        simp only [reduceCtorEq, if_false, Prod.mk.injEq, and_true] at hp
        subst hp
        refine ⟨fun x hx => ?_, fun k hk => ?_⟩
        · obtain ⟨y, hy, rfl⟩ := List.mem_map.1 hx
          obtain ⟨y1, y2⟩ := hA.link y hy
          split
          · rename_i hj
            rw [joins_same, samePair_iff_key] at hj
            have hk : key (Session.combine (mergeD ex ln) y l .independent).a (Session.combine (mergeD ex ln) y l .independent).b = key y.a y.b := rfl
            have hw : (Session.combine (mergeD ex ln) y l .independent).weight = mergeD ex ln l.weight y.weight := rfl
            have hln := hlen1 (key y.a y.b)
            rw [hk, hw]
            simp only [hj, if_true] at hln ⊢
            refine ⟨by simp, ?_⟩
            rw [llr_snoc (hh _) y1 w2 w3, w1]
            obtain ⟨c1, c2⟩ := odd_big _ (hh _) y1
            have hb := (hwt _ c1 c2).2
            have k1 : 1 ≤ (h (key y.a y.b)).length := List.length_pos_iff.2 y1
            rw [List.length_append, List.length_singleton] at hln
            have s1 := hsmall _ (show (h (key y.a y.b)).length ≤ n by omega)
            have s2 := hsmall 1 (by omega)
            have k1' : (1 : ℝ) ≤ (h (key y.a y.b)).length := by exact_mod_cast k1
            rw [List.length_append, List.length_singleton]
            push_cast
            push_cast at s2
            generalize ((h (key y.a y.b)).length : ℝ) = k at *
            have z := abs_le.1 y2
            have z' := abs_le.1 v1
            have z2 := abs_le.1 v2
            have z3 := abs_le.1 hb
            have m1 := hmc (a := weightD ln l.prob) (b := y.weight) (by rw [abs_le]; constructor <;> linarith) (by rw [abs_le]; constructor <;> nlinarith)
            have m2 := LikelihoodD.lip (weightD ln l.prob) (llr l.prob) y.weight (llr (odd (h (key y.a y.b)) : ℚ))
            have m3 := abs_le.1 (le_trans m2 (add_le_add v1 y2))
            have m4 := abs_le.1 m1
            rw [abs_le]
            constructor <;> nlinarith
          · rename_i hj
            rw [joins_same, samePair_iff_key] at hj
            simp only [hj, if_false, List.append_nil]
            exact ⟨y1, y2⟩
        · obtain ⟨x, hx, hxk⟩ : ∃ x ∈ N.links, key x.a x.b = k := by
            by_cases hk2 : key l.a l.b = k
            · obtain ⟨x, hx, hj⟩ := hex
              rw [joins_same, samePair_iff_key] at hj
              exact ⟨x, hx, by rw [← hj, hk2]⟩
            · simp only [hk2, if_false, List.append_nil] at hk
              exact hA.covered k hk
          refine ⟨_, List.mem_map_of_mem hx, ?_⟩
          split
          · exact hxk
          · exact hxk
      · rename_i hex
        simp only [Prod.mk.injEq, and_true] at hp
        subst hp
        refine ⟨fun x hx => ?_, fun k hk => ?_⟩
        · rcases List.mem_append.1 hx with hx | hx
          · have hj : ¬ key l.a l.b = key x.a x.b := fun hc => hex ⟨x, hx, by rw [joins_same, samePair_iff_key]; exact hc⟩
            simp only [hj, if_false, List.append_nil]
            exact hA.link x hx
          · obtain rfl := List.mem_singleton.1 hx
            have h0 : h (key x.a x.b) = [] := by
              by_contra hc
              obtain ⟨y, hy, hk⟩ := hA.covered _ hc
              exact hex ⟨y, hy, by rw [joins_same, samePair_iff_key, hk]⟩
            simp only [h0, if_true, List.nil_append]
            refine ⟨by simp, ?_⟩
            have e : odd [x.prob] = x.prob := by simp [odd]
            rw [e, w1]
            simp only [List.length_singleton, Nat.cast_one]
            linarith
        · by_cases hk2 : key l.a l.b = k
          · exact ⟨l, by simp, hk2⟩
          · simp only [hk2, if_false, List.append_nil] at hk
            obtain ⟨x, hx, hxk⟩ := hA.covered k hk
            exact ⟨x, by simp [hx], hxk⟩
    have := ih h1 (fun x hx => hls x (by simp [hx])) (fun k p hp => ?_) (fun k => ?_) key1
    · have e : (fun k => h k ++ story (l :: ls) k) = fun k => (h k ++ if key l.a l.b = k then [l.prob] else []) ++ story ls k := by
        funext k
        rw [hstory, List.append_assoc]
      rw [e]
      exact this
    · rcases List.mem_append.1 hp with hp | hp
      · exact hh k p hp
      · split at hp
        · rw [List.mem_singleton.1 hp]; exact ⟨w2, w3⟩
        · cases hp
    · have := hlen k
      rw [hstory, ← List.append_assoc] at this
      exact this

end

theorem sorted_prob (l : Link) : (sorted l).prob = l.prob ∧ (sorted l).weight = l.weight := by
  unfold sorted
  split <;> exact ⟨rfl, rfl⟩

theorem has_key {e : Err ℚ} {l l' : Link} (h : key l.a l.b = key l'.a l'.b) : Has e l ↔ Has e l' := by
  unfold Has
  refine and_congr_right fun _ => exists_congr fun c => and_congr_right fun _ => ?_
  rw [LikelihoodD.connects_key, LikelihoodD.connects_key, h]

/-- The links of a model with the ends of `l` are those of the errors of `l`. -/
theorem story_shared {lg : ℚ → ℚ} {m : Model ℚ} (ho : ∀ e ∈ m.errors, Once e) (l : Link) :
    story ((demLinks lg m).map sorted) (key l.a l.b) = shared m l l := by
  rw [← shared_eq ho]
  unfold story demLinks fires
  obtain ⟨es, nd, no⟩ := m
  simp only at ho ⊢
  rw [List.map_flatMap, List.filter_flatMap, List.map_flatMap]
  refine List.flatMap_congr fun e he => ?_
  have h1 := mult_le (ho e he) l.a l.b
  have hmul : multiplicity l.a l.b e * multiplicity l.a l.b e = multiplicity l.a l.b e := by
    rcases Nat.le_one_iff_eq_zero_or_eq_one.1 h1 with h | h <;> rw [h]
  rw [hmul]
  unfold Dem.multiplicity
  split
  · rfl
  · generalize components e = cs
    induction cs with
    | nil => rfl
    | cons c cs ih =>
      have hk : (linkOf lg e.p c).map (fun x => key (sorted x).a (sorted x).b) = LikelihoodD.keyOf c.1 ∧ ∀ x ∈ linkOf lg e.p c, x.prob = e.p := by
        obtain ⟨ds, os⟩ := c
        match ds with
        | [] => exact ⟨rfl, fun x h => by cases h⟩
        | [a] => exact ⟨rfl, fun x h => by cases h; rfl⟩
        | [a, b] => exact ⟨by simp [linkOf, LikelihoodD.keyOf, sorted, key], fun x h => by cases h; rfl⟩
        | a :: b :: c :: l => exact ⟨rfl, fun x h => by cases h⟩
      obtain ⟨hk1, hk2⟩ := hk
      rw [List.filter_cons]
      cases hx : linkOf lg e.p c with
      | none =>
        rw [hx] at hk1
        rw [List.filterMap_cons_none hx, ih]
        have : ¬ connects l.a l.b c.1 := by
          rw [LikelihoodD.connects_key, ← hk1]
          simp
        simp [this]
      | some x =>
        rw [hx] at hk1
        have hc : connects l.a l.b c.1 ↔ key (sorted x).a (sorted x).b = key l.a l.b := by
          rw [LikelihoodD.connects_key, ← hk1]
          simp
        rw [List.filterMap_cons_some hx, List.map_cons, List.filter_cons]
        by_cases hcc : connects l.a l.b c.1
        · have := hc.1 hcc
          simp only [hcc, this, decide_true, if_true, List.map_cons, List.length_cons, List.replicate_succ, ih]
          rw [(sorted_prob x).1, hk2 x (by rw [hx]; rfl)]
        · have : ¬ key (sorted x).a (sorted x).b = key l.a l.b := fun h => hcc (hc.2 h)
          simp only [hcc, this, decide_false, Bool.false_eq_true, if_false, ih]

/-! ## Lemmas: the network -/

theorem shared_range {m : Model ℚ} (hL : ∀ e ∈ m.errors, Loadable e) (hp : ∀ e ∈ m.errors, e.p = 0 ∨ 1 / 2 ^ 1000 ≤ e.p) (l l' : Link) : ∀ p ∈ shared m l l', Big p ∧ p ≤ 1 / 2 := by
  intro p h
  obtain ⟨e, he, rfl⟩ := List.mem_map.1 h
  rw [List.mem_filter, decide_eq_true_iff] at he
  exact ⟨(hp e he.1).resolve_left he.2.1.1, (hL e he.1).1⟩

theorem shared_le (m : Model ℚ) (l l' : Link) : (shared m l l').length ≤ (shared m l l).length ∧ (shared m l l).length ≤ m.errors.length := by
  unfold shared
  rw [List.length_map, List.length_map]
  refine ⟨?_, List.length_filter_le _ _⟩
  rw [← List.countP_eq_length_filter, ← List.countP_eq_length_filter]
  refine List.countP_mono_left fun e _ h => ?_
  simp only [decide_eq_true_eq] at h ⊢
  exact ⟨h.1, h.1⟩

theorem shared_self {m : Model ℚ} {l l' : Link} (h : shared m l l' ≠ []) : shared m l l ≠ [] := by
  have := (shared_le m l l').1
  have h1 := List.length_pos_iff.2 h
  exact List.length_pos_iff.1 (by omega)

theorem shared_key {m : Model ℚ} {l1 l2 l1' l2' : Link} (h : key l1.a l1.b = key l2.a l2.b) (h' : key l1'.a l1'.b = key l2'.a l2'.b) : shared m l1 l1' = shared m l2 l2' := by
  unfold shared
  congr 1
  refine List.filter_congr fun e _ => ?_
  rw [decide_eq_decide, has_key h, has_key h']

/-! ## Theorems -/

section
variable {ex ln : ℚ → ℚ} {η : ℝ} (hl : Library ex ln η) {m : Model ℚ} (hu : Usual m (1 / 2 ^ 40 + 711 * η)) {N : Net}
  (hN : corrNet rounded (mergeD ex ln) (weightD ln) m = some N)
include hl hu hN

/-- C82: with doubles, the weight of a link is close to the log-likelihood ratio of its probability, and that of a rule to that of the conditional probability.  There is exactly one rule
for each other link that shares an error with it. -/
theorem C82_numbers : ∀ l ∈ N.links, shared m l l ≠ [] ∧ |(l.weight : ℝ) - ratio (chance m l)| ≤ 2 * (shared m l l).length * (1 / 2 ^ 40 + 711 * η) ∧
    (∀ r ∈ l.rules, ∃ l' ∈ N.links, r.a = l'.a ∧ r.b = l'.b ∧ ¬ l'.Joins l.a l.b ∧ shared m l l' ≠ [] ∧
      |(r.weight : ℝ) - ratio (given m l l')| ≤ 2 * (shared m l l).length * (1 / 2 ^ 40 + 711 * η)) ∧
    ∀ l' ∈ N.links, ¬ l'.Joins l.a l.b → shared m l l' ≠ [] → ∃! r, r ∈ l.rules ∧ r.a = l'.a ∧ r.b = l'.b := by
  unfold corrNet at hN
  split_ifs at hN with hA
  obtain ⟨N0, h0, rfl⟩ := Option.map_eq_some_iff.1 hN
  have hη := hl.nonneg
  have hr := shared_range hA hu.probs
  have hn47 : m.errors.length ≤ 2 ^ 47 := by
    have h1 := hu.few
    have h2 : (m.errors.length : ℝ) * (1 / 2 ^ 40) ≤ 100 := by
      have : 0 ≤ (m.errors.length : ℝ) * (711 * η) := by positivity
      linarith
    have h3 : (m.errors.length : ℝ) ≤ 2 ^ 47 := by
      rw [mul_one_div, div_le_iff₀ (by positivity)] at h2
      refine le_trans h2 (by norm_num)
    exact_mod_cast h3
  have hacc := place_acc hl hu.few ((demLinks (weightD ln) m).map sorted) (h := fun _ => []) h0 (fun l hl' => by
      obtain ⟨l0, hl0, rfl⟩ := List.mem_map.1 hl'
      obtain ⟨e, he, hl0⟩ := List.mem_flatMap.1 hl0
      split at hl0
      · cases hl0
      · rename_i hp
        rw [(sorted_prob l0).1, (sorted_prob l0).2]
        obtain ⟨c, hc, hl0⟩ := List.mem_filterMap.1 hl0
        have : l0.weight = weightD ln e.p ∧ l0.prob = e.p := by
          obtain ⟨ds, os⟩ := c
          match ds with
          | [] => cases hl0
          | [a] => cases hl0; exact ⟨rfl, rfl⟩
          | [a, b] => cases hl0; exact ⟨rfl, rfl⟩
          | a :: b :: c :: l => cases hl0
        rw [this.1, this.2]
        exact ⟨rfl, (hu.probs e he).resolve_left hp, (hA e he).1⟩) (fun _ p h => by cases h) (fun k => ?_) ⟨fun l h => (by cases h), fun k h => absurd rfl h⟩
  · simp only [List.nil_append] at hacc
    intro l hl'
    obtain ⟨l0, hl0, rfl⟩ := List.mem_map.1 hl'
    obtain ⟨a1, a2⟩ := hacc.link l0 hl0
    rw [story_shared hu.once] at a1 a2
    have hδ : 0 ≤ 1 / 2 ^ 40 + 711 * η := by positivity
    have hlt : 2 * ((shared m l0 l0).length : ℝ) - 1 ≤ 2 * (shared m l0 l0).length := by linarith
    refine ⟨a1, le_trans a2 (mul_le_mul_of_nonneg_right hlt hδ), fun r hr' => ?_, fun l' hl'' h1 h2 => ?_⟩
    · simp only [rulesFor, List.mem_toFinset, List.mem_map, List.mem_filter, decide_eq_true_eq] at hr'
      obtain ⟨l', ⟨b1, b2, b3, b4⟩, rfl⟩ := hr'
      refine ⟨_, List.mem_map_of_mem b1, rfl, rfl, b2, b3, ?_⟩
      exact rule_close hl (hr _ _) (hr _ _) a1 b3 (le_trans (shared_le m l0 l0).2 hn47) (shared_le m l0 l').1
    · obtain ⟨l0', hl0', rfl⟩ := List.mem_map.1 hl''
      have hne := (given_near (hr _ _) (hr _ _) a1 h2 (le_trans (shared_le m l0 l0).2 hn47) (shared_le m l0 l0').1).1
      refine ⟨⟨l0'.a, l0'.b, weightD ln (min (1 / 2) (rounded.div (combined rounded (shared m l0 l0')) (combined rounded (shared m l0 l0))))⟩, ⟨?_, rfl, rfl⟩, ?_⟩
      · simp only [rulesFor, List.mem_toFinset, List.mem_map, List.mem_filter, decide_eq_true_eq]
        exact ⟨l0', ⟨hl0', h1, h2, hne⟩, rfl⟩
      · rintro r ⟨hr', e1, e2⟩
        simp only [rulesFor, List.mem_toFinset, List.mem_map, List.mem_filter, decide_eq_true_eq] at hr'
        obtain ⟨l2, ⟨b1, b2, b3, b4⟩, rfl⟩ := hr'
        simp only at e1 e2
        have : shared m l0 l2 = shared m l0 l0' := shared_key rfl (by rw [e1, e2])
        rw [this, e1, e2]
  · simp only [List.nil_append]
    by_cases hk : story ((demLinks (weightD ln) m).map sorted) k = []
    · rw [hk]; simp
    · obtain ⟨p, hp⟩ := List.exists_mem_of_ne_nil _ hk
      obtain ⟨l, hl', -⟩ := List.mem_map.1 hp
      rw [List.mem_filter, decide_eq_true_iff] at hl'
      rw [← hl'.2, story_shared hu.once]
      exact (shared_le m l l).2

omit hl hu in
theorem no_boundary : N.boundary = ∅ := by
  unfold corrNet at hN
  split_ifs at hN with hA
  obtain ⟨N0, h0, rfl⟩ := Option.map_eq_some_iff.1 hN
  exact (place_kept _ _ h0 (fun l hl => by cases hl)).1

omit hl hu in
theorem loadable : ∀ e ∈ m.errors, Loadable e := by
  unfold corrNet at hN
  split_ifs at hN with hA
  exact hA

/-- The largest error of a weight. -/
theorem close_all (l : Link) (hl' : l ∈ N.links) : |(l.weight : ℝ) - ratio (chance m l)| ≤ 2 * m.errors.length * (1 / 2 ^ 40 + 711 * η) ∧
    ∀ r ∈ l.rules, ∃ l' ∈ N.links, r.a = l'.a ∧ r.b = l'.b ∧ ¬ l'.Joins l.a l.b ∧ shared m l l' ≠ [] ∧
      |(r.weight : ℝ) - ratio (given m l l')| ≤ 2 * m.errors.length * (1 / 2 ^ 40 + 711 * η) := by
  have hη := hl.nonneg
  have hle : 2 * ((shared m l l).length : ℝ) * (1 / 2 ^ 40 + 711 * η) ≤ 2 * m.errors.length * (1 / 2 ^ 40 + 711 * η) := by
    refine mul_le_mul_of_nonneg_right ?_ (by positivity)
    have : ((shared m l l).length : ℝ) ≤ m.errors.length := by exact_mod_cast (shared_le m l l).2
    linarith
  obtain ⟨-, h1, h2, -⟩ := C82_numbers hl hu hN l hl'
  refine ⟨le_trans h1 hle, fun r hr => ?_⟩
  obtain ⟨l', a, b, c, d, e, f⟩ := h2 r hr
  exact ⟨l', a, b, c, d, e, le_trans f hle⟩

/-- The exact weights are between 0 and 709. -/
theorem ratio_range (l : Link) (hl' : l ∈ N.links) : (0 ≤ ratio (chance m l) ∧ ratio (chance m l) ≤ 709) ∧
    ∀ l', shared m l l' ≠ [] → 0 ≤ ratio (given m l l') ∧ ratio (given m l l') ≤ 709 := by
  have hr := shared_range (loadable hN) hu.probs
  have h22 : (1 : ℚ) / 2 ^ 1022 ≤ 1 / 2 ^ 1000 := one_div_le_one_div_of_le (by positivity) (pow_le_pow_right₀ (by norm_num) (by norm_num))
  have key : ∀ p : ℚ, Big p → p ≤ 1 / 2 → 0 ≤ ratio p ∧ ratio p ≤ 709 := by
    intro p h1 h2
    have hp : (0 : ℝ) < p := by exact_mod_cast h1.pos
    have hp2 : (p : ℝ) ≤ 1 / 2 := by
      have := (Rat.cast_le (K := ℝ)).2 h2
      push_cast at this
      exact this
    refine ⟨Real.log_nonneg ?_, le_trans (le_abs_self _) (llr_bound (le_trans h22 h1) (le_trans h2 (by norm_num)))⟩
    rw [le_div_iff₀ hp]
    linarith
  have h0 := (C82_numbers hl hu hN l hl').1
  obtain ⟨c1, c2⟩ := odd_big _ (hr l l) h0
  refine ⟨key _ c1 c2, fun l' h => key _ ?_ (min_le_left _ _)⟩
  obtain ⟨d1, d2⟩ := odd_big _ (hr l l') h
  refine le_trans d1 (le_min d2 ?_)
  unfold chance
  rw [le_div_iff₀ c1.pos]
  exact mul_le_of_le_one_right d1.pos.le (by linarith)

/-- C82: all weights of the network are at most 1000. -/
theorem C82_range : ∀ w ∈ N.numbers, |w| ≤ 1000 := by
  intro w hw
  have hf := hu.few
  have hs : ∀ x : ℚ, ∀ y : ℝ, 0 ≤ y ∧ y ≤ 709 → |(x : ℝ) - y| ≤ 2 * m.errors.length * (1 / 2 ^ 40 + 711 * η) → |x| ≤ 1000 := by
    intro x y h1 h2
    have h3 := abs_le.1 h2
    have : |(x : ℝ)| ≤ 1000 := by rw [abs_le]; constructor <;> linarith
    exact_mod_cast this
  obtain ⟨l, hl', hw⟩ := (mem_numbers N w).1 hw
  obtain ⟨r1, r2⟩ := ratio_range hl hu hN l hl'
  obtain ⟨c1, c2⟩ := close_all hl hu hN l hl'
  rcases hw with rfl | ⟨r, hr, rfl⟩
  · exact hs _ _ r1 c1
  · obtain ⟨l', -, -, -, -, a, b⟩ := c2 r hr
    exact hs _ _ (r2 l' a) b

/-- C82: the network may be asked about, with correlations, if no weight is negative (rounding may make those of probabilities close to one half negative), and not all are extremely small. -/
theorem C82_ready (hloop : ∀ e ∈ m.errors, ∀ c ∈ components e, ∀ d, c.1 ≠ [d, d]) (few : N.links.length < 2 ^ 38) (big : Session.Whole N ∨ ∃ w ∈ N.numbers, 1 / 2 ^ 998 ≤ |w|)
    (hw : ∀ w ∈ N.numbers, 0 ≤ w) : N.Ready true :=
  C81_ready rounded m _ _ hloop hN few (fun w h => le_trans (C82_range hl hu hN w h) (by norm_num)) big hw

/-! ## Lemmas: replies -/

theorem nearly_of {u : ℚ} (hs : Session.StepOf N u) {w : Fin N.links.length → ℚ} {ρ : Fin N.links.length → ℝ} {fires : Nat → Prop} {C : N.Links} {E : ℝ}
    (hE : ∀ j, |(w j : ℝ) - ρ j| ≤ E) (h : Session.CheapFor u w fires C) : Nearly (1 / 2 ^ 15 + E) ρ fires C := by
  have hsum : ∀ D : N.Links, |((∑ i ∈ D, w i : ℚ) : ℝ) - ∑ i ∈ D, ρ i| ≤ D.card * E := by
    intro D
    rw [Rat.cast_sum, ← Finset.sum_sub_distrib]
    refine le_trans (Finset.abs_sum_le_sum_abs _ _) ?_
    rw [← nsmul_eq_mul]
    exact Finset.sum_le_card_nsmul _ _ _ fun i _ => hE i
  refine ⟨h.1, fun C' hC' => ?_⟩
  obtain ⟨h1, h2⟩ := h.2 C' hC'
  have a := abs_le.1 (hsum C)
  have b := abs_le.1 (hsum C')
  generalize (∑ i ∈ C, w i) = x at *
  generalize (∑ i ∈ C', w i) = y at *
  have hxy : (x : ℝ) ≤ y + (C.card + C'.card : ℕ) * (1 / 2 ^ 15) := by
    rcases hs with ⟨hw, -⟩ | ⟨-, k, hk, -, rfl⟩
    · have : (x : ℝ) ≤ y := by exact_mod_cast h2 hw
      have : (0 : ℝ) ≤ (C.card + C'.card : ℕ) * (1 / 2 ^ 15) := by positivity
      linarith
    · have hk' := C82_range hl hu hN k hk
      have h3 : (1 / 2 + 1 / 2 ^ 27) * (|k| / (2 ^ 24 - 1)) ≤ 1 / 2 ^ 15 := by
        rw [← mul_div_assoc, div_le_iff₀ (by norm_num)]
        refine le_trans (mul_le_mul_of_nonneg_left hk' (by norm_num)) (by norm_num)
      have h4 : x ≤ y + (C.card + C'.card : ℕ) * (1 / 2 ^ 15) := by
        refine le_trans h1 (add_le_add_right ?_ _)
        rw [mul_assoc]
        exact mul_le_mul_of_nonneg_left h3 (by positivity)
      have := (Rat.cast_le (K := ℝ)).2 h4
      push_cast at this ⊢
      exact this
  rw [mul_add]
  push_cast at hxy ⊢
  linarith

theorem returned_of (hfew : N.links.length < 2 ^ 29) {u : ℚ} (hs : Session.StepOf N u) {w : Fin N.links.length → ℚ} {ρ : Fin N.links.length → ℝ} {C : N.Links} {E : ℝ} {x : Double}
    (hE : ∀ j, |(w j : ℝ) - ρ j| ≤ E) (h : Session.CostsFor u w C x) : Returned (1 / 2 ^ 15 + E) ρ C x := by
  have hsum : |((∑ i ∈ C, w i : ℚ) : ℝ) - ∑ i ∈ C, ρ i| ≤ C.card * E := by
    rw [Rat.cast_sum, ← Finset.sum_sub_distrib]
    refine le_trans (Finset.abs_sum_le_sum_abs _ _) ?_
    rw [← nsmul_eq_mul]
    exact Finset.sum_le_card_nsmul _ _ _ fun i _ => hE i
  obtain ⟨q, e, h1, h2⟩ := h
  refine ⟨q, e, ?_⟩
  generalize (∑ i ∈ C, w i) = y at *
  have ht : (0 : ℚ) ≤ 1 / 2 ^ 1074 := by positivity
  have hq : |(q : ℝ) - y| ≤ C.card * (1 / 2 ^ 15) + ((1 / 2 ^ 1074 : ℚ) : ℝ) := by
    generalize (1 : ℚ) / 2 ^ 1074 = t at *
    rcases hs with ⟨hw, -⟩ | ⟨-, k, hk, -, rfl⟩
    · rw [h2 hw hfew, sub_self, abs_zero]
      have : (0 : ℝ) ≤ t := by exact_mod_cast ht
      positivity
    · have hk' := C82_range hl hu hN k hk
      have h3 : (1 / 2 + 1 / 2 ^ 25) * (|k| / (2 ^ 24 - 1)) ≤ 1 / 2 ^ 15 := by
        rw [← mul_div_assoc, div_le_iff₀ (by norm_num)]
        refine le_trans (mul_le_mul_of_nonneg_left hk' (by norm_num)) (by norm_num)
      have h4 : |q - y| ≤ C.card * (1 / 2 ^ 15) + t := by
        refine le_trans h1 (add_le_add_left ?_ _)
        rw [mul_assoc]
        exact mul_le_mul_of_nonneg_left h3 (by positivity)
      have := (Rat.cast_le (K := ℝ)).2 h4
      push_cast at this ⊢
      exact this
  have e : ((1 / 2 ^ 1074 : ℚ) : ℝ) = 1 / 2 ^ 1074 := by rw [Rat.cast_div, Rat.cast_one, Rat.cast_pow, Rat.cast_ofNat]
  rw [e] at hq
  generalize (1 : ℝ) / 2 ^ 1074 = t at *
  have a := abs_le.1 hq
  have b := abs_le.1 hsum
  rw [abs_le, mul_add]
  constructor <;> linarith

/-- The options are the choices, without rounding. -/
theorem options_of (C : N.Links) (j : Fin N.links.length) :
    (∀ x ∈ Session.choices N C j, ∃ y ∈ options m N C j, |(x : ℝ) - y| ≤ 2 * m.errors.length * (1 / 2 ^ 40 + 711 * η)) ∧
    ∀ y ∈ options m N C j, ∃ x ∈ Session.choices N C j, |(x : ℝ) - y| ≤ 2 * m.errors.length * (1 / 2 ^ 40 + 711 * η) := by
  have hb := no_boundary hN
  have hshown : ∀ l : Link, Session.shown N l = s(some l.a, l.b) := by
    intro l
    unfold Session.shown
    rw [hb]
    simp
  have hpair : ∀ (a : Nat) (b : Option Nat) (l : Link), s(some a, b) = s(some l.a, l.b) ↔ l.Joins a b := by
    intro a b l
    rw [Sym2.eq_iff]
    unfold Link.Joins
    simp only [Option.some.injEq]
    constructor
    · rintro (⟨rfl, rfl⟩ | ⟨h1, rfl⟩)
      · exact .inl ⟨rfl, rfl⟩
      · exact .inr ⟨h1.symm, rfl⟩
    · rintro (⟨rfl, rfl⟩ | ⟨h1, rfl⟩)
      · exact .inl ⟨rfl, rfl⟩
      · exact .inr ⟨h1.symm, rfl⟩
  have hdiag : ∀ l : Link, (Session.shown N l).IsDiag ↔ l.b = some l.a := by
    intro l
    rw [hshown, Sym2.mk_isDiag_iff]
    exact eq_comm
  have habs : ∀ {x : ℚ} {y E : ℝ}, 0 ≤ y → |(x : ℝ) - y| ≤ E → |((|x| : ℚ) : ℝ) - y| ≤ E := by
    intro x y E h0 h
    push_cast
    have := abs_abs_sub_abs_le (x : ℝ) y
    rw [abs_of_nonneg h0] at this
    exact le_trans this h
  constructor
  · rintro x (rfl | ⟨i, hi, hd, r, hr, hs, rfl⟩)
    · exact ⟨_, .inl rfl, (close_all hl hu hN _ (List.getElem_mem _)).1⟩
    · obtain ⟨l', hl', e1, e2, e3, e4, e5⟩ := (close_all hl hu hN N.links[i] (List.getElem_mem _)).2 r hr
      rw [hshown, hpair, e1, e2, joins_same, samePair_iff_key] at hs
      have hk : shared m N.links[i] l' = shared m N.links[i] N.links[j] := shared_key rfl hs
      have hg : given m N.links[i] l' = given m N.links[i] N.links[j] := by unfold given; rw [hk]
      refine ⟨_, .inr ⟨i, hi, fun h => hd ((hdiag _).2 h), ?_, by rw [← hk]; exact e4, rfl⟩, ?_⟩
      · rw [joins_same, samePair_iff_key] at e3 ⊢
        rw [← hs]
        exact e3
      · rw [← hg]
        exact habs ((ratio_range hl hu hN _ (List.getElem_mem _)).2 l' e4).1 e5
  · rintro y (rfl | ⟨i, hi, hd, hj, hsh, rfl⟩)
    · exact ⟨_, .inl rfl, (close_all hl hu hN _ (List.getElem_mem _)).1⟩
    · obtain ⟨r, ⟨hr, e1, e2⟩, -⟩ := (C82_numbers hl hu hN N.links[i] (List.getElem_mem _)).2.2.2 N.links[j] (List.getElem_mem _) hj hsh
      obtain ⟨l', hl', f1, f2, f3, f4, f5⟩ := (close_all hl hu hN N.links[i] (List.getElem_mem _)).2 r hr
      have hk : shared m N.links[i] l' = shared m N.links[i] N.links[j] := shared_key rfl (by rw [← f1, ← f2, e1, e2])
      have hg : given m N.links[i] l' = given m N.links[i] N.links[j] := by unfold given; rw [hk]
      refine ⟨_, .inr ⟨i, hi, fun h => hd ((hdiag _).1 h), r, hr, by rw [hshown, e1, e2], rfl⟩, ?_⟩
      rw [← hg]
      exact habs ((ratio_range hl hu hN _ (List.getElem_mem _)).2 l' f4).1 f5

/-- The exact weights that go with those of the code. -/
theorem weights_of {u : ℚ} (hs : Session.StepOf N u) {fires : Nat → Prop} {corr : Bool} {w : Fin N.links.length → ℚ} (h : Session.Weighed u fires corr w) :
    ∃ ρ : Fin N.links.length → ℝ, Weights m (1 / 2 ^ 15 + 2 * m.errors.length * (1 / 2 ^ 40 + 711 * η)) fires corr ρ ∧
      ∀ j, |(w j : ℝ) - ρ j| ≤ 2 * m.errors.length * (1 / 2 ^ 40 + 711 * η) := by
  unfold Session.Weighed at h
  unfold Weights
  cases corr with
  | false =>
    rw [if_neg (by decide)] at h
    refine ⟨own m N, by rw [if_neg (by decide)], fun j => ?_⟩
    rw [h j]
    exact (close_all hl hu hN _ (List.getElem_mem _)).1
  | true =>
    rw [if_pos rfl] at h
    obtain ⟨C, h1, h2⟩ := h
    have hfin : ∀ j, (options m N C j).Finite := by
      intro j
      refine Set.Finite.subset (s := ↑(insert (own m N j) (C.image fun i => ratio (given m N.links[i] N.links[j])))) (Finset.finite_toSet _) ?_
      rintro x (rfl | ⟨i, hi, -, -, -, rfl⟩)
      · simp
      · rw [Finset.mem_coe, Finset.mem_insert]
        exact .inr (Finset.mem_image_of_mem _ hi)
    have hleast : ∀ j, ∃ y, IsLeast (options m N C j) y := fun j =>
      (hfin j).exists_minimal ⟨_, .inl rfl⟩ |>.imp fun y hy => ⟨hy.1, fun z hz => (le_total y z).elim id fun h => hy.2 hz h⟩
    choose ρ hρ using hleast
    refine ⟨ρ, ?_, fun j => ?_⟩
    · rw [if_pos rfl]
      exact ⟨C, nearly_of hl hu hN hs (fun j => (close_all hl hu hN _ (List.getElem_mem _)).1) h1, hρ⟩
    · obtain ⟨k1, k2⟩ := options_of hl hu hN C j
      obtain ⟨y, y1, y2⟩ := k1 _ (h2 j).1
      obtain ⟨x, x1, x2⟩ := k2 _ (hρ j).1
      have a := (hρ j).2 y1
      have b : (w j : ℝ) ≤ x := by exact_mod_cast (h2 j).2 x1
      have y3 := abs_le.1 y2
      have x3 := abs_le.1 x2
      rw [abs_le]
      constructor <;> linarith

/-- C82: what right replies mean, for a model that is loaded with correlations.  The answer is nearly a best explanation, for the exact weights of the model; with correlations, for the least of
these and of the exact weights of the conditional probabilities, given a first explanation that is nearly best.  Nearly: up to `1 / 2^15 + 2 n (1 / 2^40 + 711 η)` per link, if the model has
`n` errors. -/
theorem C82_means (hfew : N.links.length < 2 ^ 29) (mergeW : ℚ → ℚ → ℚ) (s : Stmt) (r : Reply) (h : Session.Right mergeW false N s r) :
    Means m N (1 / 2 ^ 15 + 2 * m.errors.length * (1 / 2 ^ 40 + 711 * η)) s r := by
  cases s with
  | decode z rw corr =>
    rcases h with ⟨h1, -, u, hs, w, C, row, x, k1, k2, k3, k4, k5⟩ | ⟨h1, h2⟩
    · obtain ⟨ρ, w1, w2⟩ := weights_of hl hu hN hs k1
      exact .inl ⟨h1, ρ, C, row, x, w1, nearly_of hl hu hN hs w2 k2, k3, returned_of hl hu hN hfew hs w2 k4, k5⟩
    · exact .inr ⟨h1, fun hsh => (h2 hsh).resolve_left fun hc => by cases hc.2⟩
  | decodeToEdgesArray z corr =>
    rcases h with ⟨h1, -, u, hs, w, C, row, k1, k2, k3, k5⟩ | ⟨h1, h2⟩
    · obtain ⟨ρ, w1, w2⟩ := weights_of hl hu hN hs k1
      exact .inl ⟨h1, ρ, C, row, w1, nearly_of hl hu hN hs w2 k2, k3, k5⟩
    · exact .inr ⟨h1, fun hsh => (h2 hsh).resolve_left fun hc => by cases hc.2⟩
  | decodeBatch ps pp rw corr cols rows =>
    rcases h with ⟨h1, -, u, hs, outs, ws, l1, l2, k1, k5⟩ | ⟨h1, h2⟩
    · refine .inl ⟨h1, outs, ws, l1, l2, k1.imp ?_, k5⟩
      rintro row y ⟨w, C, c1, c2, c3, c4⟩
      obtain ⟨ρ, w1, w2⟩ := weights_of hl hu hN hs c1
      exact ⟨ρ, C, w1, nearly_of hl hu hN hs w2 c2, c3, returned_of hl hu hN hfew hs w2 c4⟩
    · exact .inr ⟨h1, fun hsh => (h2 hsh).resolve_left fun hc => by cases hc.2⟩
  | _ => trivial

end

section
variable {ex ln : ℚ → ℚ} {η : ℝ} (hl : Library ex ln η) {m : Model ℚ} (hu : Usual m (1 / 2 ^ 40 + 711 * η)) (hn : ∀ e ∈ m.errors, ∀ c ∈ components e, c.2.Nodup)
include hl hu hn

/-- C82: programs that start with loading a model with correlations, all in double precision: replies are right (C81), and as long as the network is that of the model, this means what
`Means` says about the probabilities of the model. -/
theorem C82_program : (corrNet rounded (mergeD ex ln) (weightD ln) m = none ∧ loadCorr (mergeD ex ln) (weightD ln) m rounded = none) ∨
    ∃ N g, corrNet rounded (mergeD ex ln) (weightD ln) m = some N ∧ loadCorr (mergeD ex ln) (weightD ln) m rounded = some g ∧
      (N.links.length < 2 ^ 29 → ∀ prog, Session.ProperProgram (mergeD ex ln) N False prog →
        ∃ replies o, Completes (fun f => Session.run (mergeD ex ln) f (ObjectD.of g false) prog) (.ok (replies, o)) ∧
          List.Forall₂ (fun (x : Net × Stmt) r => Session.Right (mergeD ex ln) false x.1 x.2 r ∧
            (x.1 = N → Means m N (1 / 2 ^ 15 + 2 * m.errors.length * (1 / 2 ^ 40 + 711 * η)) x.2 r)) (Session.moments (mergeD ex ln) N prog) replies) := by
  rcases C81_program rounded m (mergeD ex ln) (weightD ln) hn hu.once with h | ⟨N, g, h1, h2, h3⟩
  · exact .inl h
  · refine .inr ⟨N, g, h1, h2, fun hfew prog hp => ?_⟩
    obtain ⟨replies, o, k1, k2⟩ := h3 prog hp
    exact ⟨replies, o, k1, k2.imp fun x r h => ⟨h, fun e => C82_means hl hu h1 hfew _ _ _ (e ▸ h)⟩⟩

/-- C82 for the library as compiled, with its 32-bit wrapped radius. -/
theorem C82_program_int32 : (corrNet rounded (mergeD ex ln) (weightD ln) m = none ∧ loadCorr (mergeD ex ln) (weightD ln) m rounded = none) ∨
    ∃ N g, corrNet rounded (mergeD ex ln) (weightD ln) m = some N ∧ loadCorr (mergeD ex ln) (weightD ln) m rounded = some g ∧
      (N.links.length < 2 ^ 29 → ∀ prog, Session.ProperProgram (mergeD ex ln) N False prog →
        (∀ x ∈ Session.moments (mergeD ex ln) N prog, Session.Asks x.2 → x.1.Small) →
        ∃ replies o, Completes (fun f => Session.run (W := int32) (mergeD ex ln) f (ObjectD.of g false) prog) (.ok (replies, o)) ∧
          List.Forall₂ (fun (x : Net × Stmt) r => Session.Right (mergeD ex ln) false x.1 x.2 r ∧
            (x.1 = N → Means m N (1 / 2 ^ 15 + 2 * m.errors.length * (1 / 2 ^ 40 + 711 * η)) x.2 r)) (Session.moments (mergeD ex ln) N prog) replies) := by
  rcases C81_program_int32 rounded m (mergeD ex ln) (weightD ln) hn hu.once with h | ⟨N, g, h1, h2, h3⟩
  · exact .inl h
  · refine .inr ⟨N, g, h1, h2, fun hfew prog hp hs => ?_⟩
    obtain ⟨replies, o, k1, k2⟩ := h3 prog hp hs
    exact ⟨replies, o, k1, k2.imp fun x r h => ⟨h, fun e => C82_means hl hu h1 hfew _ _ _ (e ▸ h)⟩⟩

end

/-! ## Examples -/

/-- Two connections, each with an error of its own, and an error that has both. -/
def both : Model ℚ := ⟨[⟨1 / 10, [.det 0, .obs 0, .sep, .det 2, .det 1]⟩, ⟨1 / 5, [.det 0, .obs 0]⟩, ⟨1 / 5, [.det 1, .det 2]⟩], 3, 1⟩

theorem both_nodup : ∀ e ∈ both.errors, ∀ c ∈ components e, c.2.Nodup := by decide +kernel

theorem both_loops : ∀ e ∈ both.errors, ∀ c ∈ components e, ∀ d, c.1 ≠ [d, d] := by
  have : ∀ e ∈ both.errors, ∀ c ∈ components e, c.1.Nodup := by decide +kernel
  intro e he c hc d h
  have := this e he c hc
  rw [h] at this
  simp at this

theorem both_usual : Usual both (1 / 2 ^ 40 + 711 * (1 / 2 ^ 52)) where
  probs := fun e he => by
    have hb : (1 : ℚ) / 2 ^ 1000 ≤ 1 / 10 :=
      le_trans (one_div_le_one_div_of_le (by norm_num) (pow_le_pow_right₀ (by norm_num) (show 4 ≤ 1000 by norm_num))) (by norm_num)
    have : ∀ e ∈ both.errors, 1 / 10 ≤ e.p := by decide +kernel
    exact .inr (le_trans hb (this e he))
  few := by
    have : both.errors.length = 3 := rfl
    rw [this]
    norm_num
  once := by decide +kernel

theorem both_links (lg : ℚ → ℚ) : (demLinks lg both).map sorted =
    [⟨0, none, {0}, lg (1 / 10), 1 / 10, ∅⟩, ⟨1, some 2, ∅, lg (1 / 10), 1 / 10, ∅⟩, ⟨0, none, {0}, lg (1 / 5), 1 / 5, ∅⟩, ⟨1, some 2, ∅, lg (1 / 5), 1 / 5, ∅⟩] := by
  have c1 : components (⟨1 / 10, [.det 0, .obs 0, .sep, .det 2, .det 1]⟩ : Err ℚ) = [([0], [0]), ([2, 1], [])] := by decide +kernel
  have c2 : components (⟨1 / 5, [.det 0, .obs 0]⟩ : Err ℚ) = [([0], [0])] := by decide +kernel
  have c3 : components (⟨1 / 5, [.det 1, .det 2]⟩ : Err ℚ) = [([1, 2], [])] := by decide +kernel
  unfold demLinks both
  have n1 : (1 / 10 : ℚ) ≠ 0 := by norm_num
  have n2 : (1 / 5 : ℚ) ≠ 0 := by norm_num
  simp only [List.flatMap_cons, List.flatMap_nil, c1, c2, c3, n1, n2, if_false]
  rfl

theorem both_placed (mw : ℚ → ℚ → ℚ) (lg : ℚ → ℚ) : ∃ a b p q, placeAll mw .independent ⟨3, [], ∅, 1⟩ ((demLinks lg both).map sorted) =
    some ⟨3, [⟨0, none, {0}, a, p, ∅⟩, ⟨1, some 2, ∅, b, q, ∅⟩], ∅, 1⟩ := by
  rw [both_links]
  exact ⟨_, _, _, _, rfl⟩

/-- The sample is loaded, with any accurate library, and may be asked about with correlations. -/
theorem both_ready {ex ln : ℚ → ℚ} (hl : Library ex ln (1 / 2 ^ 52)) :
    ∃ N, corrNet rounded (mergeD ex ln) (weightD ln) both = some N ∧ N.links.length < 2 ^ 29 ∧ N.Ready true := by
  cases hN : corrNet rounded (mergeD ex ln) (weightD ln) both with
  | none =>
    exfalso
    obtain ⟨e, he, h⟩ := (C81_refused _ _ _ _).1 hN
    have : ∀ e ∈ both.errors, Loadable e := by decide +kernel
    exact h (this e he)
  | some N =>
    have hlinks : N.links.length = 2 ∧ ∀ l ∈ N.links, (l.a = 0 ∧ l.b = none) ∨ (l.a = 1 ∧ l.b = some 2) := by
      obtain ⟨a, b, p, q, h⟩ := both_placed (mergeD ex ln) (weightD ln)
      unfold corrNet at hN
      rw [if_pos (by decide +kernel), show placeAll (mergeD ex ln) .independent ⟨both.numDets, [], ∅, both.numObs⟩ _ = _ from h] at hN
      cases hN
      refine ⟨rfl, fun l hl => ?_⟩
      simp only [List.map_cons, List.map_nil, List.mem_cons, List.not_mem_nil, or_false] at hl
      rcases hl with rfl | rfl
      · exact .inl ⟨rfl, rfl⟩
      · exact .inr ⟨rfl, rfl⟩
    have hd : (2 : ℝ) * both.errors.length * (1 / 2 ^ 40 + 711 * (1 / 2 ^ 52)) ≤ 1 / 8 := by
      have : both.errors.length = 3 := rfl
      rw [this]
      norm_num
    have hrat : ∀ p : ℚ, 0 < p → p ≤ 2 / 5 → 1 / 4 ≤ ratio p := by
      intro p h1 h2
      have h1' : (0 : ℝ) < p := by exact_mod_cast h1
      have h2' : (p : ℝ) ≤ 2 / 5 := by
        have := (Rat.cast_le (K := ℝ)).2 h2
        push_cast at this
        exact this
      have h3 := Real.one_sub_inv_le_log_of_pos (show (0 : ℝ) < (1 - p) / p from div_pos (by linarith) h1')
      refine le_trans ?_ h3
      rw [inv_div, le_sub_iff_add_le, ← le_sub_iff_add_le', div_le_iff₀ (by linarith)]
      linarith
    have hends : ∀ l ∈ N.links, ∃ l0 ∈ ([⟨0, none, ∅, 0, 0, ∅⟩, ⟨1, some 2, ∅, 0, 0, ∅⟩] : List Link), l.a = l0.a ∧ l.b = l0.b := by
      intro l hl'
      rcases hlinks.2 l hl' with ⟨h1, h2⟩ | ⟨h1, h2⟩
      · exact ⟨⟨0, none, ∅, 0, 0, ∅⟩, by simp, h1, h2⟩
      · exact ⟨⟨1, some 2, ∅, 0, 0, ∅⟩, by simp, h1, h2⟩
    have hch : ∀ l0 ∈ ([⟨0, none, ∅, 0, 0, ∅⟩, ⟨1, some 2, ∅, 0, 0, ∅⟩] : List Link), chance both l0 = 13 / 50 := by decide +kernel
    have hgi : ∀ l0 ∈ ([⟨0, none, ∅, 0, 0, ∅⟩, ⟨1, some 2, ∅, 0, 0, ∅⟩] : List Link), ∀ l1 ∈ ([⟨0, none, ∅, 0, 0, ∅⟩, ⟨1, some 2, ∅, 0, 0, ∅⟩] : List Link),
        ¬ l1.Joins l0.a l0.b → given both l0 l1 = 5 / 13 := by decide +kernel
    have hbig : ∀ w ∈ N.numbers, 1 / 8 ≤ w := by
      intro w hw
      have hs : ∀ y : ℝ, 1 / 4 ≤ y → |(w : ℝ) - y| ≤ 2 * both.errors.length * (1 / 2 ^ 40 + 711 * (1 / 2 ^ 52)) → 1 / 8 ≤ w := by
        intro y h1 h2
        have h3 := abs_le.1 (le_trans h2 hd)
        have : ((1 / 8 : ℚ) : ℝ) ≤ w := by push_cast; linarith
        exact_mod_cast this
      obtain ⟨l, hl', hw⟩ := (mem_numbers N w).1 hw
      obtain ⟨c1, c2⟩ := close_all hl both_usual hN l hl'
      obtain ⟨l0, k1, k2, k3⟩ := hends l hl'
      have e0 : key l.a l.b = key l0.a l0.b := by rw [k2, k3]
      rcases hw with rfl | ⟨r, hr, rfl⟩
      · refine hs _ (hrat (chance both l) ?_ ?_) c1
        all_goals
          unfold chance
          rw [shared_key e0 e0]
          have := hch l0 k1
          unfold chance at this
          rw [this]
          norm_num
      · obtain ⟨l', m1, -, -, m2, m3, m4⟩ := c2 r hr
        obtain ⟨l1, q1, q2, q3⟩ := hends l' m1
        have e1 : key l'.a l'.b = key l1.a l1.b := by rw [q2, q3]
        have hj : ¬ l1.Joins l0.a l0.b := by
          rw [joins_same, samePair_iff_key] at m2 ⊢
          rw [← e0, ← e1]
          exact m2
        have hg : given both l l' = 5 / 13 := by
          rw [← hgi l0 k1 l1 q1 hj]
          unfold given chance
          rw [shared_key e0 e0, shared_key e0 e1]
        refine hs _ (hrat _ ?_ ?_) m4 <;> rw [hg] <;> norm_num
    have hlen : N.links.length < 2 ^ 29 := by rw [hlinks.1]; norm_num
    refine ⟨N, rfl, hlen, C82_ready hl both_usual hN both_loops (lt_trans hlen (by norm_num)) ?_ fun w hw => le_trans (by norm_num) (hbig w hw)⟩
    obtain ⟨l, hl'⟩ := List.exists_mem_of_ne_nil N.links (by rw [← List.length_pos_iff, hlinks.1]; norm_num)
    have hw : l.weight ∈ N.numbers := (mem_numbers N _).2 ⟨l, hl', .inl rfl⟩
    refine .inr ⟨l.weight, hw, le_trans ?_ (le_trans (hbig _ hw) (le_abs_self _))⟩
    exact le_trans (one_div_le_one_div_of_le (by norm_num) (pow_le_pow_right₀ (by norm_num) (show 3 ≤ 998 by norm_num))) (by norm_num)

/-- The sample meets the hypotheses of `C82_program`, with a program that asks with correlations. -/
example : ∃ ex ln, Library ex ln (1 / 2 ^ 52) ∧ Usual both (1 / 2 ^ 40 + 711 * (1 / 2 ^ 52)) ∧ ∃ N, corrNet rounded (mergeD ex ln) (weightD ln) both = some N ∧ N.links.length < 2 ^ 29 ∧
    Session.ProperProgram (mergeD ex ln) N False [.decode (.d1 [1, 1, 1]) true true, .decodeToEdgesArray (.d1 [1, 0, 0]) true] := by
  obtain ⟨ex, ln, hl⟩ := Arithmetic.library_exists (η := 1 / 2 ^ 52) (by positivity) (by norm_num)
  obtain ⟨N, h1, h2, h3⟩ := both_ready hl
  exact ⟨ex, ln, hl, both_usual, N, h1, h2, Session.proper_step (N' := N) rfl h3 fun _ => Session.proper_step (N' := N) rfl h3 fun _ => trivial⟩

end Verif.Props.RulesD
