import Verif.Convert
import Mathlib.Algebra.Order.Ring.Rat

/-!
# Properties of weight discretisation (C19)
-/

namespace Verif.Props.Discretise

open Verif.UG Verif.Conv

variable {K : Type} [Field K] [LinearOrder K] [IsStrictOrderedRing K] [FloorRing K]

/-! ## Specification -/

/-- Is this weight an integer? -/
def IsInt (w : K) : Prop := ∃ z : Int, (z : K) = w

/-- All weights of a graph: the edge weights and the implied weights. -/
def allWeights (g : UGraph K) : List K := g.edges.flatMap fun e => e.weight :: e.implied.map (·.weight)

/-- Every implied weight refers to an existing edge, whose weight does not have the opposite sign. -/
def ImpliedOk (g : UGraph K) : Prop :=
  ∀ e ∈ g.edges, ∀ i ∈ e.implied, ∃ e', g.getEdge i.node1 i.node2 = some e' ∧ 0 ≤ e'.weight * i.weight

/-! ## Helper lemmas -/

theorem cround_spec (x : K) : |(cround x : K) - x| ≤ 1 / 2 := by
  unfold cround
  split
  · have h1 := Int.floor_le (x + 1 / 2)
    have h2 := Int.lt_floor_add_one (x + 1 / 2)
    rw [abs_le]; constructor <;> linarith
  · have h1 := Int.le_ceil (x - 1 / 2)
    have h2 := Int.ceil_lt_add_one (x - 1 / 2)
    rw [abs_le]; constructor <;> linarith

theorem cround_int (z : Int) : cround (z : K) = z := by
  unfold cround
  split
  · rw [Int.floor_eq_iff]; constructor
    · have : (0 : K) < 1 / 2 := by norm_num
      linarith
    · have : (1 / 2 : K) < 1 := by norm_num
      linarith
  · rw [Int.ceil_eq_iff]; constructor
    · have : (1 / 2 : K) < 1 := by norm_num
      linarith
    · have : (0 : K) < 1 / 2 := by norm_num
      linarith

theorem cround_eq_iff (w : K) : ((cround w : Int) : K) = w ↔ IsInt w := by
  constructor
  · intro h; exact ⟨_, h⟩
  · rintro ⟨z, rfl⟩; rw [cround_int]

theorem cround_neg (x : K) : cround (-x) = - cround x := by
  unfold cround
  rcases lt_trichotomy x 0 with h | rfl | h
  · rw [if_pos (by linarith), if_neg (not_le.2 h)]
    rw [show -x + 1 / 2 = -(x - 1 / 2) by ring, Int.floor_neg]
  · simp
    norm_num
  · rw [if_neg (by linarith), if_pos h.le]
    rw [show -x - 1 / 2 = -(x + 1 / 2) by ring, Int.ceil_neg]

theorem cround_nonneg (x : K) (h : 0 ≤ x) : 0 ≤ cround x := by
  unfold cround
  rw [if_pos h]
  exact Int.floor_nonneg.2 (by have : (0 : K) < 1 / 2 := by norm_num
                               linarith)

theorem cround_mono {x y : K} (h : x ≤ y) : cround x ≤ cround y := by
  rcases le_or_gt 0 x with hx | hx
  · unfold cround
    rw [if_pos hx, if_pos (hx.trans h)]
    exact Int.floor_mono (by linarith)
  · rcases le_or_gt 0 y with hy | hy
    · have h1 : 0 ≤ cround y := cround_nonneg y hy
      have h2 : 0 ≤ cround (-x) := cround_nonneg _ (by linarith)
      rw [cround_neg] at h2
      omega
    · unfold cround
      rw [if_neg (not_le.2 hx), if_neg (not_le.2 hy)]
      exact Int.ceil_mono (by linarith)

theorem cround_abs_le {x : K} {n : Nat} (h : |x| ≤ n) : |cround x| ≤ n := by
  rw [abs_le] at h ⊢
  constructor
  · have := cround_mono h.1
    rw [cround_neg] at this
    have e : cround (n : K) = n := by have := cround_int (K := K) (n : Int); simpa using this
    omega
  · have := cround_mono h.2
    have e : cround (n : K) = n := by have := cround_int (K := K) (n : Int); simpa using this
    omega

/-- What the accumulator holds after having seen the weights `ws`. -/
structure Acc (a : K × Bool) (ws : List K) : Prop where
  nonneg : 0 ≤ a.1
  le : ∀ w ∈ ws, |w| ≤ a.1
  mem : (∃ w ∈ ws, |w| = a.1) ∨ a.1 = 0
  int : a.2 = true ↔ ∀ w ∈ ws, IsInt w

theorem acc_see {a : K × Bool} {ws : List K} (h : Acc a ws) (w : K) : Acc (see a w) (ws ++ [w]) := by
  unfold see
  refine ⟨?_, ?_, ?_, ?_⟩
  · simp only; split
    · exact abs_nonneg _
    · exact h.nonneg
  · simp only
    intro x hx
    simp only [List.mem_append, List.mem_singleton] at hx
    split
    · rename_i hgt
      rcases hx with hx | rfl
      · exact (h.le x hx).trans hgt.le
      · exact le_refl _
    · rename_i hgt
      rcases hx with hx | rfl
      · exact h.le x hx
      · exact not_lt.1 hgt
  · simp only
    split
    · left; exact ⟨w, by simp, rfl⟩
    · rcases h.mem with ⟨x, hx, he⟩ | he
      · left; exact ⟨x, by simp [hx], he⟩
      · right; exact he
  · simp only
    by_cases hw : IsInt w
    · rw [if_neg (by rw [not_not]; exact (cround_eq_iff w).2 hw), h.int]
      constructor
      · intro hx y hy
        simp only [List.mem_append, List.mem_singleton] at hy
        rcases hy with hy | rfl
        · exact hx y hy
        · exact hw
      · intro hx y hy; exact hx y (by simp [hy])
    · rw [if_pos (fun hc => hw ((cround_eq_iff w).1 hc))]
      simp only [Bool.false_eq_true, false_iff]
      intro hx; exact hw (hx w (by simp))

theorem implied_fold (g : UGraph K) (is : List (Implied K)) (a : K × Bool) (ws : List K) (h : Acc a ws) :
    (∃ a', is.foldlM (seeImplied g) a = some a' ∧ Acc a' (ws ++ is.map (·.weight)) ∧
      ∀ i ∈ is, ∃ e', g.getEdge i.node1 i.node2 = some e' ∧ 0 ≤ e'.weight * i.weight) ∨
    (is.foldlM (seeImplied g) a = none ∧
      ∃ i ∈ is, ∀ e', g.getEdge i.node1 i.node2 = some e' → ¬ 0 ≤ e'.weight * i.weight) := by
  induction is generalizing a ws with
  | nil => left; exact ⟨a, rfl, by simpa using h, by simp⟩
  | cons i is ih =>
    rw [List.foldlM_cons]
    cases hg : g.getEdge i.node1 i.node2 with
    | none =>
      right
      refine ⟨?_, i, by simp, by simp [hg]⟩
      simp [seeImplied, hg]
    | some e =>
      by_cases hs : e.weight * i.weight ≥ 0
      · have : seeImplied g a i = some (see a i.weight) := by simp [seeImplied, hg, hs]
        rw [this]
        simp only [Option.bind_eq_bind, Option.bind_some]
        rcases ih (see a i.weight) (ws ++ [i.weight]) (acc_see h i.weight) with ⟨a', h1, h2, h3⟩ | ⟨h1, j, h2, h3⟩
        · left
          refine ⟨a', h1, by simpa using h2, ?_⟩
          intro j hj
          simp only [List.mem_cons] at hj
          rcases hj with rfl | hj
          · exact ⟨e, hg, hs⟩
          · exact h3 j hj
        · right
          exact ⟨h1, j, by simp [h2], h3⟩
      · right
        refine ⟨?_, i, by simp, ?_⟩
        · simp [seeImplied, hg, hs]
        · intro e' he'
          rw [hg] at he'; cases he'; exact hs

theorem edges_fold (g : UGraph K) (es : List (UEdge K)) (a : K × Bool) (ws : List K) (h : Acc a ws) :
    (∃ a', es.foldlM (seeEdge g) a = some a' ∧
      Acc a' (ws ++ es.flatMap fun e => e.weight :: e.implied.map (·.weight)) ∧
      ∀ e ∈ es, ∀ i ∈ e.implied, ∃ e', g.getEdge i.node1 i.node2 = some e' ∧ 0 ≤ e'.weight * i.weight) ∨
    (es.foldlM (seeEdge g) a = none ∧
      ∃ e ∈ es, ∃ i ∈ e.implied, ∀ e', g.getEdge i.node1 i.node2 = some e' → ¬ 0 ≤ e'.weight * i.weight) := by
  induction es generalizing a ws with
  | nil => left; exact ⟨a, rfl, by simpa using h, by simp⟩
  | cons e es ih =>
    rw [List.foldlM_cons]
    rcases implied_fold g e.implied (see a e.weight) (ws ++ [e.weight]) (acc_see h e.weight) with
      ⟨a', h1, h2, h3⟩ | ⟨h1, i, h2, h3⟩
    · have : seeEdge g a e = some a' := h1
      rw [this]
      simp only [Option.bind_eq_bind, Option.bind_some]
      rcases ih a' _ h2 with ⟨a2, h4, h5, h6⟩ | ⟨h4, e2, h5, i, h6, h7⟩
      · left
        refine ⟨a2, h4, by simpa using h5, ?_⟩
        intro e2 he2
        simp only [List.mem_cons] at he2
        rcases he2 with rfl | he2
        · exact h3
        · exact h6 e2 he2
      · right
        exact ⟨h4, e2, by simp [h5], i, h6, h7⟩
    · right
      have : seeEdge g a e = none := h1
      rw [this]
      exact ⟨rfl, e, by simp, i, h2, h3⟩

/-! ## C19 -/

/-- C19 (the constant).  Conversion is refused iff some implied weight is inconsistent or some weight exceeds `2^24 - 1` in
magnitude.  Otherwise the scaling constant is 1 if all weights are integers, and else it maps the largest magnitude
to `numDistinct - 1`. -/
theorem C19_constant (g : UGraph K) (numDistinct : Nat) :
    (normConst g numDistinct = none ↔ ¬ ImpliedOk g ∨ ∃ w ∈ allWeights g, |w| > (2 ^ 24 - 1 : Nat)) ∧
    ∀ c, normConst g numDistinct = some c →
      ((∀ w ∈ allWeights g, IsInt w) → c = 1) ∧
      ((∃ w ∈ allWeights g, ¬ IsInt w) →
        ∃ wmax ∈ allWeights g, 0 < |wmax| ∧ (∀ w ∈ allWeights g, |w| ≤ |wmax|) ∧ c * |wmax| = (numDistinct - 1 : Nat)) := by
  have h0 : Acc ((0 : K), true) [] := ⟨le_refl _, by simp, Or.inr rfl, by simp⟩
  rcases edges_fold g g.edges (0, true) [] h0 with ⟨a, h1, h2, h3⟩ | ⟨h1, e, he, i, hi, h2⟩
  · have hA : Acc a (allWeights g) := by simpa [allWeights] using h2
    have hmax : (a.1 > ((2 ^ 24 - 1 : Nat) : K)) ↔ ∃ w ∈ allWeights g, |w| > ((2 ^ 24 - 1 : Nat) : K) := by
      constructor
      · intro hgt
        rcases hA.mem with ⟨w, hw, he⟩ | he
        · exact ⟨w, hw, he ▸ hgt⟩
        · rw [he] at hgt
          exact absurd hgt (not_lt.2 (Nat.cast_nonneg _))
      · rintro ⟨w, hw, hgt⟩
        exact lt_of_lt_of_le hgt (hA.le w hw)
    have hn : normConst g numDistinct = if a.1 > ((2 ^ 24 - 1 : Nat) : K) then none
        else if a.2 then some 1 else some (((numDistinct - 1 : Nat) : K) / a.1) := by
      unfold normConst
      rw [h1]; rfl
    constructor
    · rw [hn, ← hmax]
      constructor
      · intro h
        split at h
        · rename_i hgt; exact Or.inr hgt
        · split at h <;> cases h
      · rintro (h | h)
        · exact absurd h3 h
        · rw [if_pos h]
    · intro c hc
      rw [hn] at hc
      split at hc
      · cases hc
      · by_cases hint : a.2 = true
        · rw [if_pos hint] at hc
          cases hc
          refine ⟨fun _ => rfl, ?_⟩
          rintro ⟨w, hw, hni⟩
          exact absurd (hA.int.1 hint w hw) hni
        · rw [if_neg hint] at hc
          cases hc
          refine ⟨fun h => absurd (hA.int.2 h) hint, ?_⟩
          rintro ⟨w, hw, hni⟩
          have hpos : 0 < a.1 := by
            refine lt_of_lt_of_le ?_ (hA.le w hw)
            rw [abs_pos]
            rintro rfl
            exact hni ⟨0, by simp⟩
          rcases hA.mem with ⟨x, hx, he⟩ | he
          · refine ⟨x, hx, he ▸ hpos, fun y hy => he ▸ hA.le y hy, ?_⟩
            rw [he, div_mul_cancel₀ _ hpos.ne']
          · exact absurd he hpos.ne'
  · have hn : normConst g numDistinct = none := by unfold normConst; rw [h1]
    constructor
    · simp only [hn, true_iff]
      left
      intro hok
      obtain ⟨e', h3, h4⟩ := hok e he i hi
      exact h2 e' h3 h4
    · intro c hc; rw [hn] at hc; cases hc

/-- C19 (the weights).  For the scaling constant `c` of a graph, the discretised weight of each edge (and of each implied
weight) is an even integer of magnitude at most `2 (2^24 - 1)` (so it fits 32 bits), and divided by the reported
constant `2 c` it is within half a step of the true weight, a step being `2 / (2 c)`. -/
theorem C19_weights (g : UGraph K) (c : K) (hc : normConst g numDistinctWeights = some c) (w : K) (hw : w ∈ allWeights g) :
    0 < c ∧ 2 ∣ disc c w ∧ |disc c w| ≤ 2 * (2 ^ 24 - 1) ∧ |disc c w / (2 * c) - w| ≤ (2 / (2 * c)) / 2 := by
  obtain ⟨hnone, hsome⟩ := C19_constant g numDistinctWeights
  obtain ⟨hint, hnint⟩ := hsome c hc
  have hle : ∀ w ∈ allWeights g, |w| ≤ ((2 ^ 24 - 1 : Nat) : K) := by
    intro w hw
    by_contra hgt
    have := hnone.2 (Or.inr ⟨w, hw, not_le.1 hgt⟩)
    rw [hc] at this; cases this
  have hmain : 0 < c ∧ |w * c| ≤ ((2 ^ 24 - 1 : Nat) : K) := by
    by_cases hall : ∀ w ∈ allWeights g, IsInt w
    · rw [hint hall]; exact ⟨one_pos, by rw [mul_one]; exact hle w hw⟩
    · simp only [not_forall] at hall
      obtain ⟨x, hx, hxi⟩ := hall
      obtain ⟨wmax, h1, h2, h3, h4⟩ := hnint ⟨x, hx, hxi⟩
      have hN : (0 : K) < ((numDistinctWeights - 1 : Nat) : K) := by
        rw [Nat.cast_pos]; decide
      have hcpos : 0 < c := by
        rw [← h4] at hN
        exact (pos_iff_pos_of_mul_pos hN).2 h2
      refine ⟨hcpos, ?_⟩
      rw [abs_mul, abs_of_pos hcpos, mul_comm]
      calc c * |w| ≤ c * |wmax| := mul_le_mul_of_nonneg_left (h3 w hw) hcpos.le
        _ = _ := h4
  obtain ⟨hcpos, hwc⟩ := hmain
  refine ⟨hcpos, ⟨cround (w * c), by unfold disc; ring⟩, ?_, ?_⟩
  · have := cround_abs_le hwc
    unfold disc
    rw [abs_mul]
    have e : |(2 : Int)| = 2 := rfl
    rw [e]
    have e2 : (((2 ^ 24 - 1 : Nat) : Int)) = 2 ^ 24 - 1 := by decide
    omega
  · have h := cround_spec (w * c)
    have e : (disc c w : K) / (2 * c) - w = ((cround (w * c) : K) - w * c) / c := by
      unfold disc
      push_cast
      field_simp
    rw [e, abs_div, abs_of_pos hcpos]
    have e2 : (2 : K) / (2 * c) / 2 = (1 / 2) / c := by field_simp
    rw [e2]
    exact div_le_div_of_nonneg_right h hcpos.le

/-- C19 (order and sign).  Discretisation is monotone and odd, so it preserves order and sign, whatever the constant. -/
theorem C19_monotone_odd (c : K) (hc : 0 < c) (v w : K) :
    (v ≤ w → disc c v ≤ disc c w) ∧ disc c (-w) = - disc c w ∧ (0 ≤ w → 0 ≤ disc c w) := by
  refine ⟨fun h => ?_, ?_, fun h => ?_⟩
  · have := cround_mono (mul_le_mul_of_nonneg_right h hc.le)
    unfold disc; omega
  · unfold disc
    rw [neg_mul, cround_neg]; ring
  · have := cround_nonneg (w * c) (mul_nonneg h hc.le)
    unfold disc; omega

/-- C19 (integers).  If all weights are integers, dividing by the reported constant recovers every weight exactly. -/
theorem C19_integers_exact (g : UGraph K) (c : K) (hc : normConst g numDistinctWeights = some c)
    (hint : ∀ w ∈ allWeights g, IsInt w) (w : K) (hw : w ∈ allWeights g) : (disc c w : K) / (2 * c) = w := by
  have := ((C19_constant g numDistinctWeights).2 c hc).1 hint
  subst this
  obtain ⟨z, rfl⟩ := hint w hw
  unfold disc
  rw [mul_one, cround_int]
  push_cast
  ring

/-- A graph with non-integral weights and an implied weight, and its constant. -/
example :
    let g : UGraph ℚ := ⟨[⟨[(0, true)], false⟩, ⟨[(0, false), (1, true)], false⟩],
      [⟨0, some 1, [0], 5/2, 0, [⟨1, none, 1⟩]⟩, ⟨1, none, [], 4, 0, []⟩], ∅, 1, true, true⟩
    normConst g numDistinctWeights = some ((2 ^ 24 - 1) / 4) ∧ allWeights g = [5/2, 1, 4] ∧
    disc ((2 ^ 24 - 1) / 4) (5/2 : ℚ) = 20971518 ∧ normConst (K := ℚ) { g with edges := [⟨0, some 1, [], 3, 0, []⟩] } 5 = some 1 ∧
    normConst (K := ℚ) { g with edges := [⟨0, some 1, [], 3, 0, [⟨1, some 1, 1⟩]⟩] } 5 = none := by
  decide +kernel

end Verif.Props.Discretise
