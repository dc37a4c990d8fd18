import Verif.Props.DoubleHistory
import Verif.Props.Pairs

/-!
# Matched pairs in double precision

The statement of C59 for graphs whose weights are converted to integers in double precision; used for C72.
-/

namespace Verif.Props.PairsD

open Verif Verif.CE Verif.SB Verif.UG Verif.Conv Verif.Obj Verif.Dbl Verif.ConvD Verif.ObjD
open Verif.Props.UserEdges Verif.Props.UserGraph Verif.Props.Answers Verif.Props.EndToEnd
open Verif.Props.Object Verif.Props.Double Verif.Props.Discretise Verif.Props.DoubleHistory
open Verif.Props.Pairs (partners MeansPairs Matched)
open Verif.Props.Edges (Completes)

/-! ## Specification -/

/-- The rows name every detection event once, apart from those at boundary nodes.  Every row is joined by a good explanation of this row alone, and the weights of these
explanations add up to that of a good explanation of all events, up to about half a step per edge. -/
structure MatchedD (g : UGraph ℚ) (u : ℚ) (events : List Nat) (ps : List CompressedEdge) : Prop where
  once : (ps.flatMap partners).Nodup
  all : ∀ x, x ∈ ps.flatMap partners ↔ x ∈ events ∧ x ∉ g.boundary
  first : ∀ e ∈ ps, e.locFrom.isSome
  each : ∃ D : CompressedEdge → Choice g, (∀ e ∈ ps, Good u (partners e) (D e)) ∧
    ∃ C : Choice g, Good u events C ∧
      |trueWeight C - (ps.map fun e => trueWeight (D e)).sum| ≤ ((C.card + (ps.map fun e => (D e).card).sum : ℕ) : ℚ) * (1 / 2 + 1 / 2 ^ 27) * u ∧
      ((∀ w ∈ allWeights g, IsInt w) → trueWeight C = (ps.map fun e => trueWeight (D e)).sum)

/-- What the answer means; an exception: some weight is negative, or nothing explains the events. -/
def MeansPairsD (g : UGraph ℚ) (u : ℚ) (events : List Nat) (a : Answer Double) : Prop :=
  (∃ ps, a = .pairs ps ∧ MatchedD g u events ps) ∨
  (a = .exception ∧ ((∃ e ∈ g.edges, e.weight < 0) ∨ ∀ C : Choice g, ¬ EndToEnd.Explains C events))

/-! ## Lemmas -/

theorem sums_err {g : UGraph ℚ} {k c : ℚ} (h : Const g k c) (D : CompressedEdge → Choice g) (ps : List CompressedEdge) :
    |(((ps.map fun e => intTotal c (D e)).sum : Int) : ℚ) - (ps.map fun e => trueWeight (D e)).sum * k| ≤ ((ps.map fun e => (D e).card).sum : ℕ) * (1 / 2 + 1 / 2 ^ 27) := by
  induction ps with
  | nil => simp
  | cons e ps ih =>
    simp only [List.map_cons, List.sum_cons]
    have h1 := total_err h (D e)
    rw [abs_le] at ih h1 ⊢
    push_cast at ih h1 ⊢
    constructor <;> linarith [ih.1, ih.2, h1.1, h1.2]

theorem sums_int {g : UGraph ℚ} {k c : ℚ} (h : Const g k c) (hi : ∀ w ∈ allWeights g, IsInt w) (D : CompressedEdge → Choice g) (ps : List CompressedEdge) :
    (((ps.map fun e => intTotal c (D e)).sum : Int) : ℚ) = (ps.map fun e => trueWeight (D e)).sum := by
  induction ps with
  | nil => rfl
  | cons e ps ih =>
    simp only [List.map_cons, List.sum_cons]
    rw [Int.cast_add, ih, total_int h hi]

theorem means_pairs {g : UGraph ℚ} {k c : ℚ} (h : Const g k c) {events : List Nat} {a : Answer ℚ} (hm : MeansPairs (intGraph c g) 2 events a) (F : ℚ → Double) :
    MeansPairsD g (1 / k) events (mapWeights F a) := by
  have hk := lt_of_lt_of_le one_pos h.low
  rcases hm with ⟨ps, rfl, hp⟩ | ⟨rfl, hno⟩
  · obtain ⟨h1, h2, h3, D, hD, C, hC, hsum⟩ := hp
    refine .inl ⟨ps, rfl, h1, h2, h3, fun e => back (D e), fun e he => good_of h (hD e he), back C, good_of h hC, ?_, ?_⟩
    all_goals
      have e1 : intTotal c (back C) = (ps.map fun e => intTotal c (back (D e))).sum := by
        rw [back_total] at hsum
        have : (ps.map fun e => total 2 (D e)).sum = 2 * (ps.map fun e => intTotal c (back (D e))).sum := by
          rw [← List.sum_map_mul_left]
          congr 1
          exact List.map_congr_left fun e _ => back_total _
        omega
    · have k1 := total_err h (back C)
      have k2 := sums_err h (fun e => back (D e)) ps
      rw [e1] at k1
      have e2 := abs_of_pos hk
      rw [mul_one_div, le_div_iff₀ hk]
      nth_rewrite 1 [← e2]
      rw [← abs_mul, sub_mul]
      rw [abs_le] at k1 k2 ⊢
      push_cast at k1 k2 ⊢
      constructor <;> linarith [k1.1, k1.2, k2.1, k2.2]
    · intro hi
      rw [← total_int h hi, ← sums_int h hi, e1]
  · refine .inr ⟨rfl, hno.imp ?_ fun hx C hC => ?_⟩
    · rintro ⟨e, he, hneg⟩
      obtain ⟨e', he', rfl⟩ := List.mem_map.1 he
      refine ⟨e', he', ?_⟩
      by_contra hge
      have h1 : (0 : ℚ) ≤ ((toInt c e'.weight : Int) : ℚ) := by exact_mod_cast toInt_nonneg h.pos.le (not_lt.1 hge)
      exact absurd hneg (not_lt.2 h1)
    · obtain ⟨C', rfl⟩ := back_surj (c := c) C
      exact hx C' ((back_explains C' events).1 hC)

/-- The first answer of an object to a question for pairs. -/
theorem pairs_first [W : Width] {g : UGraph ℚ} (hw : WF g) (hB : Props.Convert.BndOk g) {without : Bool} {events : List Nat} {x : Answer Double}
    (h : FirstAnswer g without (.pairs events) x) (hN : NoGain g) : ∃ u, Step g u ∧ MeansPairsD g u events x := by
  obtain ⟨-, k, c, a, hk, hq, hf, rfl⟩ := h
  obtain ⟨⟨d1, hd⟩, k4, k5, -⟩ := hq
  obtain ⟨b, scale, ⟨c', hc', rfl⟩, hf', hm⟩ := Pairs.pairs_means (int_wf hw) (int_bnd hB) hd (solid (int_wf hw) (int_bnd hB) k4 hd) (int_noGain hk.pos.le hN) k4 k5
  rw [fresh1_unique hf hf']
  rw [int_norm hk] at hc'
  cases hc'
  rw [mul_one] at hm
  exact ⟨1 / k, step_of hk, means_pairs hk hm _⟩

end Verif.Props.PairsD
