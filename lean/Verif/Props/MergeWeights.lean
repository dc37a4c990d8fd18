import Verif.MergeWeights
import Verif.Props.UserGraph

/-!
# Properties of weight merging (C20)
-/

namespace Verif.Props.MergeWeights

open Verif.MW

/-- The log-likelihood ratio of an error probability. -/
noncomputable def llr (p : ℝ) : ℝ := Real.log ((1 - p) / p)

/-- The probability that exactly one of two independent errors happens. -/
def exactlyOne (p q : ℝ) : ℝ := p * (1 - q) + q * (1 - p)

/-- C20.  Merging the weights of two independent parallel edges gives the log-likelihood weight of "exactly one of
them happens". -/
theorem C20_merge_is_llr_of_xor (p q : ℝ) (hp : 0 < p ∧ p < 1) (hq : 0 < q ∧ q < 1) :
    mergeWeights (llr p) (llr q) = llr (exactlyOne p q) := by
  apply bias_strictMono.injective
  have h1 : 0 < exactlyOne p q := by
    unfold exactlyOne
    have := mul_pos hp.1 (sub_pos.2 hq.2)
    have := mul_pos hq.1 (sub_pos.2 hp.2)
    linarith
  have h2 : exactlyOne p q < 1 := by
    unfold exactlyOne
    have := mul_pos hp.1 hq.1
    have := mul_pos (sub_pos.2 hp.2) (sub_pos.2 hq.2)
    nlinarith
  rw [bias_merge]
  show bias (toWeight p) * bias (toWeight q) = bias (toWeight (exactlyOne p q))
  rw [bias_toWeight p hp.1 hp.2, bias_toWeight q hq.1 hq.2, bias_toWeight _ h1 h2]
  unfold exactlyOne
  ring

/-- C20: merging is commutative and associative, for all weights of any sign. -/
theorem C20_merge_commutative_associative (a b c : ℝ) :
    mergeWeights a b = mergeWeights b a ∧ mergeWeights (mergeWeights a b) c = mergeWeights a (mergeWeights b c) := by
  constructor <;> apply bias_strictMono.injective
  · rw [bias_merge, bias_merge, mul_comm]
  · rw [bias_merge, bias_merge, bias_merge, bias_merge, mul_assoc]

/-- C20: the merged weight is never larger in magnitude than either weight, and its sign is the product of the signs. -/
theorem C20_merge_magnitude (a b : ℝ) :
    |mergeWeights a b| ≤ min |a| |b| ∧ (0 ≤ a * b → 0 ≤ mergeWeights a b) ∧ (a * b ≤ 0 → mergeWeights a b ≤ 0) := by
  have h0 : bias 0 = 0 := by simp [bias]
  have key : ∀ x y, |mergeWeights x y| ≤ |x| := by
    intro x y
    rw [← bias_strictMono.le_iff_le, bias_abs, bias_abs, bias_merge, abs_mul]
    exact mul_le_of_le_one_right (abs_nonneg _) (abs_bias_le_one y)
  refine ⟨le_min (key a b) ?_, ?_, ?_⟩
  · rw [(C20_merge_commutative_associative a b 0).1]; exact key b a
  all_goals
    intro h
    rw [← bias_strictMono.le_iff_le, h0, bias_merge]
    have hs : ∀ x, (0 ≤ x → 0 ≤ bias x) ∧ (x ≤ 0 → bias x ≤ 0) := by
      intro x
      constructor <;> intro hx
      · rw [← h0]; exact bias_strictMono.monotone hx
      · rw [← h0]; exact bias_strictMono.monotone hx
  · rcases mul_nonneg_iff.1 h with ⟨ha, hb⟩ | ⟨ha, hb⟩
    · exact mul_nonneg ((hs a).1 ha) ((hs b).1 hb)
    · exact mul_nonneg_of_nonpos_of_nonpos ((hs a).2 ha) ((hs b).2 hb)
  · rcases mul_nonpos_iff.1 h with ⟨ha, hb⟩ | ⟨ha, hb⟩
    · exact mul_nonpos_of_nonneg_of_nonpos ((hs a).1 ha) ((hs b).2 hb)
    · exact mul_nonpos_of_nonpos_of_nonneg ((hs a).2 ha) ((hs b).1 hb)

/-- The probability that an odd number of independent errors happen. -/
def oddOf {K : Type} [Field K] (ps : List K) : K := (1 - (ps.map (fun p => 1 - 2 * p)).prod) / 2

/-- C20, any number of parallel edges: adding parallel edges with strategy `independent`, each with weight `llr p`, to the
graph yields the edge with weight `llr` of "an odd number of them happen".  (Histories are those of `Verif.Props.UserGraph`.) -/
theorem C20_parallel_edges (n m : Nat) (cs : List (UserGraph.Call ℝ)) (u : Nat) (t : Option Nat)
    (d : UserGraph.Data ℝ) (ds : List (UserGraph.Data ℝ))
    (h : UserGraph.InsertedWith cs u t .independent d ds)
    (hd : ∀ x ∈ d :: ds, (0 < x.prob ∧ x.prob < 1) ∧ x.weight = llr x.prob) :
    ∃ r, UserGraph.dataOf (UserGraph.run mergeWeights (Verif.UG.UGraph.new n m) cs) u t = some r ∧
      r.obs = d.obs ∧ r.prob = oddOf ((d :: ds).map (·.prob)) ∧ r.weight = llr r.prob := by
  obtain ⟨r, h1, h2, h3, h4, -⟩ := UserGraph.C17_independent mergeWeights n m cs u t d ds h
  obtain ⟨h5, h6⟩ := h4 (fun x hx => ⟨(hd x hx).1.1.le, (hd x hx).1.2.le⟩)
  have hprod : r.prob = oddOf ((d :: ds).map (·.prob)) := by
    unfold oddOf
    rw [List.map_map]
    have : ((d :: ds).map ((fun p => 1 - 2 * p) ∘ fun x => x.prob)).prod = 1 - 2 * r.prob := h6.symm
    rw [this]; ring
  refine ⟨r, h1, h2, hprod, ?_⟩
  -- the combined probability stays strictly between 0 and 1, and the weight follows
  clear h h1 h2 h4 h5
  have hb : ∀ (l : List (UserGraph.Data ℝ)) (w : ℝ), (∀ x ∈ l, (0 < x.prob ∧ x.prob < 1) ∧ x.weight = llr x.prob) →
      bias ((l.map (·.weight)).foldl (fun acc w => mergeWeights w acc) w) =
        bias w * (l.map (fun x => 1 - 2 * x.prob)).prod := by
    intro l
    induction l with
    | nil => intro w _; simp
    | cons x l ih =>
      intro w hl
      simp only [List.map_cons, List.foldl_cons, List.prod_cons]
      rw [ih _ (fun y hy => hl y (List.mem_cons_of_mem _ hy)), bias_merge]
      obtain ⟨hx1, hx2⟩ := hl x List.mem_cons_self
      rw [hx2]
      show bias (toWeight x.prob) * _ * _ = _
      rw [bias_toWeight _ hx1.1 hx1.2]; ring
  have hlt : ∀ (l : List (UserGraph.Data ℝ)), (∀ x ∈ l, (0 < x.prob ∧ x.prob < 1) ∧ x.weight = llr x.prob) → l ≠ [] →
      |(l.map (fun x => 1 - 2 * x.prob)).prod| < 1 := by
    intro l
    induction l with
    | nil => intro _ hl; exact absurd rfl hl
    | cons x l ih =>
      intro hl _
      obtain ⟨hx1, -⟩ := hl x List.mem_cons_self
      have hx : |1 - 2 * x.prob| < 1 := by rw [abs_lt]; constructor <;> linarith
      simp only [List.map_cons, List.prod_cons, abs_mul]
      by_cases hnil : l = []
      · subst hnil; simpa using hx
      · have := ih (fun y hy => hl y (List.mem_cons_of_mem _ hy)) hnil
        calc _ ≤ |1 - 2 * x.prob| * 1 := mul_le_mul_of_nonneg_left this.le (abs_nonneg _)
          _ < 1 := by rwa [mul_one]
  have hr := hlt (d :: ds) hd (by simp)
  rw [← h6, abs_lt] at hr
  have hr0 : 0 < r.prob := by linarith
  have hr1 : r.prob < 1 := by linarith
  apply bias_strictMono.injective
  show bias r.weight = bias (toWeight r.prob)
  rw [bias_toWeight _ hr0 hr1, h3, hb ds d.weight (fun x hx => hd x (List.mem_cons_of_mem _ hx)), h6]
  obtain ⟨hd1, hd2⟩ := hd d List.mem_cons_self
  rw [hd2]
  show bias (toWeight d.prob) * _ = _
  rw [bias_toWeight _ hd1.1 hd1.2]
  simp

/-- The hypotheses of `C20_parallel_edges` are met by three parallel edges, one inserted from the other end. -/
example : ∃ (cs : List (UserGraph.Call ℝ)) (d : UserGraph.Data ℝ) (ds : List (UserGraph.Data ℝ)), ds.length = 2 ∧
    UserGraph.InsertedWith cs 0 (some 1) .independent d ds ∧
    ∀ x ∈ d :: ds, (0 < x.prob ∧ x.prob < 1) ∧ x.weight = llr x.prob := by
  refine ⟨[.add 0 (some 1) [0] (llr (1/4)) (1/4) .disallow, .add 1 (some 0) [] (llr (3/4)) (3/4) .independent,
    .add 0 (some 1) [7] (llr (1/2)) (1/2) .independent],
    ⟨[0], llr (1/4), 1/4⟩, [⟨[], llr (3/4), 3/4⟩, ⟨[7], llr (1/2), 1/2⟩], rfl, ⟨.disallow, ?_⟩, ?_⟩
  · simp [UserGraph.insertions, UserGraph.samePair]
  · intro x hx
    simp only [List.mem_cons, List.not_mem_nil, or_false] at hx
    rcases hx with rfl | rfl | rfl <;> refine ⟨⟨?_, ?_⟩, rfl⟩ <;> norm_num

end Verif.Props.MergeWeights
