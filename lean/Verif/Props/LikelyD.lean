import Verif.Props.CliD

/-!
# C84: what is most likely, with correlations

C82 says which sums of weights are nearly least.  Here the same is said with probabilities: nothing else that explains the events is much more likely.
-/

namespace Verif.Props.LikelyD

open Verif Verif.SB Verif.UG Verif.Obj Verif.Dbl Verif.ObjD Verif.Session Verif.Dem Verif.DemD Verif.Cli
open Verif.Props.Dem (components)
open Verif.Props.Session (Link Net)
open Verif.Props.DemRules
open Verif.Props.RulesD (chance given ratio Usual Nearly Weights Means)
open Verif.Props.Arithmetic (Library)
open Verif.Props.Edges (Completes)
open Verif.Props.CliD (Shown Tallied ShotOk Within Bits Foretold Hopeless)
open Verif.Sch (Res)

/-! ## Specification -/

section
variable (m : Model ℚ) (N : Net)

variable {N} in
/-- The probability that just the links of `C` happen, if link `i` happens with probability `q i` and they are independent. -/
def likelihood (q : Fin N.links.length → ℚ) (C : N.Links) : ℚ := ∏ i, if i ∈ C then q i else 1 - q i

variable {N} in
/-- An explanation such that no other is more likely by more than a factor of `exp D` for each link of the two. -/
def Likely (D : ℝ) (q : Fin N.links.length → ℚ) (fires : Nat → Prop) (C : N.Links) : Prop :=
  Session.Explained C fires ∧ ∀ C' : N.Links, Session.Explained C' fires → (likelihood q C' : ℝ) ≤ Real.exp ((C.card + C'.card : ℕ) * D) * likelihood q C

/-- The probabilities that link `j` may have in the second pass if `C` is the explanation found in the first: its own, and the conditional ones given the links of `C` that share an error
with it.  (Links from a node to itself do not count.) -/
def beliefs (C : N.Links) (j : Fin N.links.length) : Set ℚ :=
  {x | x = chance m N.links[j] ∨ ∃ i ∈ C, N.links[i].b ≠ some N.links[i].a ∧ ¬ N.links[j].Joins N.links[i].a N.links[i].b ∧ shared m N.links[i] N.links[j] ≠ [] ∧
    x = given m N.links[i] N.links[j]}

variable {N} in
/-- The probabilities for which the answer is likely: those of the links; with correlations, for each link the greatest that a likely first explanation leads to. -/
def Believed (D : ℝ) (fires : Nat → Prop) (corr : Bool) (q : Fin N.links.length → ℚ) : Prop :=
  if corr then ∃ C : N.Links, Likely D (fun j => chance m N.links[j]) fires C ∧ ∀ j, IsGreatest (beliefs m N C j) (q j) else q = fun j => chance m N.links[j]

variable {N} in
/-- The returned weight: how much less likely `C` is than that nothing happens, as a logarithm. -/
def Returned (D : ℝ) (q : Fin N.links.length → ℚ) (C : N.Links) (x : Double) : Prop :=
  ∃ w, x = .num w ∧ |(w : ℝ) - Real.log (likelihood q ∅ / likelihood q C)| ≤ C.card * D + 1 / 2 ^ 1074

/-- What the replies to questions mean for the probabilities of the model. -/
def Says (D : ℝ) : Stmt → Reply → Prop
  | .decode z rw corr, r =>
    (Session.Shaped N z ∧ ∃ (q : _) (C : N.Links) (row : _) (x : _),
      Believed m D (Session.Fires z) corr q ∧ Likely D q (Session.Fires z) C ∧ Session.Tells C row ∧ Returned D q C x ∧ r = if rw then .pair row x else .array row) ∨
    (r = .raised ∧ (Session.Shaped N z → ∀ C : N.Links, ¬ Session.Explained C (Session.Fires z)))
  | .decodeToEdgesArray z corr, r =>
    (Session.Shaped N z ∧ ∃ (q : _) (C : N.Links) (es : _),
      Believed m D (Session.Fires z) corr q ∧ Likely D q (Session.Fires z) C ∧ Session.Lists es C ∧ r = .edges es) ∨
    (r = .raised ∧ (Session.Shaped N z → ∀ C : N.Links, ¬ Session.Explained C (Session.Fires z)))
  | .decodeBatch ps pp rw corr cols rows, r =>
    (Session.ShotsShaped N ps cols ∧ ∃ outs ws, outs.length = rows.length ∧ ws.length = rows.length ∧
      List.Forall₂ (fun row (y : List (BitVec 8) × Double) => ∃ (q : _) (C : N.Links),
        Believed m D (Session.ShotFires ps row) corr q ∧ Likely D q (Session.ShotFires ps row) C ∧ Session.TellsIn pp C y.1 ∧ Returned D q C y.2) rows (outs.zip ws) ∧
      r = if rw then .rowsAndWeights outs ws else .rows outs) ∨
    (r = .raised ∧ (Session.ShotsShaped N ps cols → ∃ row ∈ rows, ∀ C : N.Links, ¬ Session.Explained C (Session.ShotFires ps row)))
  | _, _ => True

/-- The record tells the fault ids of a likely explanation of the events of a shot, with correlations. -/
def Predicts (D : ℝ) (hits : List Nat) (record : List Bool) : Prop :=
  ∃ (q : Fin N.links.length → ℚ) (C : N.Links), Believed m D (· ∈ hits) true q ∧ Likely D q (· ∈ hits) C ∧ Bits C record

end

/-! ## Lemmas -/

/-- A probability between zero and one. -/
def Proper (p : ℚ) : Prop := 0 < p ∧ p < 1

theorem exp_ratio {p : ℚ} (h : Proper p) : (p : ℝ) = (1 - p) * Real.exp (-ratio p) := by
  have h1 : (0 : ℝ) < p := by exact_mod_cast h.1
  have h2 : (p : ℝ) < 1 := by exact_mod_cast h.2
  have h3 : (0 : ℝ) < 1 - p := by linarith
  unfold ratio
  rw [← Real.log_inv, Real.exp_log (by positivity)]
  field_simp

theorem ratio_le {p p' : ℚ} (h : Proper p) (h' : Proper p') (hr : ratio p ≤ ratio p') : p' ≤ p := by
  have h1 : (0 : ℝ) < p := by exact_mod_cast h.1
  have h2 : (p : ℝ) < 1 := by exact_mod_cast h.2
  have h1' : (0 : ℝ) < p' := by exact_mod_cast h'.1
  have h2' : (p' : ℝ) < 1 := by exact_mod_cast h'.2
  unfold ratio at hr
  rw [Real.log_le_log_iff (div_pos (by linarith) h1) (div_pos (by linarith) h1'), div_le_div_iff₀ h1 h1'] at hr
  have : (p' : ℝ) ≤ p := by linarith
  exact_mod_cast this

section
variable {N : Net} {q : Fin N.links.length → ℚ} (hq : ∀ j, Proper (q j))
include hq

theorem likelihood_eq (C : N.Links) : (likelihood q C : ℝ) = likelihood q ∅ * Real.exp (-∑ i ∈ C, ratio (q i)) := by
  have h : ∑ i ∈ C, ratio (q i) = ∑ i, if i ∈ C then ratio (q i) else 0 := by
    rw [Finset.sum_ite_mem, Finset.univ_inter]
  unfold likelihood
  rw [Rat.cast_prod, Rat.cast_prod, h, ← Finset.sum_neg_distrib, Real.exp_sum, ← Finset.prod_mul_distrib]
  refine Finset.prod_congr rfl fun i _ => ?_
  by_cases hi : i ∈ C
  · simp only [hi, if_true, Finset.notMem_empty, if_false]
    push_cast
    exact exp_ratio (hq i)
  · simp [hi]

theorem likelihood_pos (C : N.Links) : (0 : ℝ) < likelihood q C := by
  have : 0 < likelihood q C := Finset.prod_pos fun i _ => by
    split_ifs
    · exact (hq i).1
    · linarith [(hq i).2]
  exact_mod_cast this

theorem likely_of {D : ℝ} {fires : Nat → Prop} {C : N.Links} (h : Nearly D (fun j => ratio (q j)) fires C) : Likely D q fires C := by
  refine ⟨h.1, fun C' hC' => ?_⟩
  have h2 := h.2 C' hC'
  rw [likelihood_eq hq C, likelihood_eq hq C']
  have h0 := likelihood_pos hq ∅
  rw [mul_left_comm, ← Real.exp_add]
  refine mul_le_mul_of_nonneg_left (Real.exp_le_exp.2 ?_) h0.le
  linarith

theorem weight_eq (C : N.Links) : Real.log (likelihood q ∅ / likelihood q C) = ∑ i ∈ C, ratio (q i) := by
  have h0 := likelihood_pos hq ∅
  rw [likelihood_eq hq C, ← div_div, div_self h0.ne', one_div, ← Real.exp_neg, neg_neg, Real.log_exp]

end

section
variable {ex ln : ℚ → ℚ} {η : ℝ} (hl : Library ex ln η) {m : Model ℚ} (hu : Usual m (1 / 2 ^ 40 + 711 * η)) {N : Net}
  (hN : corrNet rounded (mergeD ex ln) (weightD ln) m = some N)
include hl hu hN

theorem proper (l : Link) (hl' : l ∈ N.links) : Proper (chance m l) ∧ ∀ l', shared m l l' ≠ [] → Proper (given m l l') := by
  have hr := RulesD.shared_range (RulesD.loadable hN) hu.probs
  have h0 := (RulesD.C82_numbers hl hu hN l hl').1
  obtain ⟨c1, c2⟩ := RulesD.odd_big _ (hr l l) h0
  refine ⟨⟨c1.pos, lt_of_le_of_lt c2 (by norm_num)⟩, fun l' h => ⟨lt_min (by norm_num) ?_, lt_of_le_of_lt (min_le_left _ _) (by norm_num)⟩⟩
  obtain ⟨d1, -⟩ := RulesD.odd_big _ (hr l l') h
  exact div_pos d1.pos c1.pos

/-- The probabilities that go with exact weights. -/
theorem believed_of {D : ℝ} {fires : Nat → Prop} {corr : Bool} {ρ : Fin N.links.length → ℝ} (h : Weights m D fires corr ρ) :
    ∃ q : Fin N.links.length → ℚ, Believed m D fires corr q ∧ (∀ j, Proper (q j)) ∧ ρ = fun j => ratio (q j) := by
  have hown : ∀ j : Fin N.links.length, Proper (chance m N.links[j]) := fun j => (proper hl hu hN _ (List.getElem_mem _)).1
  unfold Weights at h
  unfold Believed
  cases corr with
  | false =>
    rw [if_neg (by decide)] at h
    simp only [Bool.false_eq_true, if_false]
    exact ⟨_, rfl, hown, h⟩
  | true =>
    rw [if_pos rfl] at h
    simp only [if_true]
    obtain ⟨C, h1, h2⟩ := h
    have hb : ∀ j, ∀ x ∈ beliefs m N C j, Proper x ∧ ratio x ∈ RulesD.options m N C j := by
      rintro j x (rfl | ⟨i, hi, a, b, c, rfl⟩)
      · exact ⟨hown j, .inl rfl⟩
      · exact ⟨(proper hl hu hN _ (List.getElem_mem _)).2 _ c, .inr ⟨i, hi, a, b, c, rfl⟩⟩
    have hx : ∀ j, ∃ x ∈ beliefs m N C j, ρ j = ratio x := by
      intro j
      rcases (h2 j).1 with e | ⟨i, hi, a, b, c, e⟩
      · exact ⟨_, .inl rfl, e⟩
      · exact ⟨_, .inr ⟨i, hi, a, b, c, rfl⟩, e⟩
    choose q k1 k2 using hx
    refine ⟨q, ⟨C, likely_of hown h1, fun j => ⟨k1 j, fun y hy => ?_⟩⟩, fun j => (hb j _ (k1 j)).1, funext k2⟩
    have := (h2 j).2 (hb j y hy).2
    rw [k2 j] at this
    exact ratio_le (hb j _ (k1 j)).1 (hb j y hy).1 this

omit hl hu hN in
theorem returned_of {D : ℝ} {q : Fin N.links.length → ℚ} (hq : ∀ j, Proper (q j)) {C : N.Links} {x : Double} (h : RulesD.Returned D (fun j => ratio (q j)) C x) : Returned D q C x := by
  obtain ⟨w, h1, h2⟩ := h
  refine ⟨w, h1, ?_⟩
  rw [weight_eq hq]
  exact h2

theorem says_of {D : ℝ} {s : Stmt} {r : Reply} (h : Means m N D s r) : Says m N D s r := by
  cases s with
  | decode z rw corr =>
    rcases h with ⟨h1, ρ, C, row, x, k1, k2, k3, k4, k5⟩ | h
    · obtain ⟨q, q1, q2, rfl⟩ := believed_of hl hu hN k1
      exact .inl ⟨h1, q, C, row, x, q1, likely_of q2 k2, k3, returned_of q2 k4, k5⟩
    · exact .inr h
  | decodeToEdgesArray z corr =>
    rcases h with ⟨h1, ρ, C, es, k1, k2, k3, k5⟩ | h
    · obtain ⟨q, q1, q2, rfl⟩ := believed_of hl hu hN k1
      exact .inl ⟨h1, q, C, es, q1, likely_of q2 k2, k3, k5⟩
    · exact .inr h
  | decodeBatch ps pp rw corr cols rows =>
    rcases h with ⟨h1, outs, ws, l1, l2, k1, k5⟩ | h
    · refine .inl ⟨h1, outs, ws, l1, l2, k1.imp ?_, k5⟩
      rintro row y ⟨ρ, C, c1, c2, c3, c4⟩
      obtain ⟨q, q1, q2, rfl⟩ := believed_of hl hu hN c1
      exact ⟨q, C, q1, likely_of q2 c2, c3, returned_of q2 c4⟩
    · exact .inr h
  | _ => trivial

theorem predicts_of {D : ℝ} {hits : List Nat} {record : List Bool} (h : Foretold m N D hits record) : Predicts m N D hits record := by
  obtain ⟨ρ, C, h1, h2, h3⟩ := h
  obtain ⟨q, q1, q2, rfl⟩ := believed_of hl hu hN h1
  exact ⟨q, C, q1, likely_of q2 h2, h3⟩

end

/-! ## Theorems -/

section
variable {ex ln : ℚ → ℚ} {η : ℝ} (hl : Library ex ln η) {m : Model ℚ} (hu : Usual m (1 / 2 ^ 40 + 711 * η)) (hn : ∀ e ∈ m.errors, ∀ c ∈ components e, c.2.Nodup) {N : Net}
  (hN : corrNet rounded (mergeD ex ln) (weightD ln) m = some N)
include hl hu hN hn

/-- C84: replies to questions right after loading with correlations, and after any other questions, tell what is likely. -/
theorem C84_program (hfew : N.links.length < 2 ^ 29) : ∃ g, loadCorr (mergeD ex ln) (weightD ln) m rounded = some g ∧ ∀ prog, Session.ProperProgram (mergeD ex ln) N False prog →
    ∃ replies o, Completes (fun f => Session.run (mergeD ex ln) f (ObjectD.of g false) prog) (.ok (replies, o)) ∧
      List.Forall₂ (fun (x : Net × Stmt) r => x.1 = N → Says m N (1 / 2 ^ 15 + 2 * m.errors.length * (1 / 2 ^ 40 + 711 * η)) x.2 r) (Session.moments (mergeD ex ln) N prog) replies := by
  rcases RulesD.C82_program hl hu hn with ⟨h, -⟩ | ⟨N', g, h1, h2, h3⟩
  · rw [hN] at h
    cases h
  · rw [hN] at h1
    cases h1
    refine ⟨g, h2, fun prog hp => ?_⟩
    obtain ⟨replies, o, k1, k2⟩ := h3 hfew prog hp
    exact ⟨replies, o, k1, k2.imp fun x r h e => says_of hl hu hN (h.2 e)⟩

/-- C84 for the library as compiled, with its 32-bit wrapped radius. -/
theorem C84_program_int32 (hfew : N.links.length < 2 ^ 29) : ∃ g, loadCorr (mergeD ex ln) (weightD ln) m rounded = some g ∧
    ∀ prog, Session.ProperProgram (mergeD ex ln) N False prog → (∀ x ∈ Session.moments (mergeD ex ln) N prog, Session.Asks x.2 → x.1.Small) →
    ∃ replies o, Completes (fun f => Session.run (W := int32) (mergeD ex ln) f (ObjectD.of g false) prog) (.ok (replies, o)) ∧
      List.Forall₂ (fun (x : Net × Stmt) r => x.1 = N → Says m N (1 / 2 ^ 15 + 2 * m.errors.length * (1 / 2 ^ 40 + 711 * η)) x.2 r) (Session.moments (mergeD ex ln) N prog) replies := by
  rcases RulesD.C82_program_int32 hl hu hn with ⟨h, -⟩ | ⟨N', g, h1, h2, h3⟩
  · rw [hN] at h
    cases h
  · rw [hN] at h1
    cases h1
    refine ⟨g, h2, fun prog hp hs => ?_⟩
    obtain ⟨replies, o, k1, k2⟩ := h3 hfew prog hp hs
    exact ⟨replies, o, k1, k2.imp fun x r h e => says_of hl hu hN (h.2 e)⟩

/-- C84: so do the records that `pymatching predict --enable_correlations` writes. -/
theorem C84_predict (hwi : Within m) (hr : N.Ready true) (shots : List (List Nat)) (hs : ∀ x ∈ shots, ShotOk m x) :
    ∃ records ok, Completes (fun f => runPredictD (mergeD ex ln) (weightD ln) true m shots f) (.ok (records, ok)) ∧
      (N.Small → Completes (fun f => runPredictD (W := int32) (mergeD ex ln) (weightD ln) true m shots f) (.ok (records, ok))) ∧
      Shown (Predicts m N (1 / 2 ^ 15 + 2 * m.errors.length * (1 / 2 ^ 40 + 711 * η))) (Hopeless N) shots records ok := by
  obtain ⟨g, -, h, -⟩ := CliD.core_rules hl hu hn hwi hN hr
  obtain ⟨records, ok, k1, k2, k3, k4⟩ := h shots hs
  exact ⟨records, ok, k1, k2, k3.imp fun _ _ h => predicts_of hl hu hN h, k4⟩

/-- C84: and the predictions that `pymatching count_mistakes --enable_correlations` compares with the recorded observables. -/
theorem C84_count (hwi : Within m) (hr : N.Ready true) (h64 : m.numObs ≤ 64) (shots : List Shot) (obsIn : Option (List (List Bool))) (hs : ∀ x ∈ shots, ShotOk m x.hits)
    (hrec : ∀ r ∈ Props.Cli.recorded shots obsIn, r.length = m.numObs) : ∃ out, Completes (fun f => runCountD (mergeD ex ln) (weightD ln) true m shots obsIn f) (.ok out) ∧
      (N.Small → Completes (fun f => runCountD (W := int32) (mergeD ex ln) (weightD ln) true m shots obsIn f) (.ok out)) ∧
      Tallied (Predicts m N (1 / 2 ^ 15 + 2 * m.errors.length * (1 / 2 ^ 40 + 711 * η))) (Hopeless N) (shots.map (·.hits)) (Props.Cli.recorded shots obsIn) out := by
  obtain ⟨g, -, -, h⟩ := CliD.core_rules hl hu hn hwi hN hr
  obtain ⟨out, k1, k2, k3⟩ := h h64 shots obsIn hs hrec
  exact ⟨out, k1, k2, CliD.tallied_imp (fun _ _ _ h => predicts_of hl hu hN h) (fun _ _ h => h) k3⟩

end

/-! ## Examples -/

/-- With `q = 1/10` for one of two links and `1/5` for the other: the likelihoods of the four sets. -/
example : let N : Net := ⟨2, [⟨0, none, ∅, 2, 1 / 10, ∅⟩, ⟨0, some 1, ∅, 1, 1 / 5, ∅⟩], ∅, 0⟩
    let q : Fin N.links.length → ℚ := ![1 / 10, 1 / 5]
    likelihood (N := N) q ∅ = 18 / 25 ∧ likelihood (N := N) q {0} = 2 / 25 ∧ likelihood (N := N) q {1} = 9 / 50 ∧ likelihood (N := N) q {0, 1} = 1 / 50 := by
  decide +kernel

/-- The sample of C82 meets the hypotheses, with a program that asks with correlations, and shots. -/
example : ∃ ex ln, Library ex ln (1 / 2 ^ 52) ∧ Usual RulesD.both (1 / 2 ^ 40 + 711 * (1 / 2 ^ 52)) ∧ Within RulesD.both ∧
    (∀ x ∈ ([[0, 1, 2], [], [1, 2]] : List (List Nat)), ShotOk RulesD.both x) ∧ ∃ N, corrNet rounded (mergeD ex ln) (weightD ln) RulesD.both = some N ∧ N.links.length < 2 ^ 29 ∧ N.Ready true ∧
    Session.ProperProgram (mergeD ex ln) N False [.decode (.d1 [1, 1, 1]) true true, .decodeToEdgesArray (.d1 [1, 0, 0]) true] := by
  obtain ⟨ex, ln, hl⟩ := Arithmetic.library_exists (η := 1 / 2 ^ 52) (by positivity) (by norm_num)
  obtain ⟨N, h1, h2, h3⟩ := RulesD.both_ready hl
  exact ⟨ex, ln, hl, RulesD.both_usual, CliD.both_within, by unfold ShotOk; decide +kernel, N, h1, h2, h3,
    Session.proper_step (N' := N) rfl h3 fun _ => Session.proper_step (N' := N) rfl h3 fun _ => trivial⟩

end Verif.Props.LikelyD
