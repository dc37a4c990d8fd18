import Verif.ConvertD
import Verif.DoubleLemmas
import Verif.Props.Discretise
import Verif.Props.Answers

/-!
# The decoder built in double precision is the decoder of a graph with integer weights

Lemmas for C65.
-/

namespace Verif.ConvD

open Verif Verif.Graph Verif.CE Verif.SB Verif.UG Verif.Conv Verif.Obj Verif.Dbl
open Verif.Sch (Res)
open Verif.Props.Discretise
open Verif.Props.UserEdges (Covered)

/-! ## Specification -/

/-- The integer that a weight becomes: multiplied by the constant in double precision, and rounded to the nearest integer. -/
def toInt (c w : ℚ) : Int := cround (rnd (w * c))

/-- A rule for correlations with its weight made an integer. -/
def intRule (c : ℚ) (r : Implied ℚ) : Implied ℚ := { r with weight := (toInt c r.weight : ℚ) }

/-- An edge with its weights made integers. -/
def intEdge (c : ℚ) (e : UEdge ℚ) : UEdge ℚ := { e with weight := (toInt c e.weight : ℚ), implied := e.implied.map (intRule c) }

/-- The graph with all weights made integers. -/
def intGraph (c : ℚ) (g : UGraph ℚ) : UGraph ℚ := { g with edges := g.edges.map (intEdge c) }

/-- The constant `c` of double precision for the graph `g`, next to the exact constant `k`. -/
structure Const (g : UGraph ℚ) (k c : ℚ) : Prop where
  exact : normConst g numDistinctWeights = some k
  norm : normConstD g = some (.num c)
  rep : Rep c
  one : 1 ≤ c
  small : c ≤ 2 ^ (1022 : ℕ)
  low : 1 ≤ k
  near : |c - k| ≤ k / 2 ^ 52
  le : ∀ w ∈ allWeights g, |w| * k ≤ 2 ^ 24 - 1
  ints : (∀ w ∈ allWeights g, IsInt w) → k = 1 ∧ c = 1

/-! ## One weight -/

theorem toInt_neg (c w : ℚ) : toInt c (-w) = -toInt c w := by
  unfold toInt
  rw [neg_mul, rnd_neg, cround_neg]

theorem toInt_mono {c v w : ℚ} (hc : 0 ≤ c) (h : v ≤ w) : toInt c v ≤ toInt c w :=
  cround_mono (rnd_mono (mul_le_mul_of_nonneg_right h hc))

theorem toInt_zero (c : ℚ) : toInt c 0 = 0 := by
  unfold toInt
  rw [zero_mul, rnd_zero]
  have := cround_int (K := ℚ) 0
  simpa using this

theorem toInt_nonneg {c w : ℚ} (hc : 0 ≤ c) (h : 0 ≤ w) : 0 ≤ toInt c w := by
  have := toInt_mono hc h
  rwa [toInt_zero] at this

theorem toInt_nonpos {c w : ℚ} (hc : 0 ≤ c) (h : w ≤ 0) : toInt c w ≤ 0 := by
  have := toInt_mono hc h
  rwa [toInt_zero] at this

theorem toInt_one (n : Int) (h : |n| < 2 ^ 53) : toInt 1 (n : ℚ) = n := by
  unfold toInt
  rw [mul_one, rnd_rep (rep_int h), cround_int]

theorem tiny : (1 : ℚ) / 2 ^ 1075 ≤ 1 / 2 ^ 100 := by
  rw [div_le_div_iff_of_pos_left (by norm_num) (by positivity) (by positivity)]
  exact pow_le_pow_right₀ (by norm_num) (by norm_num)

section
variable {g : UGraph ℚ} {k c : ℚ} (h : Const g k c)
include h

theorem Const.pos : 0 < c := lt_of_lt_of_le one_pos h.one

theorem Const.off {w : ℚ} (hw : w ∈ allWeights g) : |w * c - w * k| ≤ 1 / 2 ^ 28 := by
  have h1 := h.le w hw
  have h2 := h.near
  rw [← mul_sub, abs_mul]
  have h3 : |w| * |c - k| ≤ |w| * (k / 2 ^ 52) := mul_le_mul_of_nonneg_left h2 (abs_nonneg _)
  have h4 : |w| * (k / 2 ^ 52) = |w| * k / 2 ^ 52 := by ring
  rw [h4] at h3
  refine le_trans h3 ?_
  rw [div_le_div_iff₀ (by norm_num) (by norm_num)]
  linarith

theorem Const.off' {w : ℚ} (hw : w ∈ allWeights g) : |rnd (w * c) - w * k| ≤ 1 / 2 ^ 27 := by
  have h1 := h.off hw
  have h2 := rnd_err (w * c)
  have h3 := tiny
  have h4 : |w * c| ≤ 2 ^ 24 := by
    have h5 : |w * k| ≤ 2 ^ 24 - 1 := by
      rw [abs_mul, abs_of_pos (lt_of_lt_of_le one_pos h.low)]
      exact h.le w hw
    rw [abs_le] at h1 h5 ⊢
    constructor <;> linarith
  have h6 : |w * c| / 2 ^ 53 ≤ 1 / 2 ^ 29 := by
    rw [div_le_div_iff₀ (by norm_num) (by norm_num)]
    linarith
  have h7 : (1 : ℚ) / 2 ^ 28 + (1 / 2 ^ 29 + 1 / 2 ^ 100) ≤ 1 / 2 ^ 27 := by norm_num
  calc |rnd (w * c) - w * k| = |(rnd (w * c) - w * c) + (w * c - w * k)| := by ring_nf
    _ ≤ |rnd (w * c) - w * c| + |w * c - w * k| := abs_add_le _ _
    _ ≤ _ := by linarith

theorem Const.bound {w : ℚ} (hw : w ∈ allWeights g) : |toInt c w| ≤ 2 ^ 24 - 1 := by
  have h1 := h.off' hw
  have h2 : |w * k| ≤ 2 ^ 24 - 1 := by
    rw [abs_mul, abs_of_pos (lt_of_lt_of_le one_pos h.low)]
    exact h.le w hw
  have h3 := cround_spec (K := ℚ) (rnd (w * c))
  have h4 : |(toInt c w : ℚ)| < 2 ^ 24 := by
    unfold toInt
    rw [abs_le] at h1 h2 h3
    rw [abs_lt]
    have : (1 : ℚ) / 2 ^ 27 < 1 / 2 := by norm_num
    constructor <;> linarith
  have h5 : |toInt c w| < 2 ^ 24 := by exact_mod_cast h4
  omega

/-- The error of one weight. -/
theorem Const.error {w : ℚ} (hw : w ∈ allWeights g) : |(toInt c w : ℚ) - w * k| ≤ 1 / 2 + 1 / 2 ^ 27 := by
  have h1 := h.off' hw
  have h3 := cround_spec (K := ℚ) (rnd (w * c))
  calc |(toInt c w : ℚ) - w * k| = |((toInt c w : ℚ) - rnd (w * c)) + (rnd (w * c) - w * k)| := by ring_nf
    _ ≤ |(toInt c w : ℚ) - rnd (w * c)| + |rnd (w * c) - w * k| := abs_add_le _ _
    _ ≤ _ := add_le_add h3 h1

theorem Const.disc {w : ℚ} (hw : w ∈ allWeights g) : discD (.num c) w = .ok (toInt c w * 2) := by
  have h1 := h.off hw
  have hb := abs_le.1 (h.bound hw)
  have h2 : |w * k| ≤ 2 ^ 24 - 1 := by
    rw [abs_mul, abs_of_pos (lt_of_lt_of_le one_pos h.low)]
    exact h.le w hw
  have h4 : |w * c| ≤ 2 ^ 1023 := by
    have : |w * c| ≤ 2 ^ 24 := by
      rw [abs_le] at h1 h2 ⊢
      constructor <;> linarith
    exact le_trans this (pow_le_pow_right₀ (by norm_num) (by norm_num))
  unfold discD Double.mul
  simp only
  rw [of_small h4]
  unfold roundCast
  simp only
  show (if -2 ^ 31 ≤ toInt c w ∧ toInt c w < 2 ^ 31 then Res.ok (toInt c w) else Res.ub).bind Verif.ConvD.twice = _
  rw [if_pos (by constructor <;> linarith)]
  show Verif.ConvD.twice (toInt c w) = _
  unfold twice
  rw [if_pos (by constructor <;> linarith)]

theorem Const.twice : (Double.num c).mul (.num 2) = .num (c * 2) := by
  have hp := h.pos
  refine of_rep (rep_twice h.rep) ?_
  rw [abs_of_pos (by linarith)]
  have h1 := h.small
  calc c * 2 ≤ 2 ^ 1022 * 2 := by linarith
    _ = 2 ^ 1023 := by rw [← pow_succ]
    _ < 2 ^ 1024 := pow_lt_pow_right₀ (by norm_num) (by norm_num)

theorem Const.half : (Double.num (c * 2)).div (.num 2) = .num c := by
  have hp := h.pos
  unfold Double.div
  simp only
  rw [if_neg (by norm_num), mul_div_assoc, div_self (by norm_num), mul_one]
  refine of_rep h.rep ?_
  rw [abs_of_pos hp]
  exact lt_of_le_of_lt h.small (pow_lt_pow_right₀ (by norm_num) (by norm_num))

end

/-! ## The constant -/

theorem nonneg_of {x : ℚ} (h : 0 ≤ x) : (Double.of x).nonneg = true := by
  unfold Double.of
  split
  · simp [Double.nonneg, rnd_nonneg h]
  · simp [Double.nonneg, h]

theorem seeImplied_D {g : UGraph ℚ} {a b : ℚ × Bool} {i : Implied ℚ} (h : seeImplied g a i = some b) : seeImpliedD g a i = some b := by
  unfold seeImplied at h
  unfold seeImpliedD
  simp only at h ⊢
  cases he : g.getEdge i.node1 i.node2 with
  | none => rw [he] at h; cases h
  | some e =>
    rw [he] at h
    simp only at h ⊢
    split at h
    · rename_i hp
      rw [if_pos (show ((Double.num e.weight).mul (Double.num i.weight)).nonneg = true from nonneg_of hp)]
      exact h
    · cases h

theorem foldlM_D {α : Type} {F G : ℚ × Bool → α → Option (ℚ × Bool)} (hFG : ∀ a x b, F a x = some b → G a x = some b) :
    ∀ (l : List α) (a b : ℚ × Bool), l.foldlM F a = some b → l.foldlM G a = some b := by
  intro l
  induction l with
  | nil => exact fun a b h => h
  | cons x l ih =>
    intro a b h
    rw [List.foldlM_cons] at h ⊢
    cases hx : F a x with
    | none => rw [hx] at h; cases h
    | some a' =>
      rw [hx] at h
      rw [hFG _ _ _ hx]
      exact ih a' b h

/-- All is well with the weights. -/
theorem const_of {g : UGraph ℚ} (hi : ImpliedOk g) (hle : ∀ w ∈ allWeights g, |w| ≤ 2 ^ 24 - 1)
    (hbig : (∀ w ∈ allWeights g, IsInt w) ∨ ∃ w ∈ allWeights g, 1 / 2 ^ 998 ≤ |w|) : ∃ k c, Const g k c := by
  obtain ⟨hn, hs⟩ := C19_constant g numDistinctWeights
  have hM : ((2 ^ 24 - 1 : ℕ) : ℚ) = 2 ^ 24 - 1 := by norm_num
  cases hk : normConst g numDistinctWeights with
  | none =>
    exfalso
    rcases hn.1 hk with h | ⟨w, hw, h⟩
    · exact h hi
    · rw [hM] at h
      exact absurd (hle w hw) (not_le.2 h)
  | some k =>
    obtain ⟨hs1, hs2⟩ := hs k hk
    have hk' := hk
    unfold normConst at hk'
    split at hk'
    · cases hk'
    · rename_i mx al hf
      have hD : g.edges.foldlM (seeEdgeD g) (0, true) = some (mx, al) := by
        refine foldlM_D (fun a e b h => ?_) _ _ _ hf
        exact foldlM_D (fun _ _ _ => seeImplied_D) _ _ _ h
      split at hk'
      · cases hk'
      · rename_i hmx
        have hmx' : mx ≤ 2 ^ 24 - 1 := by
          have := not_lt.1 hmx
          have e : (maxUserEdgeWeight : ℚ) = 2 ^ 24 - 1 := by unfold maxUserEdgeWeight numDistinctWeights; norm_num
          rwa [e] at this
        split at hk'
        · rename_i hal
          cases hk'
          refine ⟨1, 1, hk, ?_, ⟨1, 0, by norm_num, by norm_num, by norm_num⟩, le_refl _, ?_, le_refl _, ?_, fun w hw => by rw [mul_one]; exact hle w hw, fun _ => ⟨rfl, rfl⟩⟩
          · unfold normConstD
            rw [hD]
            simp only
            rw [if_neg hmx, if_pos hal]
          · exact one_le_pow₀ (by norm_num)
          · norm_num
        · rename_i hal
          cases hk'
          have hN : ((numDistinctWeights - 1 : ℕ) : ℚ) = 2 ^ 24 - 1 := by unfold numDistinctWeights; norm_num
          have hni : ∃ w ∈ allWeights g, ¬ IsInt w := by
            by_contra hc
            push Not at hc
            have h0 : Acc ((0 : ℚ), true) [] := ⟨le_refl _, by simp, Or.inr rfl, by simp⟩
            rcases edges_fold g g.edges (0, true) [] h0 with ⟨a, h1, h2, h3⟩ | ⟨h1, -⟩
            · rw [hf] at h1
              cases h1
              exact hal (h2.int.2 (by simpa [allWeights] using hc))
            · rw [hf] at h1; cases h1
          obtain ⟨wm, hwm, hpos, hall, hmul⟩ := hs2 hni
          rw [hN] at hmul
          obtain ⟨w0, hw0, hw0b⟩ : ∃ w ∈ allWeights g, 1 / 2 ^ 998 ≤ |w| := by
            rcases hbig with h | h
            · obtain ⟨w, hw, hx⟩ := hni
              exact absurd (h w hw) hx
            · exact h
          have hmx0 : mx ≠ 0 := by
            intro h0
            rw [h0, div_zero, zero_mul] at hmul
            norm_num at hmul
          have hmxe : mx = |wm| := by
            rw [div_mul_eq_mul_div, div_eq_iff hmx0] at hmul
            exact (mul_left_cancel₀ (by norm_num : (2 ^ 24 - 1 : ℚ) ≠ 0) hmul).symm
          have hmp : 0 < mx := hmxe ▸ hpos
          have hb : 1 / 2 ^ 998 ≤ mx := le_trans hw0b (hmxe ▸ hall w0 hw0)
          rw [hN] at hk
          have hk1 : (1 : ℚ) ≤ (2 ^ 24 - 1) / mx := by
            rw [le_div_iff₀ hmp]
            linarith
          have hk2 : (2 ^ 24 - 1) / mx ≤ (2 : ℚ) ^ 1022 := by
            rw [div_le_iff₀ hmp]
            calc (2 ^ 24 - 1 : ℚ) ≤ 2 ^ 24 := by norm_num
              _ = 2 ^ 1022 * (1 / 2 ^ 998) := by
                rw [mul_one_div, eq_div_iff (by positivity), ← pow_add]
              _ ≤ _ := mul_le_mul_of_nonneg_left hb (by positivity)
          refine ⟨(2 ^ 24 - 1) / mx, rnd ((2 ^ 24 - 1) / mx), hk, ?_, rep_rnd _, ?_, ?_, hk1, ?_, ?_, ?_⟩
          · unfold normConstD
            rw [hD]
            simp only
            rw [if_neg hmx, if_neg hal, hN]
            unfold Double.div
            simp only
            rw [if_neg hmx0, of_small]
            rw [abs_of_pos (by linarith)]
            exact le_trans hk2 (pow_le_pow_right₀ (by norm_num) (by norm_num))
          · exact le_rnd hk1 ⟨1, 0, by norm_num, by norm_num, by norm_num⟩
          · exact rnd_le hk2 (rep_pow _)
          · refine le_trans (rnd_err _) ?_
            rw [abs_of_pos (by linarith)]
            have h1 := tiny
            have h2 : (1 : ℚ) / 2 ^ 100 ≤ ((2 ^ 24 - 1) / mx) / 2 ^ 53 := by
              rw [div_le_div_iff₀ (by norm_num) (by norm_num)]
              nlinarith
            have h3 : ((2 ^ 24 - 1) / mx) / 2 ^ 52 = ((2 ^ 24 - 1) / mx) / 2 ^ 53 + ((2 ^ 24 - 1) / mx) / (2 : ℚ) ^ 53 := by ring
            linarith
          · intro w hw
            rw [hmxe, ← mul_div_assoc, div_le_iff₀ hpos, mul_comm]
            exact mul_le_mul_of_nonneg_left (hall w hw) (by norm_num)
          · intro hc
            obtain ⟨w, hw, hx⟩ := hni
            exact absurd (hc w hw) hx

/-! ## The graph with integer weights -/

section
variable {g : UGraph ℚ} {k c : ℚ}

theorem int_weights (w : ℚ) : w ∈ allWeights (intGraph c g) ↔ ∃ w' ∈ allWeights g, w = (toInt c w' : ℚ) := by
  unfold allWeights intGraph
  simp only [List.mem_flatMap, List.mem_map, List.mem_cons]
  constructor
  · rintro ⟨e', ⟨e, he, rfl⟩, h⟩
    rcases h with h | ⟨r', hr', h⟩
    · exact ⟨e.weight, ⟨e, he, .inl rfl⟩, h⟩
    · simp only [intEdge, List.mem_map] at hr'
      obtain ⟨r, hr, rfl⟩ := hr'
      exact ⟨r.weight, ⟨e, he, .inr ⟨r, hr, rfl⟩⟩, h.symm⟩
  · rintro ⟨w', ⟨e, he, h⟩, rfl⟩
    rcases h with h | ⟨r, hr, h⟩
    · exact ⟨_, ⟨e, he, rfl⟩, .inl (by rw [h]; rfl)⟩
    · exact ⟨_, ⟨e, he, rfl⟩, .inr ⟨intRule c r, by simp only [intEdge, List.mem_map]; exact ⟨r, hr, rfl⟩, by rw [← h]; rfl⟩⟩

theorem leadsTo_int (es : List (UEdge ℚ)) (t : Option Nat) : leadsTo (es.map (intEdge c)) t = leadsTo es t := by
  funext n
  unfold leadsTo
  rw [List.getElem?_map]
  cases es[n.1]? <;> rfl

theorem getEdge_int (u : Nat) (t : Option Nat) : (intGraph c g).getEdge u t = (g.getEdge u t).map (intEdge c) := by
  have h1 : (intGraph c g).nodes = g.nodes := rfl
  have h2 : (intGraph c g).edges = g.edges.map (intEdge c) := rfl
  unfold UGraph.getEdge UGraph.edgeTo
  rw [h1, h2]
  cases g.nodes[u]? with
  | none => rfl
  | some n =>
    simp only
    rw [leadsTo_int]
    cases (n.neighbors.find? (leadsTo g.edges t)).map Prod.fst with
    | none => rfl
    | some i => simp only [List.getElem?_map]

theorem int_norm (h : Const g k c) : normConst (intGraph c g) numDistinctWeights = some 1 := by
  obtain ⟨hn, hs⟩ := C19_constant (intGraph c g) numDistinctWeights
  have hex := (C19_constant g numDistinctWeights).1
  cases hk : normConst (intGraph c g) numDistinctWeights with
  | none =>
    exfalso
    rcases hn.1 hk with h1 | ⟨w, hw, h1⟩
    · apply h1
      intro e' he' r' hr'
      obtain ⟨e, he, rfl⟩ := List.mem_map.1 he'
      obtain ⟨r, hr, rfl⟩ := List.mem_map.1 hr'
      have hok : ImpliedOk g := by
        by_contra hx
        have := hex.2 (.inl hx)
        rw [h.exact] at this
        cases this
      obtain ⟨e2, h2, h3⟩ := hok e he r hr
      refine ⟨intEdge c e2, by rw [getEdge_int]; show Option.map _ (g.getEdge r.node1 r.node2) = _; rw [h2]; rfl, ?_⟩
      show (0 : ℚ) ≤ (toInt c e2.weight : ℚ) * (toInt c r.weight : ℚ)
      have hc := h.pos.le
      rcases le_or_gt 0 e2.weight with p | p
      · rcases le_or_gt 0 r.weight with q | q
        · exact mul_nonneg (by exact_mod_cast toInt_nonneg hc p) (by exact_mod_cast toInt_nonneg hc q)
        · have : e2.weight = 0 := by
            rcases eq_or_lt_of_le p with p | p
            · exact p.symm
            · exact absurd h3 (not_le.2 (mul_neg_of_pos_of_neg p q))
          rw [this, toInt_zero]; simp
      · rcases le_or_gt r.weight 0 with q | q
        · exact mul_nonneg_of_nonpos_of_nonpos (by exact_mod_cast toInt_nonpos hc p.le) (by exact_mod_cast toInt_nonpos hc q)
        · exact absurd h3 (not_le.2 (mul_neg_of_neg_of_pos p q))
    · obtain ⟨w', hw', rfl⟩ := (int_weights w).1 hw
      have h2 := h.bound hw'
      have h3 : |(toInt c w' : ℚ)| ≤ 2 ^ 24 - 1 := by exact_mod_cast h2
      have h4 : ((2 ^ 24 - 1 : ℕ) : ℚ) = 2 ^ 24 - 1 := by norm_num
      rw [h4] at h1
      linarith
  | some k' =>
    rw [(hs k' hk).1 fun w hw => by obtain ⟨w', -, rfl⟩ := (int_weights w).1 hw; exact ⟨_, rfl⟩]

/-! ## Insertions -/

/-- An insertion with the weights of its rules made integers. -/
def intIns (c : ℚ) : Conv.Ins ℚ → Conv.Ins ℚ
  | .edge u v w o im => .edge u v w o (im.map (intRule c))
  | .bdry u w o im => .bdry u w o (im.map (intRule c))

theorem toGraphIns_int (i : Conv.Ins ℚ) : Props.Convert.toGraphIns (intIns c i) = Props.Convert.toGraphIns i := by cases i <;> rfl

/-- The rules that come with an insertion. -/
def rulesOf : Conv.Ins ℚ → List (Implied ℚ)
  | .edge _ _ _ _ im => im
  | .bdry _ _ _ im => im

theorem route_int (isB : Nat → Bool) (e : UEdge ℚ) : route isB 1 (intEdge c e) = (routeW isB e (toInt c e.weight * 2)).map (intIns c) := by
  have hd : disc (1 : ℚ) ((toInt c e.weight : Int) : ℚ) = toInt c e.weight * 2 := by
    unfold disc
    rw [mul_one, cround_int]
  unfold route routeW
  simp only [intEdge, hd]
  cases e.node2 with
  | none => simp only; split <;> rfl
  | some v =>
    simp only
    split
    · rfl
    · split
      · rfl
      · split <;> rfl

theorem routeW_rules {isB : Nat → Bool} {e : UEdge ℚ} {w : Int} {i : Conv.Ins ℚ} (h : routeW isB e w = some i) : rulesOf i = e.implied := by
  unfold routeW at h
  simp only at h
  split at h
  · split at h
    · cases h
    · cases h; rfl
  · split at h
    · cases h; rfl
    · split at h
      · cases h; rfl
      · split at h
        · cases h; rfl
        · cases h

/-- A candidate with the weights of its rules made integers. -/
def intCand (c : ℚ) (x : Cand ℚ) : Cand ℚ := (x.1, x.2.1, x.2.2.map (intRule c))

/-- The state of the helper with the weights of all rules made integers. -/
def intState (c : ℚ) (s : HState ℚ) : HState ℚ := ⟨s.calls.map (intIns c), s.cand.map (Option.map (intCand c))⟩

theorem helperStep_int (s : HState ℚ) (i : Conv.Ins ℚ) : helperStep (intState c s) (intIns c i) = intState c (helperStep s i) := by
  cases i with
  | edge u v w o im => simp [helperStep, intState, intIns]
  | bdry u w o im =>
    simp only [helperStep, intState, intIns, HState.mk.injEq, true_and]
    apply List.ext_getElem?
    intro j
    rw [List.getElem?_modify, List.getElem?_map, List.getElem?_map, List.getElem?_modify]
    cases s.cand[j]? with
    | none => rfl
    | some x =>
      simp only [Option.map_some]
      by_cases hj : u = j
      · simp only [hj, if_true]
        cases x with
        | none => rfl
        | some y =>
          obtain ⟨w', o', im'⟩ := y
          simp only [Option.map_some, Option.map_eq_map, intCand]
          split <;> rfl
      · simp only [hj, if_false, Option.map_eq_map, Option.map_some]

theorem emit_int : ∀ (l : List (Option (Cand ℚ))) (i : Nat), emit i (l.map (Option.map (intCand c))) = (emit i l).map (intIns c) := by
  intro l
  induction l with
  | nil => intro i; rfl
  | cons x l ih =>
    intro i
    cases x with
    | none => simp only [List.map_cons, Option.map_none, emit]; exact ih _
    | some y =>
      obtain ⟨w, o, im⟩ := y
      simp only [List.map_cons, Option.map_some, intCand, emit, ih]
      rfl

theorem helper_int (is : List (Conv.Ins ℚ)) (s : HState ℚ) : (is.map (intIns c)).foldl helperStep (intState c s) = intState c (is.foldl helperStep s) := by
  induction is generalizing s with
  | nil => rfl
  | cons i is ih => rw [List.map_cons, List.foldl_cons, List.foldl_cons, helperStep_int]; exact ih _

/-- All rules in the state satisfy `P`. -/
def StateAll (P : Implied ℚ → Prop) (s : HState ℚ) : Prop :=
  (∀ i ∈ s.calls, ∀ r ∈ rulesOf i, P r) ∧ ∀ x, some x ∈ s.cand → ∀ r ∈ x.2.2, P r

theorem helperStep_all {P : Implied ℚ → Prop} {s : HState ℚ} (hs : StateAll P s) {i : Conv.Ins ℚ} (hi : ∀ r ∈ rulesOf i, P r) : StateAll P (helperStep s i) := by
  cases i with
  | edge u v w o im =>
    refine ⟨fun j hj => ?_, hs.2⟩
    simp only [helperStep, List.mem_append, List.mem_singleton] at hj
    rcases hj with hj | rfl
    · exact hs.1 j hj
    · exact hi
  | bdry u w o im =>
    refine ⟨hs.1, fun x hx => ?_⟩
    simp only [helperStep] at hx
    obtain ⟨j, hj⟩ := List.mem_iff_getElem?.1 hx
    rw [List.getElem?_modify] at hj
    cases hc : s.cand[j]? with
    | none => rw [hc] at hj; cases hj
    | some y =>
      rw [hc] at hj
      simp only [Option.map_eq_map, Option.map_some, Option.some.injEq] at hj
      have hy := List.mem_of_getElem? hc
      by_cases hu : u = j
      · simp only [hu, if_true] at hj
        cases y with
        | none => simp only [Option.some.injEq] at hj; subst hj; exact hi
        | some z =>
          obtain ⟨w', o', im'⟩ := z
          simp only at hj
          split at hj
          · simp only [Option.some.injEq] at hj; subst hj; exact hi
          · simp only [Option.some.injEq] at hj; subst hj; exact hs.2 _ hy
      · simp only [hu, if_false] at hj
        subst hj
        exact hs.2 _ hy

theorem helper_all {P : Implied ℚ → Prop} : ∀ (is : List (Conv.Ins ℚ)) (s : HState ℚ), StateAll P s → (∀ i ∈ is, ∀ r ∈ rulesOf i, P r) → StateAll P (is.foldl helperStep s) := by
  intro is
  induction is with
  | nil => exact fun s h _ => h
  | cons i is ih => exact fun s h hi => ih _ (helperStep_all h (hi i (by simp))) fun j hj => hi j (by simp [hj])

theorem emit_all {P : Implied ℚ → Prop} : ∀ (l : List (Option (Cand ℚ))) (i : Nat), (∀ x, some x ∈ l → ∀ r ∈ x.2.2, P r) → ∀ j ∈ emit i l, ∀ r ∈ rulesOf j, P r := by
  intro l
  induction l with
  | nil => intro i _ j hj; cases hj
  | cons x l ih =>
    intro i h j hj
    cases x with
    | none => exact ih _ (fun y hy => h y (by simp [hy])) j hj
    | some y =>
      obtain ⟨w, o, im⟩ := y
      simp only [emit, List.mem_cons] at hj
      rcases hj with rfl | hj
      · exact h (w, o, im) (by simp)
      · exact ih _ (fun z hz => h z (by simp [hz])) j hj

theorem mapRes_ok {α β : Type} {f : α → Res β} {h : α → β} : ∀ {l : List α}, (∀ a ∈ l, f a = .ok (h a)) → mapRes f l = .ok (l.map h) := by
  intro l
  induction l with
  | nil => exact fun _ => rfl
  | cons a l ih =>
    intro hl
    simp only [mapRes, hl a (by simp), Res.bind, ih fun b hb => hl b (by simp [hb]), List.map_cons]

theorem zip_route (F : UEdge ℚ → Int → Option (Conv.Ins ℚ)) (h : UEdge ℚ → Int) (l : List (UEdge ℚ)) :
    (l.zip (l.map h)).filterMap (fun p => F p.1 p.2) = l.filterMap fun e => F e (h e) := by
  induction l with
  | nil => rfl
  | cons e l ih => simp only [List.map_cons, List.zip_cons_cons, List.filterMap_cons, ih]

theorem edge_mem {e : UEdge ℚ} (he : e ∈ g.edges) : e.weight ∈ allWeights g := by
  unfold allWeights
  exact List.mem_flatMap.2 ⟨e, he, by simp⟩

theorem rule_mem {e : UEdge ℚ} (he : e ∈ g.edges) {r : Implied ℚ} (hr : r ∈ e.implied) : r.weight ∈ allWeights g := by
  unfold allWeights
  exact List.mem_flatMap.2 ⟨e, he, List.mem_cons_of_mem _ (List.mem_map_of_mem hr)⟩

theorem calls_int (h : Const g k c) {s : HState ℚ}
    (hs : (g.edges.filterMap fun e => routeW (isB g) e (toInt c e.weight * 2)).foldl helperStep ⟨[], List.replicate g.nodes.length none⟩ = s) :
    convert (intGraph c g) = some ((s.calls ++ emit 0 s.cand).map (intIns c), 2) := by
  have hB : isB (intGraph c g) = isB g := rfl
  have he : (intGraph c g).edges.filterMap (route (isB (intGraph c g)) 1) = (g.edges.filterMap fun e => routeW (isB g) e (toInt c e.weight * 2)).map (intIns c) := by
    rw [hB]
    show (g.edges.map (intEdge c)).filterMap _ = _
    rw [List.filterMap_map, List.map_filterMap]
    exact List.filterMap_congr fun e _ => route_int _ e
  have h0 : (⟨[], List.replicate (intGraph c g).nodes.length none⟩ : HState ℚ) = intState c ⟨[], List.replicate g.nodes.length none⟩ := by
    unfold intState
    simp only [List.map_nil, List.map_replicate, Option.map_none]
    rfl
  unfold convert
  rw [int_norm h]
  dsimp only
  rw [he, h0, helper_int, hs]
  unfold intState
  dsimp only
  rw [emit_int, List.map_append, one_mul]

theorem discs_int (h : Const g k c) : mapRes (fun e : UEdge ℚ => discD (.num c) e.weight) g.edges = .ok (g.edges.map fun e => toInt c e.weight * 2) := by
  refine mapRes_ok (h := fun e : UEdge ℚ => toInt c e.weight * 2) ?_
  intro e he
  exact h.disc (w := e.weight) (edge_mem he)

theorem callsD (h : Const g k c) {s : HState ℚ}
    (hs : (g.edges.filterMap fun e => routeW (isB g) e (toInt c e.weight * 2)).foldl helperStep ⟨[], List.replicate g.nodes.length none⟩ = s) :
    convertD g = .ok (s.calls ++ emit 0 s.cand, .num (c * 2)) := by
  unfold convertD
  rw [h.norm]
  dsimp only
  rw [discs_int h]
  unfold Res.bind
  dsimp only
  rw [zip_route, h.twice, hs]

theorem calls_rules {s : HState ℚ}
    (hs : (g.edges.filterMap fun e => routeW (isB g) e (toInt c e.weight * 2)).foldl helperStep ⟨[], List.replicate g.nodes.length none⟩ = s) :
    ∀ i ∈ s.calls ++ emit 0 s.cand, ∀ r ∈ rulesOf i, r.weight ∈ allWeights g := by
  have hall : StateAll (fun r => r.weight ∈ allWeights g) s := by
    rw [← hs]
    refine helper_all _ _ ⟨fun i hi => absurd hi List.not_mem_nil, fun x hx => ?_⟩ fun i hi r hr => ?_
    · have := (List.mem_replicate.1 hx).2
      cases this
    · obtain ⟨e, he, h2⟩ := List.mem_filterMap.1 hi
      rw [routeW_rules h2] at hr
      exact rule_mem he hr
  intro i hi
  rcases List.mem_append.1 hi with hi | hi
  · exact hall.1 i hi
  · exact emit_all _ _ hall.2 i hi

/-- The conversion in double precision, and the exact conversion of the graph with integer weights. -/
theorem convert_int (h : Const g k c) : ∃ ins, convertD g = .ok (ins, .num (c * 2)) ∧ convert (intGraph c g) = some (ins.map (intIns c), 2) ∧
    ∀ i ∈ ins, ∀ r ∈ rulesOf i, r.weight ∈ allWeights g :=
  ⟨_, callsD h rfl, calls_int h rfl, calls_rules rfl⟩

/-! ## Rules -/

theorem note_int (t : Table ℚ) (i : Conv.Ins ℚ) :
    note (t.map fun l => l.map fun m => m.map (intRule c)) (intIns c i) = (note t i).map fun l => l.map fun m => m.map (intRule c) := by
  cases i with
  | edge u v w o im =>
    simp only [note, intIns]
    split
    · rfl
    · apply List.ext_getElem?
      intro j
      simp only [List.getElem?_modify, List.getElem?_map]
      cases t[j]? with
      | none => simp
      | some x =>
        simp only [Option.map_some, Option.map_eq_map]
        split <;> split <;> simp
  | bdry u w o im =>
    simp only [note, intIns]
    apply List.ext_getElem?
    intro j
    simp only [List.getElem?_modify, List.getElem?_map]
    cases t[j]? with
    | none => simp
    | some x =>
      simp only [Option.map_some, Option.map_eq_map]
      split <;> simp

theorem notes_int : ∀ (ins : List (Conv.Ins ℚ)) (t : Table ℚ),
    (ins.map (intIns c)).foldl note (t.map fun l => l.map fun m => m.map (intRule c)) = (ins.foldl note t).map fun l => l.map fun m => m.map (intRule c) := by
  intro ins
  induction ins with
  | nil => exact fun t => rfl
  | cons i ins ih =>
    intro t
    rw [List.map_cons, List.foldl_cons, List.foldl_cons, note_int]
    exact ih _

theorem table_int (n : Nat) (ins : List (Conv.Ins ℚ)) : table n (ins.map (intIns c)) = (table n ins).map fun l => l.map fun m => m.map (intRule c) := by
  have := notes_int (c := c) ins (List.replicate n [])
  rw [List.map_replicate, List.map_nil] at this
  exact this

theorem note_all {P : Implied ℚ → Prop} {t : Table ℚ} (ht : ∀ l ∈ t, ∀ m ∈ l, ∀ r ∈ m, P r) {i : Conv.Ins ℚ} (hi : ∀ r ∈ rulesOf i, P r) :
    ∀ l ∈ note t i, ∀ m ∈ l, ∀ r ∈ m, P r := by
  have step : ∀ (t : Table ℚ) (u : Nat) (F : List (List (Implied ℚ)) → List (List (Implied ℚ))), (∀ l ∈ t, ∀ m ∈ l, ∀ r ∈ m, P r) →
      (∀ l, (∀ m ∈ l, ∀ r ∈ m, P r) → ∀ m ∈ F l, ∀ r ∈ m, P r) → ∀ l ∈ t.modify u F, ∀ m ∈ l, ∀ r ∈ m, P r := by
    intro t u F ht hF l hl
    obtain ⟨j, hj⟩ := List.mem_iff_getElem?.1 hl
    rw [List.getElem?_modify] at hj
    cases hc : t[j]? with
    | none => rw [hc] at hj; cases hj
    | some y =>
      rw [hc] at hj
      simp only [Option.map_eq_map, Option.map_some, Option.some.injEq] at hj
      have hy := ht y (List.mem_of_getElem? hc)
      by_cases hu : u = j
      · simp only [hu, if_true] at hj
        subst hj
        exact hF y hy
      · simp only [hu, if_false] at hj
        subst hj
        exact hy
  have app : ∀ im : List (Implied ℚ), (∀ r ∈ im, P r) → ∀ l : List (List (Implied ℚ)), (∀ m ∈ l, ∀ r ∈ m, P r) → ∀ m ∈ l ++ [im], ∀ r ∈ m, P r := by
    intro im him l hl m hm
    rcases List.mem_append.1 hm with hm | hm
    · exact hl m hm
    · rw [List.mem_singleton] at hm; subst hm; exact him
  cases i with
  | edge u v w o im =>
    simp only [note]
    split
    · exact ht
    · exact step _ _ _ (step _ _ _ ht (app im hi)) (app im hi)
  | bdry u w o im =>
    simp only [note]
    refine step _ _ _ ht fun l hl m hm => ?_
    rcases List.mem_cons.1 hm with rfl | hm
    · exact hi
    · exact hl m hm

theorem table_all {P : Implied ℚ → Prop} (n : Nat) (ins : List (Conv.Ins ℚ)) (hi : ∀ i ∈ ins, ∀ r ∈ rulesOf i, P r) :
    ∀ l ∈ table n ins, ∀ m ∈ l, ∀ r ∈ m, P r := by
  have : ∀ (ins : List (Conv.Ins ℚ)) (t : Table ℚ), (∀ i ∈ ins, ∀ r ∈ rulesOf i, P r) → (∀ l ∈ t, ∀ m ∈ l, ∀ r ∈ m, P r) →
      ∀ l ∈ ins.foldl note t, ∀ m ∈ l, ∀ r ∈ m, P r := by
    intro ins
    induction ins with
    | nil => exact fun t _ h => h
    | cons i ins ih => exact fun t hi h => ih _ (fun j hj => hi j (by simp [hj])) (note_all h (hi i (by simp)))
  refine this ins _ hi fun l hl m hm => ?_
  rw [(List.mem_replicate.1 hl).2] at hm
  cases hm

theorem mapRes_map {α β γ : Type} {f : α → Res β} {f' : γ → Res β} {F : α → γ} : ∀ {l : List α}, (∀ a ∈ l, f' (F a) = f a) → mapRes f' (l.map F) = mapRes f l := by
  intro l
  induction l with
  | nil => exact fun _ => rfl
  | cons a l ih =>
    intro hl
    simp only [List.map_cons, mapRes, hl a (by simp), ih fun b hb => hl b (by simp [hb])]

theorem convertRule_int (h : Const g k c) (A : Adj) {r : Implied ℚ} (hr : r.weight ∈ allWeights g) :
    convertRule A 2 (intRule c r) = convertRuleD A (.num (c * 2)) r := by
  have hd : disc ((2 : ℚ) / 2) ((toInt c r.weight : Int) : ℚ) = toInt c r.weight * 2 := by
    unfold disc
    rw [div_self (by norm_num), mul_one, cround_int]
  unfold convertRule convertRuleD
  rw [h.half, h.disc hr]
  simp only [intRule, hd]
  rfl

theorem convertTable_int (h : Const g k c) (A : Adj) (n : Nat) {ins : List (Conv.Ins ℚ)} (hi : ∀ i ∈ ins, ∀ r ∈ rulesOf i, r.weight ∈ allWeights g) :
    convertTable A 2 (table n (ins.map (intIns c))) = convertTableD A (.num (c * 2)) (table n ins) := by
  have hall := table_all n ins hi
  rw [table_int]
  unfold convertTable convertTableD
  refine mapRes_map fun l hl => mapRes_map fun m hm => mapRes_map fun r hr => ?_
  exact convertRule_int h A (hall l hl m hm r hr)

/-! ## Decoders -/

/-- The decoder without the constant of exact arithmetic. -/
def plainly (d : Decoder ℚ) : Decoder ℚ := { d with P := { d.P with scale := 1 } }

/-- The decoder built in double precision is that of the graph with integer weights. -/
theorem toMwpm_int (h : Const g k c) (without ensure : Bool) (x : Decoder ℚ × Double) :
    toMwpmD g without ensure = .ok x ↔ ∃ d, toMwpm (intGraph c g) without ensure = some d ∧ d.P.scale = 2 ∧ x = (plainly d, .num (c * 2)) := by
  obtain ⟨ins, h1, h2, h3⟩ := convert_int h
  have e1 : (ins.map (intIns c)).map Props.Convert.toGraphIns = ins.map Props.Convert.toGraphIns := by
    rw [List.map_map]
    exact List.map_congr_left fun i _ => toGraphIns_int i
  have e2 : (intGraph c g).nodes = g.nodes := rfl
  have e3 : (intGraph c g).numObs = g.numObs := rfl
  have e4 : boundaryFlags (intGraph c g) = boundaryFlags g := rfl
  have hct := fun A => convertTable_int h A g.nodes.length h3
  unfold toMwpmD toMwpm prepare
  rw [h1, h2]
  simp only [Res.bind, e1, e2, e3, e4]
  cases Props.Graph.run (MGraph.empty g.nodes.length g.numObs) (ins.map Props.Convert.toGraphIns) with
  | none => simp
  | some mg =>
    simp only
    cases negMaskOf mg with
    | none => simp
    | some m =>
      simp only [hct]
      cases convertTableD (adjM mg) (.num (c * 2)) (table g.nodes.length ins) with
      | ub => simp
      | throws => simp
      | ok rg =>
        simp only [e1]
        split
        · cases runS (SGraph.empty g.nodes.length) (ins.map Props.Convert.toGraphIns) with
          | none => simp
          | some sg =>
            simp only
            cases convertTableD (adjS sg) (.num (c * 2)) (table g.nodes.length ins) with
            | ub => simp
            | throws => simp
            | ok rs => simp [plainly, eq_comm]
        · simp [plainly, eq_comm]

end

end Verif.ConvD
