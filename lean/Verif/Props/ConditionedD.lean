import Verif.Props.Conditioned
import Verif.Props.DoubleHistory

/-!
# C80: decoding with correlations in double precision, at any time
-/

namespace Verif.Props.ConditionedD

open Verif Verif.SB Verif.UG Verif.Conv Verif.Obj Verif.Dbl Verif.ConvD Verif.ObjD
open Verif.Props.UserEdges Verif.Props.UserGraph Verif.Props.Answers Verif.Props.EndToEnd Verif.Props.Correlated Verif.Props.Shots
open Verif.Props.Object Verif.Props.Double Verif.Props.Discretise Verif.Props.DoubleHistory
open Verif.Props.Edges (Completes)
open Verif.Sch (Res)

/-! ## Specification -/

/-- The weights that edge `j` may have in the second pass if `C` is the explanation found in the first: its own, and those that the edges of `C` imply for it.  (All
boundary nodes are the same end, see `seenAs`; edges from a node to itself imply nothing.) -/
def optionsD (g : UGraph ℚ) (C : Choice g) (j : Fin g.edges.length) : Set ℚ :=
  {x | x = g.edges[j].weight ∨
    ∃ i ∈ C, ¬ (seenAs g g.edges[i]).IsDiag ∧ ∃ r ∈ g.edges[i].implied, s(some r.node1, r.node2) = seenAs g g.edges[j] ∧ x = |r.weight|}

/-- `ρ` are the weights of the second pass: for each edge the least of its options. -/
def SecondD (g : UGraph ℚ) (C : Choice g) (ρ : Fin g.edges.length → ℚ) : Prop := ∀ j, IsLeast (optionsD g C j) (ρ j)

/-- An explanation which no other beats by more than about half a step per edge, for the weights `ρ`; by nothing at all if all weights are integers. -/
def GoodFor {g : UGraph ℚ} (u : ℚ) (ρ : Fin g.edges.length → ℚ) (events : List Nat) (C : Choice g) : Prop :=
  EndToEnd.Explains C events ∧ ∀ C' : Choice g, EndToEnd.Explains C' events →
    ∑ j ∈ C, ρ j ≤ ∑ j ∈ C', ρ j + (C.card + C'.card : ℕ) * (1 / 2 + 1 / 2 ^ 27) * u ∧
    ((∀ w ∈ allWeights g, IsInt w) → ∑ j ∈ C, ρ j ≤ ∑ j ∈ C', ρ j)

/-- The double is close to the total of the weights `ρ`: up to about half a step per edge; equal if all weights are integers and there are less than `2^29` edges. -/
def CloseFor {g : UGraph ℚ} (u : ℚ) (ρ : Fin g.edges.length → ℚ) (C : Choice g) (x : Double) : Prop :=
  ∃ q, x = .num q ∧ |q - ∑ j ∈ C, ρ j| ≤ C.card * (1 / 2 + 1 / 2 ^ 25) * u + 1 / 2 ^ 1074 ∧
    ((∀ w ∈ allWeights g, IsInt w) → g.edges.length < 2 ^ 29 → q = ∑ j ∈ C, ρ j)

/-- `C` is a good explanation for the weights `ρ` of a second pass, after a first pass that found a good explanation for the weights of the edges. -/
def Found {g : UGraph ℚ} (u : ℚ) (events : List Nat) (ρ : Fin g.edges.length → ℚ) (C : Choice g) : Prop :=
  (∃ C1 : Choice g, Good u events C1 ∧ SecondD g C1 ρ) ∧ GoodFor u ρ events C

/-- What the answer to a question with correlations means. -/
def MeansC (g : UGraph ℚ) (u : ℚ) : Query → Answer Double → Prop
  | .decode _ events, a =>
    (∃ row x, a = .predictions row x ∧ ∃ (C : Choice g) (ρ : _), Found u events ρ C ∧ Says C row ∧ CloseFor u ρ C x) ∨
    (a = .exception ∧ ∀ C : Choice g, ¬ EndToEnd.Explains C events)
  | .edges _ events, a =>
    (∃ es, a = .edges es ∧ ∃ (C : Choice g) (ρ : _), Found u events ρ C ∧ Returned es C) ∨
    (a = .exception ∧ ∀ C : Choice g, ¬ EndToEnd.Explains C events)
  | .batch ps pp _ cols rows, a =>
    (∃ raws outs weights, a = .batch outs weights ∧ List.Forall₂ (Stored pp) raws outs ∧ raws.length = rows.length ∧ weights.length = rows.length ∧
      List.Forall₂ (fun row (x : List (BitVec 8) × Double) => ∃ (C : Choice g) (ρ : _), Found u (readRow ps row) ρ C ∧ Says C x.1 ∧ CloseFor u ρ C x.2) rows
        (raws.zip weights)) ∨
    (a = .exception ∧ (Obs.shapeOk ps cols g.numDetectors g.nodes.length = false ∨ ∃ row ∈ rows, ∀ C : Choice g, ¬ EndToEnd.Explains C (readRow ps row)))
  | _, _ => True

/-- What the answer to a question with correlations means; `without`: the object was loaded without correlations. -/
def MeantD (g : UGraph ℚ) (without : Bool) (q : Query) (a : Answer Double) : Prop :=
  if without then Conditioned.Refused q a else ∃ u, Step g u ∧ MeansC g u q a

/-! ## Lemmas -/

section
variable {g : UGraph ℚ} {k c : ℚ}

theorem toInt_abs (hc : 0 ≤ c) (w : ℚ) : |toInt c w| = toInt c |w| := by
  rcases le_total 0 w with h | h
  · rw [abs_of_nonneg h, abs_of_nonneg (toInt_nonneg hc h)]
  · rw [abs_of_nonpos h, abs_of_nonpos (toInt_nonpos hc h), toInt_neg]

theorem rule_mem {e : UEdge ℚ} (he : e ∈ g.edges) {r : Implied ℚ} (hr : r ∈ e.implied) : r.weight ∈ allWeights g := by
  unfold allWeights
  rw [List.mem_flatMap]
  exact ⟨e, he, List.mem_cons_of_mem _ (List.mem_map.2 ⟨r, hr, rfl⟩)⟩

/-- An option is the weight of an edge or the absolute value of an implied weight. -/
theorem option_mem {C : Choice g} {j : Fin g.edges.length} {x : ℚ} (hx : x ∈ optionsD g C j) : ∃ w ∈ allWeights g, x = w ∨ x = |w| := by
  rcases hx with rfl | ⟨i, -, -, r, hr, -, rfl⟩
  · exact ⟨_, edge_mem' j, .inl rfl⟩
  · exact ⟨_, rule_mem (List.getElem_mem _) hr, .inr rfl⟩

theorem second_exists (g : UGraph ℚ) (C : Choice g) : ∃ ρ, SecondD g C ρ := by
  have : ∀ j, ∃ x, IsLeast (optionsD g C j) x := by
    intro j
    have hf : (optionsD g C j).Finite := by
      refine Set.Finite.subset ((allWeights g).toFinset ∪ (allWeights g).toFinset.image (fun w => |w|)).finite_toSet fun x hx => ?_
      obtain ⟨w, hw, h⟩ := option_mem hx
      rw [Finset.mem_coe, Finset.mem_union, Finset.mem_image]
      rcases h with rfl | rfl
      · exact .inl (List.mem_toFinset.2 hw)
      · exact .inr ⟨w, List.mem_toFinset.2 hw, rfl⟩
    obtain ⟨x, hx, hl⟩ := Set.exists_min_image _ id hf ⟨g.edges[j].weight, .inl rfl⟩
    exact ⟨x, hx, hl⟩
  choose ρ hρ using this
  exact ⟨ρ, hρ⟩

theorem option_int (hc : 0 ≤ c) (C : Choice (intGraph c g)) (j : Fin (intGraph c g).edges.length) :
    Conditioned.options (intGraph c g) 2 C j = (fun x => 2 * toInt c x) '' optionsD g (back C) (same c g j) := by
  have hd : ∀ z : Int, disc ((2 : ℚ) / 2) (z : ℚ) = 2 * z := by
    intro z
    rw [div_self (by norm_num)]
    unfold disc
    rw [mul_one, cround_int, mul_comm]
  have hseen : ∀ e : UEdge ℚ, seenAs (intGraph c g) (intEdge c e) = seenAs g e := fun _ => rfl
  ext n
  simp only [Conditioned.options, optionsD, Set.mem_ofPred_eq, Set.mem_image]
  constructor
  · rintro (rfl | ⟨i, h1, h2, r, h3, h4, rfl⟩)
    · refine ⟨_, .inl rfl, ?_⟩
      rw [rounded, same_edge]
      exact (hd _).symm
    · rw [same_edge, hseen] at h2 h4
      rw [same_edge] at h3
      obtain ⟨r', hr', rfl⟩ := List.mem_map.1 h3
      refine ⟨|r'.weight|, .inr ⟨same c g i, Finset.mem_map.2 ⟨i, h1, rfl⟩, h2, r', hr', h4, rfl⟩, ?_⟩
      show _ = |disc (2 / 2) ((toInt c r'.weight : Int) : ℚ)|
      rw [hd, abs_mul, toInt_abs hc]
      rfl
  · rintro ⟨x, rfl | ⟨i', h1, h2, r, h3, h4, rfl⟩, rfl⟩
    · refine .inl ?_
      rw [rounded, same_edge]
      exact (hd _).symm
    · obtain ⟨i, hi, rfl⟩ := Finset.mem_map.1 h1
      refine .inr ⟨i, hi, ?_, intRule c r, ?_, ?_, ?_⟩
      · rw [same_edge, hseen]; exact h2
      · rw [same_edge]; exact List.mem_map.2 ⟨r, h3, rfl⟩
      · rw [same_edge, hseen]; exact h4
      · show _ = |disc (2 / 2) ((toInt c r.weight : Int) : ℚ)|
        rw [hd, abs_mul, toInt_abs hc]
        rfl

/-- The integer weights of the second pass are the rounded weights of the second pass. -/
theorem second_int (hc : 0 ≤ c) {C : Choice (intGraph c g)} {ω : Fin (intGraph c g).edges.length → Int} (h : Conditioned.Second (intGraph c g) 2 C ω)
    {ρ : Fin g.edges.length → ℚ} (hρ : SecondD g (back C) ρ) (j : Fin (intGraph c g).edges.length) : ω j = 2 * toInt c (ρ (same c g j)) := by
  have h1 := h j
  rw [option_int hc] at h1
  obtain ⟨h2, h3⟩ := hρ (same c g j)
  refine h1.unique ⟨⟨_, h2, rfl⟩, ?_⟩
  rintro _ ⟨x, hx, rfl⟩
  have := toInt_mono hc (h3 hx)
  show 2 * toInt c (ρ (same c g j)) ≤ 2 * toInt c x
  omega

/-- The total of the integers of the second pass. -/
def secondTotal (c : ℚ) (ρ : Fin g.edges.length → ℚ) (C : Choice g) : Int := ∑ j ∈ C, toInt c (ρ j)

theorem second_sum {ω : Fin (intGraph c g).edges.length → Int} {ρ : Fin g.edges.length → ℚ} (h : ∀ j, ω j = 2 * toInt c (ρ (same c g j))) (C : Choice (intGraph c g)) :
    ∑ j ∈ C, ω j = 2 * secondTotal c ρ (back C) := by
  unfold secondTotal back
  rw [Finset.sum_map, Finset.mul_sum]
  exact Finset.sum_congr rfl fun j _ => h j

variable (h : Const g k c)
include h

theorem option_error {w x : ℚ} (hw : w ∈ allWeights g) (hx : x = w ∨ x = |w|) : |(toInt c x : ℚ) - x * k| ≤ 1 / 2 + 1 / 2 ^ 27 := by
  rcases hx with rfl | rfl
  · exact h.error hw
  · rcases le_total 0 w with h0 | h0
    · rw [abs_of_nonneg h0]; exact h.error hw
    · rw [abs_of_nonpos h0, toInt_neg]
      have e : ((-toInt c w : Int) : ℚ) - -w * k = -((toInt c w : ℚ) - w * k) := by push_cast; ring
      rw [e, abs_neg]
      exact h.error hw

theorem option_bound {w x : ℚ} (hw : w ∈ allWeights g) (hx : x = w ∨ x = |w|) : |(toInt c x : ℚ)| ≤ 2 ^ 24 := by
  have h1 : |toInt c x| ≤ 2 ^ 24 - 1 := by
    rcases hx with rfl | rfl
    · exact h.bound hw
    · rw [← toInt_abs h.pos.le, abs_abs]; exact h.bound hw
  have h2 : |((toInt c x : Int) : ℚ)| ≤ 2 ^ 24 - 1 := by exact_mod_cast h1
  linarith

theorem option_whole (hi : ∀ w ∈ allWeights g, IsInt w) {w x : ℚ} (hw : w ∈ allWeights g) (hx : x = w ∨ x = |w|) : (toInt c x : ℚ) = x := by
  obtain ⟨-, rfl⟩ := h.ints hi
  have key : (toInt 1 w : ℚ) = w := by
    obtain ⟨z, hz⟩ := hi w hw
    have h1 := h.le w hw
    rw [(h.ints hi).1, mul_one, ← hz] at h1
    have h2 : |(z : ℚ)| < 2 ^ 53 := by linarith
    rw [← hz, toInt_one]
    exact_mod_cast h2
  rcases hx with rfl | rfl
  · exact key
  · rw [← toInt_abs (by norm_num), Int.cast_abs, key]

section
variable {C1 : Choice g} {ρ : Fin g.edges.length → ℚ} (hρ : SecondD g C1 ρ)
include hρ

theorem second_err (C : Choice g) : |(secondTotal c ρ C : ℚ) - (∑ j ∈ C, ρ j) * k| ≤ C.card * (1 / 2 + 1 / 2 ^ 27) := by
  unfold secondTotal
  rw [Int.cast_sum, Finset.sum_mul, ← Finset.sum_sub_distrib]
  refine le_trans (Finset.abs_sum_le_sum_abs _ _) (le_trans (Finset.sum_le_sum fun j _ => ?_) (le_of_eq (by rw [Finset.sum_const, nsmul_eq_mul])))
  obtain ⟨w, hw, hx⟩ := option_mem (hρ j).1
  exact option_error h hw hx

theorem second_bound (C : Choice g) : |(secondTotal c ρ C : ℚ)| ≤ C.card * 2 ^ 24 := by
  unfold secondTotal
  rw [Int.cast_sum]
  refine le_trans (Finset.abs_sum_le_sum_abs _ _) (le_trans (Finset.sum_le_sum fun j _ => ?_) (le_of_eq (by rw [Finset.sum_const, nsmul_eq_mul])))
  obtain ⟨w, hw, hx⟩ := option_mem (hρ j).1
  exact option_bound h hw hx

theorem second_whole (hi : ∀ w ∈ allWeights g, IsInt w) (C : Choice g) : (secondTotal c ρ C : ℚ) = ∑ j ∈ C, ρ j := by
  unfold secondTotal
  rw [Int.cast_sum]
  refine Finset.sum_congr rfl fun j _ => ?_
  obtain ⟨w, hw, hx⟩ := option_mem (hρ j).1
  exact option_whole h hi hw hx

theorem second_close {C : Choice g} (hn : g.edges.length < 2 ^ 38) : CloseFor (1 / k) ρ C (scaleBack (.num (c * 2)) ((secondTotal c ρ C : ℚ) * 2)) := by
  have hl := Finset.card_le_univ C
  rw [Fintype.card_fin] at hl
  obtain ⟨q, h1, h2, h3⟩ := near_num h (z := secondTotal c ρ C) (T := ∑ j ∈ C, ρ j) (n := C.card) (by positivity) (by exact_mod_cast (by omega : C.card ≤ 2 ^ 38))
    (second_bound h hρ C) (second_err h hρ C) (fun hi => second_whole h hρ hi C)
  exact ⟨q, h1, h2, fun hi hlen => h3 hi (by exact_mod_cast (by omega : C.card < 2 ^ 29))⟩

theorem second_good {C : Choice g} {events : List Nat} (hE : EndToEnd.Explains C events)
    (hle : ∀ C' : Choice g, EndToEnd.Explains C' events → secondTotal c ρ C ≤ secondTotal c ρ C') : GoodFor (1 / k) ρ events C := by
  refine ⟨hE, fun C' hC' => ?_⟩
  have h2 : (secondTotal c ρ C : ℚ) ≤ secondTotal c ρ C' := by exact_mod_cast hle C' hC'
  have hk := lt_of_lt_of_le one_pos h.low
  constructor
  · have e1 := abs_le.1 (second_err h hρ C)
    have e2 := abs_le.1 (second_err h hρ C')
    rw [mul_one_div, ← sub_le_iff_le_add', le_div_iff₀ hk]
    push_cast
    nlinarith
  · intro hi
    rw [← second_whole h hρ hi, ← second_whole h hρ hi]
    exact h2

end

theorem found_of {C : Choice (intGraph c g)} {events : List Nat} {n : Int} (hs : Conditioned.second (intGraph c g) 2 events C n) :
    ∃ ρ, Found (1 / k) events ρ (back C) ∧ (∃ C1, SecondD g C1 ρ) ∧ n = 2 * secondTotal c ρ (back C) := by
  obtain ⟨C1, ω, h1, h2, h3, rfl⟩ := hs
  obtain ⟨ρ, hρ⟩ := second_exists g (back C1)
  have hω := second_int h.pos.le h2 hρ
  refine ⟨ρ, ⟨⟨back C1, good_of h h1, hρ⟩, second_good h hρ ((back_explains C events).2 h3.1) fun C' hC' => ?_⟩, ⟨_, hρ⟩, second_sum hω C⟩
  obtain ⟨C2, rfl⟩ := back_surj (c := c) C'
  have := h3.2 C2 ((back_explains C2 events).1 hC')
  rw [second_sum hω, second_sum hω] at this
  omega

theorem meansC_of (hn : g.edges.length < 2 ^ 38) {q : Query} {a : Answer ℚ} (hm : Means (intGraph c g) 2 (Conditioned.second (intGraph c g) 2) q a) :
    MeansC g (1 / k) q (mapWeights (fun w => scaleBack (.num (c * 2)) (w * 2)) a) := by
  have hrow : ∀ {C : Choice (intGraph c g)} {n : Int} {row : List (BitVec 8)} {w : ℚ} {ev : List Nat}, Conditioned.second (intGraph c g) 2 ev C n → Row 2 C n row w →
      ∃ ρ, Found (1 / k) ev ρ (back C) ∧ Says (back C) row ∧ CloseFor (1 / k) ρ (back C) (scaleBack (.num (c * 2)) (w * 2)) := by
    intro C n row w ev hb hr
    obtain ⟨r1, r2, r3⟩ := hr
    obtain ⟨ρ, k1, ⟨C1, k2⟩, k3⟩ := found_of h hb
    refine ⟨ρ, k1, ⟨r1, fun x hx => ?_⟩, ?_⟩
    · rw [back_crossed]
      exact r2 x hx
    · have e : w * 2 = (secondTotal c ρ (back C) : ℚ) * 2 := by
        rw [r3, k3]
        push_cast
        ring
      rw [e]
      exact second_close h k2 hn
  have hno : ∀ {ev : List Nat}, (∀ C : Choice (intGraph c g), ¬ EndToEnd.Explains C ev) → ∀ C : Choice g, ¬ EndToEnd.Explains C ev := by
    intro ev hx C hC
    obtain ⟨C', rfl⟩ := back_surj (c := c) C
    exact hx C' ((back_explains C' ev).1 hC)
  cases q with
  | decode corr events =>
    rcases hm with ⟨row, w, rfl, C, n, h1, h2⟩ | ⟨rfl, h1⟩
    · obtain ⟨ρ, hr⟩ := hrow h1 h2
      exact .inl ⟨row, _, rfl, back C, ρ, hr⟩
    · exact .inr ⟨rfl, hno h1⟩
  | edges corr events =>
    rcases hm with ⟨es, rfl, C, n, h1, h2⟩ | ⟨rfl, h1⟩
    · obtain ⟨ρ, k1, -⟩ := found_of h h1
      exact .inl ⟨es, rfl, back C, ρ, k1, back_returned h2⟩
    · exact .inr ⟨rfl, hno h1⟩
  | batch ps pp corr cols rows =>
    rcases hm with ⟨raws, outs, weights, rfl, h1, h2, h3, h4⟩ | ⟨rfl, h1⟩
    · refine .inl ⟨raws, outs, _, rfl, h1, h2, by rw [List.length_map, h3], ?_⟩
      rw [← List.map_id raws, List.zip_map, List.forall₂_map_right_iff]
      refine h4.imp ?_
      rintro row x ⟨C, n, g1, g2⟩
      obtain ⟨ρ, hr⟩ := hrow g1 g2
      exact ⟨back C, ρ, hr⟩
    · refine .inr ⟨rfl, ?_⟩
      rcases h1 with h1 | ⟨row, hr, h1⟩
      · exact .inl h1
      · exact .inr ⟨row, hr, hno h1⟩
  | pairs _ => trivial
  | path _ _ => trivial

end

theorem refused_map {L : Type} {q : Query} {a : Answer ℚ} (F : ℚ → L) (h : Conditioned.Refused q a) : Conditioned.Refused q (mapWeights F a) := by
  cases q with
  | batch ps pp corr cols rows =>
    rcases h with rfl | ⟨rfl, rfl⟩
    · exact .inl rfl
    · exact .inr ⟨rfl, rfl⟩
  | _ => rw [show a = .exception from h]; rfl

theorem meant_first [W : Width] {g : UGraph ℚ} (hw : WF g) (hB : Props.Convert.BndOk g) {without : Bool} {q : Query} {x : Answer Double} (h : FirstAnswer g without q x)
    (ha : About true q) (hn : g.edges.length < 2 ^ 38) : MeantD g without q x := by
  obtain ⟨-, k, c, a, hk, hq, hf, rfl⟩ := h
  have hm := Conditioned.C79_new (int_wf hw) (int_bnd hB) hq ha hf
  unfold Conditioned.Meant at hm
  unfold MeantD
  cases without with
  | true =>
    rw [if_pos rfl] at hm ⊢
    exact refused_map _ hm
  | false =>
    rw [if_neg (by decide)] at hm ⊢
    obtain ⟨scale, ⟨c', hc', rfl⟩, hm⟩ := hm
    rw [int_norm hk] at hc'
    cases hc'
    rw [mul_one] at hm
    exact ⟨1 / k, step_of hk, meansC_of hk hn hm⟩

/-! ## Theorems -/

section
variable (mergeW : ℚ → ℚ → ℚ) (without : Bool) (g0 : UGraph ℚ) (hw : WF g0) (hB : Props.Convert.BndOk g0) (ops : List (Op ℚ)) (hp : ProperD mergeW without g0 False ops)
include hw hB hp

/-- C80: in any history of modifications and questions on one object, in double precision, the answers to questions with correlations are good explanations for the
weights of the second pass, on the graph of that moment. -/
theorem C80_any_time : ∃ as o, Completes (fun f => (ObjectD.of g0 without).history mergeW f ops) (.ok (as, o)) ∧
    List.Forall₂ (fun (p : UGraph ℚ × Query) a => About true p.2 → p.1.edges.length < 2 ^ 38 → MeantD p.1 without p.2 a) (questions mergeW g0 ops) as := by
  have hA := askedD ops g0 False hw hB hp
  obtain ⟨as, o, h1, h2⟩ := historyD_core (W := unbounded) mergeW without ops g0 False _ hw hB (invD_of g0 without) (fun h => (by cases h)) hp (by
    intro p hm k c hk o hi
    obtain ⟨k1, k2, k3⟩ := hA p hm
    obtain ⟨a, o', q1, q2, q3⟩ := ask_one (int_wf k1) (int_bnd k2) (askable_int k3 hk) hi
    exact ⟨a, o', q1, q2, q3, q3⟩)
  refine ⟨as, o, h1, ?_⟩
  rw [List.forall₂_iff_get] at h2 ⊢
  refine ⟨h2.1, fun i hi hi' ha hn => ?_⟩
  obtain ⟨k1, k2, -⟩ := hA _ (List.get_mem _ ⟨i, hi⟩)
  exact meant_first k1 k2 (h2.2 i hi hi') ha hn

/-- C80 for the library as compiled, with its 32-bit wrapped radius: on graphs that are near (see C61). -/
theorem C80_any_time_int32 (hn : ∀ p ∈ questions mergeW g0 ops, NearD p.1) :
    ∃ as o, Completes (fun f => (ObjectD.of g0 without).history (W := int32) mergeW f ops) (.ok (as, o)) ∧
    List.Forall₂ (fun (p : UGraph ℚ × Query) a => About true p.2 → p.1.edges.length < 2 ^ 38 → MeantD p.1 without p.2 a) (questions mergeW g0 ops) as := by
  have hA := askedD ops g0 False hw hB hp
  obtain ⟨as, o, h1, h2⟩ := historyD_core (W := int32) mergeW without ops g0 False _ hw hB (invD_of g0 without) (fun h => (by cases h)) hp (by
    intro p hm k c hk o hi
    obtain ⟨k1, k2, k3⟩ := hA p hm
    have hnear := hn p hm c hk.norm
    obtain ⟨a, o', q1, q2, q3⟩ := ask_one (int_wf k1) (int_bnd k2) (askable_int k3 hk) hi
    exact ⟨a, o', (Narrow.ask_agree (int_wf k1) (int_bnd k2) hnear (askable_int k3 hk) hi).completes q1, q2,
      (Narrow.fresh1_int32 (int_wf k1) (int_bnd k2) hnear (askable_int k3 hk) a).2 q3, q3⟩)
  refine ⟨as, o, h1, ?_⟩
  rw [List.forall₂_iff_get] at h2 ⊢
  refine ⟨h2.1, fun i hi hi' ha hn => ?_⟩
  obtain ⟨k1, k2, -⟩ := hA _ (List.get_mem _ ⟨i, hi⟩)
  exact meant_first (W := int32) k1 k2 (h2.2 i hi hi') ha hn

end

/-- C79 with a 32-bit wrapped radius. -/
theorem C79_any_time_int32 {K : Type} [Field K] [LinearOrder K] [IsStrictOrderedRing K] [FloorRing K] (mergeW : K → K → K) (without : Bool) (g0 : UGraph K) (hw : WF g0)
    (hB : Props.Convert.BndOk g0) (ops : List (Op K)) (hp : Object.Proper mergeW without g0 False ops) (hn : ∀ p ∈ questions mergeW g0 ops, Narrow.Near p.1) :
    ∃ as o, Completes (fun f => (Object.of g0 without).history (W := int32) mergeW f ops) (.ok (as, o)) ∧
      List.Forall₂ (fun (p : UGraph K × Query) a => About true p.2 → Conditioned.Meant p.1 without p.2 a) (questions mergeW g0 ops) as := by
  obtain ⟨as, o, c, h⟩ := Conditioned.C79_any_time mergeW without g0 hw hB ops hp
  exact ⟨as, o, (Narrow.history_agree mergeW without ops g0 False _ hw hB (inv_of g0 without) (fun h => (by cases h)) hp hn).completes c, h⟩

/-- Two boundary edges, of weights 5/2 and 17/4, and an edge of weight 7 between their nodes; the first implies 5/4 for the second. -/
def sample : UGraph ℚ :=
  let g := run (fun a _ => a) (UGraph.new 0 2) [.add 0 none [0] (5 / 2) 0 .disallow, .add 1 none [1] (17 / 4) 0 .disallow, .add 0 (some 1) [] 7 0 .disallow]
  { g with edges := g.edges.map fun e => if e.node1 = 0 ∧ e.node2 = none then { e with implied := [⟨1, none, 5 / 4⟩] } else e }

theorem sample_wf : WF sample := Conditioned.wf_map (wf_run (fun a _ : ℚ => a) (wf_new 0 2) _) fun e => by split <;> exact ⟨rfl, rfl⟩

theorem sample_usable : Usable sample where
  rules := by
    have h : ∀ e ∈ sample.edges, ∀ i ∈ e.implied, i = ⟨1, none, 5 / 4⟩ := by decide +kernel
    intro e he i hi
    rw [h e he i hi]
    exact ⟨⟨1, none, [1], 17 / 4, 0, []⟩, by decide +kernel, by norm_num⟩
  le := by decide +kernel
  big := .inr ⟨7, by decide +kernel, le_trans (one_div_le_one_div_of_le (by norm_num) (one_le_pow₀ (by norm_num))) (by norm_num)⟩

theorem sample_builds : ∃ x, toMwpmD sample false true = .ok x := by
  have h : (match toMwpmD sample false true with | .ok _ => true | _ => false) = true := by decide +kernel
  split at h
  · exact ⟨_, ‹_›⟩
  · cases h

theorem sample_askable : AskableD sample false (.decode true [0, 1]) :=
  ⟨sample_usable, sample_builds, by unfold Covered; decide +kernel, fun c _ => by show EventsOk sample [0, 1]; unfold EventsOk; decide +kernel,
    fun _ => by unfold NonNeg; decide +kernel⟩

/-- A history on the sample meets the conditions of C80, also of the version with 32-bit radii. -/
example : WF sample ∧ Props.Convert.BndOk sample ∧ About true (.decode true [0, 1]) ∧ sample.edges.length < 2 ^ 38 ∧
    ProperD (fun a _ => a) false sample False [.ask (.decode true [0, 1]), .ask (.decode true [0, 1])] ∧ NearD sample :=
  ⟨sample_wf, Props.Convert.bndOk_run (fun a _ : ℚ => a) (Props.Convert.bndOk_new 0 2) _, rfl, by decide +kernel, ⟨sample_askable, sample_askable, trivial⟩,
    C65_near sample_wf sample_usable (.inl (by decide +kernel))⟩

/-- In the second pass the second edge may have weight 5/4, if the first pass found an explanation with the first edge. -/
example (C : Choice sample) (h : (⟨0, by decide⟩ : Fin sample.edges.length) ∈ C) : 5 / 4 ∈ optionsD sample C ⟨1, by decide⟩ :=
  .inr ⟨_, h, by decide +kernel, ⟨1, none, 5 / 4⟩, by decide +kernel, by decide +kernel, by norm_num⟩

example : Narrow.Near Conditioned.sample := (Narrow.C61_near _).2 Conditioned.sample_wf (by decide +kernel)

/-- The answer: both boundary edges; the weight is that of the second pass, 15/4, up to the size of a step. -/
example : ∀ o, ((ObjectD.of sample false).ask 30 (.decode true [0, 1])).bind (fun r => match r with | .ok (.predictions r (.num x), _) => some (r, decide (|x - 15 / 4| < 1 / 10 ^ 6)) | _ => none) = o →
    o = some ([1#8, 1#8], true) := by
  rintro _ rfl
  decide +kernel

end Verif.Props.ConditionedD
