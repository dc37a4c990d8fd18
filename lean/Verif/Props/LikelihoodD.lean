import Verif.DemD
import Verif.Props.Likelihood
import Verif.Props.DoubleHistory

/-!
# C70: decoding a detector error model in double precision
-/

namespace Verif.Props.LikelihoodD

open Verif Verif.SB Verif.UG Verif.Conv Verif.Obj Verif.Dbl Verif.ConvD Verif.ObjD Verif.Dem Verif.DemD
open Verif.Props.Dem Verif.Props.Likelihood Verif.Props.EndToEnd Verif.Props.UserEdges Verif.Props.Answers
open Verif.Props.Object Verif.Props.Double Verif.Props.DoubleHistory
open Verif.Props.Edges (Completes)
open Verif.Props.MergeWeights (llr)
open Verif.MW (mergeWeights)

/-! ## Specification -/

/-- The same model with real numbers. -/
noncomputable def real (m : Model ℚ) : Model ℝ := ⟨m.errors.map fun e => ⟨(e.p : ℝ), e.targets⟩, m.numDets, m.numObs⟩

/-- How many components of errors of the model lie between the ends of the edge. -/
noncomputable def shares (m : Model ℝ) (x : UEdge ℝ) : Nat := (contributions x.node1 x.node2 m.errors).length

/-- The number of all components of the model. -/
def size (m : Model ℚ) : Nat := (m.errors.map fun e => (components e).length).sum

/-- The two formulas for weights are off by at most `δ` each, for the probabilities of the model and for weights up to `B`; and `B` is large enough. -/
structure Precise (m : Model ℚ) (mw : ℚ → ℚ → ℚ) (lg : ℚ → ℚ) (B δ : ℝ) : Prop where
  nonneg : 0 ≤ δ
  weight : ∀ e ∈ m.errors, e.p ≠ 0 → |(lg e.p : ℝ) - llr e.p| ≤ δ
  merge : ∀ a b : ℚ, |(a : ℝ)| ≤ B → |(b : ℝ)| ≤ B → |(mw a b : ℝ) - mergeWeights a b| ≤ δ
  room : ∀ e ∈ m.errors, e.p ≠ 0 → |llr e.p| + 2 * size m * δ ≤ B

/-- The graph with exact weights. -/
noncomputable abbrev exact (m : Model ℚ) : UGraph ℝ := load mergeWeights llr (real m)

/-- What doubles cost for these edges: `s` per edge, and `2 n - 1` times `δ` for an edge that `n` errors share. -/
noncomputable def slack (m : Model ℚ) (s δ : ℝ) (C : Choice (exact m)) : ℝ := C.card * s + δ * ∑ j ∈ C, (2 * (shares (real m) (exact m).edges[j] : ℝ) - 1)

/-- What the answer of `decode` means for the errors of the model; `u` is the step of the conversion to integers. -/
def Likely (m : Model ℚ) (δ : ℝ) (u : ℚ) (events : List Nat) (a : Answer Double) : Prop :=
  (∃ row x, a = .predictions row x ∧ ∃ F : Happened (real m), 0 < chance (real m) F ∧ (∀ d, d ∈ events ↔ flips (real m) F d % 2 = 1) ∧
    (∀ F' : Happened (real m), 0 < chance (real m) F' → (∀ d, d ∈ events ↔ flips (real m) F' d % 2 = 1) →
      likelihood (real m) (pattern (exact m) F') ≤ likelihood (real m) (pattern (exact m) F) *
        Real.exp (slack m ((1 / 2 + 1 / 2 ^ 27) * u) δ (pattern (exact m) F) + slack m ((1 / 2 + 1 / 2 ^ 27) * u) δ (pattern (exact m) F'))) ∧
    Predicts m.numObs row (crossed (pattern (exact m) F)) ∧ (Consistent (real m) → Predicts m.numObs row (flipsObs (real m) F)) ∧
    ∃ q, x = .num q ∧ |(q : ℝ) - Real.log (likelihood (real m) (∅ : Choice (exact m)) / likelihood (real m) (pattern (exact m) F))| ≤
      slack m ((1 / 2 + 1 / 2 ^ 25) * u) δ (pattern (exact m) F) + 1 / 2 ^ 1074) ∨
  (a = .exception ∧ ∀ F : Happened (real m), 0 < chance (real m) F → ¬ ∀ d, d ∈ events ↔ flips (real m) F d % 2 = 1)

/-! ## Lemmas: merging is 1-Lipschitz -/

theorem lip_left {x y k : ℝ} (hx : 0 < x) (hy : 0 < y) (hk : 1 ≤ k) :
    (1 + k * x * y) / (k * x + y) ≤ k * ((1 + x * y) / (x + y)) ∧ (1 + x * y) / (x + y) ≤ k * ((1 + k * x * y) / (k * x + y)) := by
  have hk0 : 0 < k := by linarith
  have h1 : 0 < k * x := mul_pos hk0 hx
  have hxy := mul_pos hx hy
  have h2 : 0 ≤ k - 1 := by linarith
  constructor
  · rw [← mul_div_assoc, div_le_div_iff₀ (by positivity) (by positivity)]
    nlinarith [mul_nonneg h2 hx.le, mul_nonneg h2 hy.le, mul_nonneg h2 hxy.le, mul_nonneg (mul_nonneg h2 hxy.le) h1.le, mul_nonneg h2 h1.le]
  · rw [← mul_div_assoc, div_le_div_iff₀ (by positivity) (by positivity)]
    nlinarith [mul_nonneg h2 hx.le, mul_nonneg h2 hy.le, mul_nonneg h2 hxy.le, mul_nonneg (mul_nonneg h2 hxy.le) h1.le, mul_nonneg (mul_nonneg h2 hxy.le) hy.le,
      mul_nonneg (mul_nonneg h2 h2) (mul_pos hxy hy).le]

theorem lip_one (a a' b : ℝ) : |mergeWeights a b - mergeWeights a' b| ≤ |a - a'| := by
  have key : ∀ a a' : ℝ, a ≤ a' → |mergeWeights a b - mergeWeights a' b| ≤ a' - a := by
    intro a a' h
    have hk : 1 ≤ Real.exp (a' - a) := by rw [← Real.exp_zero]; exact Real.exp_le_exp.2 (by linarith)
    obtain ⟨h1, h2⟩ := lip_left (Real.exp_pos a) (Real.exp_pos b) hk
    have e : Real.exp (a' - a) * Real.exp a = Real.exp a' := by rw [← Real.exp_add]; congr 1; ring
    rw [e, ← Real.exp_add, ← Real.exp_add] at h1 h2
    have p1 : 0 < (1 + Real.exp (a + b)) / (Real.exp a + Real.exp b) := by positivity
    have p2 : 0 < (1 + Real.exp (a' + b)) / (Real.exp a' + Real.exp b) := by positivity
    have l1 := Real.log_le_log p2 h1
    have l2 := Real.log_le_log p1 h2
    rw [Real.log_mul (Real.exp_ne_zero _) p1.ne', Real.log_exp, ← MW.mergeWeights_eq, ← MW.mergeWeights_eq] at l1
    rw [Real.log_mul (Real.exp_ne_zero _) p2.ne', Real.log_exp, ← MW.mergeWeights_eq, ← MW.mergeWeights_eq] at l2
    rw [abs_le]
    constructor <;> linarith
  rcases le_total a a' with h | h
  · rw [abs_sub_comm a, abs_of_nonneg (sub_nonneg.2 h)]; exact key a a' h
  · rw [abs_of_nonneg (sub_nonneg.2 h), abs_sub_comm]; exact key a' a h

theorem lip (a a' b b' : ℝ) : |mergeWeights a b - mergeWeights a' b'| ≤ |a - a'| + |b - b'| := by
  have h1 := lip_one a a' b
  have h2 := lip_one b b' a'
  rw [(MergeWeights.C20_merge_commutative_associative b a' 0).1, (MergeWeights.C20_merge_commutative_associative b' a' 0).1] at h2
  calc |mergeWeights a b - mergeWeights a' b'| = |(mergeWeights a b - mergeWeights a' b) + (mergeWeights a' b - mergeWeights a' b')| := by congr 1; ring
    _ ≤ _ := le_trans (abs_add_le _ _) (add_le_add h1 h2)

/-! ## Lemmas: the two graphs -/

theorem boundary_add' {K : Type} [Field K] [LinearOrder K] (mw : K → K → K) (g : UGraph K) (u : Nat) (t : Option Nat) (obs : List Nat) (w p : K) (s : Strategy) :
    (UserGraph.exec mw g (.add u t obs w p s)).1.boundary = g.boundary := by
  have hm : ∀ (g : UGraph K) ei, (g.mergeEdge mw ei obs w p s).1.boundary = g.boundary := by
    intro g ei
    unfold UGraph.mergeEdge
    split
    · rfl
    · split <;> rfl
  cases t with
  | none =>
    show (UGraph.addBoundaryEdge mw g u obs w p s).1.boundary = _
    unfold UGraph.addBoundaryEdge
    simp only
    split
    · rfl
    · split
      · rfl
      · rw [hm]
  | some v =>
    show (UGraph.addEdge mw g u v obs w p s).1.boundary = _
    unfold UGraph.addEdge
    simp only
    split
    · rfl
    · split
      · rfl
      · rw [hm]

/-- Corresponding edges; `n` components were inserted. -/
structure SameEdge (δ L : ℝ) (n : Nat) (d : UEdge ℚ) (r : UEdge ℝ) : Prop where
  node1 : d.node1 = r.node1
  node2 : d.node2 = r.node2
  obs : d.obs = r.obs
  plain : d.implied = []
  pos : 1 ≤ n
  close : |(d.weight : ℝ) - r.weight| ≤ (2 * n - 1) * δ
  bound : |r.weight| ≤ L

/-- Corresponding graphs; `n` counts the insertions by pair of ends, `N` all of them. -/
structure Par (δ L : ℝ) (N : Nat) (n : Key → Nat) (d : UGraph ℚ) (r : UGraph ℝ) : Prop where
  wfd : WF d
  wfr : WF r
  bndOk : Props.Convert.BndOk d
  nodes : d.nodes.length = r.nodes.length
  boundary : d.boundary = r.boundary
  numObs : d.numObs = r.numObs
  len : d.edges.length = r.edges.length
  edge : ∀ i (h : i < d.edges.length) (h' : i < r.edges.length), SameEdge δ L (n r.edges[i].key) d.edges[i] r.edges[i]
  count : ∀ k, n k ≤ N
  few : d.edges.length ≤ N

theorem SameEdge.key {δ L : ℝ} {n : Nat} {d : UEdge ℚ} {r : UEdge ℝ} (h : SameEdge δ L n d r) : d.key = r.key := by
  unfold UEdge.key
  rw [h.node1, h.node2]

theorem SameEdge.more {δ L : ℝ} {n n' : Nat} {d : UEdge ℚ} {r : UEdge ℝ} (hδ : 0 ≤ δ) (h : SameEdge δ L n d r) (hn : n ≤ n') : SameEdge δ L n' d r := by
  refine ⟨h.node1, h.node2, h.obs, h.plain, le_trans h.pos hn, le_trans h.close (mul_le_mul_of_nonneg_right ?_ hδ), h.bound⟩
  have : (n : ℝ) ≤ n' := by exact_mod_cast hn
  linarith

/-- One insertion in both. -/
theorem par_add {δ L B : ℝ} (hδ : 0 ≤ δ) {N : Nat} {n : Key → Nat} {d : UGraph ℚ} {r : UGraph ℝ} (h : Par δ L N n d r) {mw : ℚ → ℚ → ℚ}
    (hmw : ∀ a b : ℚ, |(a : ℝ)| ≤ B → |(b : ℝ)| ≤ B → |(mw a b : ℝ) - mergeWeights a b| ≤ δ) (hB : L + 2 * (N + 1 : Nat) * δ ≤ B)
    (u : Nat) (t : Option Nat) (obs : List Nat) {w p : ℚ} {w' p' : ℝ} (hw : |(w : ℝ) - w'| ≤ δ) (hL : |w'| ≤ L) :
    Par δ L (N + 1) (fun k => n k + if k = key u t then 1 else 0) (UserGraph.exec mw d (.add u t obs w p .independent)).1
      (UserGraph.exec mergeWeights r (.add u t obs w' p' .independent)).1 := by
  have hgrow : ∀ k, n k ≤ n k + if k = key u t then 1 else 0 := fun k => Nat.le_add_right _ _
  have hcount : ∀ k, (n k + if k = key u t then 1 else 0) ≤ N + 1 := by
    intro k
    have := h.count k
    split_ifs <;> omega
  have hNB : ∀ k : Nat, k ≤ N → L + (2 * k - 1) * δ ≤ B := by
    intro k hk
    have : (k : ℝ) ≤ N := by exact_mod_cast hk
    refine le_trans ?_ hB
    have := mul_le_mul_of_nonneg_right (show 2 * (k : ℝ) - 1 ≤ 2 * (N + 1 : Nat) by push_cast; linarith) hδ
    linarith
  refine ⟨UserGraph.wf_exec _ h.wfd _, UserGraph.wf_exec _ h.wfr _, Props.Convert.bndOk_exec _ h.bndOk _, ?_, ?_, ?_, ?_, ?_, hcount, ?_⟩
  · rw [UserGraph.exec_add_nodes, UserGraph.exec_add_nodes, h.nodes]
  · rw [boundary_add', boundary_add', h.boundary]
  all_goals
    rcases UserGraph.add_cases mw h.wfd u t obs w p .independent with ⟨d', d1, -, d2, d3, d4, -⟩ | ⟨i, hi, d1, d2⟩ <;>
    rcases UserGraph.add_cases mergeWeights h.wfr u t obs w' p' .independent with ⟨r', r1, -, r2, r3, r4, -⟩ | ⟨j, hj, r1, r2⟩
  · rw [d1, r1]; simp only; rw [d4, r4, h.numObs]
  · exact absurd ((h.edge j (h.len ▸ hj) hj).key.trans r1) (d3 j _)
  · exact absurd ((h.edge i hi (h.len ▸ hi)).key.symm.trans d1) (r3 i _)
  · rw [d2, r2]
    rcases UserGraph.mergeEdge_cases mw h.wfd i hi obs w p .independent with ⟨k, -⟩ | ⟨-, d', e, k1, -, -, -, -, k2, -⟩
    · cases k
    rcases UserGraph.mergeEdge_cases mergeWeights h.wfr j hj obs w' p' .independent with ⟨k, -⟩ | ⟨-, r', e', q1, -, -, -, -, q2, -⟩
    · cases k
    rw [k1, q1]; simp only; rw [k2, q2, h.numObs]
  · rw [d1, r1]; simp only; rw [d2, r2, List.length_append, List.length_append, h.len]; rfl
  · exact absurd ((h.edge j (h.len ▸ hj) hj).key.trans r1) (d3 j _)
  · exact absurd ((h.edge i hi (h.len ▸ hi)).key.symm.trans d1) (r3 i _)
  · rw [d2, r2]
    rcases UserGraph.mergeEdge_cases mw h.wfd i hi obs w p .independent with ⟨k, -⟩ | ⟨-, d', e, k1, -, k2, -⟩
    · cases k
    rcases UserGraph.mergeEdge_cases mergeWeights h.wfr j hj obs w' p' .independent with ⟨k, -⟩ | ⟨-, r', e', q1, -, q2, -⟩
    · cases k
    rw [k1, q1]; simp only; rw [k2, q2, List.length_set, List.length_set, h.len]
  · rw [d1, r1]; simp only
    intro k hk hk'
    simp only [d2, r2]
    by_cases hlt : k < d.edges.length
    · rw [List.getElem_append_left hlt, List.getElem_append_left (h.len ▸ hlt)]
      exact (h.edge k hlt (h.len ▸ hlt)).more hδ (hgrow _)
    · have hk2 : k < d.edges.length + 1 := by
        have := hk
        rw [d2, List.length_append] at this
        exact this
      have : k = d.edges.length := le_antisymm (Nat.lt_succ_iff.1 hk2) (not_lt.1 hlt)
      subst this
      rw [List.getElem_append_right (le_refl d.edges.length), List.getElem_append_right h.len.ge]
      simp only [Nat.sub_self, h.len, List.getElem_cons_zero]
      have hkey : UEdge.key (⟨u, t, obs, w', p', []⟩ : UEdge ℝ) = key u t := rfl
      rw [hkey, if_pos rfl]
      refine ⟨rfl, rfl, rfl, rfl, by omega, ?_, hL⟩
      refine le_trans hw ?_
      push_cast
      have : (0 : ℝ) ≤ n (key u t) := Nat.cast_nonneg _
      nlinarith
  · exact absurd ((h.edge j (h.len ▸ hj) hj).key.trans r1) (d3 j _)
  · exact absurd ((h.edge i hi (h.len ▸ hi)).key.symm.trans d1) (r3 i _)
  · have hij : i = j := h.wfr.uniq _ _ (h.len ▸ hi) hj (((h.edge i hi (h.len ▸ hi)).key.symm.trans d1).trans r1.symm)
    subst hij
    rw [d2, r2]
    rcases UserGraph.mergeEdge_cases mw h.wfd i hi obs w p .independent with ⟨k, -⟩ | ⟨-, d', e, k1, -, k2, k3, k4, -, b, k5, -⟩
    · cases k
    rcases UserGraph.mergeEdge_cases mergeWeights h.wfr i hj obs w' p' .independent with ⟨k, -⟩ | ⟨-, r', e', q1, -, q2, q3, q4, -, b', q5, -⟩
    · cases k
    rw [k1, q1]; simp only
    intro k hk hk'
    simp only [k2, q2]
    rw [k2, List.length_set] at hk
    by_cases hik : i = k
    · subst hik
      rw [List.getElem_set_self, List.getElem_set_self]
      have he := h.edge i hi hj
      have hkey : e'.key = key u t := by unfold UEdge.key; rw [q3, q4]; exact r1
      have hn : n r.edges[i].key = n (key u t) := by rw [r1]
      simp only [mergeData, Option.some.injEq, Prod.mk.injEq] at k5 q5
      obtain ⟨rfl, -⟩ := k5
      obtain ⟨rfl, -⟩ := q5
      rw [hkey, if_pos rfl]
      rw [hn] at he
      refine ⟨he.node1, he.node2, he.obs, he.plain, by omega, ?_, ?_⟩
      · simp only
        have hc := h.count (key u t)
        have h1 : |(w : ℝ)| ≤ B := by
          have : |(w : ℝ)| ≤ |w'| + δ := by
            calc |(w : ℝ)| = |w' + (w - w')| := by congr 1; ring
              _ ≤ _ := le_trans (abs_add_le _ _) (by linarith)
          have h2 := hNB (n (key u t)) hc
          have h3 : (1 : ℝ) ≤ n (key u t) := by exact_mod_cast he.pos
          nlinarith
        have h2 : |(d.edges[i].weight : ℝ)| ≤ B := by
          have : |(d.edges[i].weight : ℝ)| ≤ |r.edges[i].weight| + (2 * n (key u t) - 1) * δ := by
            calc |(d.edges[i].weight : ℝ)| = |r.edges[i].weight + (d.edges[i].weight - r.edges[i].weight)| := by congr 1; ring
              _ ≤ _ := le_trans (abs_add_le _ _) (by linarith [he.close])
          have h2 := hNB (n (key u t)) hc
          linarith [he.bound]
        have h3 := hmw w d.edges[i].weight h1 h2
        have h4 := lip w w' d.edges[i].weight r.edges[i].weight
        have h5 := he.close
        calc |(mw w d.edges[i].weight : ℝ) - mergeWeights w' r.edges[i].weight| =
            |((mw w d.edges[i].weight : ℝ) - mergeWeights w d.edges[i].weight) + (mergeWeights w d.edges[i].weight - mergeWeights w' r.edges[i].weight)| := by congr 1; ring
          _ ≤ _ := le_trans (abs_add_le _ _) (by push_cast; linarith)
      · simp only
        refine le_trans (MergeWeights.C20_merge_magnitude w' r.edges[i].weight).1 (le_trans (min_le_left _ _) hL)
    · rw [List.getElem_set_ne hik, List.getElem_set_ne hik]
      exact (h.edge k hk (h.len ▸ hk)).more hδ (hgrow _)
  · rw [d1]; simp only; rw [d2, List.length_append]; exact Nat.succ_le_succ h.few
  · rw [d1]; simp only; rw [d2, List.length_append]; exact Nat.succ_le_succ h.few
  all_goals
    rw [d2]
    rcases UserGraph.mergeEdge_cases mw h.wfd i hi obs w p .independent with ⟨k, -⟩ | ⟨-, d', e, k1, -, k2, -⟩
    · cases k
    rw [k1]; simp only; rw [k2, List.length_set]
    exact le_trans h.few (Nat.le_succ N)

theorem Par.mono {δ L : ℝ} {N N' : Nat} {n : Key → Nat} {d : UGraph ℚ} {r : UGraph ℝ} (h : Par δ L N n d r) (hN : N ≤ N') : Par δ L N' n d r :=
  ⟨h.wfd, h.wfr, h.bndOk, h.nodes, h.boundary, h.numObs, h.len, h.edge, fun k => le_trans (h.count k) hN, le_trans h.few hN⟩

/-- The pair of ends of a component. -/
def keyOf : List Nat → Option Key
  | [a] => some (key a none)
  | [a, b] => some (key a (some b))
  | _ => none

theorem connects_key (u : Nat) (t : Option Nat) (ds : List Nat) : connects u t ds ↔ keyOf ds = some (key u t) := by
  match ds with
  | [] => simp [connects, keyOf]
  | [a] => simp only [connects, keyOf, Option.some.injEq]; rw [UserGraph.samePair_iff_key]
  | [a, b] => simp only [connects, keyOf, Option.some.injEq]; rw [UserGraph.samePair_iff_key]
  | _ :: _ :: _ :: _ => simp [connects, keyOf]

theorem par_comps {δ L B : ℝ} (hδ : 0 ≤ δ) {mw : ℚ → ℚ → ℚ} {lg : ℚ → ℚ}
    (hmw : ∀ a b : ℚ, |(a : ℝ)| ≤ B → |(b : ℝ)| ≤ B → |(mw a b : ℝ) - mergeWeights a b| ≤ δ) {p : ℚ} (hw : |(lg p : ℝ) - llr p| ≤ δ) (hL : |llr p| ≤ L)
    (cs : List (List Nat × List Nat)) : ∀ {N : Nat} {n : Key → Nat} {d : UGraph ℚ} {r : UGraph ℝ}, Par δ L N n d r → L + 2 * (N + cs.length : Nat) * δ ≤ B →
      Par δ L (N + cs.length) (fun k => n k + cs.countP fun c => keyOf c.1 = some k) (cs.foldl (fun g c => handle mw lg g p c.1 c.2) d)
        (cs.foldl (fun g c => handle mergeWeights llr g (p : ℝ) c.1 c.2) r) := by
  induction cs with
  | nil => intro N n d r h _; simpa using h
  | cons c cs ih =>
    intro N n d r h hB
    have hB1 : L + 2 * (N + 1 : Nat) * δ ≤ B := by
      refine le_trans ?_ hB
      have : ((N + 1 : Nat) : ℝ) ≤ (N + (c :: cs).length : Nat) := by
        rw [List.length_cons]; exact_mod_cast (by omega)
      have := mul_le_mul_of_nonneg_right this hδ
      linarith
    have step : Par δ L (N + 1) (fun k => n k + if keyOf c.1 = some k then 1 else 0) (handle mw lg d p c.1 c.2) (handle mergeWeights llr r (p : ℝ) c.1 c.2) := by
      obtain ⟨ds, os⟩ := c
      match ds with
      | [] => simpa [keyOf, handle] using h.mono (Nat.le_succ N)
      | [a] =>
        have := par_add hδ h hmw hB1 a none os (w := lg p) (p := p) (p' := (p : ℝ)) hw hL
        simp only [keyOf, Option.some.injEq, eq_comm (a := key a none)]
        exact this
      | [a, b] =>
        have := par_add hδ h hmw hB1 a (some b) os (w := lg p) (p := p) (p' := (p : ℝ)) hw hL
        simp only [keyOf, Option.some.injEq, eq_comm (a := key a (some b))]
        exact this
      | _ :: _ :: _ :: _ => simpa [keyOf, handle] using h.mono (Nat.le_succ N)
    rw [List.foldl_cons, List.foldl_cons]
    have e : N + (c :: cs).length = N + 1 + cs.length := by simp; omega
    have := ih step (by rw [← e]; exact hB)
    rw [e]
    convert this using 1
    funext k
    rw [List.countP_cons]
    simp only [decide_eq_true_eq]
    omega

theorem calls_real {p : ℚ} (ds os : List Nat) (ts : List Target) : edgeCalls (p : ℝ) ds os ts = edgeCalls p ds os ts := by
  induction ts generalizing ds os with
  | nil => simp [edgeCalls]
  | cons x ts ih => cases x <;> simp [edgeCalls, ih]

theorem calls_count {p : ℚ} (hp : 0 ≤ p) (ts : List Target) : edgeCalls p [] [] ts = if p = 0 then [] else components (⟨p, ts⟩ : Err ℚ) := by
  rw [← calls_real]
  split_ifs with h
  · exact edgeCalls_zero (by exact_mod_cast h) _ _ _
  · rw [edgeCalls_pos (by have := lt_of_le_of_ne hp (Ne.symm h); exact_mod_cast this)]
    exact segs_components (⟨p, ts⟩ : Err ℚ)

/-- How many components have these ends. -/
noncomputable def counted (es : List (Err ℝ)) (k : Key) : Nat := (es.map fun e => if e.p = 0 then 0 else (components e).countP fun c => keyOf c.1 = some k).sum

theorem counted_shares (m : Model ℝ) (x : UEdge ℝ) : counted m.errors x.key = shares m x := by
  unfold counted shares contributions
  rw [List.length_flatMap]
  congr 1
  refine List.map_congr_left fun e _ => ?_
  split_ifs with h
  · rfl
  · rw [List.length_map, List.countP_eq_length_filter]
    congr 1
    refine List.filter_congr fun c _ => ?_
    rw [decide_eq_decide]
    exact (connects_key _ _ _).symm

theorem par_load {m : Model ℚ} {mw : ℚ → ℚ → ℚ} {lg : ℚ → ℚ} {B δ : ℝ} (h0 : ∀ e ∈ m.errors, 0 ≤ e.p) (h : Precise m mw lg B δ) :
    Par δ (B - 2 * size m * δ) (size m) (counted (real m).errors) (load mw lg m) (exact m) := by
  have hδ := h.nonneg
  obtain ⟨es, nd, no⟩ := m
  have key : ∀ (l : List (Err ℚ)), (∀ e ∈ l, e ∈ es) → ∀ (N : Nat) (n : Key → Nat) (d : UGraph ℚ) (r : UGraph ℝ),
      Par δ (B - 2 * size ⟨es, nd, no⟩ * δ) N n d r → N + (l.map fun e => (components e).length).sum ≤ size ⟨es, nd, no⟩ →
      Par δ (B - 2 * size ⟨es, nd, no⟩ * δ) (N + (l.map fun e => (components e).length).sum) (fun k => n k + counted (l.map fun e => ⟨(e.p : ℝ), e.targets⟩) k)
        (l.foldl (fun g e => (edgeCalls e.p [] [] e.targets).foldl (fun g c => handle mw lg g e.p c.1 c.2) g) d)
        ((l.map fun e => (⟨(e.p : ℝ), e.targets⟩ : Err ℝ)).foldl (fun g e => (edgeCalls e.p [] [] e.targets).foldl (fun g c => handle mergeWeights llr g e.p c.1 c.2) g) r) := by
    intro l
    induction l with
    | nil => intro _ N n d r hp _; simpa [counted] using hp
    | cons e l ih =>
      intro hl N n d r hp hN
      have he := hl e List.mem_cons_self
      rw [List.map_cons, List.sum_cons] at hN ⊢
      rw [List.map_cons, List.foldl_cons, List.foldl_cons]
      simp only [calls_real]
      rw [calls_count (h0 e he)]
      have step : Par δ (B - 2 * size ⟨es, nd, no⟩ * δ) (N + (components e).length) (fun k => n k + counted [⟨(e.p : ℝ), e.targets⟩] k)
          ((if e.p = 0 then [] else components e).foldl (fun g c => handle mw lg g e.p c.1 c.2) d)
          ((if e.p = 0 then [] else components e).foldl (fun g c => handle mergeWeights llr g (e.p : ℝ) c.1 c.2) r) := by
        by_cases hz : e.p = 0
        · rw [if_pos hz]
          simpa [counted, hz] using hp.mono (Nat.le_add_right N (components e).length)
        · rw [if_neg hz]
          have hz' : (e.p : ℝ) ≠ 0 := by exact_mod_cast hz
          have := par_comps hδ h.merge (h.weight e he hz) (L := B - 2 * size ⟨es, nd, no⟩ * δ) (by have := h.room e he hz; linarith) (components e) hp (by
            have : ((N + (components e).length : Nat) : ℝ) ≤ size ⟨es, nd, no⟩ := by exact_mod_cast (by omega)
            have := mul_le_mul_of_nonneg_right this hδ
            linarith)
          convert this using 1
          funext k
          simp [counted, hz', components]
      have := ih (fun x hx => hl x (List.mem_cons_of_mem _ hx)) _ _ _ _ step (by omega)
      rw [← Nat.add_assoc]
      convert this using 1
      funext k
      simp [counted, Nat.add_assoc]
  have := key es (fun _ he => he) 0 (fun _ => 0) (UGraph.new nd no) (UGraph.new nd no) ⟨wf_new _ _, wf_new _ _, Props.Convert.bndOk_new _ _, by simp [UGraph.new], rfl, rfl, rfl,
    fun i hi => by simp [UGraph.new] at hi, fun _ => le_rfl, le_rfl⟩ (by unfold size; exact (Nat.zero_add _).le)
  simpa [size, real, load] using this

/-! ## Lemmas: sets of edges of the two graphs -/

section
variable {δ L : ℝ} {N : Nat} {n : Key → Nat} {d : UGraph ℚ} {r : UGraph ℝ} (h : Par δ L N n d r)
include h

/-- The same set of edges. -/
def over (C : Choice d) : Choice r := C.map (finCongr h.len).toEmbedding

theorem over_surj (C : Choice r) : ∃ C' : Choice d, over h C' = C :=
  ⟨C.map (finCongr h.len).symm.toEmbedding, by unfold over; rw [Finset.map_map]; ext j; simp⟩

theorem over_card (C : Choice d) : (over h C).card = C.card := Finset.card_map _

theorem over_sum {M : Type} [AddCommMonoid M] (C : Choice d) (f : UEdge ℚ → M) (f' : UEdge ℝ → M)
    (hf : ∀ i (k : i < d.edges.length) (k' : i < r.edges.length), f d.edges[i] = f' r.edges[i]) : ∑ j ∈ over h C, f' r.edges[j] = ∑ j ∈ C, f d.edges[j] := by
  unfold over
  rw [Finset.sum_map]
  exact Finset.sum_congr rfl fun j _ => (hf j.1 j.2 (h.len ▸ j.2)).symm

theorem over_explains (C : Choice d) (events : List Nat) : Explains (over h C) events ↔ Explains C events := by
  unfold Explains
  rw [h.boundary]
  refine forall_congr' fun x => ?_
  have : degree (over h C) x = degree C x := over_sum h C (fun e => endsAt e x) (fun e => endsAt e x) fun i k k' => by
    have := h.edge i k k'
    simp only [endsAt, this.node1, this.node2]
  rw [this]

theorem over_crossed (C : Choice d) (k : Nat) : crossed (over h C) k = crossed C k :=
  over_sum h C (fun e => e.obs.count k) (fun e => e.obs.count k) fun i k k' => by
    have := h.edge i k k'
    simp only [this.obs]

theorem over_weight (C : Choice d) : |((trueWeight C : ℚ) : ℝ) - trueWeight (over h C)| ≤ δ * ∑ j ∈ over h C, (2 * (n r.edges[j].key : ℝ) - 1) := by
  unfold trueWeight over
  rw [Finset.sum_map, Finset.sum_map]
  push_cast
  rw [← Finset.sum_sub_distrib, Finset.mul_sum]
  refine le_trans (Finset.abs_sum_le_sum_abs _ _) (Finset.sum_le_sum fun j _ => ?_)
  have := (h.edge j.1 j.2 (h.len ▸ j.2)).close
  rw [mul_comm]
  exact this

end

theorem plain_big {g : UGraph ℚ} (hpl : ∀ e ∈ g.edges, e.implied = []) : Discretise.ImpliedOk g := by
  intro e he i hi
  rw [hpl e he] at hi
  cases hi

theorem par_valid {m : Model ℚ} {mw : ℚ → ℚ → ℚ} {lg : ℚ → ℚ} {B δ : ℝ} (hv : Valid (real m)) (hp : Precise m mw lg B δ) :
    Par δ (B - 2 * size m * δ) (size m) (counted (real m).errors) (load mw lg m) (exact m) :=
  par_load (fun e he => by
    have := (hv ⟨(e.p : ℝ), e.targets⟩ (List.mem_map_of_mem (f := fun e : Err ℚ => (⟨(e.p : ℝ), e.targets⟩ : Err ℝ)) he)).1.1
    have : (0 : ℝ) ≤ (e.p : ℝ) := this
    exact_mod_cast this) hp

section
variable {m : Model ℚ} {mw : ℚ → ℚ → ℚ} {lg : ℚ → ℚ} {B δ : ℝ} (hv : Valid (real m)) (hgl : Graphlike (real m)) (hp : Precise m mw lg B δ)
include hv hgl hp

/-- The errors that a set of edges of the graph with double weights stands for. -/
theorem errors_for {u : ℚ} {events : List Nat} {C : Choice (load mw lg m)} (hgood : Good u events C) :
    ∃ F : Happened (real m), (pattern (exact m) F = over (par_valid hv hp) C ∧
        |((trueWeight C : ℚ) : ℝ) - Real.log (likelihood (real m) (∅ : Choice (exact m)) / likelihood (real m) (pattern (exact m) F))| ≤
          δ * ∑ j ∈ pattern (exact m) F, (2 * (shares (real m) (exact m).edges[j] : ℝ) - 1)) ∧ 0 < chance (real m) F ∧ (∀ d, d ∈ events ↔ flips (real m) F d % 2 = 1) ∧
      (∀ F' : Happened (real m), 0 < chance (real m) F' → (∀ d, d ∈ events ↔ flips (real m) F' d % 2 = 1) →
        likelihood (real m) (pattern (exact m) F') ≤ likelihood (real m) (pattern (exact m) F) *
          Real.exp (slack m ((1 / 2 + 1 / 2 ^ 27) * u) δ (pattern (exact m) F) + slack m ((1 / 2 + 1 / 2 ^ 27) * u) δ (pattern (exact m) F'))) ∧
      (∀ row, Says C row → Predicts m.numObs row (crossed (pattern (exact m) F)) ∧ (Consistent (real m) → Predicts m.numObs row (flipsObs (real m) F))) ∧
      ∀ x, CloseTo u C x → ∃ q, x = .num q ∧ |(q : ℝ) - Real.log (likelihood (real m) (∅ : Choice (exact m)) / likelihood (real m) (pattern (exact m) F))| ≤
        slack m ((1 / 2 + 1 / 2 ^ 25) * u) δ (pattern (exact m) F) + 1 / 2 ^ 1074 := by
  have hpar := par_valid hv hp
  have hs := start (real m) hv
  have hwt : ∀ C : Choice (load mw lg m), |((trueWeight C : ℚ) : ℝ) - trueWeight (over hpar C)| ≤
      δ * ∑ j ∈ over hpar C, (2 * (shares (real m) (exact m).edges[j] : ℝ) - 1) := by
    intro C
    have := over_weight hpar C
    simp only [counted_shares] at this
    exact this
  obtain ⟨hex, hmin⟩ := hgood
  have hex' := (over_explains hpar C events).2 hex
  obtain ⟨hpos, hC⟩ := likelihood_weight hs hv hgl (over hpar C)
  obtain ⟨F, hF, hpat⟩ : ∃ F : Happened (real m), 0 < chance (real m) F ∧ pattern (exact m) F = over hpar C := by
    by_contra hcon
    push Not at hcon
    refine absurd hpos (not_lt.2 (Finset.sum_nonpos fun F hF => ?_))
    by_contra h
    exact hcon F (not_le.1 h) (Finset.mem_filter.1 hF).2
  have h2 : Real.log (likelihood (real m) (∅ : Choice (exact m)) / likelihood (real m) (pattern (exact m) F)) = trueWeight (over hpar C) := by
    rw [hpat, hC]
    have := (likelihood_weight hs hv hgl (∅ : Choice (exact m))).1
    rw [← div_div, div_self this.ne', one_div, ← Real.exp_neg, neg_neg, Real.log_exp]
  refine ⟨F, ⟨hpat, by rw [h2, hpat]; exact hwt C⟩, hF, (C56_detectors (real m) hv hgl F hF.ne' events).1 (by rw [hpat]; exact hex'), ?_, ?_, ?_⟩
  · intro F' hF' hsym
    have hexF := (C56_detectors (real m) hv hgl F' hF'.ne' events).2 hsym
    obtain ⟨C', hC'⟩ := over_surj hpar (pattern (exact m) F')
    have h1 := (hmin C' ((over_explains hpar C' events).1 (by rw [hC']; exact hexF))).1
    have h1 := (Rat.cast_le (K := ℝ)).2 h1
    have h2 := abs_le.1 (hwt C)
    have h3 := abs_le.1 (hwt C')
    rw [hpat, hC, (likelihood_weight hs hv hgl (pattern (exact m) F')).2, mul_assoc, ← Real.exp_add, ← hC']
    refine mul_le_mul_of_nonneg_left (Real.exp_le_exp.2 ?_) (likelihood_weight hs hv hgl _).1.le
    unfold slack
    rw [over_card, over_card]
    push_cast at h1
    linarith [h2.1, h3.2]
  · intro row hsay
    have hpred : Predicts m.numObs row (crossed (pattern (exact m) F)) := by
      have hN : (load mw lg m).numObs = m.numObs := by rw [hpar.numObs, hs.numObs]; rfl
      obtain ⟨h1, h2⟩ := hsay
      rw [hN] at h1 h2
      refine ⟨h1, fun k hk => ?_⟩
      rw [hpat, over_crossed]
      exact h2 k hk
    refine ⟨hpred, fun hco => ⟨hpred.1, fun k hk' => ?_⟩⟩
    rw [← C56_observables (real m) hv hgl hco F hF.ne' k]
    exact hpred.2 k hk'
  · rintro x ⟨q, rfl, hq, -⟩
    refine ⟨q, rfl, ?_⟩
    rw [h2, hpat]
    have ht : (1 : ℝ) / 2 ^ 1074 = ((1 / 2 ^ 1074 : ℚ) : ℝ) := by push_cast; rfl
    rw [ht]
    generalize (1 / 2 ^ 1074 : ℚ) = t at hq ⊢
    have hq := (Rat.cast_le (K := ℝ)).2 hq
    push_cast at hq
    unfold slack
    rw [over_card]
    calc |(q : ℝ) - trueWeight (over hpar C)| = |((q : ℝ) - (trueWeight C : ℚ)) + ((trueWeight C : ℚ) - trueWeight (over hpar C))| := by congr 1; ring
      _ ≤ _ := le_trans (abs_add_le _ _) (by linarith [hwt C])

/-- No set of edges explains the events: then no errors do. -/
theorem no_errors {events : List Nat} (hno : ∀ C : Choice (load mw lg m), ¬ Explains C events) (F : Happened (real m)) (hF : 0 < chance (real m) F) :
    ¬ ∀ d, d ∈ events ↔ flips (real m) F d % 2 = 1 := by
  intro hsym
  have hpar := par_valid hv hp
  have hexF := (C56_detectors (real m) hv hgl F hF.ne' events).2 hsym
  obtain ⟨C', hC'⟩ := over_surj hpar (pattern (exact m) F)
  exact hno C' ((over_explains hpar C' events).1 (by rw [hC']; exact hexF))

/-- What the answer for the graph with double weights means for the model. -/
theorem meaning {u : ℚ} {c : Bool} {events : List Nat} {a : Answer Double} (hm : MeansD (load mw lg m) u (.decode c events) a) : Likely m δ u events a := by
  rcases hm with ⟨row, x, rfl, C, hgood, hsay, hclose⟩ | ⟨rfl, hno⟩
  · obtain ⟨F, -, hF, h1, h2, h3, h4⟩ := errors_for hv hgl hp hgood
    exact .inl ⟨row, x, rfl, F, hF, h1, h2, (h3 row hsay).1, (h3 row hsay).2, h4 x hclose⟩
  · exact .inr ⟨rfl, no_errors hv hgl hp hno⟩

end

/-! ## Lemmas: the object -/

theorem par_edge {δ L : ℝ} {N : Nat} {n : Key → Nat} {d : UGraph ℚ} {r : UGraph ℝ} (h : Par δ L N n d r) {e : UEdge ℚ} (he : e ∈ d.edges) :
    ∃ e' ∈ r.edges, SameEdge δ L (n e'.key) e e' := by
  obtain ⟨i, hi, rfl⟩ := List.getElem_of_mem he
  exact ⟨_, List.getElem_mem (h.len ▸ hi), h.edge i hi (h.len ▸ hi)⟩

theorem par_covered {δ L : ℝ} {N : Nat} {n : Key → Nat} {d : UGraph ℚ} {r : UGraph ℝ} (h : Par δ L N n d r) (hc : Covered r) : Covered d := by
  intro e he o ho
  obtain ⟨e', he', k⟩ := par_edge h he
  rw [h.numObs]
  exact hc e' he' o (k.obs ▸ ho)

theorem par_weight {δ L : ℝ} (hδ : 0 ≤ δ) {N : Nat} {n : Key → Nat} {d : UGraph ℚ} {r : UGraph ℝ} (h : Par δ L N n d r) {e : UEdge ℚ} (he : e ∈ d.edges) :
    |(e.weight : ℝ)| ≤ L + 2 * N * δ := by
  obtain ⟨e', he', k⟩ := par_edge h he
  have h1 : ((n e'.key : Nat) : ℝ) ≤ N := by exact_mod_cast h.count _
  have h2 := mul_le_mul_of_nonneg_right (show 2 * (n e'.key : ℝ) - 1 ≤ 2 * N by linarith) hδ
  calc |(e.weight : ℝ)| = |e'.weight + (e.weight - e'.weight)| := by congr 1; ring
    _ ≤ _ := le_trans (abs_add_le _ _) (by linarith [k.close, k.bound])

theorem noGain' {g : UGraph ℚ} (hw : WF g) (hb : g.boundary = ∅) : NoGain g where
  pair := by
    intro i j hij u hi hj
    exfalso
    have key : ∀ k : Fin g.edges.length, Leaves g u g.edges[k] → g.edges[k].node1 = u ∧ g.edges[k].node2 = none := by
      rintro k ⟨-, ⟨h1, h2 | ⟨v, -, h3⟩⟩ | ⟨-, h2⟩⟩
      · exact ⟨h1, h2⟩
      · rw [hb] at h3; simp at h3
      · rw [hb] at h2; simp at h2
    obtain ⟨h1, h2⟩ := key i hi
    obtain ⟨h3, h4⟩ := key j hj
    refine hij (Fin.ext (hw.uniq _ _ i.2 j.2 ?_))
    show g.edges[i].key = g.edges[j].key
    unfold UEdge.key
    rw [h1, h2, h3, h4]
  outside := by
    intro i hi
    have := hi.1
    rw [hb] at this
    simp at this

theorem plain_weights {g : UGraph ℚ} (hpl : ∀ e ∈ g.edges, e.implied = []) (w : ℚ) : w ∈ Discretise.allWeights g ↔ ∃ e ∈ g.edges, e.weight = w := by
  unfold Discretise.allWeights
  rw [List.mem_flatMap]
  constructor
  · rintro ⟨e, he, hw⟩
    rw [hpl e he] at hw
    exact ⟨e, he, (List.mem_singleton.1 hw).symm⟩
  · rintro ⟨e, he, rfl⟩
    exact ⟨e, he, List.mem_cons_self⟩

/-- The weights of the loaded graph are not all tiny: all are integers, or one is at least `2^-998`. -/
def NotTiny (g : UGraph ℚ) : Prop := (∀ e ∈ g.edges, Discretise.IsInt e.weight) ∨ ∃ e ∈ g.edges, 1 / 2 ^ 998 ≤ |e.weight|

theorem usable_load {m : Model ℚ} {mw : ℚ → ℚ → ℚ} {lg : ℚ → ℚ} {B δ : ℝ} (hv : Valid (real m)) (hp : Precise m mw lg B δ) (hB : B ≤ 2 ^ 24 - 1)
    (ht : NotTiny (load mw lg m)) : Usable (load mw lg m) := by
  have hpar := par_valid hv hp
  have hpl : ∀ e ∈ (load mw lg m).edges, e.implied = [] := fun e he => by
    obtain ⟨e', -, k⟩ := par_edge hpar he
    exact k.plain
  refine ⟨plain_big hpl, fun w hw => ?_, ?_⟩
  · obtain ⟨e, he, rfl⟩ := (plain_weights hpl w).1 hw
    have := par_weight hp.nonneg hpar he
    have h2 : |(e.weight : ℝ)| ≤ 2 ^ 24 - 1 := by linarith
    exact_mod_cast h2
  · rcases ht with h | ⟨e, he, h⟩
    · left
      intro w hw
      obtain ⟨e, he, rfl⟩ := (plain_weights hpl w).1 hw
      exact h e he
    · exact .inr ⟨_, (plain_weights hpl _).2 ⟨e, he, rfl⟩, h⟩

theorem questions_asks (mw : ℚ → ℚ → ℚ) (g : UGraph ℚ) (shots : List (List Nat)) :
    questions mw g (shots.map fun events => (Op.ask (.decode false events) : Op ℚ)) = shots.map fun events => (g, .decode false events) := by
  induction shots with
  | nil => rfl
  | cons x xs ih => simp only [List.map_cons, questions, ih]

theorem proper_asks (mw : ℚ → ℚ → ℚ) (g : UGraph ℚ) (without : Bool) (shots : List (List Nat)) (h : ∀ events ∈ shots, AskableD g without (.decode false events)) (b : Prop) :
    ProperD mw without g b (shots.map fun events => (Op.ask (.decode false events) : Op ℚ)) := by
  induction shots generalizing b with
  | nil => trivial
  | cons x xs ih => exact ⟨h x List.mem_cons_self, ih (fun e he => h e (List.mem_cons_of_mem _ he)) True⟩

theorem askable_load {m : Model ℚ} {mw : ℚ → ℚ → ℚ} {lg : ℚ → ℚ} {B δ : ℝ} (hv : Valid (real m)) (hp : Precise m mw lg B δ) (hB : B ≤ 2 ^ 24 - 1)
    (ht : NotTiny (load mw lg m)) {events : List Nat} (hev : events.Nodup ∧ ∀ d ∈ events, d < m.numDets) : AskableD (load mw lg m) true (.decode false events) := by
  have hpar := par_valid hv hp
  have hs := start (real m) hv
  have hu := usable_load hv hp hB ht
  have hcov := par_covered hpar (covered hs hv)
  have hpl : ∀ e ∈ (load mw lg m).edges, e.implied = [] := fun e he => by
    obtain ⟨e', -, k⟩ := par_edge hpar he
    exact k.plain
  refine ⟨hu, C65_builds hpar.wfd hpar.bndOk hcov hu hpl true, hcov, fun c _ => ?_, fun h => by cases h⟩
  refine int_fits ⟨false, rfl⟩ ⟨hev.1, fun d hd => ?_⟩
  rw [hpar.nodes, hs.nodes]
  exact hev.2 d hd

/-! ## Theorems -/

section
variable (m : Model ℚ) (hv : Valid (real m)) (hgl : Graphlike (real m)) (mw : ℚ → ℚ → ℚ) (lg : ℚ → ℚ) (B δ : ℝ) (hp : Precise m mw lg B δ) (hB : B ≤ 2 ^ 24 - 1)
  (hsz : size m < 2 ^ 38) (ht : NotTiny (load mw lg m)) (shots : List (List Nat)) (hev : ∀ events ∈ shots, events.Nodup ∧ ∀ d ∈ events, d < m.numDets)
include hv hgl hp hB hsz ht hev

/-- C70.  Load a model whose errors each have one or two detectors, with weights in double precision, and decode any number of times.  Every call ends, without undefined
behaviour.  Its answer stands for errors that explain the events, and no other errors are more likely, up to a factor for the precision of the arithmetic (see `Likely`, `slack`);
an exception means that no errors explain the events. -/
theorem C70_most_likely : ∃ as o, Completes (fun f => (ObjectD.of (load mw lg m) true).history mw f (shots.map fun events => .ask (.decode false events))) (.ok (as, o)) ∧
    List.Forall₂ (fun events a => ∃ u, Step (load mw lg m) u ∧ Likely m δ u events a) shots as := by
  have hpar := par_valid hv hp
  have hs := start (real m) hv
  obtain ⟨as, o, h1, h2⟩ := C68_any_time mw true _ hpar.wfd hpar.bndOk _ (proper_asks mw _ true shots (fun events he => askable_load hv hp hB ht (hev events he)) False)
  refine ⟨as, o, h1, ?_⟩
  rw [questions_asks, List.forall₂_map_left_iff] at h2
  refine h2.imp fun events a h => ?_
  obtain ⟨u, k1, k2⟩ := h.2 rfl (noGain' hpar.wfd (by rw [hpar.boundary, hs.bnd])) (lt_of_le_of_lt hpar.few hsz)
  exact ⟨u, k1, meaning hv hgl hp k2⟩

/-- C70 with the 32-bit radius of the code. -/
theorem C70_most_likely_int32 (hnear : NearD (load mw lg m)) :
    ∃ as o, Completes (fun f => (ObjectD.of (load mw lg m) true).history (W := int32) mw f (shots.map fun events => .ask (.decode false events))) (.ok (as, o)) ∧
      List.Forall₂ (fun events a => ∃ u, Step (load mw lg m) u ∧ Likely m δ u events a) shots as := by
  have hpar := par_valid hv hp
  have hs := start (real m) hv
  obtain ⟨as, o, h1, h2⟩ := C68_any_time_int32 mw true _ hpar.wfd hpar.bndOk _ (proper_asks mw _ true shots (fun events he => askable_load hv hp hB ht (hev events he)) False)
    (by
      intro p hp'
      rw [questions_asks, List.mem_map] at hp'
      obtain ⟨e, -, rfl⟩ := hp'
      exact hnear)
  refine ⟨as, o, h1, ?_⟩
  rw [questions_asks, List.forall₂_map_left_iff] at h2
  refine h2.imp fun events a h => ?_
  obtain ⟨u, k1, k2⟩ := h.2 rfl (noGain' hpar.wfd (by rw [hpar.boundary, hs.bnd])) (lt_of_le_of_lt hpar.few hsz)
  exact ⟨u, k1, meaning hv hgl hp k2⟩

end

end Verif.Props.LikelihoodD
