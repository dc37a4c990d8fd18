import Verif.Props.Session

/-!
# C86: what decoding does if boundary edges are worth combining

C49 excludes networks where two links from one detector to the boundary have a negative sum, or a link inside the boundary is negative.  Here is what questions without
correlations get for all networks.
-/

namespace Verif.Props.Single

open Verif Verif.SB Verif.UG Verif.Obj Verif.Dbl Verif.ConvD Verif.ObjD Verif.Session
open Verif.Props.UserEdges Verif.Props.UserGraph Verif.Props.Answers Verif.Props.EndToEnd
open Verif.Props.Object Verif.Props.Double Verif.Props.Discretise Verif.Props.DoubleHistory Verif.Props.Session
open Verif.Props.UserGraph (Call)
open Verif.Props.Edges (Completes)
open Verif.Session (Stmt Look Reply EdgeArgs FaultIds run)
open Verif.Sch (Res)

/-! ## Specification -/

/-- Both ends of the link are at the boundary. -/
def Inside (N : Net) (l : Link) : Prop := l.a ∈ N.boundary ∧ ∀ v, l.b = some v → v ∈ N.boundary

section
variable {N : Net}

/-- No link inside the boundary, and at most one link from each node to the boundary. -/
def Single (C : N.Links) : Prop :=
  (∀ i ∈ C, ¬ Inside N N.links[i]) ∧ ∀ i ∈ C, ∀ j ∈ C, ∀ x, N.links[i].Leaves N x → N.links[j].Leaves N x → i = j

/-- A single explanation that no other single explanation beats by more than about half a step per link; by nothing at all if all weights are integers. -/
def CheapSingle (u : ℚ) (fires : Nat → Prop) (C : N.Links) : Prop :=
  Explained C fires ∧ Single C ∧ ∀ C' : N.Links, Explained C' fires → Single C' →
    cost C ≤ cost C' + (C.card + C'.card : ℕ) * (1 / 2 + 1 / 2 ^ 27) * u ∧ (Whole N → cost C ≤ cost C')

/-- The returned weight. -/
def Costs (u : ℚ) (C : N.Links) (x : Double) : Prop :=
  ∃ q, x = .num q ∧ |q - cost C| ≤ C.card * (1 / 2 + 1 / 2 ^ 25) * u + 1 / 2 ^ 1074 ∧ (Whole N → N.links.length < 2 ^ 29 → q = cost C)

end

/-- The network may be asked about: as `Net.Fine`, but links to the boundary may have any weight. -/
structure Sound (N : Net) : Prop where
  few : N.links.length < 2 ^ 38
  covered : ∀ l ∈ N.links, ∀ k ∈ l.faults, k < N.ids
  le : ∀ w ∈ N.numbers, |w| ≤ 2 ^ 24 - 1
  big : Whole N ∨ ∃ w ∈ N.numbers, 1 / 2 ^ 998 ≤ |w|
  rules : ∀ l ∈ N.links, ∀ r ∈ l.rules, r.a ∉ N.boundary ∧ (∀ v, r.b = some v → v ∉ N.boundary ∧ v ≠ r.a) ∧ ∃ l' ∈ N.links, l'.Joins r.a r.b ∧ 0 ≤ l'.weight * r.weight

/-- A reply is right.  Questions without correlations get single explanations; everything else is as in C69. -/
def RightSingle (mergeW : ℚ → ℚ → ℚ) (without : Bool) (N : Net) : Stmt → Reply → Prop
  | .decode z rw false, r =>
    (Shaped N z ∧ ∃ u, StepOf N u ∧ ∃ (C : N.Links) (row : _) (x : _), CheapSingle u (Fires z) C ∧ Tells C row ∧ Costs u C x ∧ r = if rw then .pair row x else .array row) ∨
    (r = .raised ∧ (Shaped N z → ∀ C : N.Links, ¬ Explained C (Fires z)))
  | .decodeToEdgesArray z false, r =>
    (Shaped N z ∧ ∃ u, StepOf N u ∧ ∃ (C : N.Links) (es : _), CheapSingle u (Fires z) C ∧ Lists es C ∧ r = .edges es) ∨
    (r = .raised ∧ (Shaped N z → ∀ C : N.Links, ¬ Explained C (Fires z)))
  | .decodeBatch ps pp rw false cols rows, r =>
    (ShotsShaped N ps cols ∧ ∃ u, StepOf N u ∧ ∃ outs ws, outs.length = rows.length ∧ ws.length = rows.length ∧
      List.Forall₂ (fun row (y : List (BitVec 8) × Double) => ∃ C : N.Links, CheapSingle u (ShotFires ps row) C ∧ TellsIn pp C y.1 ∧ Costs u C y.2) rows (outs.zip ws) ∧
      r = if rw then .rowsAndWeights outs ws else .rows outs) ∨
    (r = .raised ∧ (ShotsShaped N ps cols → ∃ row ∈ rows, ∀ C : N.Links, ¬ Explained C (ShotFires ps row)))
  | s, r => Right mergeW without N s r

/-- The condition on a statement. -/
def AllowedSingle (N : Net) (asked : Prop) : Stmt → Prop
  | .decode _ _ false => Sound N
  | .decodeToEdgesArray _ false => Sound N
  | .decodeBatch ps _ _ false _ rows => Sound N ∧ ∀ row ∈ rows, ∀ x, ShotFires ps row x → x < N.nodes
  | s => Allowed N asked s

/-- The condition on a program. -/
def ProperSingle (mergeW : ℚ → ℚ → ℚ) : Net → Prop → List Stmt → Prop
  | _, _, [] => True
  | N, asked, s :: prog => AllowedSingle N asked s ∧
    ProperSingle mergeW (N.after mergeW s).1 ((Asks s ∨ asked) ∧ (N.after mergeW s).1.links = N.links ∧ (N.after mergeW s).1.boundary = N.boundary) prog

/-! ## Lemmas: one graph -/

section
variable {K : Type} [Field K] [LinearOrder K] [IsStrictOrderedRing K] [FloorRing K] {g : UGraph K}

/-- `Single` for sets of edges. -/
def SingleG (C : Choice g) : Prop :=
  (∀ i ∈ C, ¬ Outside g g.edges[i]) ∧ ∀ i ∈ C, ∀ j ∈ C, ∀ u, Leaves g u g.edges[i] → Leaves g u g.edges[j] → i = j

/-- Single explanations of least weight among these. -/
def bestSingle (g : UGraph K) (scale : K) : Solutions g := fun events C n =>
  EndToEnd.Explains C events ∧ SingleG C ∧ (∀ C' : Choice g, EndToEnd.Explains C' events → SingleG C' → total scale C ≤ total scale C') ∧ n = total scale C

variable {c : K} {ops : List Props.Graph.EdgeIns} {φ : Fin ops.length → Fin g.edges.length}

theorem lift_single (h : Origin g c ops φ) (d : NegWeights.Correction ops) : SingleG (lift h.inj d) := by
  constructor
  · intro i hi
    obtain ⟨j, -, rfl⟩ := Finset.mem_map.1 hi
    rcases h.kind j with hk | ⟨u, hk⟩
    · exact fun ho => hk.1 ho.1
    · exact hk.not_outside
  · intro i hi j hj u hu hv
    obtain ⟨i, -, rfl⟩ := Finset.mem_map.1 hi
    obtain ⟨j, -, rfl⟩ := Finset.mem_map.1 hj
    have : i = j := h.one i j u hu hv
    rw [this]

open Classical in
theorem lower_single (h : Origin g c ops φ) {scale : K} (hs : scale / 2 = c) {C : Choice g} (hC : SingleG C) : NegWeights.weight (lower φ C) ≤ total scale C := by
  have e1 : NegWeights.weight (lower φ C) = ∑ i ∈ lower φ C, Conv.disc c g.edges[φ i].weight :=
    Finset.sum_congr rfl fun i _ => h.w i
  have e2 : total scale C = ∑ j ∈ C, Conv.disc c g.edges[j].weight :=
    Finset.sum_congr rfl fun j _ => by rw [rounded, hs]
  rw [e1, lower_sum h, between_sum h C (fun j => Conv.disc c g.edges[j].weight), e2, split_sum C]
  have h1 : C.filter (fun j => Outside g g.edges[j]) = ∅ := Finset.filter_eq_empty_iff.2 hC.1
  have h2 := leave_sum φ (fun j => Conv.disc c g.edges[j].weight) (fun u j => Leaves g u g.edges[j]) C (fun _ _ _ h h' => h.unique h') h.least h.one
    (fun a ha b hb hab u hu hv => absurd (hC.2 a ha b hb u hu hv) hab)
  rw [h1, Finset.sum_empty]
  linarith

theorem finds_single (d1 : Decoder K) : Finds g d1 (bestSingle g d1.P.scale) := by
  intro ins c φ hW events T hT x hx
  refine ⟨(lift_explains hW.origin x events _ hT).2 hx.1, lift_single hW.origin x, fun C' h1 h2 => ?_, rfl⟩
  rw [lift_total hW.origin hW.half]
  exact le_trans (hx.2 _ (lower_explains hW.origin C' events _ hT h1)) (lower_single hW.origin hW.half h2)

end

/-! ## Lemmas: double precision -/

section
variable {g : UGraph ℚ}

/-- `CheapSingle` for sets of edges. -/
def GoodSingle (u : ℚ) (events : List Nat) (C : Choice g) : Prop :=
  EndToEnd.Explains C events ∧ SingleG C ∧ ∀ C' : Choice g, EndToEnd.Explains C' events → SingleG C' →
    trueWeight C ≤ trueWeight C' + (C.card + C'.card : ℕ) * (1 / 2 + 1 / 2 ^ 27) * u ∧ ((∀ w ∈ allWeights g, IsInt w) → trueWeight C ≤ trueWeight C')

/-- What the answer to a question means. -/
def MeansSingle (g : UGraph ℚ) (u : ℚ) : Query → Answer Double → Prop
  | .decode _ events, a =>
    (∃ row x, a = .predictions row x ∧ ∃ C : Choice g, GoodSingle u events C ∧ Says C row ∧ CloseTo u C x) ∨
    (a = .exception ∧ ∀ C : Choice g, ¬ EndToEnd.Explains C events)
  | .edges _ events, a =>
    (∃ es, a = .edges es ∧ ∃ C : Choice g, GoodSingle u events C ∧ Returned es C) ∨
    (a = .exception ∧ ∀ C : Choice g, ¬ EndToEnd.Explains C events)
  | .batch ps pp _ cols rows, a =>
    (∃ raws outs weights, a = .batch outs weights ∧ List.Forall₂ (Stored pp) raws outs ∧ raws.length = rows.length ∧ weights.length = rows.length ∧
      List.Forall₂ (fun row (x : List (BitVec 8) × Double) => ∃ C : Choice g, GoodSingle u (readRow ps row) C ∧ Says C x.1 ∧ CloseTo u C x.2) rows (raws.zip weights)) ∨
    (a = .exception ∧ (Obs.shapeOk ps cols g.numDetectors g.nodes.length = false ∨ ∃ row ∈ rows, ∀ C : Choice g, ¬ EndToEnd.Explains C (readRow ps row)))
  | _, _ => True

theorem back_single {c : ℚ} (C : Choice (intGraph c g)) : SingleG (back C) ↔ SingleG C := by
  unfold back SingleG
  constructor
  · rintro ⟨h1, h2⟩
    refine ⟨fun i hi ho => ?_, fun i hi j hj u hu hv => ?_⟩
    · refine h1 (Double.same c g i) (Finset.mem_map_of_mem _ hi) ?_
      rw [same_edge] at ho
      exact ho
    · rw [same_edge] at hu hv
      exact (Double.same c g).injective (h2 _ (Finset.mem_map_of_mem _ hi) _ (Finset.mem_map_of_mem _ hj) u hu hv)
  · rintro ⟨h1, h2⟩
    refine ⟨fun i hi ho => ?_, fun i hi j hj u hu hv => ?_⟩
    · obtain ⟨i, hi1, rfl⟩ := Finset.mem_map.1 hi
      refine h1 i hi1 ?_
      rw [same_edge]
      exact ho
    · obtain ⟨i, hi1, rfl⟩ := Finset.mem_map.1 hi
      obtain ⟨j, hj1, rfl⟩ := Finset.mem_map.1 hj
      rw [h2 i hi1 j hj1 u (by rw [same_edge]; exact hu) (by rw [same_edge]; exact hv)]

variable {k c : ℚ} (h : Const g k c)
include h

theorem goodSingle_of {C : Choice (intGraph c g)} {events : List Nat} {n : Int} (hb : bestSingle (intGraph c g) 2 events C n) : GoodSingle (1 / k) events (back C) := by
  refine ⟨(back_explains C events).2 hb.1, (back_single C).2 hb.2.1, fun C2 hC2 hS2 => ?_⟩
  obtain ⟨C', rfl⟩ := back_surj (c := c) C2
  have h1 := hb.2.2.1 C' ((back_explains C' events).1 hC2) ((back_single C').1 hS2)
  rw [back_total, back_total] at h1
  have h2 : (intTotal c (back C) : ℚ) ≤ intTotal c (back C') := by exact_mod_cast (by omega : intTotal c (back C) ≤ intTotal c (back C'))
  have hk := lt_of_lt_of_le one_pos h.low
  constructor
  · have e1 := abs_le.1 (total_err h (back C))
    have e2 := abs_le.1 (total_err h (back C'))
    rw [mul_one_div, ← sub_le_iff_le_add', le_div_iff₀ hk]
    push_cast
    nlinarith
  · intro hi
    rw [← total_int h hi, ← total_int h hi]
    exact h2

theorem meansSingle_of (hn : g.edges.length < 2 ^ 38) {q : Query} {a : Answer ℚ}
    (hm : Means (intGraph c g) 2 (bestSingle (intGraph c g) 2) q a) : MeansSingle g (1 / k) q (mapWeights (fun w => scaleBack (.num (c * 2)) (w * 2)) a) := by
  have hrow : ∀ {C : Choice (intGraph c g)} {n : Int} {row : List (BitVec 8)} {w : ℚ} {ev : List Nat}, bestSingle (intGraph c g) 2 ev C n → Row 2 C n row w →
      GoodSingle (1 / k) ev (back C) ∧ Says (back C) row ∧ CloseTo (1 / k) (back C) (scaleBack (.num (c * 2)) (w * 2)) := by
    intro C n row w ev hb hr
    obtain ⟨r1, r2, r3⟩ := hr
    refine ⟨goodSingle_of h hb, ⟨r1, fun x hx => ?_⟩, ?_⟩
    · rw [back_crossed]
      exact r2 x hx
    · have e : w * 2 = (intTotal c (back C) : ℚ) * 2 := by
        rw [r3, hb.2.2.2, back_total]
        push_cast
        ring
      rw [e]
      exact near_of h hn
  have hno : ∀ {ev : List Nat}, (∀ C : Choice (intGraph c g), ¬ EndToEnd.Explains C ev) → ∀ C : Choice g, ¬ EndToEnd.Explains C ev := by
    intro ev hx C hC
    obtain ⟨C', rfl⟩ := back_surj (c := c) C
    exact hx C' ((back_explains C' ev).1 hC)
  cases q with
  | decode corr events =>
    rcases hm with ⟨row, w, rfl, C, n, h1, h2⟩ | ⟨rfl, h1⟩
    · obtain ⟨k1, k2, k3⟩ := hrow h1 h2
      exact .inl ⟨row, _, rfl, back C, k1, k2, k3⟩
    · exact .inr ⟨rfl, hno h1⟩
  | edges corr events =>
    rcases hm with ⟨es, rfl, C, n, h1, h2⟩ | ⟨rfl, h1⟩
    · exact .inl ⟨es, rfl, back C, goodSingle_of h h1, back_returned h2⟩
    · exact .inr ⟨rfl, hno h1⟩
  | batch ps pp corr cols rows =>
    rcases hm with ⟨raws, outs, weights, rfl, h1, h2, h3, h4⟩ | ⟨rfl, h1⟩
    · refine .inl ⟨raws, outs, _, rfl, h1, h2, by rw [List.length_map, h3], ?_⟩
      rw [← List.map_id raws, List.zip_map, List.forall₂_map_right_iff]
      refine h4.imp ?_
      rintro row x ⟨C, n, g1, g2⟩
      exact ⟨back C, hrow g1 g2⟩
    · refine .inr ⟨rfl, ?_⟩
      rcases h1 with h1 | ⟨row, hr, h1⟩
      · exact .inl h1
      · exact .inr ⟨row, hr, hno h1⟩
  | pairs _ => trivial
  | path _ _ => trivial

omit h in
theorem single_first [W : Width] (hw : WF g) (hB : Props.Convert.BndOk g) {without : Bool} {q : Query} {x : Answer Double} (h : FirstAnswer g without q x)
    (ha : About false q) (hn : g.edges.length < 2 ^ 38) : ∃ u, Step g u ∧ MeansSingle g u q x := by
  obtain ⟨-, k, c, a, hk, hq, hf, rfl⟩ := h
  obtain ⟨scale, ⟨c', hc', rfl⟩, hm⟩ := answer_new (int_wf hw) (int_bnd hB) hq ha (bestSingle (intGraph c g)) finds_single hf
  rw [int_norm hk] at hc'
  cases hc'
  rw [mul_one] at hm
  exact ⟨1 / k, step_of hk, meansSingle_of hk hn hm⟩

end

/-! ## Lemmas: networks -/

section
variable {g : UGraph ℚ}

theorem sound_usable (hw : WF g) (h : Sound (netOf g)) : Usable g where
  rules := fun e he i hi => by
    obtain ⟨-, -, l', hl', hj, h0⟩ := h.rules (toLink e) (List.mem_map_of_mem he) ⟨i.node1, i.node2, i.weight⟩ (List.mem_toFinset.2 (List.mem_map.2 ⟨i, hi, rfl⟩))
    obtain ⟨e', he', rfl⟩ := List.mem_map.1 hl'
    obtain ⟨n, hn, rfl⟩ := List.getElem_of_mem he'
    exact ⟨g.edges[n], (getEdge_iff hw _ _ _).2 ⟨n, hn, rfl, (joins_iff _ _ _).1 hj⟩, h0⟩
  le := fun w hw => h.le w ((weights_of g w).2 hw)
  big := by
    have := h.big
    simpa only [whole_iff, weights_of] using this

theorem sound_targeted (h : Sound (netOf g)) : Buildable.Targeted g := by
  intro e he r hr
  obtain ⟨h1, h2, l', hl', hj, -⟩ := h.rules (toLink e) (List.mem_map_of_mem he) ⟨r.node1, r.node2, r.weight⟩ (List.mem_toFinset.2 (List.mem_map.2 ⟨r, hr, rfl⟩))
  obtain ⟨e', he', rfl⟩ := List.mem_map.1 hl'
  exact ⟨h1, h2, e', he', (joins_iff _ _ _).1 hj⟩

theorem sound_covered (h : Sound (netOf g)) : Covered g := fun e he k hk =>
  h.covered (toLink e) (List.mem_map_of_mem he) k (List.mem_toFinset.2 hk)

theorem sound_askable (hw : WF g) (hB : Props.Convert.BndOk g) (hf : Sound (netOf g)) {wo : Bool} {q : Query} (ha : correlations q = true → NonNeg g)
    (hq : ∀ c, Fits (intGraph c g) wo q) : AskableD g wo q :=
  ⟨sound_usable hw hf, C65_builds_rules hw hB (sound_covered hf) (sound_usable hw hf) (sound_targeted hf) wo, sound_covered hf, fun c _ => hq c, ha⟩

theorem fine_sound {N : Net} (h : N.Fine) : Sound N := ⟨h.few, h.covered, h.le, h.big, h.rules⟩

theorem single_iff (C : Choice g) : Single (Session.up C) ↔ SingleG C := by
  unfold Session.up Single SingleG
  constructor
  · rintro ⟨h1, h2⟩
    refine ⟨fun i hi ho => ?_, fun i hi j hj u hu hv => ?_⟩
    · refine h1 (Session.same g i) (Finset.mem_map_of_mem _ hi) ?_
      rw [link_at]
      exact ho
    · exact (Session.same g).injective (h2 _ (Finset.mem_map_of_mem _ hi) _ (Finset.mem_map_of_mem _ hj) u
        (by change Link.Leaves (netOf g) u (netOf g).links[Session.same g i]; rw [link_at]; exact hu)
        (by change Link.Leaves (netOf g) u (netOf g).links[Session.same g j]; rw [link_at]; exact hv))
  · rintro ⟨h1, h2⟩
    refine ⟨fun i hi ho => ?_, fun i hi j hj u hu hv => ?_⟩
    · obtain ⟨i, hi1, rfl⟩ := Finset.mem_map.1 hi
      change Inside (netOf g) (netOf g).links[Session.same g i] at ho
      rw [link_at] at ho
      exact h1 i hi1 ho
    · obtain ⟨i, hi1, rfl⟩ := Finset.mem_map.1 hi
      obtain ⟨j, hj1, rfl⟩ := Finset.mem_map.1 hj
      change Link.Leaves (netOf g) u (netOf g).links[Session.same g i] at hu
      change Link.Leaves (netOf g) u (netOf g).links[Session.same g j] at hv
      rw [link_at] at hu hv
      rw [h2 i hi1 j hj1 u hu hv]

theorem cheapSingle_up {u : ℚ} {fires : Nat → Prop} {events : List Nat} (he : ∀ x, x ∈ events ↔ fires x) {C : Choice g} (h : GoodSingle u events C) :
    CheapSingle u fires (Session.up C) := by
  refine ⟨(up_explained C he).2 h.1, (single_iff C).2 h.2.1, fun D hD hS => ?_⟩
  obtain ⟨C', rfl⟩ := up_surj D
  obtain ⟨h1, h2⟩ := h.2.2 C' ((up_explained C' he).1 hD) ((single_iff C').1 hS)
  rw [up_cost, up_cost, up_card, up_card, whole_iff]
  exact ⟨h1, h2⟩

theorem costs_of {u : ℚ} {C : Choice g} {x : Double} (h : CloseTo u C x) : Costs u (Session.up C) x := costs_up h

end

/-! ## Lemmas: programs -/

/-- A question without correlations. -/
def Plain : Stmt → Prop
  | .decode _ _ false => True
  | .decodeToEdgesArray _ false => True
  | .decodeBatch _ _ _ false _ _ => True
  | _ => False

/-- What is needed of the decoder for the question of a statement. -/
def WorksSingle [W : Width] (N : Net) (s : Stmt) : Prop :=
  ∀ g, WF g → Props.Convert.BndOk g → netOf g = N → Sound N → ∀ q, queryOf g s = some q → (correlations q = true → NonNeg g) → ∀ wo, (∀ c, Fits (intGraph c g) wo q) →
    ∀ k c, Const g k c → AskOne (intGraph c g) wo q

theorem WorksSingle.works [W : Width] {N : Net} {s : Stmt} (h : WorksSingle N s) : Works N s := fun g h1 h2 h3 h4 => h g h1 h2 h3 (fine_sound h4)

theorem question_single [W : Width] {g : UGraph ℚ} {o : ObjectD} {N : Net} {wo : Bool} {asked : Prop} (hs : Stands N wo asked g o) (hf : Sound N) {q : Query} (ha : About false q)
    (hq : ∀ c, Fits (intGraph c g) wo q) (hone : ∀ k c, Const g k c → AskOne (intGraph c g) wo q) :
    ∃ a o', Completes (fun f => o.ask f q) (.ok (a, o')) ∧ Stands N wo True g o' ∧ ∃ u, Step g u ∧ MeansSingle g u q a := by
  obtain ⟨hw, hB, hc, rfl, hi, -⟩ := hs
  have hcorr : correlations q = true → NonNeg g := fun h => by
    cases q <;> first | (cases ha; cases h) | cases h
  have hA := sound_askable hw hB hf hcorr hq
  obtain ⟨k, c, h⟩ := const_of hA.usable.rules hA.usable.le hA.usable.big
  obtain ⟨a, o1, c1, hi1, hfr, hfr'⟩ := askD_one hw hB hA.covered h hA.builds (hone k c h) hi
  have hn : g.edges.length < 2 ^ 38 := by
    have := hf.few
    simpa [netOf] using this
  exact ⟨_, o1, c1, ⟨hw, hB, hc, rfl, hi1, fun _ => trivial⟩,
    single_first hw hB ⟨ask_int hw hB hA.covered h hA.builds hfr, k, c, a, h, askable_int hA h, hfr', rfl⟩ ha hn⟩

theorem rows_single {N : Net} {u : ℚ} {ps pp : Bool} {raws outs : List (List (BitVec 8))} (h : List.Forall₂ (Stored pp) raws outs) : ∀ {rows : List (List (BitVec 8))} {ws : List Double},
    List.Forall₂ (fun row (y : List (BitVec 8) × Double) => ∃ C : N.Links, CheapSingle u (ShotFires ps row) C ∧ Tells C y.1 ∧ Costs u C y.2) rows (raws.zip ws) →
    List.Forall₂ (fun row (y : List (BitVec 8) × Double) => ∃ C : N.Links, CheapSingle u (ShotFires ps row) C ∧ TellsIn pp C y.1 ∧ Costs u C y.2) rows (outs.zip ws) := by
  induction h with
  | nil => intro rows ws h; cases h; exact .nil
  | cons h1 h2 ih =>
    intro rows ws h
    cases ws with
    | nil => cases h; exact .nil
    | cons w ws =>
      cases h with
      | cons k1 k2 =>
        obtain ⟨C, c1, c2, c3⟩ := k1
        exact .cons ⟨C, c1, tells_in c2 h1, c3⟩ (ih k2)

/-- A question without correlations. -/
theorem plain_of [W : Width] (mergeW : ℚ → ℚ → ℚ) {g : UGraph ℚ} {o : ObjectD} {N : Net} {wo : Bool} {asked : Prop} (hs : Stands N wo asked g o) {s : Stmt}
    (ha : AllowedSingle N asked s) (hp : Plain s) (hw : WorksSingle N s) :
    ∃ r o', Completes (fun f => Session.exec mergeW f o s) (.ok (r, o')) ∧ Stands N wo True g o' ∧ RightSingle mergeW wo N s r := by
  have hdet : o.graph.numDetectors = g.numDetectors ∧ o.graph.boundary = g.boundary := by
    obtain ⟨b, e⟩ := hs.inv.same
    rw [e]
    exact ⟨rfl, rfl⟩
  have hstay : Stands N wo True g o := ⟨hs.wf, hs.bnd, hs.clean, hs.net, hs.inv, fun _ => trivial⟩
  cases s with
  | decode z rw corr =>
    cases corr with
    | true => exact absurd hp id
    | false =>
      simp only [Session.exec, hdet.1, hdet.2]
      rcases shaped_iff hs.bnd z with ⟨h1, h2⟩ | ⟨events, h1, h2, h3, h4⟩
      · rw [h1]
        rw [hs.net] at h2
        exact ⟨_, o, ⟨0, fun f _ => rfl⟩, hstay, .inr ⟨rfl, fun h => absurd h h2⟩⟩
      · have hq : queryOf g (.decode z rw false) = some (.decode false events) := by simp [queryOf, h1]
        obtain ⟨a, o', c1, hs', u, hu, hM⟩ := question_single hs ha (q := .decode false events) rfl (fun _ => h3)
          (hw g hs.wf hs.bnd hs.net ha _ hq (fun h => by cases h) _ (fun _ => h3))
        rw [h1]
        refine ⟨_, o', completes_ask c1 rw, hs', ?_⟩
        obtain rfl := hs.net
        rcases hM with ⟨row, x, rfl, C, k1, k2, k3⟩ | ⟨rfl, hno⟩
        · exact .inl ⟨h2, u, step_up hu, Session.up C, row, x, cheapSingle_up h4 k1, tells_up hs.clean k2, costs_of k3, rfl⟩
        · exact .inr ⟨rfl, fun _ => none_up h4 hno⟩
  | decodeToEdgesArray z corr =>
    cases corr with
    | true => exact absurd hp id
    | false =>
      simp only [Session.exec, hdet.1, hdet.2]
      rcases shaped_iff hs.bnd z with ⟨h1, h2⟩ | ⟨events, h1, h2, h3, h4⟩
      · rw [h1]
        rw [hs.net] at h2
        exact ⟨_, o, ⟨0, fun f _ => rfl⟩, hstay, .inr ⟨rfl, fun h => absurd h h2⟩⟩
      · have hq : queryOf g (.decodeToEdgesArray z false) = some (.edges false events) := by simp [queryOf, h1]
        obtain ⟨a, o', c1, hs', u, hu, hM⟩ := question_single hs ha (q := .edges false events) rfl (fun _ => h3)
          (hw g hs.wf hs.bnd hs.net ha _ hq (fun h => by cases h) _ (fun _ => h3))
        rw [h1]
        refine ⟨_, o', completes_ask c1 false, hs', ?_⟩
        obtain rfl := hs.net
        rcases hM with ⟨es, rfl, C, k1, k2⟩ | ⟨rfl, hno⟩
        · exact .inl ⟨h2, u, step_up hu, Session.up C, es, cheapSingle_up h4 k1, lists_up k2, rfl⟩
        · exact .inr ⟨rfl, fun _ => none_up h4 hno⟩
  | decodeBatch ps pp rw corr cols rows =>
    cases corr with
    | true => exact absurd hp id
    | false =>
      simp only [Session.exec]
      have hnodes : o.graph.nodes.length = g.nodes.length := by
        obtain ⟨b, e⟩ := hs.inv.same
        rw [e]
      by_cases hsh : Obs.shapeOk ps cols g.numDetectors g.nodes.length = true
      · have hfit : ∀ c, Fits (intGraph c g) wo (.batch ps pp false cols rows) := fun c _ row hr d hd => by
          have := ha.2 row hr d ((fires_iff ps row d).1 hd)
          rw [← hs.net] at this
          exact this
        obtain ⟨a, o', c1, hs', u, hu, hM⟩ := question_single hs ha.1 (q := .batch ps pp false cols rows) rfl hfit
          (hw g hs.wf hs.bnd hs.net ha.1 _ rfl (fun h => by cases h) _ hfit)
        refine ⟨_, o', completes_ask c1 rw, hs', ?_⟩
        obtain rfl := hs.net
        have hsh' := (shots_iff g ps cols).2 hsh
        rcases hM with ⟨raws, outs, ws, rfl, k1, k2, k3, k4⟩ | ⟨rfl, hno⟩
        · refine .inl ⟨hsh', u, step_up hu, outs, ws, by rw [← k1.length_eq, k2], k3, rows_single k1 (k4.imp ?_), rfl⟩
          rintro row y ⟨C, h1, h2, h3⟩
          exact ⟨Session.up C, cheapSingle_up (fires_iff ps row) h1, tells_up hs.clean h2, costs_of h3⟩
        · refine .inr ⟨rfl, fun _ => ?_⟩
          rcases hno with h | ⟨row, hr, h⟩
          · rw [hsh] at h; cases h
          · exact ⟨row, hr, none_up (fires_iff ps row) h⟩
      · refine ⟨.raised, o, ⟨0, fun f _ => ?_⟩, hstay, .inr ⟨rfl, fun h => ?_⟩⟩
        · have hr : refuses o.graph (.batch ps pp false cols rows) = true := by
            simp only [refuses, hdet.1, hnodes]
            simpa using hsh
          simp only [Session.ask, ObjectD.ask, hr, if_true]
          rfl
        · rw [← hs.net] at h
          exact absurd ((shots_iff g ps cols).1 h) hsh
  | _ => exact absurd hp id

theorem line_single [W : Width] (mergeW : ℚ → ℚ → ℚ) {s : Stmt} {N : Net} {wo : Bool} {asked : Prop} {g : UGraph ℚ} {o : ObjectD} (hs : Stands N wo asked g o)
    (ha : AllowedSingle N asked s) (hw : WorksSingle N s) : ∃ r o' g', Completes (fun f => Session.exec mergeW f o s) (.ok (r, o')) ∧
      Stands (N.after mergeW s).1 wo ((Asks s ∨ asked) ∧ (N.after mergeW s).1.links = N.links ∧ (N.after mergeW s).1.boundary = N.boundary) g' o' ∧ RightSingle mergeW wo N s r := by
  by_cases hp : Plain s
  · obtain ⟨r, o', h1, h2, h3⟩ := plain_of mergeW hs ha hp hw
    have has : Asks s := by unfold Plain at hp; split at hp <;> trivial
    have e : (N.after mergeW s).1 = N := by cases s <;> first | rfl | exact absurd hp id
    rw [e]
    exact ⟨r, o', g, h1, ⟨h2.wf, h2.bnd, h2.clean, h2.net, h2.inv, fun _ => ⟨.inl has, rfl, rfl⟩⟩, h3⟩
  · have e1 : AllowedSingle N asked s → Allowed N asked s := by
      unfold AllowedSingle
      split <;> first | exact absurd trivial hp | exact id
    have e2 : ∀ r, Right mergeW wo N s r → RightSingle mergeW wo N s r := by
      intro r
      unfold RightSingle
      split <;> first | exact absurd trivial hp | exact id
    obtain ⟨r, o', g', h1, h2, h3⟩ := stmt_core mergeW hs (e1 ha) hw.works
    exact ⟨r, o', g', h1, h2, e2 r h3⟩

theorem single_core [W : Width] (mergeW : ℚ → ℚ → ℚ) : ∀ (prog : List Stmt) (N : Net) (wo : Bool) (asked : Prop) (g : UGraph ℚ) (o : ObjectD), Stands N wo asked g o →
    ProperSingle mergeW N asked prog → (∀ m ∈ moments mergeW N prog, WorksSingle m.1 m.2) →
    ∃ rs o', Completes (fun f => run mergeW f o prog) (.ok (rs, o')) ∧ List.Forall₂ (fun (m : Net × Stmt) r => RightSingle mergeW wo m.1 m.2 r) (moments mergeW N prog) rs := by
  intro prog
  induction prog with
  | nil => intro N wo asked g o _ _ _; exact ⟨[], o, ⟨0, fun f _ => rfl⟩, .nil⟩
  | cons s prog ih =>
    intro N wo asked g o hs hp hw
    obtain ⟨ha, hp⟩ := hp
    obtain ⟨r, o', g', ⟨f1, c1⟩, h2, h3⟩ := line_single mergeW hs ha (hw _ (List.mem_cons_self ..))
    obtain ⟨rs, o'', ⟨f2, c2⟩, hall⟩ := ih _ _ _ g' o' h2 hp (fun m hm => hw m (List.mem_cons_of_mem _ hm))
    refine ⟨r :: rs, o'', ⟨max f1 f2, fun f hf => ?_⟩, .cons h3 hall⟩
    have e1 := c1 f (le_trans (le_max_left _ _) hf)
    have e2 := c2 f (le_trans (le_max_right _ _) hf)
    simp only at e1 e2
    simp only [Session.run, e1, e2, Res.bind]

theorem worksSingle_of (N : Net) (s : Stmt) : WorksSingle (W := unbounded) N s := by
  intro g hw hB hN hf q _ ha wo hq k c hk o hi
  rw [← hN] at hf
  obtain ⟨a, o', q1, q2, q3⟩ := ask_one (int_wf hw) (int_bnd hB) (askable_int (sound_askable hw hB hf ha hq) hk) hi
  exact ⟨a, o', q1, q2, q3, q3⟩

theorem worksSingle_small {N : Net} {s : Stmt} (hn : Asks s → N.Small) : WorksSingle (W := int32) N s := by
  intro g hw hB hN hf q hq0 ha wo hq k c hk o hi
  have hsm : N.Small := hn (by
    cases s <;> first | exact trivial | cases hq0)
  rw [← hN] at hsm hf
  have hA := askable_int (sound_askable hw hB hf ha hq) hk
  have hnear : Narrow.Near (intGraph c g) := C65_near hw (sound_usable hw hf) (by
    rcases hsm with h | ⟨h1, M, h2, h3⟩
    · exact .inl h
    · exact .inr ⟨whole_iff.1 h1, M, fun e he => h2 (toLink e) (List.mem_map_of_mem he), h3⟩) c hk.norm
  obtain ⟨a, o', q1, q2, q3⟩ := ask_one (int_wf hw) (int_bnd hB) hA hi
  exact ⟨a, o', (Narrow.ask_agree (int_wf hw) (int_bnd hB) hnear hA hi).completes q1, q2,
    (Narrow.fresh1_int32 (int_wf hw) (int_bnd hB) hnear hA a).2 q3, q3⟩

theorem ends_inside {N : Net} {l : Link} (h : Inside N l) {x : Nat} (hx : x ∉ N.boundary) : (if l.a = x then 1 else 0) + (if l.b = some x then 1 else 0) = 0 := by
  have h1 : l.a ≠ x := fun e => hx (e ▸ h.1)
  have h2 : l.b ≠ some x := fun e => hx (h.2 x e)
  rw [if_neg h1, if_neg h2]

theorem ends_leaves {N : Net} {l : Link} {y : Nat} (h : l.Leaves N y) {x : Nat} (hx : x ∉ N.boundary) :
    (if l.a = x then 1 else 0) + (if l.b = some x then 1 else 0) = if y = x then 1 else 0 := by
  obtain ⟨-, ⟨h1, h2 | ⟨v, h2, h3⟩⟩ | ⟨h1, h2⟩⟩ := h
  · simp [h1, h2]
  · have : v ≠ x := fun e => hx (e ▸ h3)
    simp [h1, h2, this]
  · have : l.a ≠ x := fun e => hx (e ▸ h2)
    simp [h1, this]

/-- Making an explanation single. -/
theorem make_single {N : Net} (pair : ∀ i j : Fin N.links.length, i ≠ j → ∀ x, N.links[i].Leaves N x → N.links[j].Leaves N x → 0 ≤ N.links[i].weight + N.links[j].weight)
    (outside : ∀ l ∈ N.links, Inside N l → 0 ≤ l.weight) {fires : Nat → Prop} : ∀ (n : Nat) (C : N.Links), C.card = n → Explained C fires →
    ∃ C' : N.Links, C' ⊆ C ∧ Explained C' fires ∧ Single C' ∧ cost C' ≤ cost C := by
  classical
  intro n
  induction n using Nat.strong_induction_on with
  | _ n ih =>
    intro C hn hE
    by_cases h1 : ∃ i ∈ C, Inside N N.links[i]
    · obtain ⟨i, hi, hin⟩ := h1
      have hE' : Explained (C.erase i) fires := by
        intro x hx
        rw [hE x hx]
        unfold degreeAt
        rw [← Finset.add_sum_erase C _ hi, ends_inside hin hx, Nat.zero_add]
      obtain ⟨C', k1, k2, k3, k4⟩ := ih _ (by rw [← hn]; exact Finset.card_erase_lt_of_mem hi) (C.erase i) rfl hE'
      refine ⟨C', k1.trans (Finset.erase_subset _ _), k2, k3, k4.trans ?_⟩
      unfold cost
      rw [← Finset.add_sum_erase C _ hi]
      have := outside N.links[i] (List.getElem_mem _) hin
      linarith
    · by_cases h2 : ∃ i ∈ C, ∃ j ∈ C, ∃ x, N.links[i].Leaves N x ∧ N.links[j].Leaves N x ∧ i ≠ j
      · obtain ⟨i, hi, j, hj, y, hiy, hjy, hij⟩ := h2
        have hj' : j ∈ C.erase i := Finset.mem_erase.2 ⟨hij.symm, hj⟩
        have hE' : Explained ((C.erase i).erase j) fires := by
          intro x hx
          rw [hE x hx]
          unfold degreeAt
          rw [← Finset.add_sum_erase C _ hi, ← Finset.add_sum_erase (C.erase i) _ hj', ends_leaves hiy hx, ends_leaves hjy hx]
          split_ifs <;> omega
        have hc := Finset.card_erase_lt_of_mem hi
        have hc' := Finset.card_erase_lt_of_mem hj'
        obtain ⟨C', k1, k2, k3, k4⟩ := ih _ (by omega) ((C.erase i).erase j) rfl hE'
        refine ⟨C', k1.trans ((Finset.erase_subset _ _).trans (Finset.erase_subset _ _)), k2, k3, k4.trans ?_⟩
        unfold cost
        rw [← Finset.add_sum_erase C _ hi, ← Finset.add_sum_erase (C.erase i) _ hj']
        have := pair i j hij y hiy hjy
        linarith
      · refine ⟨C, Finset.Subset.refl _, hE, ⟨fun i hi h => h1 ⟨i, hi, h⟩, fun i hi j hj x hx hy => ?_⟩, le_refl _⟩
        by_contra hij
        exact h2 ⟨i, hi, j, hj, x, hx, hy, hij⟩

theorem step_nonneg {N : Net} {u : ℚ} (h : StepOf N u) : 0 ≤ u := by
  rcases h with ⟨-, rfl⟩ | ⟨-, m, -, -, rfl⟩
  · norm_num
  · positivity

/-! ## Theorems -/

/-- C86: if two links from one node to the boundary never gain from being taken together, and no link inside the boundary is negative, then the single explanations say all: the answers
are nearly cheapest among all explanations. -/
theorem C86_same {N : Net} (pair : ∀ i j : Fin N.links.length, i ≠ j → ∀ x, N.links[i].Leaves N x → N.links[j].Leaves N x → 0 ≤ N.links[i].weight + N.links[j].weight)
    (outside : ∀ l ∈ N.links, Inside N l → 0 ≤ l.weight) {u : ℚ} (hu : StepOf N u) {fires : Nat → Prop} {C : N.Links} (h : CheapSingle u fires C) : Cheap u fires C := by
  refine ⟨h.1, fun C' hC' => ?_⟩
  obtain ⟨C2, k1, k2, k3, k4⟩ := make_single pair outside _ C' rfl hC'
  obtain ⟨h1, h2⟩ := h.2.2 C2 k2 k3
  refine ⟨?_, fun hW => (h2 hW).trans k4⟩
  refine (h1.trans (add_le_add_left k4 _)).trans (add_le_add_right ?_ _)
  refine mul_le_mul_of_nonneg_right (mul_le_mul_of_nonneg_right ?_ (by norm_num)) (step_nonneg hu)
  exact_mod_cast Nat.add_le_add_left (Finset.card_le_card k1) _

/-- C86: a Python program on one `Matching` object, where questions without correlations may be about networks with any combination of links to the boundary.  It ends without undefined
behaviour, and these questions are answered with a single explanation that is nearly cheapest among the single explanations; everything else is as in C69. -/
theorem C86_program (mergeW : ℚ → ℚ → ℚ) (prog : List Stmt) (hp : ProperSingle mergeW Net.empty False prog) :
    ∃ replies o, Completes (fun f => Session.run mergeW f Session.new prog) (.ok (replies, o)) ∧
      List.Forall₂ (fun (m : Net × Stmt) r => RightSingle mergeW false m.1 m.2 r) (moments mergeW Net.empty prog) replies :=
  single_core (W := unbounded) mergeW prog _ _ _ _ _ stands_new hp fun m _ => worksSingle_of m.1 m.2

/-- C86 for the library as compiled, with its 32-bit wrapped radius: if the networks asked about are small enough. -/
theorem C86_program_int32 (mergeW : ℚ → ℚ → ℚ) (prog : List Stmt) (hp : ProperSingle mergeW Net.empty False prog)
    (hn : ∀ m ∈ moments mergeW Net.empty prog, Asks m.2 → m.1.Small) :
    ∃ replies o, Completes (fun f => Session.run (W := int32) mergeW f Session.new prog) (.ok (replies, o)) ∧
      List.Forall₂ (fun (m : Net × Stmt) r => RightSingle mergeW false m.1 m.2 r) (moments mergeW Net.empty prog) replies :=
  single_core (W := int32) mergeW prog _ _ _ _ _ stands_new hp fun m hm => worksSingle_small (hn m hm)

/-! ## Examples -/

theorem sound_of {N : Net} (few : N.links.length < 2 ^ 38) (covered : ∀ l ∈ N.links, ∀ k ∈ l.faults, k < N.ids) (le : ∀ w ∈ N.numbers, |w| ≤ 2 ^ 24 - 1)
    (big : ∃ w ∈ N.numbers, 1 ≤ |w|)
    (rules : ∀ l ∈ N.links, ∀ r ∈ l.rules, r.a ∉ N.boundary ∧ (∀ v ∈ r.b.toList, v ∉ N.boundary ∧ v ≠ r.a) ∧ ∃ l' ∈ N.links, l'.Joins r.a r.b ∧ 0 ≤ l'.weight * r.weight) : Sound N where
  few := few
  covered := covered
  le := le
  big := by
    obtain ⟨l, hl, h⟩ := big
    refine .inr ⟨l, hl, le_trans ?_ h⟩
    exact div_le_one_of_le₀ (one_le_pow₀ (by norm_num)) (by positivity)
  rules := fun l hl r hr => by
    obtain ⟨h1, h2, h3⟩ := rules l hl r hr
    exact ⟨h1, fun v hv => h2 v (by simp [hv]), h3⟩

/-- One detector with two negative links to boundary nodes. -/
def exits : List Stmt := [
  .setBoundaryNodes {1, 2},
  .addEdge 0 1 { faultIds := .int 0, weight := .fin (-5) },
  .addEdge 0 2 { faultIds := .int 1, weight := .fin (-3) },
  .decode (.d1 [0]) true false]

def exitNet : Net := ⟨3, [⟨0, some 1, {0}, -5, -1, ∅⟩, ⟨0, some 2, {1}, -3, -1, ∅⟩], {1, 2}, 2⟩

theorem exit_sound : Sound exitNet := sound_of (by decide +kernel) (by decide +kernel) (by decide +kernel) (by decide +kernel) (by decide +kernel)

theorem proper_next {mergeW : ℚ → ℚ → ℚ} {N N' : Net} {asked : Prop} {s : Stmt} {prog : List Stmt} (h : (N.after mergeW s).1 = N') (ha : AllowedSingle N asked s)
    (hp : ∀ asked, ProperSingle mergeW N' asked prog) : ProperSingle mergeW N asked (s :: prog) := ⟨ha, by rw [h]; exact hp _⟩

theorem exits_proper : ProperSingle (fun a _ => a) Net.empty False exits := by
  refine proper_next (N' := ⟨3, [], {1, 2}, 0⟩) (by decide +kernel) trivial fun _ => ?_
  refine proper_next (N' := ⟨3, [⟨0, some 1, {0}, -5, -1, ∅⟩], {1, 2}, 1⟩) (by decide +kernel) (fun h => by cases h) fun _ => ?_
  refine proper_next (N' := exitNet) (by decide +kernel) (fun h => by cases h) fun _ => ?_
  exact proper_next (N' := exitNet) rfl exit_sound fun _ => trivial

example := C86_program _ exits exits_proper
example := C86_program_int32 _ exits exits_proper (by
  have h : ∀ N ∈ (moments (fun a _ => a) Net.empty exits).map Prod.fst, N.nodes ≤ 65 := by decide +kernel
  exact fun m hm _ => .inl (h m.1 (List.mem_map_of_mem hm)))

/-- C86_same applies to the network of the program of C69. -/
example {u : ℚ} (hu : StepOf net2 u) {fires : Nat → Prop} {C : net2.Links} (h : CheapSingle u fires C) : Cheap u fires C :=
  C86_same net2_fine.pair (fun l hl hi => net2_fine.outside l hl hi.1 hi.2) hu h

/-- C86: what is lost.  In this program, without detection events, nothing is predicted and the weight is 0, although the two links together explain the (absent) events and have
weight -8. -/
theorem C86_lost : ∃ f o rs, Session.run (fun a _ => a) f Session.new exits = some (.ok (rs ++ [.pair [0#8, 0#8] (.num 0)], o)) ∧
    ∃ C : exitNet.Links, Explained C (Fires (.d1 [0])) ∧ cost C = -8 := by
  obtain ⟨rs, o, ⟨f, h1⟩, h2⟩ := C86_program _ exits exits_proper
  have hl : ∀ i : Fin exitNet.links.length, Link.Leaves exitNet 0 exitNet.links[i] := by decide +kernel
  have hd : ∀ C : exitNet.Links, degreeAt C 0 = C.card := by
    intro C
    unfold degreeAt
    rw [Finset.card_eq_sum_ones]
    exact Finset.sum_congr rfl fun i _ => by rw [ends_leaves (hl i) (by decide +kernel)]; rfl
  have hno : ∀ x, ¬ Fires (.d1 [0]) x := by
    rintro x ⟨v, h3, h4⟩
    cases x with
    | zero => simp at h3; exact h4 h3.symm
    | succ x => simp at h3
  refine ⟨f, o, ?_⟩
  have hm : moments (fun a _ => a) Net.empty exits = [(Net.empty, .setBoundaryNodes {1, 2}), (⟨3, [], {1, 2}, 0⟩, .addEdge 0 1 { faultIds := .int 0, weight := .fin (-5) }),
      (⟨3, [⟨0, some 1, {0}, -5, -1, ∅⟩], {1, 2}, 1⟩, .addEdge 0 2 { faultIds := .int 1, weight := .fin (-3) }), (exitNet, .decode (.d1 [0]) true false)] := by
    have e1 : (Net.empty.after (fun a _ => a) (.setBoundaryNodes {1, 2})).1 = ⟨3, [], {1, 2}, 0⟩ := by decide +kernel
    have e2 : (Net.after (fun a _ => a) ⟨3, [], {1, 2}, 0⟩ (.addEdge 0 1 { faultIds := .int 0, weight := .fin (-5) })).1 = ⟨3, [⟨0, some 1, {0}, -5, -1, ∅⟩], {1, 2}, 1⟩ := by
      decide +kernel
    have e3 : (Net.after (fun a _ => a) ⟨3, [⟨0, some 1, {0}, -5, -1, ∅⟩], {1, 2}, 1⟩ (.addEdge 0 2 { faultIds := .int 1, weight := .fin (-3) })).1 = exitNet := by
      decide +kernel
    simp only [exits, moments, e1, e2, e3]
  rw [hm] at h2
  obtain _ | ⟨-, _ | ⟨-, _ | ⟨-, _ | ⟨h3, _ | _⟩⟩⟩⟩ := h2
  rename_i r1 r2 r3 r4
  have hE : ∀ C : exitNet.Links, C.card % 2 = 0 → Explained C (Fires (.d1 [0])) := by
    intro C hC x hx
    refine ⟨fun h => absurd h (hno x), fun h => ?_⟩
    by_cases h0 : x = 0
    · subst h0
      rw [hd] at h
      omega
    · have : degreeAt C x = 0 := by
        unfold degreeAt
        exact Finset.sum_eq_zero fun i _ => by rw [ends_leaves (hl i) hx, if_neg fun e => h0 e.symm]
      rw [this] at h
      omega
  have hbig : cost (N := exitNet) Finset.univ = -8 := by decide +kernel
  refine ⟨[r1, r2, r3], ?_, Finset.univ, hE _ (by decide +kernel), hbig⟩
  have h4 : r4 = .pair [0#8, 0#8] (.num 0) := by
    rcases h3 with ⟨-, u, -, C, row, x, ⟨k1, k2, -⟩, ⟨k3, k4⟩, ⟨q, rfl, -, k5⟩, rfl⟩ | ⟨-, h⟩
    · have hC : C = ∅ := by
        by_contra hne
        obtain ⟨i, hi⟩ := Finset.nonempty_iff_ne_empty.2 hne
        have e : C = {i} := Finset.eq_singleton_iff_unique_mem.2 ⟨hi, fun j hj => k2.2 j hj i hi 0 (hl j) (hl i)⟩
        have := k1 0 (by decide +kernel)
        rw [hd, e, Finset.card_singleton] at this
        exact hno 0 (this.2 rfl)
      subst hC
      have hW : Whole exitNet := by
        intro w hw
        have : ∀ w ∈ exitNet.numbers, w = -5 ∨ w = -3 := by decide +kernel
        rcases this w hw with rfl | rfl
        · exact ⟨-5, by norm_num⟩
        · exact ⟨-3, by norm_num⟩
      have hq := k5 hW (by decide +kernel)
      have hrow : row = [0#8, 0#8] := by
        have a0 := k4 0 (by decide +kernel)
        have a1 := k4 1 (by decide +kernel)
        simp only [count, Finset.filter_empty, Finset.card_empty] at a0 a1
        match row, k3 with
        | [a, b], _ => simp at a0 a1; rw [a0, a1]
      rw [hq, hrow]
      simp [cost]
    · exact absurd (hE ∅ (by decide +kernel)) (h (by unfold Shaped; decide +kernel) ∅)
  rw [← h4]
  exact h1 f le_rfl

end Verif.Props.Single
