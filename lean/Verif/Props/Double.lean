import Verif.DoubleConvert
import Verif.Blossom.Buildable
import Verif.Props.Narrow

/-!
# C65: decoding in double precision

The statements about weights so far are for exact arithmetic.  Here the conversion of the weights to integers, and the scaling back of the total weight, are
done as in the code, in IEEE double precision.
-/

namespace Verif.Props.Double

open Verif Verif.Graph Verif.CE Verif.SB Verif.UG Verif.Conv Verif.Obj Verif.Dbl Verif.ConvD
open Verif.Props.Correlated Verif.Props.Shots Verif.Props.EndToEnd Verif.Props.UserEdges Verif.Props.UserGraph Verif.Props.Decode Verif.Props.Answers
open Verif.Props.Object Verif.Props.Discretise
open Verif.Props.Edges (Completes)
open Verif.Sch (Res)

/-! ## Specification -/

/-- The weights can be converted: rules refer to existing edges and keep signs, no weight is too large, and the largest is not absurdly small. -/
structure Usable (g : UGraph ℚ) : Prop where
  rules : ImpliedOk g
  le : ∀ w ∈ allWeights g, |w| ≤ 2 ^ 24 - 1
  big : (∀ w ∈ allWeights g, IsInt w) ∨ ∃ w ∈ allWeights g, 1 / 2 ^ 998 ≤ |w|

/-- The size of one step in the conversion of weights to integers: the largest absolute weight divided by `2^24 - 1`; or 1 if all weights are integers. -/
def Step (g : UGraph ℚ) (u : ℚ) : Prop :=
  ((∀ w ∈ allWeights g, IsInt w) ∧ u = 1) ∨
  ((∃ w ∈ allWeights g, ¬ IsInt w) ∧ ∃ m ∈ allWeights g, (∀ w ∈ allWeights g, |w| ≤ |m|) ∧ u = |m| / (2 ^ 24 - 1))

/-- An explanation which no other explanation beats by more than about half a step per edge; by nothing at all if all weights are integers. -/
def Good {g : UGraph ℚ} (u : ℚ) (events : List Nat) (C : Choice g) : Prop :=
  EndToEnd.Explains C events ∧ ∀ C' : Choice g, EndToEnd.Explains C' events →
    trueWeight C ≤ trueWeight C' + (C.card + C'.card : ℕ) * (1 / 2 + 1 / 2 ^ 27) * u ∧
    ((∀ w ∈ allWeights g, IsInt w) → trueWeight C ≤ trueWeight C')

/-- The double is close to the true weight of the edges: up to about half a step per edge; equal if all weights are integers and there are less than `2^29`
edges. -/
def CloseTo {g : UGraph ℚ} (u : ℚ) (C : Choice g) (x : Double) : Prop :=
  ∃ q, x = .num q ∧ |q - trueWeight C| ≤ C.card * (1 / 2 + 1 / 2 ^ 25) * u + 1 / 2 ^ 1074 ∧
    ((∀ w ∈ allWeights g, IsInt w) → g.edges.length < 2 ^ 29 → q = trueWeight C)

/-- The row says which fault ids the set `C` crosses an odd number of times. -/
def Says {g : UGraph ℚ} (C : Choice g) (row : List (BitVec 8)) : Prop :=
  row.length = g.numObs ∧ ∀ k, k < g.numObs → row[k]? = some (if EndToEnd.crossed C k % 2 = 1 then 1#8 else 0#8)

/-- What the answer to a question means. -/
def MeansD (g : UGraph ℚ) (u : ℚ) : Query → Answer Double → Prop
  | .decode _ events, a =>
    (∃ row x, a = .predictions row x ∧ ∃ C : Choice g, Good u events C ∧ Says C row ∧ CloseTo u C x) ∨
    (a = .exception ∧ ∀ C : Choice g, ¬ EndToEnd.Explains C events)
  | .edges _ events, a =>
    (∃ es, a = .edges es ∧ ∃ C : Choice g, Good u events C ∧ Returned es C) ∨
    (a = .exception ∧ ∀ C : Choice g, ¬ EndToEnd.Explains C events)
  | .batch ps pp _ cols rows, a =>
    (∃ raws outs weights, a = .batch outs weights ∧ List.Forall₂ (Stored pp) raws outs ∧ raws.length = rows.length ∧ weights.length = rows.length ∧
      List.Forall₂ (fun row (x : List (BitVec 8) × Double) => ∃ C : Choice g, Good u (readRow ps row) C ∧ Says C x.1 ∧ CloseTo u C x.2) rows (raws.zip weights)) ∨
    (a = .exception ∧ (Obs.shapeOk ps cols g.numDetectors g.nodes.length = false ∨ ∃ row ∈ rows, ∀ C : Choice g, ¬ EndToEnd.Explains C (readRow ps row)))
  | _, _ => True

/-! ## Lemmas: the same questions to two decoders -/

theorem mapWeights_comp {K L M : Type} (F : L → M) (G : K → L) (a : Answer K) : mapWeights F (mapWeights G a) = mapWeights (fun w => F (G w)) a := by
  cases a <;> simp [mapWeights]

/-- An object with a graph `g`, and one with the graph `gi` of the same nodes; their decoders differ in the constant only. -/
structure Twin (g gi : UGraph ℚ) (o p : Object ℚ) : Prop where
  left : o.graph = g
  right : p.graph = gi
  cache : o.cache = p.cache.map plainly
  two : ∀ d, p.cache = some d → d.P.scale = 2

section
variable {g gi : UGraph ℚ} (hobs : g.numObs = gi.numObs) (hnodes : g.nodes = gi.nodes)

theorem call_twin [W : Width] {o p : Object ℚ} (ht : Twin g gi o p) {d : Decoder ℚ} (hd : d.P.scale = 2) {f : Nat} {c : Call} {r : Reply} {p1 : Object ℚ} {d1 : Decoder ℚ}
    (h : p.call d f c = some (.ok (r, p1, d1))) : d1.P.scale = 2 ∧ ∃ o1, o.call (plainly d) f c = some (.ok (r, o1, plainly d1)) ∧ Twin g gi o1 p1 := by
  unfold Object.call at h ⊢
  simp only [plainly] at h ⊢
  split at h
  · cases h
  · cases h
  · cases h
  · rename_i r' st hr
    simp only [Option.some.injEq, Res.ok.injEq, Prod.mk.injEq] at h
    obtain ⟨rfl, rfl, rfl⟩ := h
    exact ⟨hd, _, rfl, ht.left, ht.right, rfl, fun d' h' => by cases h'; exact hd⟩

include hobs in
theorem row_twin [W : Width] {o p : Object ℚ} (ht : Twin g gi o p) {d : Decoder ℚ} (hd : d.P.scale = 2) {f : Nat} {corr pk : Bool} {ev : List Nat}
    {x : Option (List (BitVec 8) × ℚ)} {p1 : Object ℚ} {d1 : Decoder ℚ} (h : p.decodeRow d f corr pk ev = some (.ok (x, p1, d1))) :
    d1.P.scale = 2 ∧ ∃ o1, o.decodeRow (plainly d) f corr pk ev = some (.ok (x.map fun y => (y.1, y.2 * 2), o1, plainly d1)) ∧ Twin g gi o1 p1 := by
  unfold Object.decodeRow at h ⊢
  rw [ht.left, hobs]
  rw [ht.right] at h
  have hw : ∀ w : Int, (w : ℚ) / d.P.scale * 2 = (w : ℚ) / (plainly d).P.scale := by
    intro w
    rw [hd]
    simp [plainly]
  split at h
  · cases h
  · cases h
  · cases h
  · rename_i buf w p' d' hc
    obtain ⟨k1, o1, k2, k3⟩ := call_twin ht hd hc
    rw [k2]
    simp only
    split at h
    · rename_i hp
      rw [if_pos hp]
      split at h
      · cases h
      · rename_i out hout
        simp only [Option.some.injEq, Res.ok.injEq, Prod.mk.injEq] at h
        obtain ⟨rfl, rfl, rfl⟩ := h
        refine ⟨k1, o1, ?_, k3⟩
        simp only [hout, Option.map_some, hw]
    · rename_i hp
      rw [if_neg hp]
      simp only [Option.some.injEq, Res.ok.injEq, Prod.mk.injEq] at h
      obtain ⟨rfl, rfl, rfl⟩ := h
      refine ⟨k1, o1, ?_, k3⟩
      simp only [Option.map_some, hw]
  · rename_i r p' d' hne hc
    obtain ⟨k1, o1, k2, k3⟩ := call_twin ht hd hc
    rw [k2]
    simp only [Option.some.injEq, Res.ok.injEq, Prod.mk.injEq] at h
    obtain ⟨rfl, rfl, rfl⟩ := h
    refine ⟨k1, o1, ?_, k3⟩
    cases r with
    | predictions buf w => exact absurd rfl (hne buf w)
    | _ => rfl

include hobs in
theorem batch_twin [W : Width] {f : Nat} {ps pp corr : Bool} : ∀ {rows : List (List (BitVec 8))} {o p : Object ℚ}, Twin g gi o p → ∀ {d : Decoder ℚ}, d.P.scale = 2 →
    ∀ {x : Option (List (List (BitVec 8)) × List ℚ)} {p1 : Object ℚ}, p.batchLoop d f ps pp corr rows = some (.ok (x, p1)) →
    ∃ o1, o.batchLoop (plainly d) f ps pp corr rows = some (.ok (x.map fun y => (y.1, y.2.map (· * 2)), o1)) ∧ Twin g gi o1 p1 := by
  intro rows
  induction rows with
  | nil =>
    intro o p ht d hd x p1 h
    simp only [Object.batchLoop, Option.some.injEq, Res.ok.injEq, Prod.mk.injEq] at h
    obtain ⟨rfl, rfl⟩ := h
    exact ⟨o, rfl, ht⟩
  | cons row rows ih =>
    intro o p ht d hd x p1 h
    simp only [Object.batchLoop] at h ⊢
    split at h
    · cases h
    · cases h
    · cases h
    · rename_i p' d' hc
      obtain ⟨k1, o1, k2, k3⟩ := row_twin hobs ht hd hc
      rw [k2]
      simp only [Option.some.injEq, Res.ok.injEq, Prod.mk.injEq] at h
      obtain ⟨rfl, rfl⟩ := h
      exact ⟨o1, rfl, k3⟩
    · rename_i r w p' d' hc
      obtain ⟨k1, o1, k2, k3⟩ := row_twin hobs ht hd hc
      rw [k2]
      simp only [Option.map_some]
      split at h
      · cases h
      · cases h
      · cases h
      · rename_i p2 hb
        obtain ⟨o2, k4, k5⟩ := ih k3 k1 hb
        rw [k4]
        simp only [Option.some.injEq, Res.ok.injEq, Prod.mk.injEq] at h
        obtain ⟨rfl, rfl⟩ := h
        exact ⟨o2, rfl, k5⟩
      · rename_i rs ws p2 hb
        obtain ⟨o2, k4, k5⟩ := ih k3 k1 hb
        rw [k4]
        simp only [Option.some.injEq, Res.ok.injEq, Prod.mk.injEq] at h
        obtain ⟨rfl, rfl⟩ := h
        exact ⟨o2, rfl, k5⟩

/-- A new object builds its decoder. -/
theorem new_decoder {g : UGraph ℚ} {without s : Bool} {d : Decoder ℚ} (h : toMwpm g without s = some d) :
    (Object.of g without).decoderFor s = some (⟨{ g with needsUpdating := false }, some d, without⟩, d) := by
  have e : toMwpm ({ g with needsUpdating := true } : UGraph ℚ) without s = some d := by rw [toMwpm_but ⟨true, rfl⟩]; exact h
  cases s <;> simp [Object.decoderFor, Object.getMwpm, Object.getMwpmWithSearchGraph, Object.of, Object.rebuild, e]

/-- An object that has its decoder uses it. -/
theorem old_decoder {g : UGraph ℚ} {without s : Bool} {d : Decoder ℚ} (h : s = true → d.P.mg.nodes.length = d.sg.nodes.length) :
    (Object.mk { g with needsUpdating := false } (some d) without).decoderFor s = some (⟨{ g with needsUpdating := false }, some d, without⟩, d) := by
  cases s
  · simp [Object.decoderFor, Object.getMwpm]
  · simp [Object.decoderFor, Object.getMwpmWithSearchGraph, h rfl]

include hobs hnodes in
/-- The same question to two twins. -/
theorem ask_twin [W : Width] {o p o0 p0 : Object ℚ} {q : Query} {d : Decoder ℚ} (e1 : p.decoderFor (needsSearch q) = some (p0, d)) (e2 : o.decoderFor (needsSearch q) = some (o0, plainly d))
    (ht : Twin g gi o0 p0) (hd : d.P.scale = 2) (hop : refuses o.graph q = false) (hpp : refuses p.graph q = false) {f : Nat} {a : Answer ℚ} {p1 : Object ℚ}
    (ha : p.ask f q = some (.ok (a, p1))) : ∃ o1, o.ask f q = some (.ok (mapWeights (· * 2) a, o1)) ∧ Twin g gi o1 p1 := by
  cases q with
  | decode corr events =>
    simp only [needsSearch] at e1 e2
    simp only [Object.ask, e1] at ha
    simp only [Object.ask, e2]
    split at ha
    · cases ha
    · cases ha
    · cases ha
    · rename_i p' d' hc
      obtain ⟨k1, o1, k2, k3⟩ := row_twin hobs ht hd hc
      rw [k2]
      simp only [Option.some.injEq, Res.ok.injEq, Prod.mk.injEq] at ha
      obtain ⟨rfl, rfl⟩ := ha
      exact ⟨o1, rfl, k3⟩
    · rename_i r w p' d' hc
      obtain ⟨k1, o1, k2, k3⟩ := row_twin hobs ht hd hc
      rw [k2]
      simp only [Option.some.injEq, Res.ok.injEq, Prod.mk.injEq] at ha
      obtain ⟨rfl, rfl⟩ := ha
      exact ⟨o1, rfl, k3⟩
  | batch ps pp corr cols rows =>
    simp only [needsSearch] at e1 e2
    simp only [refuses, Bool.not_eq_false'] at hop hpp
    simp only [Object.ask, e1, hpp, if_true] at ha
    simp only [Object.ask, e2, hop, if_true]
    split at ha
    · cases ha
    · cases ha
    · cases ha
    · rename_i p' hc
      obtain ⟨o1, k2, k3⟩ := batch_twin hobs ht hd hc
      rw [k2]
      simp only [Option.some.injEq, Res.ok.injEq, Prod.mk.injEq] at ha
      obtain ⟨rfl, rfl⟩ := ha
      exact ⟨o1, rfl, k3⟩
    · rename_i rs ws p' hc
      obtain ⟨o1, k2, k3⟩ := batch_twin hobs ht hd hc
      rw [k2]
      simp only [Option.some.injEq, Res.ok.injEq, Prod.mk.injEq] at ha
      obtain ⟨rfl, rfl⟩ := ha
      exact ⟨o1, rfl, k3⟩
  | edges corr events =>
    simp only [needsSearch] at e1 e2
    simp only [Object.ask, e1] at ha
    simp only [Object.ask, e2]
    split at ha
    · cases ha
    · cases ha
    · cases ha
    · rename_i es p' d' hc
      obtain ⟨k1, o1, k2, k3⟩ := call_twin ht hd hc
      rw [k2]
      simp only [Option.some.injEq, Res.ok.injEq, Prod.mk.injEq] at ha
      obtain ⟨rfl, rfl⟩ := ha
      exact ⟨o1, rfl, k3⟩
    · rename_i r p' d' hne hc
      obtain ⟨k1, o1, k2, k3⟩ := call_twin ht hd hc
      rw [k2]
      simp only [Option.some.injEq, Res.ok.injEq, Prod.mk.injEq] at ha
      obtain ⟨rfl, rfl⟩ := ha
      cases r with
      | edges es => exact absurd rfl (hne es)
      | _ => exact ⟨o1, rfl, k3⟩
  | pairs events =>
    simp only [needsSearch] at e1 e2
    simp only [Object.ask, e1] at ha
    simp only [Object.ask, e2]
    split at ha
    · cases ha
    · cases ha
    · cases ha
    · rename_i es p' d' hc
      obtain ⟨k1, o1, k2, k3⟩ := call_twin ht hd hc
      rw [k2]
      simp only [Option.some.injEq, Res.ok.injEq, Prod.mk.injEq] at ha
      obtain ⟨rfl, rfl⟩ := ha
      exact ⟨o1, rfl, k3⟩
    · rename_i r p' d' hne hc
      obtain ⟨k1, o1, k2, k3⟩ := call_twin ht hd hc
      rw [k2]
      simp only [Option.some.injEq, Res.ok.injEq, Prod.mk.injEq] at ha
      obtain ⟨rfl, rfl⟩ := ha
      cases r with
      | pairs es => exact absurd rfl (hne es)
      | _ => exact ⟨o1, rfl, k3⟩
  | path src dst =>
    simp only [needsSearch] at e1 e2
    simp only [Object.ask, e1] at ha
    simp only [Object.ask, e2]
    have en : p0.graph.nodes = o0.graph.nodes := by rw [ht.left, ht.right, hnodes]
    rw [en] at ha
    simp only [plainly]
    split at ha
    · cases ha
    · cases ha
    · simp only [Option.some.injEq, Res.ok.injEq, Prod.mk.injEq] at ha
      obtain ⟨rfl, rfl⟩ := ha
      exact ⟨_, rfl, ht⟩
    · rename_i l ss hc
      simp only [Option.some.injEq, Res.ok.injEq, Prod.mk.injEq] at ha
      obtain ⟨rfl, rfl⟩ := ha
      exact ⟨_, rfl, ht.left, ht.right, rfl, fun d' h' => by cases h'; exact hd⟩

end

/-! ## Lemmas: the graph with integer weights -/

section
variable {g : UGraph ℚ} {k c : ℚ}

theorem int_getElem (i : Nat) (h : i < (intGraph c g).edges.length) : (intGraph c g).edges[i] = intEdge c (g.edges[i]'(by simpa [intGraph] using h)) := by
  simp [intGraph]

theorem int_wf (hw : WF g) : WF (intGraph c g) where
  fwd1 := by
    intro i h
    rw [int_getElem i h]
    exact hw.fwd1 i _
  fwd2 := by
    intro i h v hv hne
    rw [int_getElem i h] at hv hne
    exact hw.fwd2 i _ v hv hne
  back := by
    intro u n hn i b hm
    obtain ⟨h1, h2⟩ := hw.back u n hn i b hm
    have h3 : i < (intGraph c g).edges.length := by simpa [intGraph] using h1
    refine ⟨h3, ?_⟩
    rw [int_getElem i h3]
    exact h2
  uniq := by
    intro i j hi hj he
    rw [int_getElem i hi, int_getElem j hj] at he
    exact hw.uniq i j _ _ he

theorem int_bnd (hB : Props.Convert.BndOk g) : Props.Convert.BndOk (intGraph c g) := hB

theorem int_cov (hc : Covered g) : Covered (intGraph c g) := by
  intro e he o ho
  obtain ⟨e', he', rfl⟩ := List.mem_map.1 he
  exact hc e' he' o ho

/-- The edges of the graph with integer weights. -/
def same (c : ℚ) (g : UGraph ℚ) : Fin (intGraph c g).edges.length ≃ Fin g.edges.length := finCongr (by simp [intGraph])

theorem same_edge (i : Fin (intGraph c g).edges.length) : (intGraph c g).edges[i] = intEdge c g.edges[same c g i] := by
  show (intGraph c g).edges[i.1] = _
  rw [int_getElem i.1 i.2]
  rfl

/-- The same set of edges. -/
def back (C : Choice (intGraph c g)) : Choice g := C.map (same c g).toEmbedding

theorem back_surj (C : Choice g) : ∃ C' : Choice (intGraph c g), back C' = C :=
  ⟨C.map (same c g).symm.toEmbedding, by unfold back; rw [Finset.map_map]; simp⟩

theorem back_card (C : Choice (intGraph c g)) : (back C).card = C.card := by
  unfold back
  exact Finset.card_map _

theorem back_sum {M : Type} [AddCommMonoid M] (C : Choice (intGraph c g)) (F : UEdge ℚ → M) (G : UEdge ℚ → M) (h : ∀ e, F (intEdge c e) = G e) :
    ∑ i ∈ back C, G g.edges[i] = ∑ i ∈ C, F (intGraph c g).edges[i] := by
  unfold back
  rw [Finset.sum_map]
  refine Finset.sum_congr rfl fun i _ => ?_
  rw [same_edge, h]
  rfl

theorem back_degree (C : Choice (intGraph c g)) (x : Nat) : degree (back C) x = degree C x := back_sum C (fun e => endsAt e x) (fun e => endsAt e x) fun _ => rfl

theorem back_crossed (C : Choice (intGraph c g)) (x : Nat) : EndToEnd.crossed (back C) x = EndToEnd.crossed C x :=
  back_sum C (fun e => e.obs.count x) (fun e => e.obs.count x) fun _ => rfl

theorem back_explains (C : Choice (intGraph c g)) (events : List Nat) : EndToEnd.Explains (back C) events ↔ EndToEnd.Explains C events := by
  unfold EndToEnd.Explains
  simp only [back_degree]
  exact Iff.rfl

/-- The integers added up. -/
def intTotal (c : ℚ) (C : Choice g) : Int := ∑ i ∈ C, toInt c g.edges[i].weight

theorem back_total (C : Choice (intGraph c g)) : total 2 C = 2 * intTotal c (back C) := by
  unfold intTotal total
  rw [back_sum C (fun e => disc (1 : ℚ) e.weight / 2) (fun e => toInt c e.weight), Finset.mul_sum]
  · refine Finset.sum_congr rfl fun i _ => ?_
    unfold rounded
    rw [div_self (by norm_num)]
    unfold disc
    omega
  · intro e
    unfold disc intEdge
    simp only
    rw [mul_one, cround_int]
    omega

theorem back_returned {es : List (Nat × Option Nat)} {C : Choice (intGraph c g)} (h : Returned es C) : Returned es (back C) := by
  refine ⟨h.1, fun z => ?_⟩
  rw [h.2 z]
  unfold back
  constructor
  · rintro ⟨j, hj, h1, h2⟩
    rw [same_edge] at h1 h2
    exact ⟨same c g j, Finset.mem_map_of_mem _ hj, h1, h2⟩
  · rintro ⟨i, hi, h1, h2⟩
    obtain ⟨j, hj, rfl⟩ := Finset.mem_map.1 hi
    refine ⟨j, hj, ?_⟩
    rw [same_edge]
    exact ⟨h1, h2⟩

theorem int_noGain (hc : 0 ≤ c) (h : NoGain g) : NoGain (intGraph c g) where
  pair := by
    intro i j hij u hi hj
    rw [same_edge] at hi hj
    rw [same_edge i, same_edge j]
    have h1 := h.pair (same c g i) (same c g j) (fun e => hij ((same c g).injective e)) u hi hj
    have h2 : toInt c (-(g.edges[same c g j].weight)) ≤ toInt c g.edges[same c g i].weight := toInt_mono hc (by linarith)
    rw [toInt_neg] at h2
    show (0 : ℚ) ≤ ((toInt c g.edges[same c g i].weight : Int) : ℚ) + ((toInt c g.edges[same c g j].weight : Int) : ℚ)
    exact_mod_cast (by omega : (0 : Int) ≤ toInt c g.edges[same c g i].weight + toInt c g.edges[same c g j].weight)
  outside := by
    intro i hi
    rw [same_edge] at hi ⊢
    have h1 := h.outside (same c g i) hi
    show (0 : ℚ) ≤ ((toInt c g.edges[same c g i].weight : Int) : ℚ)
    exact_mod_cast toInt_nonneg hc h1

theorem edge_mem' (i : Fin g.edges.length) : g.edges[i].weight ∈ allWeights g := edge_mem (List.getElem_mem _)

variable (h : Const g k c)
include h

theorem total_err (C : Choice g) : |(intTotal c C : ℚ) - trueWeight C * k| ≤ C.card * (1 / 2 + 1 / 2 ^ 27) := by
  unfold intTotal trueWeight
  rw [Int.cast_sum, Finset.sum_mul, ← Finset.sum_sub_distrib]
  refine le_trans (Finset.abs_sum_le_sum_abs _ _) (le_trans (Finset.sum_le_sum fun i _ => h.error (edge_mem' i)) (le_of_eq ?_))
  rw [Finset.sum_const, nsmul_eq_mul]

theorem total_bound (C : Choice g) : |(intTotal c C : ℚ)| ≤ C.card * 2 ^ 24 := by
  unfold intTotal
  rw [Int.cast_sum]
  refine le_trans (Finset.abs_sum_le_sum_abs _ _) (le_trans (Finset.sum_le_sum fun i _ => (?_ : |((toInt c g.edges[i].weight : Int) : ℚ)| ≤ 2 ^ 24)) (le_of_eq ?_))
  · have := h.bound (edge_mem' i)
    have h2 : |((toInt c g.edges[i].weight : Int) : ℚ)| ≤ 2 ^ 24 - 1 := by exact_mod_cast this
    linarith
  · rw [Finset.sum_const, nsmul_eq_mul]

theorem total_int (hi : ∀ w ∈ allWeights g, IsInt w) (C : Choice g) : (intTotal c C : ℚ) = trueWeight C := by
  obtain ⟨-, rfl⟩ := h.ints hi
  unfold intTotal trueWeight
  rw [Int.cast_sum]
  refine Finset.sum_congr rfl fun i _ => ?_
  obtain ⟨z, hz⟩ := hi _ (edge_mem' i)
  rw [← hz, toInt_one]
  have h1 := h.le _ (edge_mem' i)
  rw [(h.ints hi).1, mul_one, ← hz] at h1
  have h2 : |(z : ℚ)| < 2 ^ 53 := by linarith
  exact_mod_cast h2

theorem good_of {C : Choice (intGraph c g)} {events : List Nat} (hb : Best 2 C events) : Good (1 / k) events (back C) := by
  refine ⟨(back_explains C events).2 hb.1, fun C2 hC2 => ?_⟩
  obtain ⟨C', rfl⟩ := back_surj (c := c) C2
  have h1 := hb.2 C' ((back_explains C' events).1 hC2)
  rw [back_total, back_total] at h1
  have h2 : (intTotal c (back C) : ℚ) ≤ intTotal c (back C') := by exact_mod_cast (by omega : intTotal c (back C) ≤ intTotal c (back C'))
  have hk := lt_of_lt_of_le one_pos h.low
  constructor
  · have e1 := abs_le.1 (total_err h (back C))
    have e2 := abs_le.1 (total_err h (back C'))
    rw [mul_one_div, ← sub_le_iff_le_add', le_div_iff₀ hk]
    push_cast
    nlinarith
  · intro hi
    rw [← total_int h hi, ← total_int h hi]
    exact h2

/-- Scaling back an integer `z` that is close to `T`, measured in steps. -/
theorem near_num {z : Int} {T n : ℚ} (hn0 : 0 ≤ n) (hcard : n ≤ 2 ^ 38) (hW : |(z : ℚ)| ≤ n * 2 ^ 24) (hE : |(z : ℚ) - T * k| ≤ n * (1 / 2 + 1 / 2 ^ 27))
    (hT : (∀ w ∈ allWeights g, IsInt w) → (z : ℚ) = T) :
    ∃ q, scaleBack (.num (c * 2)) ((z : ℚ) * 2) = .num q ∧ |q - T| ≤ n * (1 / 2 + 1 / 2 ^ 25) * (1 / k) + 1 / 2 ^ 1074 ∧
      ((∀ w ∈ allWeights g, IsInt w) → n < 2 ^ 29 → q = T) := by
  have hk := lt_of_lt_of_le one_pos h.low
  have hc := h.pos
  generalize hWe : (z : ℚ) = W at hW hE hT ⊢
  have hck : k ≤ 2 * c := by
    have := (abs_le.1 h.near).1
    linarith
  obtain ⟨t, ht⟩ : ∃ t : ℚ, t = 1 / 2 ^ 1075 := ⟨_, rfl⟩
  have ht0 : 0 ≤ t := by rw [ht]; positivity
  have ht2 : (1 : ℚ) / 2 ^ 1074 = 2 * t := by
    rw [ht, show (1075 : ℕ) = 1074 + 1 by norm_num, pow_succ]
    field_simp
  have b1 : |W * 2| ≤ 2 ^ 63 := by
    rw [abs_mul, abs_of_pos (show (0 : ℚ) < 2 by norm_num)]
    nlinarith
  have b2 : Double.of (W * 2) = .num (rnd (W * 2)) := of_small (le_trans b1 (pow_le_pow_right₀ (by norm_num) (by norm_num)))
  have b3 : |rnd (W * 2)| ≤ 2 ^ 63 := by rw [rnd_abs]; exact rnd_le b1 (rep_pow _)
  have b4 : |rnd (W * 2) / (c * 2)| ≤ 2 ^ 63 := by
    rw [abs_div, abs_of_pos (show 0 < c * 2 by linarith), div_le_iff₀ (by linarith)]
    have := h.one
    nlinarith
  have b5 : Double.of (rnd (W * 2) / (c * 2)) = .num (rnd (rnd (W * 2) / (c * 2))) := of_small (le_trans b4 (pow_le_pow_right₀ (by norm_num) (by norm_num)))
  refine ⟨rnd (rnd (W * 2) / (c * 2)), ?_, ?_, ?_⟩
  · unfold scaleBack
    rw [b2]
    unfold Double.div
    simp only
    rw [if_neg (by linarith), b5]
  · rw [ht2]
    have e1 := rnd_err (W * 2)
    have e2 := rnd_err (rnd (W * 2) / (c * 2))
    rw [← ht] at e1 e2
    set R := rnd (W * 2)
    set Q := R / (c * 2) with hQ
    have p1 : |Q - W / c| ≤ n / 2 ^ 29 / c + t / 2 := by
      have : Q - W / c = (R - W * 2) / (c * 2) := by rw [hQ]; field_simp
      rw [this, abs_div, abs_of_pos (show 0 < c * 2 by linarith), div_le_iff₀ (by linarith)]
      rw [abs_mul, abs_of_pos (show (0 : ℚ) < 2 by norm_num)] at e1
      have : (n / 2 ^ 29 / c + t / 2) * (c * 2) = n / 2 ^ 28 + t * c := by field_simp
      rw [this]
      have := h.one
      have h3 : |W| * 2 / 2 ^ 53 ≤ n / 2 ^ 28 := by
        rw [div_le_div_iff₀ (by norm_num) (by norm_num)]
        nlinarith
      nlinarith
    have p2 : |W / c - W / k| ≤ n / 2 ^ 28 / c := by
      have e : W / c - W / k = W * (k - c) / (c * k) := by field_simp
      rw [e, abs_div, abs_mul, abs_of_pos (show 0 < c * k by positivity), div_le_div_iff₀ (by positivity) hc]
      have h3 : |k - c| ≤ k / 2 ^ 52 := by rw [abs_sub_comm]; exact h.near
      have h4 : |W| * |k - c| ≤ n * 2 ^ 24 * (k / 2 ^ 52) := mul_le_mul hW h3 (abs_nonneg _) (by positivity)
      have h5 : n * 2 ^ 24 * (k / 2 ^ 52) = n / 2 ^ 28 * k := by ring
      rw [h5] at h4
      calc |W| * |k - c| * c ≤ n / 2 ^ 28 * k * c := mul_le_mul_of_nonneg_right h4 hc.le
        _ = n / 2 ^ 28 * (c * k) := by ring
    have p3 : |W / k - T| ≤ n * (1 / 2 + 1 / 2 ^ 27) * (1 / k) := by
      have e : W / k - T = (W - T * k) / k := by field_simp
      rw [e, abs_div, abs_of_pos hk, mul_one_div]
      exact div_le_div_of_nonneg_right hE hk.le
    have p4 : |Q| / 2 ^ 53 ≤ n / 2 ^ 28 / c + t / 2 := by
      have h3 : |W / c| ≤ n * 2 ^ 24 / c := by
        rw [abs_div, abs_of_pos hc]
        exact div_le_div_of_nonneg_right hW hc.le
      have h4 : |Q| ≤ |Q - W / c| + |W / c| := by
        have := abs_add_le (Q - W / c) (W / c)
        simpa using this
      have h5 : |Q| ≤ n / 2 ^ 29 / c + t / 2 + n * 2 ^ 24 / c := by linarith
      rw [div_le_iff₀ (by norm_num)]
      refine le_trans h5 ?_
      have h6 : 0 ≤ n / c := by positivity
      have e1 : n / 2 ^ 29 / c = n / c * (1 / 2 ^ 29) := by ring
      have e2 : n * 2 ^ 24 / c = n / c * 2 ^ 24 := by ring
      have e3 : n / 2 ^ 28 / c = n / c * (1 / 2 ^ 28) := by ring
      rw [e1, e2, e3]
      nlinarith
    have p5 : n / c ≤ n * 2 * (1 / k) := by
      rw [mul_one_div, div_le_div_iff₀ hc hk]
      nlinarith
    have e : rnd Q - T = (rnd Q - Q) + (Q - W / c) + (W / c - W / k) + (W / k - T) := by ring
    have s1 : |rnd Q - T| ≤ |rnd Q - Q| + |Q - W / c| + |W / c - W / k| + |W / k - T| := by
      rw [e]
      exact le_trans (abs_add_le _ _) (add_le_add_left (le_trans (abs_add_le _ _) (add_le_add_left (abs_add_le _ _) _)) _)
    have e3 : n / 2 ^ 28 / c = n / c * (1 / 2 ^ 28) := by ring
    have e4 : n / 2 ^ 29 / c = n / c * (1 / 2 ^ 29) := by ring
    rw [e3] at p2 p4
    rw [e4] at p1
    have hnk : 0 ≤ n * (1 / k) := by positivity
    have e5 : n * 2 * (1 / k) = 2 * (n * (1 / k)) := by ring
    have e6 : n * (1 / 2 + 1 / 2 ^ 27) * (1 / k) = (1 / 2 + 1 / 2 ^ 27) * (n * (1 / k)) := by ring
    have e7 : n * (1 / 2 + 1 / 2 ^ 25) * (1 / k) = (1 / 2 + 1 / 2 ^ 25) * (n * (1 / k)) := by ring
    rw [e5] at p5
    rw [e6] at p3
    rw [e7]
    generalize n * (1 / k) = A at *
    generalize n / c = B at *
    linarith
  · intro hi hn29
    obtain ⟨-, rfl⟩ := h.ints hi
    have hr : Rep W := by
      rw [← hWe]
      refine rep_int ?_
      have : |(z : ℚ)| < 2 ^ 53 := by
        rw [hWe]
        linarith
      exact_mod_cast this
    rw [rnd_rep (rep_twice hr), one_mul, mul_div_assoc, div_self (by norm_num), mul_one, rnd_rep hr, hT hi]

theorem near_of {C : Choice g} (hn : g.edges.length < 2 ^ 38) : CloseTo (1 / k) C (scaleBack (.num (c * 2)) ((intTotal c C : ℚ) * 2)) := by
  have hl := Finset.card_le_univ C
  rw [Fintype.card_fin] at hl
  obtain ⟨q, h1, h2, h3⟩ := near_num h (z := intTotal c C) (T := trueWeight C) (n := C.card) (by positivity) (by exact_mod_cast (by omega : C.card ≤ 2 ^ 38))
    (total_bound h C) (total_err h C) (fun hi => total_int h hi C)
  exact ⟨q, h1, h2, fun hi hlen => h3 hi (by exact_mod_cast (by omega : C.card < 2 ^ 29))⟩

theorem step_of : Step g (1 / k) := by
  obtain ⟨-, hs⟩ := C19_constant g numDistinctWeights
  obtain ⟨h1, h2⟩ := hs k h.exact
  by_cases hi : ∀ w ∈ allWeights g, IsInt w
  · exact .inl ⟨hi, by rw [h1 hi, div_one]⟩
  · push Not at hi
    obtain ⟨m, hm, h3, h4, h5⟩ := h2 hi
    refine .inr ⟨hi, m, hm, h4, ?_⟩
    have hN : ((numDistinctWeights - 1 : ℕ) : ℚ) = 2 ^ 24 - 1 := by unfold numDistinctWeights; norm_num
    rw [hN] at h5
    have hk := lt_of_lt_of_le one_pos h.low
    rw [← h5]
    field_simp

end

/-- A decoder built in double precision is one that is built in exact arithmetic for the graph with integer weights. -/
theorem builds_int {g : UGraph ℚ} {k c : ℚ} (h : Const g k c) {without : Bool} (hb : ∃ x, toMwpmD g without true = .ok x) :
    ∃ d, toMwpm (intGraph c g) without true = some d ∧ d.P.scale = 2 := by
  obtain ⟨x, hx⟩ := hb
  obtain ⟨d, h1, h2, -⟩ := (toMwpm_int h without true x).1 hx
  exact ⟨d, h1, h2⟩

theorem shape_any [W : Width] (o : Object ℚ) (f : Nat) {ps pp corr : Bool} {cols : Nat} {rows : List (List (BitVec 8))}
    (hsh : Obs.shapeOk ps cols o.graph.numDetectors o.graph.nodes.length = false) :
    o.ask f (.batch ps pp corr cols rows) = some (.ok (.exception, o)) := by
  simp only [Object.ask, hsh, Bool.false_eq_true, if_false]

theorem ask_int [W : Width] {g : UGraph ℚ} (hw : WF g) (hB : Props.Convert.BndOk g) (hcov : Covered g) {k c : ℚ} (h : Const g k c) {without : Bool}
    (hb : ∃ x, toMwpmD g without true = .ok x) {q : Query} {a : Answer ℚ} (hf : Fresh1 (intGraph c g) without q a) :
    Completes (fun f => askD g without f q) (.ok (mapWeights (fun w => scaleBack (.num (c * 2)) (w * 2)) a)) := by
  obtain ⟨o, f0, hf⟩ := hf
  refine ⟨f0, fun f hge => ?_⟩
  replace hf := hf f hge
  simp only at hf
  simp only [askD]
  by_cases hr : refuses g q = true
  · rw [if_pos hr]
    cases q with
    | batch ps pp corr cols rows =>
      simp only [refuses, Bool.not_eq_true'] at hr
      rw [shape_any _ f (show Obs.shapeOk ps cols (Object.of (intGraph c g) without).graph.numDetectors (Object.of (intGraph c g) without).graph.nodes.length = false from hr)] at hf
      simp only [Option.some.injEq, Res.ok.injEq, Prod.mk.injEq] at hf
      rw [← hf.1]
      rfl
    | _ => cases hr
  · rw [if_neg hr]
    obtain ⟨d1, h1, h2⟩ := builds_int h hb
    have hs := solid (int_wf hw) (int_bnd hB) (int_cov hcov) h1
    have hd : ∃ d, toMwpm (intGraph c g) without (needsSearch q) = some d ∧ d.P.scale = 2 ∧ (needsSearch q = true → d.P.mg.nodes.length = d.sg.nodes.length) := by
      cases hn : needsSearch q with
      | true => exact ⟨d1, h1, h2, fun _ => by rw [hs.len, hs.slen]⟩
      | false =>
        obtain ⟨d0, k1, k2, -⟩ := toMwpm_false h1
        exact ⟨d0, k1, by rw [k2]; exact h2, fun e => by cases e⟩
    obtain ⟨d, k1, k2, k3⟩ := hd
    rw [(toMwpm_int h without (needsSearch q) (plainly d, .num (c * 2))).2 ⟨d, k1, k2, rfl⟩]
    rw [Bool.not_eq_true] at hr
    obtain ⟨o1, k4, -⟩ := ask_twin (g := { g with needsUpdating := false }) (gi := { intGraph c g with needsUpdating := false }) rfl rfl (new_decoder k1)
      (old_decoder (g := g) (without := without) (s := needsSearch q) (d := plainly d) k3) ⟨rfl, rfl, rfl, fun d' h' => by cases h'; exact k2⟩ k2 hr hr hf
    simp only [k4, mapWeights_comp]

theorem int_fits {g : UGraph ℚ} {c : ℚ} {without : Bool} {q : Query} (ha : ∃ b, About b q) (hf : Fits g without q) : Fits (intGraph c g) without q := by
  cases q with
  | decode _ _ => exact hf
  | batch _ _ _ _ _ => exact hf
  | edges _ _ => exact hf
  | pairs _ => exact hf
  | path _ _ => obtain ⟨_, h⟩ := ha; cases h

theorem means_of {g : UGraph ℚ} {k c : ℚ} (h : Const g k c) (hn : g.edges.length < 2 ^ 38) {q : Query} {a : Answer ℚ}
    (hm : Means (intGraph c g) 2 (best (intGraph c g) 2) q a) : MeansD g (1 / k) q (mapWeights (fun w => scaleBack (.num (c * 2)) (w * 2)) a) := by
  have hrow : ∀ {C : Choice (intGraph c g)} {n : Int} {row : List (BitVec 8)} {w : ℚ} {ev : List Nat}, best (intGraph c g) 2 ev C n → Row 2 C n row w →
      Good (1 / k) ev (back C) ∧ Says (back C) row ∧ CloseTo (1 / k) (back C) (scaleBack (.num (c * 2)) (w * 2)) := by
    intro C n row w ev hb hr
    obtain ⟨r1, r2, r3⟩ := hr
    refine ⟨good_of h hb.1, ⟨r1, fun x hx => ?_⟩, ?_⟩
    · rw [back_crossed]
      exact r2 x hx
    · have e : w * 2 = (intTotal c (back C) : ℚ) * 2 := by
        rw [r3, hb.2, back_total]
        push_cast
        ring
      rw [e]
      exact near_of h hn
  have hno : ∀ {ev : List Nat}, (∀ C : Choice (intGraph c g), ¬ EndToEnd.Explains C ev) → ∀ C : Choice g, ¬ EndToEnd.Explains C ev := by
    intro ev hx C hC
    obtain ⟨C', rfl⟩ := back_surj (c := c) C
    exact hx C' ((back_explains C' ev).1 hC)
  cases q with
  | decode corr events =>
    rcases hm with ⟨row, w, rfl, C, n, h1, h2⟩ | ⟨rfl, h1⟩
    · obtain ⟨k1, k2, k3⟩ := hrow h1 h2
      exact .inl ⟨row, _, rfl, back C, k1, k2, k3⟩
    · exact .inr ⟨rfl, hno h1⟩
  | edges corr events =>
    rcases hm with ⟨es, rfl, C, n, h1, h2⟩ | ⟨rfl, h1⟩
    · exact .inl ⟨es, rfl, back C, good_of h h1.1, back_returned h2⟩
    · exact .inr ⟨rfl, hno h1⟩
  | batch ps pp corr cols rows =>
    rcases hm with ⟨raws, outs, weights, rfl, h1, h2, h3, h4⟩ | ⟨rfl, h1⟩
    · refine .inl ⟨raws, outs, _, rfl, h1, h2, by rw [List.length_map, h3], ?_⟩
      rw [← List.map_id raws, List.zip_map, List.forall₂_map_right_iff]
      refine h4.imp ?_
      rintro row x ⟨C, n, g1, g2⟩
      exact ⟨back C, hrow g1 g2⟩
    · refine .inr ⟨rfl, ?_⟩
      rcases h1 with h1 | ⟨row, hr, h1⟩
      · exact .inl h1
      · exact .inr ⟨row, hr, hno h1⟩
  | pairs _ => trivial
  | path _ _ => trivial

/-! ## Theorems -/

/-- C65, weights: for a usable graph the constant is a double `c`, every weight becomes twice an integer of absolute value less than `2^24`, no cast and no
doubling overflows, the integer differs from the weight measured in steps by at most `1/2 + 2^-27`, and order and sign are kept. -/
theorem C65_weights {g : UGraph ℚ} (hu : Usable g) : ∃ u c, Step g u ∧ normConstD g = some (.num c) ∧ ∀ w ∈ allWeights g, ∃ z : Int,
    discD (.num c) w = .ok (z * 2) ∧ |z| ≤ 2 ^ 24 - 1 ∧ |z * u - w| ≤ (1 / 2 + 1 / 2 ^ 27) * u ∧ (0 ≤ w → 0 ≤ z) ∧ (w ≤ 0 → z ≤ 0) ∧
    ((∀ w ∈ allWeights g, IsInt w) → (z : ℚ) = w) ∧ ∀ w' ∈ allWeights g, w ≤ w' → ∃ z' : Int, discD (.num c) w' = .ok (z' * 2) ∧ z ≤ z' := by
  obtain ⟨k, c, h⟩ := const_of hu.rules hu.le hu.big
  have hk := lt_of_lt_of_le one_pos h.low
  refine ⟨1 / k, c, step_of h, h.norm, fun w hw => ⟨toInt c w, h.disc hw, h.bound hw, ?_, toInt_nonneg h.pos.le, toInt_nonpos h.pos.le, fun hi => ?_, fun w' hw' hle =>
    ⟨toInt c w', h.disc hw', toInt_mono h.pos.le hle⟩⟩⟩
  · have e : (toInt c w : ℚ) * (1 / k) - w = (toInt c w - w * k) / k := by field_simp
    rw [e, abs_div, abs_of_pos hk, mul_one_div]
    exact div_le_div_of_nonneg_right (h.error hw) hk.le
  · obtain ⟨rfl, rfl⟩ := h.ints hi
    obtain ⟨z, hz⟩ := hi w hw
    rw [← hz, toInt_one]
    have h1 := h.le w hw
    rw [mul_one, ← hz] at h1
    have h2 : |(z : ℚ)| < 2 ^ 53 := by linarith
    exact_mod_cast h2

/-- C65, the decoder: if implied weights are only for edges between different nodes that are not boundary nodes, or from such a node to the boundary, then building it is defined
and succeeds. -/
theorem C65_builds_rules {g : UGraph ℚ} (hw : WF g) (hB : Props.Convert.BndOk g) (hcov : Covered g) (hu : Usable g) (ht : Buildable.Targeted g) (without : Bool) :
    ∃ x, toMwpmD g without true = .ok x := by
  obtain ⟨k, c, h⟩ := const_of hu.rules hu.le hu.big
  have ht' : Buildable.Targeted (intGraph c g) := by
    intro e he r hr
    obtain ⟨e', he', rfl⟩ := List.mem_map.1 he
    obtain ⟨r', hr', rfl⟩ := List.mem_map.1 hr
    obtain ⟨h1, h2, e1, h3, h4⟩ := ht e' he' r' hr'
    exact ⟨h1, h2, intEdge c e1, List.mem_map_of_mem h3, h4⟩
  obtain ⟨d, hd⟩ := Buildable.builds_rules (int_wf (c := c) hw) (int_bnd hB) (int_cov hcov) ht' (by rw [int_norm h]; exact fun h => by cases h) without
  obtain ⟨ins, c', φ, hW⟩ := whole (int_wf (c := c) hw) (int_bnd hB) (int_cov hcov) hd
  have e := hW.norm
  rw [int_norm h] at e
  have e2 := hW.twice
  rw [← Option.some.inj e] at e2
  exact ⟨_, (toMwpm_int h without true _).2 ⟨d, hd, by rw [e2, mul_one], rfl⟩⟩

/-- C65, the decoder: if there are no implied weights, then building it is defined and succeeds. -/
theorem C65_builds {g : UGraph ℚ} (hw : WF g) (hB : Props.Convert.BndOk g) (hcov : Covered g) (hu : Usable g) (hpl : ∀ e ∈ g.edges, e.implied = []) (without : Bool) :
    ∃ x, toMwpmD g without true = .ok x :=
  C65_builds_rules hw hB hcov hu (fun e he r hr => by rw [hpl e he] at hr; cases hr) without

/-- C65, any question: double precision changes the answer only through the integers that replace the weights, and the scaling back of the total.  The
answer is that of exact arithmetic for the graph with these integers as weights. -/
theorem C65_as_integers {g : UGraph ℚ} (hw : WF g) (hB : Props.Convert.BndOk g) (hcov : Covered g) (hu : Usable g) {without : Bool}
    (hb : ∃ x, toMwpmD g without true = .ok x) : ∃ c, normConstD g = some (.num c) ∧
      ∀ q, Fits (intGraph c g) without q → (correlations q = true → NonNeg g) → ∃ a, Fresh1 (intGraph c g) without q a ∧
        Completes (fun f => askD g without f q) (.ok (mapWeights (fun w => scaleBack (.num (c * 2)) (w * 2)) a)) := by
  obtain ⟨k, c, h⟩ := const_of hu.rules hu.le hu.big
  refine ⟨c, h.norm, fun q hfit hcor => ?_⟩
  obtain ⟨d, h1, -⟩ := builds_int h hb
  have hq : Askable (intGraph c g) without q := by
    refine ⟨⟨d, h1⟩, int_cov hcov, hfit, fun hc e he => ?_⟩
    obtain ⟨e', he', rfl⟩ := List.mem_map.1 he
    show (0 : ℚ) ≤ ((toInt c e'.weight : Int) : ℚ)
    exact_mod_cast toInt_nonneg h.pos.le (hcor hc e' he')
  obtain ⟨a, o', -, -, hf⟩ := ask_one (int_wf hw) (int_bnd hB) hq (inv_of _ without)
  exact ⟨a, hf, ask_int hw hB hcov h hb hf⟩

/-- C65, answers: without correlations, what the decoder answers in double precision is an explanation of the detection events that no other beats by more than
about half a step per edge (not at all, if the weights are integers), with its fault ids and about its weight. -/
theorem C65_answers {g : UGraph ℚ} (hw : WF g) (hB : Props.Convert.BndOk g) (hcov : Covered g) (hu : Usable g) (hN : NoGain g) (hn : g.edges.length < 2 ^ 38)
    {without : Bool} (hb : ∃ x, toMwpmD g without true = .ok x) {q : Query} (ha : About false q) (hfit : Fits g without q) :
    ∃ u a, Step g u ∧ Completes (fun f => askD g without f q) (.ok a) ∧ MeansD g u q a := by
  obtain ⟨k, c, h⟩ := const_of hu.rules hu.le hu.big
  obtain ⟨d, h1, -⟩ := builds_int h hb
  have hq : Askable (intGraph c g) without q := by
    refine ⟨⟨d, h1⟩, int_cov hcov, int_fits ⟨_, ha⟩ hfit, fun hc => ?_⟩
    cases q <;> simp_all [About, correlations]
  obtain ⟨a, o', -, -, hf⟩ := ask_one (int_wf hw) (int_bnd hB) hq (inv_of _ without)
  obtain ⟨scale, ⟨c', hc', rfl⟩, hm⟩ := C58_new (int_wf hw) (int_bnd hB) hq ha (int_noGain h.pos.le hN) hf
  rw [int_norm h] at hc'
  cases hc'
  rw [mul_one] at hm
  exact ⟨1 / k, _, step_of h, ask_int hw hB hcov h hb hf, means_of h hn hm⟩

/-- C65, answers, for the library as compiled, with its 32-bit wrapped radius: on graphs that are near (see C61). -/
theorem C65_answers_int32 {g : UGraph ℚ} (hw : WF g) (hB : Props.Convert.BndOk g) (hcov : Covered g) (hu : Usable g) (hN : NoGain g) (hn : g.edges.length < 2 ^ 38)
    (hnear : ∀ c, normConstD g = some (.num c) → Narrow.Near (intGraph c g)) {without : Bool} (hb : ∃ x, toMwpmD g without true = .ok x) {q : Query}
    (ha : About false q) (hfit : Fits g without q) :
    ∃ u a, Step g u ∧ Completes (fun f => askD (W := int32) g without f q) (.ok a) ∧ MeansD g u q a := by
  obtain ⟨k, c, h⟩ := const_of hu.rules hu.le hu.big
  obtain ⟨d, h1, -⟩ := builds_int h hb
  have hq : Askable (intGraph c g) without q := by
    refine ⟨⟨d, h1⟩, int_cov hcov, int_fits ⟨_, ha⟩ hfit, fun hc => ?_⟩
    cases q <;> simp_all [About, correlations]
  obtain ⟨a, o', -, -, hf⟩ := ask_one (int_wf hw) (int_bnd hB) hq (inv_of _ without)
  obtain ⟨scale, ⟨c', hc', rfl⟩, hm⟩ := C58_new (int_wf hw) (int_bnd hB) hq ha (int_noGain h.pos.le hN) hf
  rw [int_norm h] at hc'
  cases hc'
  rw [mul_one] at hm
  exact ⟨1 / k, _, step_of h, ask_int (W := int32) hw hB hcov h hb ((Narrow.fresh1_int32 (int_wf hw) (int_bnd hB) (hnear c h.norm) hq a).2 hf), means_of h hn hm⟩

/-- C65, as compiled: a graph with at most 65 nodes, or with integer weights whose largest absolute value times the number of nodes is at most `2^30`, is near. -/
theorem C65_near {g : UGraph ℚ} (hw : WF g) (hu : Usable g)
    (h : g.nodes.length ≤ 65 ∨ (∀ w ∈ allWeights g, IsInt w) ∧ ∃ M : Nat, (∀ e ∈ g.edges, |e.weight| ≤ M) ∧ M * g.nodes.length ≤ 2 ^ 30) :
    ∀ c, normConstD g = some (.num c) → Narrow.Near (intGraph c g) := by
  intro c hc
  rcases h with h | ⟨hi, M, hM, hl⟩
  · exact (Narrow.C61_near _).2 (int_wf hw) h
  · obtain ⟨k, c', hk⟩ := const_of hu.rules hu.le hu.big
    have e : c = c' := by
      have := hk.norm
      rw [hc] at this
      cases this
      rfl
    subst e
    obtain ⟨rfl, rfl⟩ := hk.ints hi
    refine Narrow.C61_near_integers (int_wf hw) ?_ M ?_ hl
    · intro w hm
      obtain ⟨w', -, rfl⟩ := (int_weights w).1 hm
      exact ⟨_, rfl⟩
    · intro e he
      obtain ⟨e', he', rfl⟩ := List.mem_map.1 he
      obtain ⟨z, hz⟩ := hi _ (edge_mem he')
      have h1 := hk.le _ (edge_mem he')
      rw [mul_one, ← hz] at h1
      have h2 : |(z : ℚ)| < 2 ^ 53 := by linarith
      have h3 : toInt 1 e'.weight = z := by
        rw [← hz, toInt_one]
        exact_mod_cast h2
      show |((toInt 1 e'.weight : Int) : ℚ)| ≤ M
      rw [h3, hz]
      exact hM e' he'

/-! ## Weights that are too small -/

/-- The constant, if the weights are not all integers. -/
theorem norm_tiny {g : UGraph ℚ} (hi : ImpliedOk g) (hle : ∀ w ∈ allWeights g, |w| ≤ 1 / 2) (hne : ∃ w ∈ allWeights g, w ≠ 0) :
    ∃ m ∈ allWeights g, 0 < |m| ∧ normConstD g = some (.of ((2 ^ 24 - 1) / |m|)) := by
  have h0 : Acc ((0 : ℚ), true) [] := ⟨le_refl _, by simp, Or.inr rfl, by simp⟩
  obtain ⟨w0, hw0, hw0n⟩ := hne
  rcases edges_fold g g.edges (0, true) [] h0 with ⟨⟨mx, al⟩, h1, h2, -⟩ | ⟨-, e, he, i, hii, hx⟩
  · rw [List.nil_append] at h2
    change Acc (mx, al) (allWeights g) at h2
    have hD : g.edges.foldlM (seeEdgeD g) (0, true) = some (mx, al) :=
      foldlM_D (fun a e b h => foldlM_D (fun _ _ _ => seeImplied_D) _ _ _ h) _ _ _ h1
    have hpos : 0 < mx := lt_of_lt_of_le (abs_pos.2 hw0n) (h2.le w0 hw0)
    rcases h2.mem with ⟨m, hm, hme⟩ | h
    · replace hme : |m| = mx := hme
      refine ⟨m, hm, by rw [hme]; exact hpos, ?_⟩
      have hal : al ≠ true := by
        intro h
        obtain ⟨z, hz⟩ := h2.int.1 h m hm
        have b1 := hle m hm
        rw [← hz] at b1
        rw [← hme, ← hz] at hpos
        have b2 : |(z : ℚ)| < 1 := by linarith
        have b3 : |z| < 1 := by exact_mod_cast b2
        have b4 : 0 < |z| := by exact_mod_cast hpos
        omega
      have hN : ((numDistinctWeights - 1 : ℕ) : ℚ) = 2 ^ 24 - 1 := by unfold numDistinctWeights; norm_num
      have hM : (maxUserEdgeWeight : ℚ) = 2 ^ 24 - 1 := by unfold maxUserEdgeWeight numDistinctWeights; norm_num
      unfold normConstD
      rw [hD]
      simp only
      rw [if_neg (by rw [hM, not_lt, ← hme]; have := hle m hm; linarith), if_neg hal, hN, hme]
      unfold Double.div
      simp only
      rw [if_neg hpos.ne']
    · exact absurd h hpos.ne'
  · exfalso
    obtain ⟨e', he', hp⟩ := hi e he i hii
    exact hx e' he' hp

theorem pow_quot {m : ℚ} (n : ℕ) (hm : 0 < |m|) (h : |m| ≤ 1 / 2 ^ n) : (2 : ℚ) ^ (n + 23) ≤ (2 ^ 24 - 1) / |m| := by
  rw [le_div_iff₀ hm]
  calc (2 : ℚ) ^ (n + 23) * |m| ≤ 2 ^ (n + 23) * (1 / 2 ^ n) := mul_le_mul_of_nonneg_left h (by positivity)
    _ = 2 ^ 23 := by rw [pow_add]; field_simp
    _ ≤ _ := by norm_num

theorem disc_inf (s : Bool) (w : ℚ) : discD (.inf s) w = .ub := by
  unfold discD Double.mul
  simp only
  split <;> rfl

/-- C65, too small: if the weights are not all zero, and none exceeds `2^-1001` in absolute value, then the constant overflows to infinity, and converting the
weights to integers is undefined behaviour: so is every question (other than a batch of the wrong shape) to an object with such a graph. -/
theorem C65_tiny_undefined {g : UGraph ℚ} (hi : ImpliedOk g) (hle : ∀ w ∈ allWeights g, |w| ≤ 1 / 2 ^ 1001) (hne : ∃ w ∈ allWeights g, w ≠ 0) (without : Bool) (f : Nat)
    (q : Query) (hq : refuses g q = false) : askD g without f q = some .ub := by
  have hp : (1 : ℚ) / 2 ^ 1001 ≤ 1 / 2 := by
    refine one_div_le_one_div_of_le (by norm_num) ?_
    calc (2 : ℚ) = 2 ^ 1 := by norm_num
      _ ≤ 2 ^ 1001 := pow_le_pow_right₀ (by norm_num) (by norm_num)
  obtain ⟨m, hm, hpos, hnorm⟩ := norm_tiny hi (fun w hw => le_trans (hle w hw) hp) hne
  have hb := pow_quot 1001 hpos (hle m hm)
  have hinf := of_large (x := (2 ^ 24 - 1) / |m|) (le_trans hb (le_abs_self _))
  rw [hinf] at hnorm
  have hc : convertD g = .ub := by
    unfold convertD
    rw [hnorm]
    simp only
    have hed : ∃ e es, g.edges = e :: es := by
      cases he : g.edges with
      | nil => unfold allWeights at hm; rw [he] at hm; cases hm
      | cons e es => exact ⟨e, es, rfl⟩
    obtain ⟨e, es, he⟩ := hed
    rw [he]
    simp only [mapRes, disc_inf]
    rfl
  unfold askD
  rw [hq]
  simp only [Bool.false_eq_true, if_false, toMwpmD, hc]
  rfl

theorem over_inf {x : ℚ} (hx : (2 : ℚ) ^ (1000 + 23) ≤ x) : ∃ s, (Double.of x).mul (.num 2) = .inf s := by
  have h1 : (2 : ℚ) ^ (1000 + 23) ≤ rnd x := le_rnd hx (rep_pow _)
  have h2 : (0 : ℚ) < 2 ^ (1000 + 23) := by positivity
  unfold Double.of
  split
  · refine ⟨_, of_large ?_⟩
    rw [abs_of_nonneg (by linarith)]
    calc (2 : ℚ) ^ 1024 = 2 ^ (1000 + 23) * 2 := by rw [← pow_succ]
      _ ≤ _ := by linarith
  · exact ⟨_, rfl⟩

theorem bind_ok {α β : Type} {r : Res α} {f : α → Res β} {b : β} (h : r.bind f = .ok b) : ∃ a, r = .ok a ∧ f a = .ok b := by
  cases r with
  | ok a => exact ⟨a, rfl, h⟩
  | throws => cases h
  | ub => cases h

/-- The constant that the decoder keeps. -/
theorem kept {g : UGraph ℚ} {c : Double} (hc : normConstD g = some c) {without ensure : Bool} {d : Decoder ℚ} {k : Double}
    (h : toMwpmD g without ensure = .ok (d, k)) : k = c.mul (.num 2) := by
  unfold toMwpmD at h
  obtain ⟨⟨ins, k'⟩, h1, h2⟩ := bind_ok h
  have e : k' = c.mul (.num 2) := by
    unfold convertD at h1
    rw [hc] at h1
    obtain ⟨ws, -, h3⟩ := bind_ok h1
    simp only [Res.ok.injEq, Prod.mk.injEq] at h3
    exact h3.2.symm
  rw [← e]
  simp only at h2
  split at h2
  · cases h2
  · split at h2
    · cases h2
    · obtain ⟨rg, -, h4⟩ := bind_ok h2
      split at h4
      · split at h4
        · cases h4
        · obtain ⟨rs, -, h5⟩ := bind_ok h4
          simp only [Res.ok.injEq, Prod.mk.injEq] at h5
          exact h5.2.symm
      · simp only [Res.ok.injEq, Prod.mk.injEq] at h4
        exact h4.2.symm

/-- C65, the reported weight: if the weights are not all zero and none exceeds `2^-1000`, then the constant or its double overflows to infinity, and whatever number
is reported as the weight of a solution is 0. -/
theorem C65_tiny_weight {g : UGraph ℚ} (hi : ImpliedOk g) (hle : ∀ w ∈ allWeights g, |w| ≤ 1 / 2 ^ 1000) (hne : ∃ w ∈ allWeights g, w ≠ 0) {without corr : Bool} {f : Nat}
    {events : List Nat} {row : List (BitVec 8)} {r : ℚ} (h : askD g without f (.decode corr events) = some (.ok (.predictions row (.num r)))) : r = 0 := by
  have hp : (1 : ℚ) / 2 ^ 1000 ≤ 1 / 2 := by
    refine one_div_le_one_div_of_le (by norm_num) ?_
    calc (2 : ℚ) = 2 ^ 1 := by norm_num
      _ ≤ 2 ^ 1000 := pow_le_pow_right₀ (by norm_num) (by norm_num)
  obtain ⟨m, hm, hpos, hnorm⟩ := norm_tiny hi (fun w hw => le_trans (hle w hw) hp) hne
  have hb := pow_quot 1000 hpos (hle m hm)
  obtain ⟨s, hk⟩ := over_inf hb
  unfold askD at h
  simp only [refuses, Bool.false_eq_true, if_false] at h
  split at h
  · cases h
  · cases h
  · rename_i d k hd
    have hki : k = .inf s := by rw [kept hnorm hd, hk]
    subst hki
    split at h
    · cases h
    · cases h
    · cases h
    · rename_i a o ha
      simp only [Option.some.injEq, Res.ok.injEq] at h
      cases a with
      | predictions row' w =>
        simp only [mapWeights, Answer.predictions.injEq] at h
        obtain ⟨-, h⟩ := h
        unfold scaleBack at h
        cases hx : Double.of w with
        | num x =>
          rw [hx] at h
          simp only [Double.div, Double.num.injEq] at h
          exact h.symm
        | inf t => rw [hx] at h; cases h
        | nan => rw [hx] at h; cases h
      | _ => cases h

/-! ## Examples -/

/-- A graph with weights -0.25, 4 and 1.5. -/
def sample : UGraph ℚ :=
  run (fun a _ => a) (UGraph.new 0 1) [.add 0 (some 1) [0] (-1 / 4) 0 .disallow, .add 1 none [] 4 0 .disallow, .add 0 none [] (3 / 2) 0 .disallow]

theorem sample_usable : Usable sample where
  rules := by
    have h : ∀ e ∈ sample.edges, e.implied = [] := by decide +kernel
    intro e he i hi
    rw [h e he] at hi
    cases hi
  le := by decide +kernel
  big := .inr ⟨4, by decide +kernel, le_trans (one_div_le_one_div_of_le (by norm_num) (one_le_pow₀ (by norm_num))) (by norm_num)⟩

/-- The sample meets the conditions of all theorems of the first part. -/
example : WF sample ∧ Props.Convert.BndOk sample ∧ Covered sample ∧ Usable sample ∧ (∀ e ∈ sample.edges, e.implied = []) ∧
    (∀ q, q ∈ [Query.decode false [0], .edges false [1], .batch false true false 2 [[1, 1], [0, 1]]] → About false q ∧ Fits sample false q) := by
  refine ⟨wf_run _ (wf_new 0 1) _, Props.Convert.bndOk_run _ (Props.Convert.bndOk_new 0 1) _, by unfold Covered; decide +kernel, sample_usable, by decide +kernel,
    fun q hq => ?_⟩
  simp only [List.mem_cons, List.not_mem_nil, or_false] at hq
  rcases hq with rfl | rfl | rfl
  · exact ⟨rfl, by show EventsOk sample [0]; unfold EventsOk; decide +kernel⟩
  · exact ⟨rfl, by show EventsOk sample [1]; unfold EventsOk; decide +kernel⟩
  · exact ⟨rfl, fun _ => by decide +kernel⟩

theorem sample_noGain : NoGain sample := by
  have hpos : ∀ e ∈ sample.edges, e.node2 = none → 0 ≤ e.weight := by decide +kernel
  have hb : sample.boundary = ∅ := by decide +kernel
  have key : ∀ (e : UEdge ℚ) (u : Nat), e ∈ sample.edges → Leaves sample u e → 0 ≤ e.weight := by
    rintro e u he ⟨-, ⟨-, h | ⟨v, -, h⟩⟩ | ⟨-, h⟩⟩
    · exact hpos e he h
    · rw [hb] at h; simp at h
    · rw [hb] at h; simp at h
  refine ⟨fun i j _ u hi hj => add_nonneg (key _ u (List.getElem_mem _) hi) (key _ u (List.getElem_mem _) hj), fun i hi => ?_⟩
  have := hi.1
  rw [hb] at this
  simp at this

/-- The sample has an answer, in double precision. -/
example : ∃ u a, Step sample u ∧ Completes (fun f => askD sample false f (.decode false [0])) (.ok a) ∧ MeansD sample u (.decode false [0]) a :=
  C65_answers (wf_run _ (wf_new 0 1) _) (Props.Convert.bndOk_run _ (Props.Convert.bndOk_new 0 1) _) (by unfold Covered; decide +kernel) sample_usable sample_noGain
    (by decide +kernel) (C65_builds (wf_run _ (wf_new 0 1) _) (Props.Convert.bndOk_run _ (Props.Convert.bndOk_new 0 1) _) (by unfold Covered; decide +kernel)
      sample_usable (by decide +kernel) false) rfl (by show EventsOk sample [0]; unfold EventsOk; decide +kernel)

/-- It is near. -/
example : ∀ c, normConstD sample = some (.num c) → Narrow.Near (intGraph c sample) := C65_near (wf_run _ (wf_new 0 1) _) sample_usable (.inl (by decide +kernel))

/-- A graph with one edge of weight `(2^24-1) / 2^1023`: the prediction is right, but the weight 0 is reported. -/
def lost : UGraph ℚ := run (fun a _ => a) (UGraph.new 0 1) [.add 0 none [0] ((2 ^ 24 - 1) / 2 ^ 1023) 0 .disallow]

example : askD lost false 30 (.decode false [0]) = some (.ok (.predictions [1#8] (.num 0))) := by decide +kernel

/-- A graph with one edge of weight `2^-1010`. -/
def tiny : UGraph ℚ := run (fun a _ => a) (UGraph.new 0 1) [.add 0 none [0] (1 / 2 ^ 1010) 0 .disallow]

example : ImpliedOk tiny ∧ (∀ w ∈ allWeights tiny, |w| ≤ 1 / 2 ^ 1001) ∧ (∃ w ∈ allWeights tiny, w ≠ 0) ∧ refuses tiny (.decode false [0]) = false := by
  refine ⟨?_, by decide +kernel, by decide +kernel, rfl⟩
  have h : ∀ e ∈ tiny.edges, e.implied = [] := by decide +kernel
  intro e he i hi
  rw [h e he] at hi
  cases hi

end Verif.Props.Double
