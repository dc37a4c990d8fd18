import Verif.Blossom.UserWide
import Verif.Props.EndToEnd
import Verif.Props.Edges

/-!
# Decoding the graph as the user entered it: any number of fault ids, and edges (C18, C24, C49, C50)

Like `Verif.Props.EndToEnd`, for `decode` with any number of fault ids and for `decode_to_edges_array`.
-/

namespace Verif.Props.UserEdges

open Verif Verif.UG Verif.Conv Verif.SB Verif.Props.EndToEnd Verif.Props.Edges

variable {K : Type} [Field K] [LinearOrder K] [IsStrictOrderedRing K] [FloorRing K]

/-! ## Specification -/

/-- `num_fault_ids` covers every fault id of the graph (C18). -/
def Covered (g : UGraph K) : Prop := ∀ e ∈ g.edges, ∀ o ∈ e.obs, o < g.numObs

/-- The rows of the returned array are the chosen edges, each once, with `none` (-1) for every kind of boundary; self-loops are left out. -/
def Returned {g : UGraph K} (es : List (Nat × Option Nat)) (C : Choice g) : Prop :=
  (es.map symOf).Nodup ∧ ∀ z, z ∈ es.map symOf ↔ ∃ j ∈ C, ¬ (seenAs g g.edges[j]).IsDiag ∧ seenAs g g.edges[j] = z

/-! ## Lemmas -/

theorem loop_iff (op : Props.Graph.EdgeIns) : IsLoop op ↔ (endsOf op).IsDiag := by
  cases op <;> simp [IsLoop, endsOf]

theorem prepared_full (mergeW : K → K → K) (n m : Nat) (cs : List (UserGraph.Call K)) {P : Prepared K} {sg : Graph.SGraph}
    (hP : prepareFull (UserGraph.run mergeW (UGraph.new n m) cs) = some (P, sg)) (hcov : Covered (UserGraph.run mergeW (UGraph.new n m) cs)) :
    let g := UserGraph.run mergeW (UGraph.new n m) cs
    ∃ ops c, P.scale / 2 = c ∧ 0 < c ∧ Built g.nodes.length g.numObs ops P.mg sg P.mask ∧
      P.bnd = boundaryFlags g ∧ (∀ d ∈ P.mg.negDets, TL.notBoundary P.bnd d = true) ∧ P.mg.nodes.length = g.nodes.length ∧
      Props.Convert.BndOk g ∧ ∃ φ, Origin g c ops φ := by
  intro g
  have hP : prepareFull g = some (P, sg) := hP
  unfold prepareFull at hP
  cases hp : prepare g with
  | none => rw [hp] at hP; cases hP
  | some P' =>
    rw [hp] at hP
    obtain ⟨ops, c, -, h2, -, h4, h5, h6, h7, h8, h9, h10, h11, ⟨φ, hO⟩, ins, k, hconv, hops⟩ := prepared_from mergeW n m cs hp
    have hconv : convert g = some (ins, k) := hconv
    rw [hconv] at hP
    simp only at hP
    cases hs : runS (Graph.SGraph.empty g.nodes.length) (ins.map Props.Convert.toGraphIns) with
    | none => rw [hs] at hP; cases hP
    | some sg' =>
      rw [hs] at hP
      cases hP
      refine ⟨ops, c, h2, h4, ⟨h5, by rw [hops]; exact hs, fun _ => h7, h6, ?_⟩, h8, h9, h10, h11, φ, hO⟩
      intro op hop o ho
      obtain ⟨i, hi, rfl⟩ := List.getElem_of_mem hop
      have := hO.obs ⟨i, hi⟩
      exact hcov _ (List.getElem_mem (φ ⟨i, hi⟩).2) o (by rw [← Fin.getElem_fin, ← this]; exact ho)

theorem best_lift {g : UGraph K} {c scale : K} {ops : List Props.Graph.EdgeIns} {φ : Fin ops.length → Fin g.edges.length} (hO : Origin g c ops φ)
    (hc : 0 < c) (hs : scale / 2 = c) (hN : NoGain g) {events : List Nat} {T : Finset Nat} (hT : ∀ x, x ∈ T ↔ x ∈ events ∧ x ∉ g.boundary)
    {d : Props.NegWeights.Correction ops} (hd : Props.NegWeights.Optimal Props.NegWeights.weight d T) : Best scale (lift hO.inj d) events := by
  refine ⟨(lift_explains hO d events _ hT).2 hd.1, fun C' hC' => ?_⟩
  rw [lift_total hO hs]
  exact le_trans (hd.2 _ (lower_explains hO C' events _ hT hC')) (lower_weight hO hc hN hs C')

theorem returned_lift {g : UGraph K} {c : K} {ops : List Props.Graph.EdgeIns} {φ : Fin ops.length → Fin g.edges.length} (hO : Origin g c ops φ)
    {es : List (Nat × Option Nat)} {d : Props.NegWeights.Correction ops} (hl : Lists es d) : Returned es (lift hO.inj d) := by
  refine ⟨hl.1, fun z => ?_⟩
  rw [hl.2]
  constructor
  · rintro ⟨i, h1, h2, h3⟩
    rw [loop_iff, hO.ends] at h2
    rw [hO.ends] at h3
    exact ⟨φ i, Finset.mem_map.2 ⟨i, h1, rfl⟩, h2, h3⟩
  · rintro ⟨j, h1, h2, h3⟩
    obtain ⟨i, hi, rfl⟩ := Finset.mem_map.1 h1
    exact ⟨i, hi, by rw [loop_iff, hO.ends]; exact h2, by rw [hO.ends]; exact h3⟩

/-! ## Theorems -/

/-- C49, C50 (`decode` with any number of fault ids, on the graph as entered).  Whatever graph was built, as long as `num_fault_ids` covers its
fault ids, whatever calls were made before, and whatever the events: the call ends.  If it raises, no set of edges explains the events.  If
it returns and no edges to the boundary have negative sum, the prediction and the weight are those of a set of edges that explains the events
and has least (rounded) weight. -/
theorem C49_any_number_of_fault_ids_partial (mergeW : K → K → K) (n m : Nat) (cs : List (UserGraph.Call K)) (P : Prepared K) (sg : Graph.SGraph)
    (hP : prepareFull (UserGraph.run mergeW (UGraph.new n m) cs) = some (P, sg)) (hcov : Covered (UserGraph.run mergeW (UGraph.new n m) cs))
    (F : Full) (hF : UsedFull P.mg sg P.bnd P.mask F) (events : List Nat) (hnd : events.Nodup)
    (hev : ∀ d ∈ events, d < (UserGraph.run mergeW (UGraph.new n m) cs).nodes.length) :
    (∃ F' buf w, Completes (fun f => decodeObs P.mg sg P.bnd P.mask f F events
        (List.replicate (UserGraph.run mergeW (UGraph.new n m) cs).numObs 0#8) 0) (.ok (F', buf, w)) ∧
      (NoGain (UserGraph.run mergeW (UGraph.new n m) cs) → ∃ C : Choice (UserGraph.run mergeW (UGraph.new n m) cs),
        Best P.scale C events ∧ total P.scale C = w ∧ buf.length = (UserGraph.run mergeW (UGraph.new n m) cs).numObs ∧
        ∀ k, k < (UserGraph.run mergeW (UGraph.new n m) cs).numObs → buf[k]? = some (if crossed C k % 2 = 1 then 1#8 else 0#8))) ∨
    (∃ F', Completes (fun f => decodeObs P.mg sg P.bnd P.mask f F events
        (List.replicate (UserGraph.run mergeW (UGraph.new n m) cs).numObs 0#8) 0) (.throws F') ∧
      ∀ C : Choice (UserGraph.run mergeW (UGraph.new n m) cs), ¬ Explains C events) := by
  obtain ⟨ops, c, hs2, hpos, hBuilt, h4, h5, h6, hB, φ, hO⟩ := prepared_full mergeW n m cs hP hcov
  set g := UserGraph.run mergeW (UGraph.new n m) cs
  have hT := counted_iff hB rfl hev
  rw [← h4] at hT
  rcases C46_any_number_of_observables _ _ ops P.mg sg P.mask hBuilt P.bnd h5 F hF events ⟨hnd, by rw [h6]; exact hev⟩ with
    ⟨F', buf, w, e, d, hd, hw, hl, hk⟩ | ⟨F', e, hno⟩
  · refine .inl ⟨F', buf, w, e, fun hN => ⟨lift hO.inj d, best_lift hO hpos hs2 hN hT hd, by rw [lift_total hO hs2, hw], hl, fun k hk' => ?_⟩⟩
    rw [lift_crossed hO]
    exact hk k hk'
  · exact .inr ⟨F', e, fun C hC => hno _ (lower_explains hO C events _ hT hC)⟩

/-- C24, C49, C50 (`decode_to_edges_array` on the graph as entered).  Under the same conditions the call ends.  If it raises, no set of edges
explains the events.  If it returns and no edges to the boundary have negative sum, the rows are the edges of a set that explains the events
and has least (rounded) weight, each once. -/
theorem C49_edges_partial (mergeW : K → K → K) (n m : Nat) (cs : List (UserGraph.Call K)) (P : Prepared K) (sg : Graph.SGraph)
    (hP : prepareFull (UserGraph.run mergeW (UGraph.new n m) cs) = some (P, sg)) (hcov : Covered (UserGraph.run mergeW (UGraph.new n m) cs))
    (F : Full) (hF : UsedFull P.mg sg P.bnd P.mask F) (events : List Nat) (hnd : events.Nodup)
    (hev : ∀ d ∈ events, d < (UserGraph.run mergeW (UGraph.new n m) cs).nodes.length) :
    (∃ F' es, Completes (fun f => decodeEdges P.mg sg P.bnd f F events) (.ok (F', es)) ∧
      (NoGain (UserGraph.run mergeW (UGraph.new n m) cs) → ∃ C : Choice (UserGraph.run mergeW (UGraph.new n m) cs),
        Best P.scale C events ∧ Returned es C)) ∨
    (∃ F', Completes (fun f => decodeEdges P.mg sg P.bnd f F events) (.throws F') ∧
      ∀ C : Choice (UserGraph.run mergeW (UGraph.new n m) cs), ¬ Explains C events) := by
  obtain ⟨ops, c, hs2, hpos, hBuilt, h4, h5, h6, hB, φ, hO⟩ := prepared_full mergeW n m cs hP hcov
  set g := UserGraph.run mergeW (UGraph.new n m) cs
  have hT := counted_iff hB rfl hev
  rw [← h4] at hT
  rcases C24_decode_to_edges _ _ ops P.mg sg P.mask hBuilt P.bnd h5 F hF events ⟨hnd, by rw [h6]; exact hev⟩ with
    ⟨F', es, e, -, d, hd, hl⟩ | ⟨F', e, -, hno⟩
  · exact .inl ⟨F', es, e, fun hN => ⟨lift hO.inj d, best_lift hO hpos hs2 hN hT hd, returned_lift hO hl⟩⟩
  · exact .inr ⟨F', e, fun C hC => hno _ (lower_explains hO C events _ hT hC)⟩

/-! ## Examples -/

/-- The search graph of the sample. -/
def sampleSearch : Graph.SGraph := ⟨[[⟨some 1, 4, [0], true⟩], [⟨none, 6, [], false⟩, ⟨some 0, 4, [0], true⟩], []], [(0, some 1)]⟩

theorem sample_full : prepareFull sampleGraph = some (sampleDecoder, sampleSearch) := by
  have h1 : convert sampleGraph = some ([.edge 0 1 (-4) [0] [], .bdry 1 6 [] []], 2) := by decide +kernel
  have h5 : sampleGraph.nodes.length = 3 := by decide +kernel
  unfold prepareFull
  rw [sample_prepare, h1, h5]
  rfl

/-- The hypotheses hold for the sample, and the calls complete: the events of node 0 (and of the boundary node) are explained with the edge
between 0 and 1 and the edge from 1 to the boundary. -/
example : prepareFull sampleGraph = some (sampleDecoder, sampleSearch) ∧ Covered sampleGraph ∧
    UsedFull sampleDecoder.mg sampleSearch sampleDecoder.bnd sampleDecoder.mask Full.init ∧
    viewEdges (decodeEdges sampleDecoder.mg sampleSearch sampleDecoder.bnd 20 Full.init [0, 2]) = some (some [(0, some 1), (1, none)]) := by
  refine ⟨sample_full, by unfold Covered; decide +kernel, .fresh, ?_⟩
  have : negEvents sampleDecoder.mg = [0, 1] := by
    have h : sampleDecoder.mg.negDets = [0, 1].toFinset := by decide
    rw [negEvents, h]
    exact (List.toFinset_sort (l := [0, 1]) (· ≤ ·) (by decide)).2 (by decide)
  simp only [decodeEdges, this]
  decide +kernel

/-! ## A fault id that is not counted -/

/-- `add_edge(0, 1, fault_ids={65}, weight=1)`, then `add_edge(0, 1, fault_ids={70}, weight=1, merge_strategy="replace")`. -/
def uncounted : List (UserGraph.Call ℚ) := [.add 0 (some 1) [65] 1 0 .disallow, .add 0 (some 1) [70] 1 0 .replace]

/-- The graph these calls make. -/
def uncountedGraph : UGraph ℚ := UserGraph.run (fun a b => min a b) (UGraph.new 0 0) uncounted

/-- Its decoder. -/
def uncountedDecoder : Prepared ℚ := ⟨⟨[[⟨some 1, 2, 0⟩], [⟨some 0, 2, 0⟩]], 66, ∅, ∅, 0⟩, [], 0, 2⟩

/-- Its search graph. -/
def uncountedSearch : Graph.SGraph := ⟨[[⟨some 1, 2, [70], false⟩], [⟨some 0, 2, [70], false⟩]], []⟩

theorem uncounted_full : prepareFull uncountedGraph = some (uncountedDecoder, uncountedSearch) := by
  have h1 : convert uncountedGraph = some ([.edge 0 1 2 [70] []], 2) := by decide +kernel
  have h2 : ∃ mg, Props.Graph.run (Graph.MGraph.empty 2 66) [.edge 0 1 2 [70]] = some mg ∧ mg.nodes = uncountedDecoder.mg.nodes ∧ mg.numObs = 66 ∧
      mg.negDets = ∅ ∧ mg.negObs = ∅ ∧ mg.negSum = 0 := ⟨_, rfl, by decide, by decide, by decide, by decide, by decide⟩
  obtain ⟨⟨_, _, _, _, _⟩, h2, e1, e2, e3, e4, e5⟩ := h2
  cases e1; cases e2; cases e3; cases e4; cases e5
  replace h2 : Props.Graph.run (Graph.MGraph.empty 2 66) [.edge 0 1 2 [70]] = some uncountedDecoder.mg := h2
  have h3 : negMaskOf uncountedDecoder.mg = some 0 := by
    have : uncountedDecoder.mg.negObs.sort (· ≤ ·) = [] := Finset.sort_empty _
    rw [negMaskOf, this]; rfl
  have h4 : boundaryFlags uncountedGraph = [] := by decide +kernel
  have h5 : uncountedGraph.nodes.length = 2 := by decide +kernel
  have h6 : uncountedGraph.numObs = 66 := by decide +kernel
  have hp : prepare uncountedGraph = some uncountedDecoder := by
    unfold prepare
    rw [h1, h4, h5, h6]
    simp only [List.map_cons, List.map_nil, Props.Convert.toGraphIns]
    rw [h2]
    simp only [h3]
    rfl
  unfold prepareFull
  rw [hp, h1, h5]
  rfl

/-- Whether a call is undefined. -/
def isUb (r : Option (Ended (Full × List (BitVec 8) × Int))) : Bool := match r with | some .ub => true | _ => false

/-- C18, what its failure leads to.  Two calls of `add_edge` and one of `decode`, all with legal arguments: `decode` writes past the end of the
array of predictions, which has `num_fault_ids` entries. -/
theorem C18_decode_out_of_bounds : ∃ (cs : List (UserGraph.Call ℚ)) (P : Prepared ℚ) (sg : Graph.SGraph) (events : List Nat),
    prepareFull (UserGraph.run (fun a b => min a b) (UGraph.new 0 0) cs) = some (P, sg) ∧ events.Nodup ∧
    (∀ d ∈ events, d < (UserGraph.run (fun a b => min a b) (UGraph.new 0 0) cs).nodes.length) ∧
    isUb (decodeObs P.mg sg P.bnd P.mask 20 Full.init events
      (List.replicate (UserGraph.run (fun a b => min a b) (UGraph.new 0 0) cs).numObs 0#8) 0) = true := by
  refine ⟨uncounted, uncountedDecoder, uncountedSearch, [0, 1], uncounted_full, by decide, by decide +kernel, ?_⟩
  have h6 : (UserGraph.run (fun a b => min a b) (UGraph.new 0 0) uncounted).numObs = 66 := by decide +kernel
  have h7 : negEvents uncountedDecoder.mg = [] := Finset.sort_empty _
  have h8 : negObservables uncountedDecoder.mg = [] := Finset.sort_empty _
  rw [h6]
  simp only [decodeObs, h7, h8]
  decide +kernel

end Verif.Props.UserEdges
