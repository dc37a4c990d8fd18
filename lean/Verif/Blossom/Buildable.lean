import Verif.Props.CliRun

/-!
# When a decoder can be built

A graph whose fault ids are covered, without implied probabilities and without weights beyond `2^24 - 1`, can be turned into a decoder.
-/

namespace Verif.Buildable

open Verif Verif.Graph Verif.CE Verif.SB Verif.UG Verif.Conv Verif.Obj
open Verif.Props Verif.Props.Correlated Verif.Props.EndToEnd Verif.Props.UserEdges Verif.Props.UserGraph
open Verif.Sch (Res)

variable {K : Type} [Field K] [LinearOrder K] [IsStrictOrderedRing K] [FloorRing K]

omit [IsStrictOrderedRing K] in
theorem implied_from {g : UGraph K} {c : K} {e : UEdge K} {x : Conv.Ins K} (h : EndToEnd.From g c e x) : impliedOf x = e.implied := by
  cases x with
  | edge => exact h.2.2.2.2.2
  | bdry => exact h.2.2.2

theorem prepare_const {g : UGraph K} (hw : WF g) (hB : Props.Convert.BndOk g) (hcov : Covered g) (hconst : normConst g numDistinctWeights ≠ none) :
    ∃ P sg, prepareFull g = some (P, sg) := by
  obtain ⟨c, hc⟩ := Option.ne_none_iff_exists'.1 hconst
  obtain ⟨ins, k, hconv⟩ : ∃ ins k, convert g = some (ins, k) := by
    unfold convert
    rw [hc]
    exact ⟨_, _, rfl⟩
  obtain ⟨mg, hrun⟩ := Props.Convert.accepted_of_wf hw hconv (by
    by_cases hle : 64 < g.numObs
    · exact .inl hle
    · exact .inr fun e he o ho => by have := hcov e he o ho; omega)
  obtain ⟨sg, hsg⟩ := Verif.SB.runS_exists hrun
  obtain ⟨c', -, -, φ, hO, -⟩ := origin_from hw hB hconv hrun
  have hno : mg.numObs = g.numObs := (Graph.built_run (Graph.built_empty _ _) hrun).nobs
  obtain ⟨mk, hmk⟩ := Edges.obsMask_some mg.numObs (mg.negObs.sort (· ≤ ·)) (by
    intro hle o hmem
    have := Edges.negObs_range hrun (by
      intro op hop o ho
      obtain ⟨i, hi, rfl⟩ := List.getElem_of_mem hop
      have := hO.obs ⟨i, hi⟩
      exact hcov _ (List.getElem_mem (φ ⟨i, hi⟩).2) o (by rw [← Fin.getElem_fin, ← this]; exact ho)) o ((Finset.mem_sort _).1 hmem)
    omega)
  have hp : prepare g = some ⟨mg, boundaryFlags g, mk, k⟩ := by
    unfold prepare negMaskOf
    rw [hconv]
    simp only [hrun, hmk]
  refine ⟨⟨mg, boundaryFlags g, mk, k⟩, sg, ?_⟩
  unfold prepareFull
  rw [hp, hconv]
  simp only [hsg]

theorem prepare_small {g : UGraph K} (hw : WF g) (hB : Props.Convert.BndOk g) (hpl : ∀ e ∈ g.edges, e.implied = []) (hcov : Covered g)
    (hsm : ∀ e ∈ g.edges, |e.weight| ≤ (2 ^ 24 - 1 : Nat)) : ∃ P sg, prepareFull g = some (P, sg) := by
  have hconst : normConst g numDistinctWeights ≠ none := by
    rw [Ne, (Discretise.C19_constant g numDistinctWeights).1]
    push Not
    refine ⟨?_, ?_⟩
    · intro e he r hr
      rw [hpl e he] at hr
      cases hr
    · intro w hw'
      unfold Discretise.allWeights at hw'
      rw [List.mem_flatMap] at hw'
      obtain ⟨e, he, hw'⟩ := hw'
      rcases List.mem_cons.1 hw' with rfl | hw'
      · exact hsm e he
      · rw [hpl e he] at hw'; cases hw'
  exact prepare_const hw hB hcov hconst

theorem builds_plain {g : UGraph K} (hw : WF g) (hB : Props.Convert.BndOk g) (hpl : ∀ e ∈ g.edges, e.implied = []) {x : Prepared K × SGraph}
    (h : prepareFull g = some x) (without : Bool) : ∃ d, toMwpm g without true = some d := by
  unfold prepareFull at h
  unfold toMwpm
  cases hP : prepare g with
  | none => rw [hP] at h; cases h
  | some P =>
    obtain ⟨ins, k, c, hc, -, -, -, -, -, -, -, -, -, -, -, φ, -, hF⟩ := prepared_graph hw hB hP
    rw [hP, hc] at h
    rw [hc]
    simp only at h ⊢
    have him : ∀ i ∈ ins, impliedOf i = [] := by
      intro i hi
      obtain ⟨j, hj, rfl⟩ := List.getElem_of_mem hi
      rw [implied_from (hF ⟨j, by simpa using hj⟩ hj)]
      exact hpl _ (List.getElem_mem _)
    have hconv : ∀ A : Adj, ∃ R, convertTable A k (table g.nodes.length ins) = .ok R := by
      intro A
      refine DemCorr.mapRes_total fun row hrow => DemCorr.mapRes_total fun im hrow' => ⟨[], ?_⟩
      rw [CliRun.table_cells him row hrow im hrow']
      rfl
    cases hr : runS (SGraph.empty g.nodes.length) (ins.map Props.Convert.toGraphIns) with
    | none => rw [hr] at h; cases h
    | some sg =>
      obtain ⟨rg, h1⟩ := hconv (adjM P.mg)
      obtain ⟨rs, h2⟩ := hconv (adjS sg)
      rw [h1]
      simp only [Bool.or_true, if_true, h2]
      exact ⟨_, rfl⟩

/-- Every rule is for an edge between two different nodes that are not boundary nodes, or between such a node and the boundary. -/
def Targeted (g : UGraph K) : Prop := ∀ e ∈ g.edges, ∀ r ∈ e.implied, r.node1 ∉ g.boundary ∧ (∀ v, r.node2 = some v → v ∉ g.boundary ∧ v ≠ r.node1) ∧
  ∃ e' ∈ g.edges, e'.key = key r.node1 r.node2

theorem builds_rules {g : UGraph K} (hw : WF g) (hB : Props.Convert.BndOk g) (hcov : Covered g) (ht : Targeted g) (hconst : normConst g numDistinctWeights ≠ none) (without : Bool) :
    ∃ d, toMwpm g without true = some d := by
  obtain ⟨P, sg, h⟩ := prepare_const hw hB hcov hconst
  unfold prepareFull at h
  unfold toMwpm
  cases hP : prepare g with
  | none => rw [hP] at h; cases h
  | some P' =>
    obtain ⟨ins, k, c, hc, -, -, -, -, -, hrun, hE, hmk, -, -, -, φ, hO, hF⟩ := prepared_graph hw hB hP
    rw [hP, hc] at h
    rw [hc]
    simp only at h ⊢
    cases hs : runS (SGraph.empty g.nodes.length) (ins.map Props.Convert.toGraphIns) with
    | none => rw [hs] at h; cases h
    | some sg' =>
      have hBt : Edges.Built g.nodes.length g.numObs (opsOf ins) P'.mg sg' P'.mask := ⟨hrun, hs, fun _ => hmk, hE, by
        intro op hop o ho
        obtain ⟨i, hi, rfl⟩ := List.getElem_of_mem hop
        have := hO.obs ⟨i, hi⟩
        exact hcov _ (List.getElem_mem (φ ⟨i, hi⟩).2) o (by rw [← Fin.getElem_fin, ← this]; exact ho)⟩
      -- the edge that a rule is for was inserted
      have target : ∀ i ∈ ins, ∀ r ∈ impliedOf i, ∃ j : Fin (opsOf ins).length, endsOf (opsOf ins)[j] = s(some r.node1, r.node2) := by
        intro i hi r hr
        obtain ⟨n, hn, rfl⟩ := List.getElem_of_mem hi
        rw [implied_from (hF ⟨n, by simpa using hn⟩ hn)] at hr
        obtain ⟨h1, h2, e', he', hk⟩ := ht _ (List.getElem_mem _) r hr
        obtain ⟨j, hj, rfl⟩ := List.getElem_of_mem he'
        have hsp : samePair r.node1 r.node2 g.edges[j].node1 g.edges[j].node2 := (samePair_iff_key _ _ _ _).2 hk
        cases hr2 : r.node2 with
        | some v =>
          rw [hr2] at hsp
          obtain ⟨h3, h4⟩ := h2 v hr2
          have hbt : Between g g.edges[j] ∧ seenAs g g.edges[j] = s(some r.node1, some v) := by
            rcases hsp with ⟨e1, e2⟩ | ⟨e1, e2⟩
            · refine ⟨⟨by rw [← e1]; exact h1, v, e2.symm, h3⟩, ?_⟩
              simp [seenAs, ← e1, ← e2, h1, h3]
            · refine ⟨⟨by rw [Option.some.inj e1] at h3; exact h3, r.node1, e2, h1⟩, ?_⟩
              rw [Option.some.inj e1] at h3 ⊢
              simp [seenAs, e2, h1, h3, Sym2.eq_swap]
          obtain ⟨i', hi'⟩ := hO.hit ⟨j, hj⟩ hbt.1
          refine ⟨i', ?_⟩
          have e2 : g.edges[φ i'] = g.edges[j] := by simp [hi']
          rw [hO.ends, e2]
          exact hbt.2
        | none =>
          rw [hr2] at hsp
          have hlv : Leaves g r.node1 g.edges[j] := by
            rcases hsp with ⟨e1, e2⟩ | ⟨e1, e2⟩
            · exact ⟨h1, .inl ⟨e1.symm, .inl e2.symm⟩⟩
            · cases e1
          obtain ⟨i', hi', -⟩ := hO.least ⟨j, hj⟩ _ hlv
          refine ⟨i', ?_⟩
          rw [hO.ends]
          have key : ∀ e : UEdge K, Leaves g r.node1 e → seenAs g e = s(some r.node1, none) := by
            rintro e ⟨-, ⟨e1, e2 | ⟨v, e2, e3⟩⟩ | ⟨e1, e2⟩⟩
            · simp [seenAs, e1, e2, h1]
            · simp [seenAs, e1, e2, h1, e3]
            · simp [seenAs, e1, e2, h1, Sym2.eq_swap]
          exact key _ hi'
      have hg := proper_of_run hBt.matching hBt.edges.pairs hBt.edges.even hBt.edges.small
      have hA := fair_of_proper hg
      have hl := linked_run hBt.matching
      have hrule : ∀ i ∈ ins, ∀ r ∈ impliedOf i, ∃ b, convertRule (adjM P'.mg) k r = .ok b := by
        intro i hi r hr
        obtain ⟨j, hj⟩ := target i hi r hr
        have hnl : ¬ IsLoop (opsOf ins)[j] := by
          rw [loop_iff, hj]
          intro hd
          obtain ⟨n, hn, rfl⟩ := List.getElem_of_mem hi
          rw [implied_from (hF ⟨n, by simpa using hn⟩ hn)] at hr
          obtain ⟨h1, h2, -⟩ := ht _ (List.getElem_mem _) r hr
          have := Sym2.mk_isDiag_iff.1 hd
          exact (h2 _ this.symm).2 rfl
        have hmem : (opsOf ins)[j] ∈ opsOf ins := List.getElem_mem _
        obtain ⟨z, hz⟩ := op_at hBt hmem hnl hj
        unfold convertRule
        rw [(slotOf_ok hA).2 hz]
        cases hr2 : r.node2 with
        | none => exact ⟨_, rfl⟩
        | some v =>
          rw [hr2] at hj
          obtain ⟨z', hz'⟩ := op_at hBt hmem hnl (hj.trans Sym2.eq_swap)
          simp only [Res.bind, (slotOf_ok hA).2 hz']
          exact ⟨_, rfl⟩
      obtain ⟨R, hR⟩ : ∃ R, convertTable (adjM P'.mg) k (table g.nodes.length ins) = .ok R := by
        refine DemCorr.mapRes_total fun row hrow => DemCorr.mapRes_total fun im him => DemCorr.mapRes_total fun r hr => ?_
        obtain ⟨u, hu, rfl⟩ := List.getElem_of_mem hrow
        have h2 := hl.2 u hu (by rw [← hl.1]; exact hu)
        obtain ⟨n, -, i, hi, rfl, -⟩ := forall2_left h2 im him
        exact hrule i hi r hr
      rw [hR]
      simp only [Bool.or_true, if_true, adj_same hBt, hR]
      exact ⟨_, rfl⟩

/-- The decoder of a graph with weights that are not too large. -/
theorem builds_small {g : UGraph K} (hw : WF g) (hB : Props.Convert.BndOk g) (hpl : ∀ e ∈ g.edges, e.implied = []) (hcov : Covered g)
    (hsm : ∀ e ∈ g.edges, |e.weight| ≤ (2 ^ 24 - 1 : Nat)) (without : Bool) : ∃ d, toMwpm g without true = some d := by
  obtain ⟨P, sg, h⟩ := prepare_small hw hB hpl hcov hsm
  exact builds_plain hw hB hpl h without

end Verif.Buildable
