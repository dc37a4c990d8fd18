import Verif.Noise
import Verif.Props.Convert

/-!
# Sampling noise (C36)
-/

namespace Verif.Props.Noise

open Verif.UG Verif.Props.UserGraph

variable {K : Type} [Field K] [LinearOrder K]

/-! ## Specification -/

/-- The edges that are flipped: those whose random number is below their error probability. -/
def chosen (g : UGraph K) (draw : Nat → K) : List (UEdge K) :=
  (g.edges.zipIdx.filter fun x => draw x.2 < x.1.prob).map (·.1)

/-- How often node `u` is an endpoint of the edge. -/
def endpoint (u : Nat) (e : UEdge K) : Nat := (if e.node1 = u then 1 else 0) + (if e.node2 = some u then 1 else 0)

/-! ## Proofs -/

theorem flipAt_spec (arr : List Bool) (i : Nat) (h : i < arr.length) :
    ∃ arr', flipAt arr i = some arr' ∧ arr'.length = arr.length ∧
      ∀ j, arr'[j]? = (arr[j]?).map fun b => b ^^ decide (j = i) := by
  refine ⟨_, by unfold flipAt; rw [dif_pos h], by simp, ?_⟩
  intro j
  rw [List.getElem?_set]
  by_cases hj : i = j
  · subst hj
    simp [h]
  · rw [if_neg hj]
    cases arr[j]? with
    | none => rfl
    | some b => simp [Ne.symm hj]

theorem flipAll_spec (is : List Nat) : ∀ arr : List Bool, (∀ i ∈ is, i < arr.length) →
    ∃ arr', flipAll arr is = some arr' ∧ arr'.length = arr.length ∧
      ∀ j, arr'[j]? = (arr[j]?).map fun b => b ^^ decide (is.count j % 2 = 1) := by
  induction is with
  | nil => intro arr _; exact ⟨arr, rfl, rfl, fun j => by cases arr[j]? <;> simp⟩
  | cons i is ih =>
    intro arr h
    obtain ⟨a1, e1, l1, s1⟩ := flipAt_spec arr i (h i (by simp))
    obtain ⟨a2, e2, l2, s2⟩ := ih a1 (fun k hk => by rw [l1]; exact h k (by simp [hk]))
    refine ⟨a2, by rw [flipAll, e1]; exact e2, by rw [l2, l1], ?_⟩
    intro j
    rw [s2, s1]
    cases arr[j]? with
    | none => rfl
    | some b =>
      simp only [Option.map_some, Option.some.injEq]
      rw [List.count_cons]
      by_cases hj : j = i
      · subst hj
        simp only [decide_true, beq_self_eq_true, if_true]
        rcases Nat.mod_two_eq_zero_or_one (is.count j) with h2 | h2
        · have : (is.count j + 1) % 2 = 1 := by omega
          simp [h2, this]
        · have : (is.count j + 1) % 2 = 0 := by omega
          simp [h2, this]
      · have : (i == j) = false := by simpa using fun h => hj h.symm
        simp [hj, this]

omit [Field K] in
theorem noiseLoop_spec (draw : Nat → K) (es : List (UEdge K)) : ∀ (k : Nat) (err syn : List Bool),
    (∀ e ∈ es, (∀ o ∈ e.obs, o < err.length) ∧ e.node1 < syn.length ∧ ∀ v, e.node2 = some v → v < syn.length) →
    ∃ err' syn', noiseLoop draw k es err syn = some (err', syn') ∧ err'.length = err.length ∧ syn'.length = syn.length ∧
      (∀ o, err'[o]? = (err[o]?).map fun b => b ^^
        decide ((((es.zipIdx k).filter fun x => draw x.2 < x.1.prob).map fun x => x.1.obs.count o).sum % 2 = 1)) ∧
      (∀ u, syn'[u]? = (syn[u]?).map fun b => b ^^
        decide ((((es.zipIdx k).filter fun x => draw x.2 < x.1.prob).map fun x => endpoint u x.1).sum % 2 = 1)) := by
  induction es with
  | nil =>
    intro k err syn _
    exact ⟨err, syn, rfl, rfl, rfl, fun o => by cases err[o]? <;> simp, fun u => by cases syn[u]? <;> simp⟩
  | cons e es ih =>
    intro k err syn h
    obtain ⟨h1, h2, h3⟩ := h e (by simp)
    rw [List.zipIdx_cons]
    by_cases hd : draw k < e.prob
    · obtain ⟨e1, x1, l1, s1⟩ := flipAll_spec e.obs err h1
      obtain ⟨y1, x2, l2, s2⟩ := flipAll_spec (e.node1 :: e.node2.toList) syn (by
        intro i hi
        simp only [List.mem_cons, Option.mem_toList] at hi
        rcases hi with rfl | hi
        · exact h2
        · exact h3 i hi)
      obtain ⟨err', syn', g1, g2, g3, g4, g5⟩ := ih (k + 1) e1 y1 (by
        intro e' he'
        rw [l1, l2]
        exact h e' (by simp [he']))
      refine ⟨err', syn', ?_, by rw [g2, l1], by rw [g3, l2], ?_, ?_⟩
      · unfold noiseLoop
        rw [if_pos hd]
        unfold applyEdge
        rw [x1, x2]
        exact g1
      · intro o
        rw [g4, s1]
        rw [List.filter_cons_of_pos (by simpa using hd), List.map_cons, List.sum_cons]
        cases err[o]? with
        | none => rfl
        | some b =>
          simp only [Option.map_some, Option.some.injEq]
          set c := e.obs.count o
          set d := (((es.zipIdx (k + 1)).filter fun x => decide (draw x.2 < x.1.prob)).map fun x => x.1.obs.count o).sum
          rcases Nat.mod_two_eq_zero_or_one c with hc | hc <;> rcases Nat.mod_two_eq_zero_or_one d with hdd | hdd <;>
            simp [Nat.add_mod, hc, hdd]
      · intro u
        rw [g5, s2]
        rw [List.filter_cons_of_pos (by simpa using hd), List.map_cons, List.sum_cons]
        have hc' : (e.node1 :: e.node2.toList).count u = endpoint u e := by
          unfold endpoint
          rw [List.count_cons]
          cases h2 : e.node2 with
          | none => simp
          | some v =>
            simp only [Option.toList_some, List.count_singleton, beq_iff_eq, Option.some.injEq]
            omega
        rw [hc']
        cases syn[u]? with
        | none => rfl
        | some b =>
          simp only [Option.map_some, Option.some.injEq]
          set c := endpoint u e
          set d := (((es.zipIdx (k + 1)).filter fun x => decide (draw x.2 < x.1.prob)).map fun x => endpoint u x.1).sum
          rcases Nat.mod_two_eq_zero_or_one c with hc | hc <;> rcases Nat.mod_two_eq_zero_or_one d with hdd | hdd <;>
            simp [Nat.add_mod, hc, hdd]
    · obtain ⟨err', syn', g1, g2, g3, g4, g5⟩ := ih (k + 1) err syn (fun e' he' => h e' (by simp [he']))
      refine ⟨err', syn', ?_, g2, g3, ?_, ?_⟩
      · unfold noiseLoop
        rw [if_neg hd]
        exact g1
      · intro o
        rw [List.filter_cons_of_neg (by simpa using hd)]
        exact g4 o
      · intro u
        rw [List.filter_cons_of_neg (by simpa using hd)]
        exact g5 u

/-- Sampling on any well-formed graph. -/
theorem sample_spec {g : UGraph K} (hw : WF g) (hb : Convert.BndOk g) (draw : Nat → K) (hobs : ∀ e ∈ g.edges, ∀ o ∈ e.obs, o < g.numObs) :
    (g.allProbs = false ∧ g.sample draw = some none) ∨
    (g.allProbs = true ∧ ∃ err syn, g.sample draw = some (some (err, syn)) ∧
      err.length = g.numObs ∧ syn.length = g.nodes.length ∧
      (∀ o, o < g.numObs → err[o]? = some (decide (Odd ((chosen g draw).map fun e => e.obs.count o).sum))) ∧
      (∀ u, u < g.nodes.length → syn[u]? = some (if u ∈ g.boundary then false
        else decide (Odd ((chosen g draw).map (endpoint u)).sum)))) := by
  cases hp : g.allProbs with
  | false => left; exact ⟨rfl, by unfold UGraph.sample; rw [hp]; rfl⟩
  | true =>
    right
    refine ⟨rfl, ?_⟩
    have hr1 : ∀ e ∈ g.edges, e.node1 < g.nodes.length ∧ ∀ v, e.node2 = some v → v < g.nodes.length := by
      intro e he
      obtain ⟨i, hi, rfl⟩ := List.getElem_of_mem he
      have := key_in_range hw i hi g.edges[i].node1 g.edges[i].node2 rfl
      cases hn2 : g.edges[i].node2 with
      | none => rw [hn2] at this; exact ⟨this, by simp⟩
      | some v =>
        rw [hn2] at this
        simp only [top] at this
        exact ⟨by omega, by rintro _ ⟨⟩; omega⟩
    obtain ⟨err, syn, g1, g2, g3, g4, g5⟩ := noiseLoop_spec draw g.edges 0 (List.replicate g.numObs false)
      (List.replicate g.nodes.length false) (by
        intro e he
        simp only [List.length_replicate]
        exact ⟨hobs e he, hr1 e he⟩)
    simp only [List.length_replicate] at g2 g3
    have hodd : ∀ k : Nat, decide (k % 2 = 1) = decide (Odd k) := by
      intro k; rw [decide_eq_decide]; exact Nat.odd_iff.symm
    refine ⟨err, syn.mapIdx fun i x => if i ∈ g.boundary then false else x, ?_, g2, by simp [g3], ?_, ?_⟩
    · unfold UGraph.sample UGraph.addNoise
      rw [hp]
      simp only [Bool.not_true, Bool.false_eq_true, if_false, g1]
      rw [if_pos (by rw [g3]; exact hb.1)]
      rfl
    · intro o ho
      rw [g4, List.getElem?_replicate, if_pos ho, Option.map_some, Bool.false_xor, hodd]
      unfold chosen
      rw [List.map_map]
      rfl
    · intro u hu
      rw [List.getElem?_mapIdx, g5, List.getElem?_replicate, if_pos hu]
      simp only [Option.map_some, Bool.false_xor, hodd, Option.some.injEq]
      unfold chosen
      rw [List.map_map]
      rfl

/-- C36.  After any history of graph operations whose fault ids are all below `num_fault_ids`, for every outcome of the
random source: without error probabilities on all edges nothing is sampled; otherwise the sampled noise vector is the parity
of the fault ids over the set of flipped edges, and the syndrome of a node is the parity of the flipped edges at it, except
that boundary nodes get 0. -/
theorem C36_noise_consistent (mergeW : K → K → K) (n m : Nat) (cs : List (Call K)) (draw : Nat → K) :
    let g := run mergeW (UGraph.new n m) cs
    (∀ e ∈ g.edges, ∀ o ∈ e.obs, o < g.numObs) →
    (g.allProbs = false ∧ g.sample draw = some none) ∨
    (g.allProbs = true ∧ ∃ err syn, g.sample draw = some (some (err, syn)) ∧
      err.length = g.numObs ∧ syn.length = g.nodes.length ∧
      (∀ o, o < g.numObs → err[o]? = some (decide (Odd ((chosen g draw).map fun e => e.obs.count o).sum))) ∧
      (∀ u, u < g.nodes.length → syn[u]? = some (if u ∈ g.boundary then false
        else decide (Odd ((chosen g draw).map (endpoint u)).sum)))) := by
  intro g hobs
  exact sample_spec (wf_run mergeW (wf_new n m) cs) (Convert.bndOk_run mergeW (Convert.bndOk_new n m) cs) draw hobs

/-- C36 (C++ level).  If any edge of the graph has no valid error probability, `add_noise` reports neither errors nor
detection events, whatever the random source returns. -/
theorem C36_no_probability_no_noise [IsStrictOrderedRing K] (mergeW : K → K → K) (n m : Nat) (cs : List (Call K))
    (draw : Nat → K) (e : UEdge K) (he : e ∈ (run mergeW (UGraph.new n m) cs).edges) (hp : e.prob < 0 ∨ 1 < e.prob) :
    ∃ err syn, (run mergeW (UGraph.new n m) cs).addNoise draw = some (err, syn) ∧ true ∉ err ∧ true ∉ syn := by
  have hf : (run mergeW (UGraph.new n m) cs).allProbs = false := by
    rw [Bool.eq_false_iff]
    intro ht
    obtain ⟨h1, h2⟩ := C47_probabilities_valid mergeW n m cs ht e he
    rcases hp with hp | hp
    · exact absurd hp (not_lt.2 h1)
    · exact absurd hp (not_lt.2 h2)
  refine ⟨_, _, by unfold UGraph.addNoise; rw [hf]; rfl, ?_, ?_⟩ <;> simp [List.mem_replicate]

/-- A graph with one edge without probability (stored as -1): nothing is sampled although the other edge is drawn. -/
example : (run (fun a b => min a b) (UGraph.new (K := ℚ) 0 0)
      [.add 0 (some 1) [0] 1 (-1) .disallow, .add 1 (some 2) [0] 1 (1/2) .disallow]).addNoise (fun _ => 0) =
    some ([false], [false, false, false]) := by decide +kernel

/-- Two edges of a triangle with a virtual boundary edge, all of which are flipped. -/
example : (run (fun a b => min a b) (UGraph.new (K := ℚ) 0 0)
      [.add 0 (some 1) [0] 1 (1/2) .disallow, .add 1 (some 2) [0, 1] 1 (1/2) .disallow, .add 0 none [] 1 (1/2) .disallow,
        .setBoundary [2]]).sample (fun i => if i = 2 then 1 else 0) =
    some (some ([false, true], [true, false, false])) := by decide +kernel

/-- The hypothesis on fault ids is needed: with C18's history the write goes past the end of the array. -/
example : (run (fun a b => min a b) (UGraph.new (K := ℚ) 0 0)
      [.add 0 (some 1) [0] 1 (1/2) .disallow, .add 0 (some 1) [70] 1 (1/2) .replace]).sample (fun _ => 0) = none := by
  decide +kernel

end Verif.Props.Noise
