import Verif.Spec.Matching
import Verif.Props.NegWeights
import Mathlib.Algebra.Order.Ring.Int

/-!
# Inserted edges and slots of the decoding graph

Connects the two ways to talk about corrections: sets of inserted edges, and lists of slots of the graph that was built.
-/

namespace Verif.SB

open Verif Verif.Graph Verif.CE Verif.Spec Verif.Props.Graph Verif.Props.NegWeights

variable {numNodes numObs : Nat} {ops : List EdgeIns} {g : MGraph}

/-- The slot is an occurrence of the inserted edge. -/
structure SlotOf (numObs : Nat) (g : MGraph) (e : Slot) (op : EdgeIns) : Prop where
  some : (entry g e).isSome
  weight : slotWeight g e = |op.w|
  ends : ∀ x, slotEnds g x e = op.incidence x
  bits : numObs ≤ 64 → ∀ i, i < 64 → ((slotObs g e).getLsbD i = true ↔ op.obs.count i % 2 = 1)
  none : 64 < numObs → slotObs g e = 0

/-- The inserted edge is a self-loop. -/
def IsLoop : EdgeIns → Prop
  | .edge u v _ _ => u = v
  | .bdry _ _ _ => False

/-- The two ends of an inserted edge, unordered; a self-loop or a boundary edge has none. -/
def pairOf : EdgeIns → Option (Nat × Nat)
  | .edge u v _ _ => if u = v then .none else .some (min u v, max u v)
  | .bdry _ _ _ => .none

theorem entry_run (h : run (MGraph.empty numNodes numObs) ops = .some g) {u i : Nat} {n : Nbr} :
    entry g (u, i) = .some n ↔ ∃ hu : u < g.nodes.length, ∃ hi : i < g.nodes[u].length, n = g.nodes[u][i] := by
  unfold entry
  constructor
  · intro he
    cases h1 : g.nodes[u]? with
    | none => rw [h1] at he; cases he
    | some l =>
      rw [h1] at he
      simp only at he
      obtain ⟨hu, rfl⟩ := List.getElem?_eq_some_iff.1 h1
      obtain ⟨hi, rfl⟩ := List.getElem?_eq_some_iff.1 he
      exact ⟨hu, hi, rfl⟩
  · rintro ⟨hu, hi, rfl⟩
    simp only [List.getElem?_eq_getElem hu, List.getElem?_eq_getElem hi]

theorem seen_slot {u i : Nat} {n : Nbr} (he : entry g (u, i) = .some n) {op : EdgeIns} {r : Option Nat × Int × List Nat}
    (hr : Rep numObs n r) (hs : seenBdry u op = .some r ∨ seenFrom u op = .some r) : SlotOf numObs g (u, i) op := by
  obtain ⟨h1, h2, h3, h4⟩ := hr
  have hobs : slotObs g (u, i) = n.obs := by simp only [slotObs, he]
  have hw : slotWeight g (u, i) = n.weight := by simp only [slotWeight, he]
  have hends : ∀ x, slotEnds g x (u, i) = (if u = x then 1 else 0) + (if n.target = .some x then 1 else 0) := by
    intro x; simp only [slotEnds, he]
  cases op with
  | bdry u' w o =>
    rcases hs with hs | hs
    · simp only [seenBdry] at hs
      split at hs
      · rename_i hu
        cases hs
        subst hu
        refine ⟨by rw [he]; rfl, ?_, ?_, ?_, ?_⟩
        · rw [hw, h2]; exact Int.natCast_natAbs w
        · intro x; rw [hends, h1]; simp [EdgeIns.incidence]
        · rw [hobs]; exact h3
        · rw [hobs]; exact h4
      · cases hs
    · cases hs
  | edge a b w o =>
    rcases hs with hs | hs
    · cases hs
    · simp only [seenFrom] at hs
      split at hs
      · cases hs
      split at hs
      · rename_i hab hu
        cases hs
        subst hu
        refine ⟨by rw [he]; rfl, ?_, ?_, ?_, ?_⟩
        · rw [hw, h2]; exact Int.natCast_natAbs w
        · intro x; rw [hends, h1]; simp [EdgeIns.incidence]
        · rw [hobs]; exact h3
        · rw [hobs]; exact h4
      split at hs
      · rename_i hab hu hb
        cases hs
        subst hb
        refine ⟨by rw [he]; rfl, ?_, ?_, ?_, ?_⟩
        · rw [hw, h2]; exact Int.natCast_natAbs w
        · intro x; rw [hends, h1]; simp [EdgeIns.incidence, Nat.add_comm]
        · rw [hobs]; exact h3
        · rw [hobs]; exact h4
      · cases hs

/-- Every slot comes from an inserted edge. -/
theorem slot_op (h : run (MGraph.empty numNodes numObs) ops = .some g) {u i : Nat} {n : Nbr} (he : entry g (u, i) = .some n) :
    ∃ op ∈ ops, ∃ r, Rep numObs n r ∧ (seenBdry u op = .some r ∨ seenFrom u op = .some r) := by
  obtain ⟨hu, hi, rfl⟩ := (entry_run h).1 he
  have hf := (C13_adjacency numNodes numObs ops g h).2.2 u hu
  have hlen := hf.length_eq
  have hrep := hf.get (i := i) hi (by rw [← hlen]; exact hi)
  simp only [List.get_eq_getElem] at hrep
  have hmem := List.getElem_mem (l := ops.filterMap (seenBdry u) ++ ops.filterMap (seenFrom u)) (by rw [← hlen]; exact hi)
  rw [List.mem_append, List.mem_filterMap, List.mem_filterMap] at hmem
  rcases hmem with ⟨op, h1, h2⟩ | ⟨op, h1, h2⟩
  · exact ⟨op, h1, _, hrep, .inl h2⟩
  · exact ⟨op, h1, _, hrep, .inr h2⟩

/-- Every inserted edge is stored at every node from which it is seen. -/
theorem op_slot (h : run (MGraph.empty numNodes numObs) ops = .some g) {u : Nat} (hu : u < g.nodes.length) {op : EdgeIns} (hop : op ∈ ops)
    {r : Option Nat × Int × List Nat} (hs : seenBdry u op = .some r ∨ seenFrom u op = .some r) :
    ∃ i n, entry g (u, i) = .some n ∧ Rep numObs n r := by
  have hf := (C13_adjacency numNodes numObs ops g h).2.2 u hu
  have hlen := hf.length_eq
  have hmem : r ∈ ops.filterMap (seenBdry u) ++ ops.filterMap (seenFrom u) := by
    rw [List.mem_append, List.mem_filterMap, List.mem_filterMap]
    rcases hs with hs | hs
    · exact .inl ⟨op, hop, hs⟩
    · exact .inr ⟨op, hop, hs⟩
  obtain ⟨i, hi, rfl⟩ := List.getElem_of_mem hmem
  have hi' : i < g.nodes[u].length := by rw [hlen]; exact hi
  refine ⟨i, _, (entry_run h).2 ⟨hu, hi', rfl⟩, ?_⟩
  have := hf.get (i := i) hi' hi
  simpa using this

/-- The nodes of an inserted edge are smaller than `n`. -/
def Within (n : Nat) : EdgeIns → Prop
  | .edge u v _ _ => u < n ∧ v < n
  | .bdry u _ _ => u < n

theorem in_range (h : run (MGraph.empty numNodes numObs) ops = .some g) {op : EdgeIns} (hop : op ∈ ops) : Within g.nodes.length op := by
  have key : ∀ (ops : List EdgeIns) (g0 g : MGraph), run g0 ops = .some g → g.nodes.length = g0.nodes.length ∧ ∀ op ∈ ops, Within g.nodes.length op := by
    intro ops
    induction ops with
    | nil => intro g0 g hr; cases hr; exact ⟨rfl, by simp⟩
    | cons i is ih =>
      intro g0 g hr
      simp only [run, Option.bind_eq_some_iff] at hr
      obtain ⟨g1, h1, h2⟩ := hr
      obtain ⟨k1, k2⟩ := ih g1 g h2
      have k3 : g1.nodes.length = g0.nodes.length ∧ Within g0.nodes.length i := by
        cases i with
        | edge u v w o =>
          simp only [exec, MGraph.addEdge] at h1
          by_cases hr : max u v + 1 > g0.nodes.length
          · simp only [hr, if_true] at h1; cases h1
          · simp only [hr, if_false] at h1
            refine ⟨?_, show u < _ ∧ v < _ by omega⟩
            by_cases huv : u = v
            · simp only [huv, if_true, Option.some.injEq] at h1
              rw [← h1, (noteNegEdge_nodes _ _ _ _ _).1]
            · simp only [huv, if_false] at h1
              cases hm : obsMask (g0.noteNegEdge u v w o).numObs o with
              | none => rw [hm] at h1; cases h1
              | some m =>
                rw [hm] at h1
                simp only [Option.some.injEq] at h1
                rw [← h1]
                simp [pushBack, (noteNegEdge_nodes _ _ _ _ _).1]
        | bdry u w o =>
          simp only [exec, MGraph.addBoundaryEdge] at h1
          cases hn : g0.nodes[u]? with
          | none => rw [hn] at h1; cases h1
          | some l =>
            rw [hn] at h1
            simp only at h1
            cases hm : obsMask g0.numObs o with
            | none => rw [hm] at h1; cases h1
            | some m =>
              rw [hm] at h1
              simp only at h1
              by_cases hb : hasBoundary l = true
              · simp only [hb, if_true] at h1; cases h1
              · simp only [hb] at h1
                simp only [Option.some.injEq, Bool.false_eq_true, if_false] at h1
                rw [← h1]
                refine ⟨by simp [(noteNegBoundary_nodes _ _ _ _).1], ?_⟩
                exact (List.getElem?_eq_some_iff.1 hn).1
      refine ⟨by rw [k1, k3.1], ?_⟩
      intro op hop
      rcases List.mem_cons.1 hop with rfl | hop
      · rw [k1, k3.1]; exact k3.2
      · exact k2 op hop
  exact (key ops _ g h).2 op hop

/-- Every inserted edge that is no self-loop has a slot. -/
theorem op_slotOf (h : run (MGraph.empty numNodes numObs) ops = .some g) {op : EdgeIns} (hop : op ∈ ops) (hl : ¬ IsLoop op) :
    ∃ e, SlotOf numObs g e op := by
  have hr := in_range h hop
  cases op with
  | edge u v w o =>
    have hl : ¬ u = v := hl
    have hs : seenFrom u (.edge u v w o) = .some (.some v, w, o) := by simp [seenFrom, hl]
    obtain ⟨i, n, he, hn⟩ := op_slot h hr.1 hop (.inr hs)
    exact ⟨(u, i), seen_slot he hn (.inr hs)⟩
  | bdry u w o =>
    have hs : seenBdry u (.bdry u w o) = .some (.none, w, o) := by simp [seenBdry]
    obtain ⟨i, n, he, hn⟩ := op_slot h hr hop (.inl hs)
    exact ⟨(u, i), seen_slot he hn (.inl hs)⟩

/-- A graph that is built from one edge per pair of nodes, with even weights that are not too large, is proper. -/
theorem proper_of_run (h : run (MGraph.empty numNodes numObs) ops = .some g) (hp : (ops.filterMap pairOf).Nodup)
    (heven : ∀ op ∈ ops, op.w % 2 = 0) (hsmall : ∀ op ∈ ops, |op.w| < 2 ^ 31) : Proper g := by
  have hadj := (C13_adjacency numNodes numObs ops g h)
  refine ⟨?_, ?_, ?_, ?_, ?_⟩
  · intro u l hl
    obtain ⟨hu, rfl⟩ := List.getElem?_eq_some_iff.1 hl
    have hf := hadj.2.2 u hu
    have heq : g.nodes[u].map (·.target) = (ops.filterMap (seenBdry u) ++ ops.filterMap (seenFrom u)).map (·.1) := by
      generalize g.nodes[u] = l at hf
      generalize ops.filterMap (seenBdry u) ++ ops.filterMap (seenFrom u) = l' at hf
      induction hf with
      | nil => rfl
      | cons h1 _ ih => simp only [List.map_cons, ih, h1.1]
    rw [heq, List.map_append, List.nodup_append]
    refine ⟨?_, ?_, ?_⟩
    · have := hadj.2.1 u
      match hq : ops.filterMap (seenBdry u) with
      | [] => simp
      | [a] => simp
      | a :: b :: l => rw [hq] at this; simp at this
    · have key : ∀ ops : List EdgeIns, (ops.filterMap pairOf).Nodup → ((ops.filterMap (seenFrom u)).map (·.1)).Nodup := by
        intro ops
        induction ops with
        | nil => simp
        | cons op ops ih =>
          intro hnd
          cases hsn : seenFrom u op with
          | none =>
            rw [List.filterMap_cons_none hsn]
            apply ih
            cases hpo : pairOf op with
            | none => rwa [List.filterMap_cons_none hpo] at hnd
            | some p => rw [List.filterMap_cons_some hpo] at hnd; exact (List.nodup_cons.1 hnd).2
          | some r =>
            rw [List.filterMap_cons_some hsn, List.map_cons, List.nodup_cons]
            have hside : ∀ op r, seenFrom u op = .some r → ∃ v, r.1 = .some v ∧ v ≠ u ∧ pairOf op = .some (min u v, max u v) := by
              intro op r hsn
              cases op with
              | bdry => cases hsn
              | edge a b w o =>
                simp only [seenFrom] at hsn
                split at hsn
                · cases hsn
                rename_i hab
                split at hsn
                · rename_i hu; cases hsn; subst hu
                  exact ⟨b, rfl, fun h => hab h.symm, by simp [pairOf, hab]⟩
                split at hsn
                · rename_i hu; cases hsn; subst hu
                  exact ⟨a, rfl, hab, by simp [pairOf, hab, Nat.min_comm, Nat.max_comm]⟩
                · cases hsn
            obtain ⟨v, hv, hvu, hpo⟩ := hside op r hsn
            rw [List.filterMap_cons_some hpo, List.nodup_cons] at hnd
            refine ⟨?_, ih hnd.2⟩
            intro hmem
            rw [List.mem_map] at hmem
            obtain ⟨r', hr', heq⟩ := hmem
            rw [List.mem_filterMap] at hr'
            obtain ⟨op', hop', hsn'⟩ := hr'
            obtain ⟨v', hv', -, hpo'⟩ := hside op' r' hsn'
            rw [hv, hv'] at heq
            cases heq
            exact hnd.1 (List.mem_filterMap.2 ⟨op', hop', hpo'⟩)
      exact key ops hp
    · intro a ha b hb hab
      rw [List.mem_map] at ha hb
      obtain ⟨r, hr, rfl⟩ := ha
      obtain ⟨r', hr', rfl⟩ := hb
      rw [List.mem_filterMap] at hr hr'
      obtain ⟨op, -, hs⟩ := hr
      obtain ⟨op', -, hs'⟩ := hr'
      have h1 : r.1 = .none := by
        cases op with
        | edge => cases hs
        | bdry u' w o =>
          simp only [seenBdry] at hs
          split at hs
          · cases hs; rfl
          · cases hs
      have h2 : r'.1 ≠ .none := by
        cases op' with
        | bdry => cases hs'
        | edge a b w o =>
          simp only [seenFrom] at hs'
          split at hs'
          · cases hs'
          split at hs'
          · cases hs'; simp
          split at hs'
          · cases hs'; simp
          · cases hs'
      exact h2 (hab ▸ h1)
  · intro u i n he hn
    obtain ⟨hu, hi, rfl⟩ := (entry_run h).1 he
    exact (C13_boundary_first numNodes numObs ops g h u hu i hi).1 hn
  · intro u i n v he hn
    obtain ⟨op, hop, r, hrep, hs⟩ := slot_op h he
    have hr := in_range h hop
    have hs : seenFrom u op = .some r := by
      rcases hs with hs | hs
      · exfalso
        cases op with
        | edge => cases hs
        | bdry u' w o =>
          simp only [seenBdry] at hs
          split at hs
          · cases hs
            have := hrep.1
            rw [hn] at this
            cases this
          · cases hs
      · exact hs
    cases op with
    | bdry => cases hs
    | edge a b w o =>
      have hboth : v ≠ u ∧ v < g.nodes.length ∧ seenFrom v (.edge a b w o) = .some (.some u, w, o) ∧ r = (.some v, w, o) := by
        have h1 := hrep.1
        rw [hn] at h1
        simp only [seenFrom] at hs
        split at hs
        · cases hs
        rename_i hab
        split at hs
        · rename_i hu; cases hs; cases h1; subst hu
          exact ⟨fun h => hab h.symm, hr.2, by simp [seenFrom, hab], rfl⟩
        split at hs
        · rename_i hu; cases hs; cases h1; subst hu
          exact ⟨hab, hr.1, by simp [seenFrom, hab], rfl⟩
        · cases hs
      obtain ⟨h1, h2, h3, h4⟩ := hboth
      subst h4
      obtain ⟨j, n', he', hrep'⟩ := op_slot h h2 hop (.inr h3)
      refine ⟨h1, j, n', he', hrep'.1, by rw [hrep'.2.1, hrep.2.1], ?_⟩
      by_cases hno : numObs ≤ 64
      · refine BitVec.eq_of_getLsbD_eq ?_
        intro i hi
        have a1 := hrep.2.2.1 hno i hi
        have a2 := hrep'.2.2.1 hno i hi
        have : (n'.obs.getLsbD i = true) ↔ (n.obs.getLsbD i = true) := a2.trans a1.symm
        exact Bool.eq_iff_iff.2 this
      · rw [hrep.2.2.2 (by omega), hrep'.2.2.2 (by omega)]
  · intro u i n he
    obtain ⟨op, hop, r, hrep, hs⟩ := slot_op h he
    have := seen_slot he hrep hs
    have hw := this.weight
    simp only [slotWeight, he] at hw
    have he := heven op hop
    rcases abs_choice op.w with h1 | h1 <;> omega
  · intro u i n he
    obtain ⟨op, hop, r, hrep, hs⟩ := slot_op h he
    have := seen_slot he hrep hs
    have hw := this.weight
    simp only [slotWeight, he] at hw
    have he := hsmall op hop
    rw [← hw] at he
    exact_mod_cast he

/-! ## Corrections -/

open Classical in
/-- The positions that occur an odd number of times in a list. -/
noncomputable def oddOf {n : Nat} (l : List (Fin n)) : Finset (Fin n) := Finset.univ.filter fun i => l.count i % 2 = 1

theorem oddOf_sum {n : Nat} (f : Fin n → Nat) (l : List (Fin n)) : (∑ i ∈ oddOf l, f i) % 2 = (l.map f).sum % 2 := by
  classical
  have h1 : (l.map f).sum = ∑ i, l.count i * f i := by
    rw [Finset.sum_list_map_count]
    rw [Finset.sum_subset (Finset.subset_univ _)]
    · simp
    · intro i _ hi
      rw [List.count_eq_zero.2 (fun h => hi (List.mem_toFinset.2 h))]
      simp
  rw [h1, oddOf, Finset.sum_filter, Finset.sum_nat_mod, Finset.sum_nat_mod (f := fun i => l.count i * f i)]
  congr 1
  refine Finset.sum_congr rfl ?_
  intro i _
  by_cases hi : l.count i % 2 = 1
  · rw [if_pos (by convert hi), Nat.mul_mod, hi]; simp
  · rw [if_neg (by convert hi), Nat.mul_mod]
    have : l.count i % 2 = 0 := by omega
    rw [this]; simp

theorem oddOf_le {n : Nat} (f : Fin n → Int) (hf : ∀ i, 0 ≤ f i) (l : List (Fin n)) : ∑ i ∈ oddOf l, f i ≤ (l.map f).sum := by
  classical
  have h1 : (l.map f).sum = ∑ i, (l.count i : Int) * f i := by
    rw [Finset.sum_list_map_count]
    rw [Finset.sum_subset (Finset.subset_univ _)]
    · simp
    · intro i _ hi
      rw [List.count_eq_zero.2 (fun h => hi (List.mem_toFinset.2 h))]
      simp
  rw [h1, oddOf, Finset.sum_filter]
  refine Finset.sum_le_sum ?_
  intro i _
  by_cases hi : l.count i % 2 = 1
  · rw [if_pos (by convert hi)]
    have : (1 : Int) ≤ l.count i := by omega
    exact le_mul_of_one_le_left (hf i) this
  · rw [if_neg (by convert hi)]
    exact mul_nonneg (by omega) (hf i)

theorem totalObs_bit (g : MGraph) (k : Nat) (ws : List Slot) :
    (totalObs g ws).getLsbD k = true ↔ (ws.map fun e => if (slotObs g e).getLsbD k then 1 else 0).sum % 2 = 1 := by
  induction ws with
  | nil => simp [totalObs]
  | cons e ws ih =>
    rw [totalObs, BitVec.getLsbD_xor, List.map_cons, List.sum_cons]
    cases h1 : (slotObs g e).getLsbD k <;> cases h2 : (totalObs g ws).getLsbD k <;> rw [h2] at ih <;> simp at ih ⊢ <;> omega

/-- From slots to inserted edges. -/
theorem correction_of_slots (h : run (MGraph.empty numNodes numObs) ops = .some g) {T : Finset Nat} {ws : List Slot} (hw : Corrects g T ws) :
    ∃ c : Correction ops, Explains c T ∧ absWeight c ≤ totalWeight g ws ∧
      (numObs ≤ 64 → ∀ k, k < 64 → ((totalObs g ws).getLsbD k = true ↔ crossed c k % 2 = 1)) := by
  classical
  have hex : ∀ e : Slot, (entry g e).isSome → ∃ i : Fin ops.length, SlotOf numObs g e ops[i] := by
    rintro ⟨u, i⟩ he
    obtain ⟨n, he⟩ := Option.isSome_iff_exists.1 he
    obtain ⟨op, hop, r, h1, h2⟩ := slot_op h he
    obtain ⟨j, hj, rfl⟩ := List.getElem_of_mem hop
    exact ⟨⟨j, hj⟩, seen_slot he h1 h2⟩
  have hlist : ∀ ws : List Slot, (∀ e ∈ ws, (entry g e).isSome) → ∃ l : List (Fin ops.length), List.Forall₂ (fun e i => SlotOf numObs g e ops[i]) ws l := by
    intro ws
    induction ws with
    | nil => intro _; exact ⟨[], .nil⟩
    | cons e ws ih =>
      intro he
      obtain ⟨i, hi⟩ := hex e (he e (by simp))
      obtain ⟨l, hl⟩ := ih (fun x hx => he x (by simp [hx]))
      exact ⟨i :: l, .cons hi hl⟩
  obtain ⟨l, hl⟩ := hlist ws hw.1
  refine ⟨oddOf l, ?_, ?_, ?_⟩
  · intro x
    rw [hw.2 x]
    unfold degree
    rw [oddOf_sum (fun i => (ops[i]).incidence x)]
    have : totalEnds g x ws = (l.map fun i => (ops[i]).incidence x).sum := by
      unfold totalEnds
      clear hw
      induction hl with
      | nil => rfl
      | cons h1 _ ih => simp only [List.map_cons, List.sum_cons, ih, h1.ends x]
    rw [this]
  · unfold absWeight
    refine le_trans (oddOf_le (fun i => |(ops[i]).w|) (fun i => abs_nonneg _) l) (le_of_eq ?_)
    unfold totalWeight
    clear hw
    induction hl with
    | nil => rfl
    | cons h1 _ ih => simp only [List.map_cons, List.sum_cons, ih, h1.weight]
  · intro hno k hk
    rw [totalObs_bit]
    unfold crossed
    rw [oddOf_sum (fun i => (ops[i]).obs.count k)]
    have : (ws.map fun e => if (slotObs g e).getLsbD k then 1 else 0).sum % 2 = (l.map fun i => (ops[i]).obs.count k).sum % 2 := by
      clear hw
      induction hl with
      | nil => rfl
      | @cons e i ws l h1 _ ih =>
        simp only [List.map_cons, List.sum_cons]
        have := h1.bits hno k hk
        by_cases hb : (slotObs g e).getLsbD k = true
        · have h2 := this.1 hb
          simp only [hb, if_true] at *
          omega
        · have h2 := mt this.2 hb
          simp only [hb] at *
          simp only [Bool.false_eq_true, if_false]
          omega
    rw [this]

/-- From inserted edges to slots. -/
theorem slots_of_correction (h : run (MGraph.empty numNodes numObs) ops = .some g) {T : Finset Nat} {c : Correction ops} (hc : Explains c T) :
    ∃ ws, Corrects g T ws ∧ totalWeight g ws ≤ absWeight c := by
  classical
  have key : ∀ c : Finset (Fin ops.length), ∃ ws : List Slot, (∀ e ∈ ws, (entry g e).isSome) ∧ totalWeight g ws ≤ absWeight c ∧
      ∀ x, totalEnds g x ws % 2 = degree c x % 2 := by
    intro c
    induction c using Finset.induction_on with
    | empty => exact ⟨[], by simp, by simp [totalWeight, absWeight], by simp [totalEnds, degree]⟩
    | insert i c hi ih =>
      obtain ⟨ws, h1, h2, h3⟩ := ih
      have hd : ∀ x, degree (insert i c) x = (ops[i]).incidence x + degree c x := fun x => by unfold degree; rw [Finset.sum_insert hi]
      have ha : absWeight (insert i c) = |(ops[i]).w| + absWeight c := by unfold absWeight; rw [Finset.sum_insert hi]
      by_cases hl : IsLoop ops[i]
      · refine ⟨ws, h1, ?_, ?_⟩
        · rw [ha]; have := abs_nonneg (ops[i]).w; omega
        · intro x
          rw [hd, h3]
          have : (ops[i]).incidence x % 2 = 0 := by
            cases hop : ops[i] with
            | bdry u w o => rw [hop] at hl; exact hl.elim
            | edge u v w o =>
              rw [hop] at hl
              have hl : u = v := hl
              subst hl
              simp only [EdgeIns.incidence]
              split <;> rfl
          omega
      · obtain ⟨e, he⟩ := op_slotOf h (List.getElem_mem i.2) hl
        refine ⟨e :: ws, ?_, ?_, ?_⟩
        · intro x hx
          rcases List.mem_cons.1 hx with rfl | hx
          · exact he.some
          · exact h1 x hx
        · rw [ha]
          have hwe : slotWeight g e = |(ops[i]).w| := he.weight
          simp only [totalWeight, List.map_cons, List.sum_cons] at h2 ⊢
          omega
        · intro x
          have hwe : slotEnds g x e = (ops[i]).incidence x := he.ends x
          have := h3 x
          rw [hd]
          simp only [totalEnds, List.map_cons, List.sum_cons] at this ⊢
          omega
  obtain ⟨ws, h1, h2, h3⟩ := key c
  exact ⟨ws, ⟨h1, fun x => by rw [hc x, h3]⟩, h2⟩

end Verif.SB
