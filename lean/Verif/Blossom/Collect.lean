import Verif.Blossom.Twin
import Verif.Blossom.Total
import Verif.Props.Search

/-!
# The paths between matched detection events

Helper lemmas for `Verif.Props.Edges`: the shortest paths between matched detection events form a correction of minimum weight.
-/

namespace Verif.SB

open Verif Verif.Graph Verif.CE Verif.Spec Verif.Props.Graph Verif.Props.NegWeights
open Verif.Sch (Res nbr Good Fresh undirected)

variable {numNodes numObs : Nat} {ops : List EdgeIns} {g : MGraph} {sg : SGraph}

/-- Inserted edges that are not self-loops are determined by their ends. -/
theorem ends_inj (h : run (MGraph.empty numNodes numObs) ops = .some g) (hp : (ops.filterMap pairOf).Nodup) (i j : Fin ops.length)
    (hi : ¬ IsLoop ops[i]) (hj : ¬ IsLoop ops[j]) (he : endsOf ops[i] = endsOf ops[j]) : i = j := by
  have pw : ∀ {β : Type} (f : EdgeIns → Option β) (R : β → β → Prop) (a b : β), (ops.filterMap f).Pairwise R → ¬ R a b → ¬ R b a →
      f ops[i] = .some a → f ops[j] = .some b → i = j := by
    intro β f R a b hR h1 h2 h3 h4
    rw [List.pairwise_filterMap, List.pairwise_iff_getElem] at hR
    rcases Nat.lt_trichotomy i.1 j.1 with hlt | heq | hlt
    · exact absurd (hR i.1 j.1 i.2 j.2 hlt a h3 b h4) h1
    · exact Fin.ext heq
    · exact absurd (hR j.1 i.1 j.2 i.2 hlt b h4 a h3) h2
  cases hoi : ops[i] with
  | edge u v w o =>
    cases hoj : ops[j] with
    | edge u' v' w' o' =>
      rw [hoi] at hi he
      rw [hoj] at hj he
      have hi : ¬ u = v := hi
      have hj : ¬ u' = v' := hj
      simp only [endsOf, Sym2.eq_iff, Option.some.injEq] at he
      refine pw pairOf (· ≠ ·) (min u v, max u v) (min u v, max u v) hp (by simp) (by simp) ?_ ?_
      · rw [hoi]; simp [pairOf, hi]
      · rw [hoj]
        simp only [pairOf, hj, if_false, Option.some.injEq, Prod.mk.injEq]
        rcases he with ⟨rfl, rfl⟩ | ⟨rfl, rfl⟩
        · exact ⟨rfl, rfl⟩
        · exact ⟨min_comm _ _, max_comm _ _⟩
    | bdry u' w' o' =>
      rw [hoi, hoj] at he
      simp only [endsOf, Sym2.eq_iff] at he
      rcases he with ⟨-, h⟩ | ⟨h, -⟩ <;> cases h
  | bdry u w o =>
    cases hoj : ops[j] with
    | edge u' v' w' o' =>
      rw [hoi, hoj] at he
      simp only [endsOf, Sym2.eq_iff] at he
      rcases he with ⟨-, h⟩ | ⟨-, h⟩ <;> cases h
    | bdry u' w' o' =>
      rw [hoi, hoj] at he
      simp only [endsOf, Sym2.eq_iff, Option.some.injEq, and_true] at he
      have : u = u' := by
        rcases he with h | ⟨h, -⟩
        · exact h
        · cases h
      subst this
      have hone := (C13_adjacency numNodes numObs ops g h).2.1 u
      refine pw (seenBdry u) (fun _ _ => False) _ _ ?_ (by simp) (by simp) (by rw [hoi]; simp [seenBdry]; rfl) (by rw [hoj]; simp [seenBdry]; rfl)
      match hl : ops.filterMap (seenBdry u), hone with
      | [], _ => exact .nil
      | [a], _ => exact List.pairwise_singleton _ a
      | _ :: _ :: _, hh => simp at hh

/-- The insertions behind a list of slots of the search graph. -/
def Behind (numObs : Nat) (g : MGraph) (sg : SGraph) (ops : List EdgeIns) (ps : List (Nat × Nat)) (I : List (Fin ops.length)) : Prop :=
  List.Forall₂ (fun e i => SlotOf numObs g e ops[i] ∧ ∃ n, SlotIn sg e n ops[i]) ps I

theorem behind_exists (h : run (MGraph.empty numNodes numObs) ops = .some g) (ht : Twin numNodes sg ops) :
    ∀ ps : List (Nat × Nat), (∀ e ∈ ps, ∃ n, nbr sg e.1 e.2 = .some n) → ∃ I, Behind numObs g sg ops ps I := by
  intro ps
  induction ps with
  | nil => intro _; exact ⟨[], .nil⟩
  | cons e ps ih =>
    intro hps
    obtain ⟨I, hI⟩ := ih (fun x hx => hps x (by simp [hx]))
    obtain ⟨n, hn⟩ := hps e (by simp)
    obtain ⟨m, op, -, -, -, hop, k1, k2⟩ := twin_slot h ht hn
    obtain ⟨j, hj, rfl⟩ := List.getElem_of_mem hop
    exact ⟨⟨j, hj⟩ :: I, .cons ⟨k1, n, k2⟩ hI⟩

theorem behind_undirected {ps : List (Nat × Nat)} {I : List (Fin ops.length)} (hI : Behind numObs g sg ops ps I) :
    ps.map (undirected sg) = I.map fun i => .some (endsOf ops[i]) := by
  induction hI with
  | nil => rfl
  | @cons e i ps I h1 _ ih =>
    obtain ⟨-, n, hn⟩ := h1
    rw [List.map_cons, List.map_cons, ih, undirected, hn.slot, Option.map_some, hn.ends]

theorem behind_noloop {ps : List (Nat × Nat)} {I : List (Fin ops.length)} (hI : Behind numObs g sg ops ps I) : ∀ i ∈ I, ¬ IsLoop ops[i] := by
  induction hI with
  | nil => simp
  | @cons e i ps I h1 _ ih =>
    obtain ⟨-, n, hn⟩ := h1
    intro j hj
    rcases List.mem_cons.1 hj with rfl | hj
    · exact hn.noloop
    · exact ih j hj

/-- Two lists of slots that are permutations of each other up to direction have the same insertions behind them. -/
theorem behind_perm (h : run (MGraph.empty numNodes numObs) ops = .some g) (hp : (ops.filterMap pairOf).Nodup) {ps qs : List (Nat × Nat)}
    {I J : List (Fin ops.length)} (hI : Behind numObs g sg ops ps I) (hJ : Behind numObs g sg ops qs J)
    (hpq : (ps.map (undirected sg)).Perm (qs.map (undirected sg))) : I.Perm J := by
  classical
  rw [behind_undirected hI, behind_undirected hJ] at hpq
  let F : Option (Sym2 (Option Nat)) → Option (Fin ops.length) := fun z => if hz : ∃ i : Fin ops.length, ¬ IsLoop ops[i] ∧ .some (endsOf ops[i]) = z then .some hz.choose else .none
  have hF : ∀ i : Fin ops.length, ¬ IsLoop ops[i] → F (.some (endsOf ops[i])) = .some i := by
    intro i hi
    have hz : ∃ j : Fin ops.length, ¬ IsLoop ops[j] ∧ Option.some (endsOf ops[j]) = .some (endsOf ops[i]) := ⟨i, hi, rfl⟩
    show (if hz : _ then _ else _) = _
    rw [dif_pos hz]
    obtain ⟨h1, h2⟩ := hz.choose_spec
    exact congrArg _ (ends_inj h hp _ _ h1 hi (Option.some.inj h2))
  have := hpq.map F
  rw [List.map_map, List.map_map] at this
  have e : ∀ I : List (Fin ops.length), (∀ i ∈ I, ¬ IsLoop ops[i]) → I.map (F ∘ fun i => .some (endsOf ops[i])) = I.map Option.some := by
    intro I hI
    exact List.map_congr_left (fun i hi => hF i (hI i hi))
  rw [e I (behind_noloop hI), e J (behind_noloop hJ)] at this
  have := this.filterMap id
  simpa [List.filterMap_map] using this

/-- All searches for a list of match edges. -/
theorem searchAll_spec (h : run (MGraph.empty numNodes numObs) ops = .some g) (ht : Twin numNodes sg ops) (hg : Good sg) (d : CompressedEdge → Int) :
    ∀ (es : List CompressedEdge), (∀ e ∈ es, PathOf g e (d e) ∧ (edgeEnds e).Nodup ∧ ∀ v ∈ edgeEnds e, v < numNodes) → ∀ ss, Fresh ss →
    ∃ N ss' ps ws, Fresh ss' ∧ (∀ f, N ≤ f → searchAll sg f ss es = .some (.ok (ss', ps))) ∧
      (ps.map (undirected sg)).Perm (ws.map (undirected sg)) ∧ (∀ e ∈ ps, ∃ n, nbr sg e.1 e.2 = .some n) ∧
      (∀ e ∈ ws, (entry g e).isSome) ∧ totalWeight g ws ≤ (es.map d).sum ∧ ∀ x, totalEnds g x ws % 2 = (es.flatMap edgeEnds).count x % 2 := by
  intro es
  induction es with
  | nil => intro _ ss hf; exact ⟨0, ss, [], [], hf, fun _ _ => rfl, .nil, by simp, by simp, by simp [totalWeight], by simp [totalEnds]⟩
  | cons e es ih =>
    intro hes ss hf
    obtain ⟨⟨a, vs, h1, h2, h3, -⟩, hnd, hr⟩ := hes e (by simp)
    have ha : a < numNodes := hr a (by simp [edgeEnds, h1])
    obtain ⟨W0, r0, hW0⟩ := walk_route h ht h2 ha
    obtain ⟨N1, p, p', W, ss1, k1, k2, k3, k4, k5⟩ := Props.Search.C25_from_middle hg ss hf a e.locTo (by
        intro hb
        simp [edgeEnds, h1, hb] at hnd) vs W0 r0 (by
        intro b hb
        rw [ht.len]
        exact hr b (by simp [edgeEnds, hb])) (by rw [ht.len]; exact ha)
    obtain ⟨N2, ss', ps, ws, l1, l2, l3, l4, l5, l6, l7⟩ := ih (fun x hx => hes x (by simp [hx])) ss1 k3
    obtain ⟨w1, w2⟩ := route_walk h ht k1
    refine ⟨max N1 N2, ss', p' ++ ps, p ++ ws, l1, ?_, ?_, ?_, ?_, ?_, ?_⟩
    · intro f hf
      simp only [searchAll, h1, k5 f (le_trans (le_max_left _ _) hf), l2 f (le_trans (le_max_right _ _) hf)]
    · rw [List.map_append, List.map_append]
      exact k4.append l3
    · intro x hx
      rcases List.mem_append.1 hx with hx | hx
      · have : undirected sg x ∈ p.map (undirected sg) := k4.mem_iff.1 (List.mem_map_of_mem hx)
        obtain ⟨y, hy, hxy⟩ := List.mem_map.1 this
        obtain ⟨m, hm⟩ := Option.isSome_iff_exists.1 (walk_slots w1 y hy)
        obtain ⟨n, hn, -⟩ := slot_twin h ht hm
        rw [undirected, hn, undirected, Option.map_some] at hxy
        obtain ⟨n', hn', -⟩ := Option.map_eq_some_iff.1 hxy.symm
        exact ⟨n', hn'⟩
      · exact l4 x hx
    · intro x hx
      rcases List.mem_append.1 hx with hx | hx
      · exact walk_slots w1 x hx
      · exact l5 x hx
    · have := k2.2 vs W0 r0
      rw [totalWeight] at l6 w2 ⊢
      rw [List.map_append, List.sum_append, List.map_cons, List.sum_cons, w2]
      omega
    · intro x
      have := l7 x
      have hw := walk_ends w1 x
      rw [totalEnds] at this hw ⊢
      rw [List.map_append, List.sum_append, List.flatMap_cons, List.count_append]
      have hc : (edgeEnds e).count x = (if a = x then 1 else 0) + (if e.locTo = .some x then 1 else 0) := by
        rw [edgeEnds, h1]
        cases e.locTo <;> simp [List.count_cons, Nat.add_comm]
      omega

/-- Everything that the searches yield. -/
theorem collect (h : run (MGraph.empty numNodes numObs) ops = .some g) (ht : Twin numNodes sg ops) (hg : Proper g) (hp : (ops.filterMap pairOf).Nodup)
    {T : Finset Nat} {x : Extract} (hx : Answer g T x) (hT : ∀ v ∈ T, v < numNodes) (ss : Sch.SS) (hf : Fresh ss) :
    ∃ N ss' ps I, Fresh ss' ∧ (∀ f, N ≤ f → searchAll sg f ss x.edges = .some (.ok (ss', ps))) ∧ Behind numObs g sg ops ps I ∧
      Optimal absWeight (oddOf I) T ∧ absWeight (oddOf I) = x.weight ∧ (I.map fun i => |(ops[i]).w|).sum = x.weight := by
  obtain ⟨d, hd1, hd2⟩ := hx.paths
  obtain ⟨N, ss', ps, ws, k1, k2, k3, k4, k5, k6, k7⟩ := searchAll_spec h ht (good_of_run h ht hg) d x.edges (by
    intro e he
    refine ⟨hd1 e he, List.Nodup.sublist (List.sublist_flatten_of_mem (List.mem_map_of_mem he)) hx.once, fun v hv => hT v ((hx.covers v).1 ?_)⟩
    exact List.mem_flatMap.2 ⟨e, he, hv⟩) ss hf
  obtain ⟨I, hI⟩ := behind_exists h ht ps k4
  obtain ⟨J, hJ⟩ := behind_exists h ht ws (by
    intro e he
    obtain ⟨m, hm⟩ := Option.isSome_iff_exists.1 (k5 e he)
    obtain ⟨n, hn, -⟩ := slot_twin h ht hm
    exact ⟨n, hn⟩)
  have hperm := behind_perm h hp hI hJ k3
  have hends : ∀ v, totalEnds g v ws = (J.map fun i => (ops[i]).incidence v).sum := by
    intro v
    unfold totalEnds
    clear hperm k3 k5 k6 k7
    unfold Behind at hJ
    induction hJ with
    | nil => rfl
    | cons h1 _ ih => simp only [List.map_cons, List.sum_cons, ih, h1.1.ends v]
  have hwt : totalWeight g ws = (J.map fun i => |(ops[i]).w|).sum := by
    unfold totalWeight
    clear hperm k3 k5 k6 k7 hends
    unfold Behind at hJ
    induction hJ with
    | nil => rfl
    | cons h1 _ ih => simp only [List.map_cons, List.sum_cons, ih, h1.1.weight]
  have hcor : Corrects g T ws := by
    refine ⟨k5, fun v => ?_⟩
    rw [k7 v, List.Nodup.count hx.once, ← hx.covers v]
    by_cases hv : v ∈ x.edges.flatMap edgeEnds <;> simp [hv]
  have hsum : (I.map fun i => |(ops[i]).w|).sum = x.weight := by
    rw [(hperm.map _).sum_eq, ← hwt]
    have := hx.least ws hcor
    omega
  have hexp : Explains (oddOf I) T := by
    intro v
    rw [hcor.2 v, hends v]
    unfold degree
    rw [oddOf_sum (fun i => (ops[i]).incidence v), (hperm.map _).sum_eq]
  have hle : absWeight (oddOf I) ≤ x.weight := by
    rw [← hsum]
    exact oddOf_le (fun i => |(ops[i]).w|) (fun i => abs_nonneg _) I
  have hleast : ∀ c : Correction ops, Explains c T → x.weight ≤ absWeight c := by
    intro c hc
    obtain ⟨ws', l1, l2⟩ := slots_of_correction h hc
    have := hx.least ws' l1
    omega
  exact ⟨N, ss', ps, I, k1, k2, hI, ⟨hexp, fun c hc => le_trans hle (hleast c hc)⟩, le_antisymm hle (hleast _ hexp), hsum⟩

/-! ## The buffer of predictions -/

/-- A byte that is 1 for odd numbers. -/
def parity (n : Nat) : BitVec 8 := if n % 2 = 1 then 1#8 else 0#8

theorem parity_add (a b : Nat) : parity (a + b) = parity a ^^^ parity b := by
  unfold parity
  rcases Nat.mod_two_eq_zero_or_one a with h1 | h1 <;> rcases Nat.mod_two_eq_zero_or_one b with h2 | h2 <;>
    simp [Nat.add_mod, h1, h2]

theorem flipBytes_spec : ∀ (os : List Nat) (buf : List (BitVec 8)), (∀ o ∈ os, o < buf.length) →
    ∃ buf', flipBytes buf os = .ok buf' ∧ buf'.length = buf.length ∧ ∀ k, buf'[k]? = (buf[k]?).map (· ^^^ parity (os.count k)) := by
  intro os
  induction os with
  | nil => intro buf _; exact ⟨buf, rfl, rfl, fun k => by simp [parity]⟩
  | cons o os ih =>
    intro buf ho
    have h0 : o < buf.length := ho o (by simp)
    have hs : flipByte buf o = .ok (buf.set o (buf[o] ^^^ 1#8)) := by simp [flipByte, h0]
    obtain ⟨buf', h1, h2, h3⟩ := ih (buf.set o (buf[o] ^^^ 1#8)) (by
      intro x hx
      rw [List.length_set]
      exact ho x (by simp [hx]))
    refine ⟨buf', by simp only [flipBytes, hs, Sch.Res.bind, h1], by simpa using h2, fun k => ?_⟩
    rw [h3 k, List.getElem?_set, List.count_cons, parity_add]
    by_cases hk : o = k
    · subst hk
      simp only [if_true, h0, Option.map_some, List.getElem?_eq_getElem, beq_self_eq_true]
      rw [BitVec.xor_assoc, BitVec.xor_comm (1#8)]
      rfl
    · simp [hk, parity]

theorem takeEdges_spec {ps : List (Nat × Nat)} {I : List (Fin ops.length)} (hI : Behind numObs g sg ops ps I) :
    ∀ (buf : List (BitVec 8)) (w : Int), (∀ op ∈ ops, ∀ o ∈ op.obs, o < buf.length) →
    ∃ buf', takeEdges sg buf w ps = .ok (buf', w + (I.map fun i => |(ops[i]).w|).sum) ∧ buf'.length = buf.length ∧
      ∀ k, buf'[k]? = (buf[k]?).map (· ^^^ parity (I.map fun i => (ops[i]).obs.count k).sum) := by
  induction hI with
  | nil => intro buf w _; exact ⟨buf, by simp [takeEdges], rfl, fun k => by simp [parity]⟩
  | @cons e i ps I h1 _ ih =>
    intro buf w ho
    obtain ⟨-, n, hn⟩ := h1
    obtain ⟨b1, k1, k2, k3⟩ := flipBytes_spec n.obs buf (by rw [hn.obs]; exact ho _ (List.getElem_mem _))
    obtain ⟨b2, l1, l2, l3⟩ := ih b1 (w + n.weight) (by rw [k2]; exact ho)
    refine ⟨b2, ?_, l2.trans k2, ?_⟩
    · rw [hn.weight] at l1
      simp only [takeEdges, hn.slot, k1, Sch.Res.bind, hn.weight, l1, List.map_cons, List.sum_cons, add_assoc]
    · intro k
      rw [l3 k, k3 k, Option.map_map, List.map_cons, List.sum_cons, parity_add, ← hn.obs]
      congr 1
      funext b
      simp [BitVec.xor_assoc]

/-! ## The list of edges -/

/-- The two ends of an edge of the result. -/
def symOf (e : Nat × Option Nat) : Sym2 (Option Nat) := s(.some e.1, e.2)

theorem sameEdge_sym (e e' : Nat × Option Nat) : Props.EdgeMarks.sameEdge e e' = true ↔ symOf e = symOf e' := by
  obtain ⟨u, t⟩ := e
  obtain ⟨u', t'⟩ := e'
  cases t <;> cases t' <;> simp [Props.EdgeMarks.sameEdge, symOf]

theorem occurrences_sym (e : Nat × Option Nat) (l : List (Nat × Option Nat)) [DecidableEq (Sym2 (Option Nat))] :
    Props.EdgeMarks.occurrences e l = (l.map symOf).count (symOf e) := by
  unfold Props.EdgeMarks.occurrences
  rw [List.count, List.countP_map]
  refine List.countP_congr fun x _ => ?_
  rw [sameEdge_sym, Function.comp, beq_iff_eq, eq_comm]

theorem negEdges_listed : ∀ (l : List EdgeIns), (l.filterMap negEdge).map symOf =
    (l.filterMap fun op => if op.w < 0 ∧ negEdge op ≠ .none then .some (endsOf op) else .none) := by
  intro l
  rw [List.map_filterMap]
  congr 1
  funext op
  cases op with
  | edge u v w o =>
    by_cases huv : u = v
    · simp [negEdge, huv]
    · by_cases hw : w < 0 <;> simp [negEdge, huv, hw, EdgeIns.w, symOf, endsOf]
  | bdry u w o => by_cases hw : w < 0 <;> simp [negEdge, hw, EdgeIns.w, symOf, endsOf]

theorem negEdge_some (op : EdgeIns) : negEdge op ≠ .none ↔ op.w < 0 ∧ ¬ IsLoop op := by
  cases op with
  | edge u v w o => by_cases huv : u = v <;> simp [negEdge, huv, EdgeIns.w, IsLoop]
  | bdry u w o => simp [negEdge, EdgeIns.w, IsLoop]

/-- The positions of the recorded negative edges. -/
theorem neg_positions (ops : List EdgeIns) : ∃ N : List (Fin ops.length), N.Nodup ∧ (∀ i, i ∈ N ↔ (ops[i]).w < 0 ∧ ¬ IsLoop ops[i]) ∧
    (ops.filterMap negEdge).map symOf = N.map fun i => endsOf ops[i] := by
  classical
  refine ⟨(List.finRange ops.length).filter fun i => decide (negEdge ops[i] ≠ .none), (List.nodup_finRange _).filter _, ?_, ?_⟩
  · intro i
    rw [List.mem_filter, decide_eq_true_eq, negEdge_some]
    simp
  · rw [negEdges_listed]
    conv_lhs => rw [← List.map_getElem_finRange ops]
    rw [List.filterMap_map]
    induction List.finRange ops.length with
    | nil => rfl
    | cons i l ih =>
      by_cases hn : negEdge ops[i] ≠ .none
      · have hw := ((negEdge_some _).1 hn).1
        rw [List.filter_cons_of_pos (by simpa using hn), List.map_cons, ← ih, List.filterMap_cons_some]
        simp only [Function.comp]
        rw [if_pos ⟨hw, hn⟩]
        rfl
      · rw [List.filter_cons_of_neg (by simpa using hn), ← ih, List.filterMap_cons_none]
        simp only [Function.comp]
        exact if_neg fun h => hn h.2

theorem neg_isEdge (h : run (MGraph.empty numNodes numObs) ops = .some g) (ht : Twin numNodes sg ops) :
    ∀ e ∈ sg.negEdges, Props.EdgeMarks.IsEdge sg e := by
  intro e he
  rw [ht.neg, List.mem_filterMap] at he
  obtain ⟨op, hop, hop2⟩ := he
  have hr := in_range h hop
  rw [(C13_adjacency numNodes numObs ops g h).1] at hr
  cases op with
  | edge u v w o =>
    simp only [negEdge] at hop2
    split at hop2
    · cases hop2
    rename_i huv
    split at hop2
    · cases hop2
      obtain ⟨i, hi⟩ := op_twin h ht hop (u := u) hr.1 (r := (.some v, w, o)) (.inr (by simp [seenFrom, huv]))
      exact ⟨i, _, hi, rfl⟩
    · cases hop2
  | bdry u w o =>
    simp only [negEdge] at hop2
    split at hop2
    · cases hop2
      obtain ⟨i, hi⟩ := op_twin h ht hop (u := u) hr (r := (.none, w, o)) (.inl (by simp [seenBdry]))
      exact ⟨i, _, hi, rfl⟩
    · cases hop2

/-- The edges of `out` are those insertions of `c` that are not self-loops, each once. -/
def Lists (out : List (Nat × Option Nat)) (c : Correction ops) : Prop :=
  (out.map symOf).Nodup ∧ ∀ z, z ∈ out.map symOf ↔ ∃ i ∈ c, ¬ IsLoop ops[i] ∧ endsOf ops[i] = z

theorem toEdges_spec (h : run (MGraph.empty numNodes numObs) ops = .some g) (ht : Twin numNodes sg ops) (hg : Proper g)
    (hp : (ops.filterMap pairOf).Nodup) {ps : List (Nat × Nat)} {I : List (Fin ops.length)} (hI : Behind numObs g sg ops ps I) :
    ∃ out, Sch.toEdges sg (fun _ _ => false) sg.negEdges ps = .ok (fun _ _ => false, out) ∧ Lists out (symmDiff (oddOf I) (negatives ops)) := by
  classical
  obtain ⟨pe, hpe, hpe2⟩ : ∃ pe, ps.mapM (Props.EdgeMarks.slotEdge sg) = .some pe ∧ pe.map symOf = I.map fun i => endsOf ops[i] := by
    induction hI with
    | nil => exact ⟨[], rfl, rfl⟩
    | @cons e i ps I h1 _ ih =>
      obtain ⟨pe, k1, k2⟩ := ih
      obtain ⟨-, n, hn⟩ := h1
      refine ⟨(e.1, n.target) :: pe, ?_, ?_⟩
      · rw [List.mapM_cons, k1, Props.EdgeMarks.slotEdge, hn.slot]; rfl
      · rw [List.map_cons, List.map_cons, k2, ← hn.ends]; rfl
  obtain ⟨out, h1, h2, h3, h4⟩ := Props.EdgeMarks.C24_edges_of_odd_multiplicity (good_of_run h ht hg).simple sg.negEdges (neg_isEdge h ht) ps pe hpe
  obtain ⟨N, n1, n2, n3⟩ := neg_positions ops
  have hmap : (sg.negEdges ++ pe).map symOf = (N ++ I).map fun i => endsOf ops[i] := by
    rw [List.map_append, List.map_append, hpe2, ht.neg, n3]
  have hnl : ∀ i ∈ N ++ I, ¬ IsLoop ops[i] := by
    intro i hi
    rcases List.mem_append.1 hi with hi | hi
    · exact ((n2 i).1 hi).2
    · exact behind_noloop hI i hi
  have hcount : ∀ i, ¬ IsLoop ops[i] → ((N ++ I).map fun i => endsOf ops[i]).count (endsOf ops[i]) = (N ++ I).count i := by
    intro i hi
    rw [List.count, List.count, List.countP_map]
    refine List.countP_congr fun j hj => ?_
    simp only [Function.comp, beq_iff_eq]
    exact ⟨fun hh => ends_inj h hp j i (hnl j hj) hi hh, fun hh => by rw [hh]⟩
  have hodd : ∀ i, ¬ IsLoop ops[i] → ((N ++ I).count i % 2 = 1 ↔ i ∈ symmDiff (oddOf I) (negatives ops)) := by
    intro i hi
    rw [List.count_append, n1.count, Finset.mem_symmDiff]
    have hneg : i ∈ negatives ops ↔ i ∈ N := by rw [n2]; simp only [negatives, Finset.mem_filter, Finset.mem_univ, true_and]; exact ⟨fun hh => ⟨hh, hi⟩, fun hh => hh.1⟩
    have hodd' : i ∈ oddOf I ↔ I.count i % 2 = 1 := by
      rw [oddOf, Finset.mem_filter]
      simp only [Finset.mem_univ, true_and]
    rw [hneg, hodd']
    by_cases hiN : i ∈ N <;> simp [hiN] <;> omega
  refine ⟨out, h1, ?_, ?_⟩
  · rw [List.Nodup, List.pairwise_map]
    refine h3.imp fun {a b} hab hh => ?_
    rw [(sameEdge_sym a b).2 hh] at hab
    cases hab
  · intro z
    constructor
    · intro hz
      obtain ⟨e, he, rfl⟩ := List.mem_map.1 hz
      have hm : symOf e ∈ (N ++ I).map fun i => endsOf ops[i] := by rw [← hmap]; exact List.mem_map_of_mem (h2 e he)
      obtain ⟨i, hi, hie⟩ := List.mem_map.1 hm
      have := (h4 e).1 ⟨e, he, (sameEdge_sym e e).2 rfl⟩
      rw [occurrences_sym, hmap, ← hie, hcount i (hnl i hi), Nat.odd_iff] at this
      exact ⟨i, (hodd i (hnl i hi)).1 this, hnl i hi, hie⟩
    · rintro ⟨i, hi, hil, rfl⟩
      have hc := (hodd i hil).2 hi
      have hiN : i ∈ N ++ I := by
        by_contra hn
        rw [List.count_eq_zero_of_not_mem hn] at hc
        cases hc
      have hm : endsOf ops[i] ∈ (sg.negEdges ++ pe).map symOf := by rw [hmap]; exact List.mem_map.2 ⟨i, hiN, rfl⟩
      obtain ⟨e, -, hee⟩ := List.mem_map.1 hm
      obtain ⟨e', he', hs⟩ := (h4 e).2 (by rw [occurrences_sym, hmap, hee, hcount i hil, Nat.odd_iff]; exact hc)
      rw [List.mem_map]
      exact ⟨e', he', by rw [← (sameEdge_sym e e').1 hs, hee]⟩

end Verif.SB
