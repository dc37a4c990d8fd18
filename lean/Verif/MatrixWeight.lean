import Verif.Props.MatrixDecode
import Verif.Props.Double

/-!
# Histories and sets of edges, by true weight

Lemmas for C66: as in `Verif.Props.MatrixDecode`, for weights that are not rounded.
-/

namespace Verif.MatrixWeight

open Verif Verif.Graph Verif.CM Verif.UG Verif.Conv Verif.Obj Verif.Inserted
open Verif.Props.UserGraph Verif.Props.CheckMatrix Verif.Props.EndToEnd Verif.Props.UserEdges Verif.Props.MatrixDecode

variable {K : Type} [Field K] [LinearOrder K] [IsStrictOrderedRing K]

theorem sum_pairs_K {ι : Type} [DecidableEq ι] (w : ι → K) (b : K) : ∀ (n : Nat) (S : Finset ι), S.card = n →
    (∀ i ∈ S, ∀ j ∈ S, i ≠ j → 0 ≤ w i + w j) → (∀ i ∈ S, b ≤ w i) → (if S.card % 2 = 1 then b else 0) ≤ ∑ i ∈ S, w i := by
  intro n
  induction n using Nat.strong_induction_on with
  | _ n ih =>
    intro S hS hp hb
    rcases Nat.lt_or_ge n 2 with hn | hn
    · rcases (show S.card = 0 ∨ S.card = 1 by omega) with h | h
      · rw [Finset.card_eq_zero] at h; subst h; simp
      · obtain ⟨a, rfl⟩ := Finset.card_eq_one.1 h
        simpa using hb a (by simp)
    · obtain ⟨a, ha, c, hc, hac⟩ := Finset.one_lt_card.1 (by omega : 1 < S.card)
      have hc' : c ∈ S.erase a := Finset.mem_erase.2 ⟨hac.symm, hc⟩
      have h1 := Finset.card_erase_of_mem ha
      have h2 := Finset.card_erase_of_mem hc'
      have h3 := ih (n - 2) (by omega) ((S.erase a).erase c) (by omega)
        (fun i hi j hj => hp i (Finset.mem_of_mem_erase (Finset.mem_of_mem_erase hi)) j (Finset.mem_of_mem_erase (Finset.mem_of_mem_erase hj)))
        (fun i hi => hb i (Finset.mem_of_mem_erase (Finset.mem_of_mem_erase hi)))
      have h4 := Finset.add_sum_erase S w ha
      have h5 := Finset.add_sum_erase (S.erase a) w hc'
      have h6 := hp a ha c hc hac
      have h7 : ((S.erase a).erase c).card % 2 = S.card % 2 := by omega
      rw [h7] at h3
      linarith

section
variable {ι : Type} {f : ι → UEdge K} {L : List ι} {g : UGraph K}

omit [IsStrictOrderedRing K] in
theorem expand_weight (h : Kept f L g) (C : Choice g) : ∑ i ∈ expand h C, (f i).weight = trueWeight C := by
  unfold expand trueWeight
  rw [Finset.sum_map]
  exact Finset.sum_congr rfl fun j _ => by rw [(origin_spec h j).2.2.2]; rfl

omit [IsStrictOrderedRing K] in
theorem expand_card (h : Kept f L g) (C : Choice g) : (expand h C).card = C.card := by
  unfold expand
  rw [Finset.card_map]

open Classical in
theorem collapse_weight (h : Kept f L g) {S : Finset ι} (hS : ∀ i ∈ S, i ∈ L)
    (hp : ∀ i ∈ L, ∀ i' ∈ L, i ≠ i' → (f i).key = (f i').key → 0 ≤ (f i).weight + (f i').weight) :
    trueWeight (collapse f g S) ≤ ∑ i ∈ S, (f i).weight := by
  rw [fiber_sum h hS]
  unfold trueWeight collapse
  rw [Finset.sum_filter]
  refine Finset.sum_le_sum fun j _ => ?_
  refine sum_pairs_K (fun i => (f i).weight) g.edges[j].weight _ _ rfl ?_ ?_
  · intro i hi i' hi' hne
    rw [Finset.mem_filter] at hi hi'
    exact hp i (hS i hi.1) i' (hS i' hi'.1) hne (hi.2.trans hi'.2.symm)
  · intro i hi
    rw [Finset.mem_filter] at hi
    obtain ⟨j', hj', hk, hle⟩ := h.hit i (hS i hi.1)
    have : j' = j := h.wf.uniq j' j hj' j.2 (hk.trans hi.2)
    subst this
    exact hle

omit [IsStrictOrderedRing K] in
open Classical in
theorem collapse_card (h : Kept f L g) {S : Finset ι} (hS : ∀ i ∈ S, i ∈ L) : (collapse f g S).card ≤ S.card := by
  rw [Finset.card_eq_sum_ones S, fiber_sum h hS]
  unfold collapse
  rw [Finset.card_eq_sum_ones, Finset.sum_filter]
  refine Finset.sum_le_sum fun j _ => ?_
  rw [← Finset.card_eq_sum_ones]
  split
  · omega
  · exact Nat.zero_le _

omit [IsStrictOrderedRing K] in
theorem edges_le (h : Kept f L g) : g.edges.length ≤ L.length := by
  classical
  have h1 : (Finset.univ.map ⟨origin h, origin_inj h⟩ : Finset ι).card ≤ L.toFinset.card :=
    Finset.card_le_card fun i hi => by
      obtain ⟨j, -, rfl⟩ := Finset.mem_map.1 hi
      exact List.mem_toFinset.2 (origin_spec h j).1
  rw [Finset.card_map, Finset.card_univ, Fintype.card_fin] at h1
  exact h1.trans (List.toFinset_card_le L)

end

variable {P : Problem K} [FloorRing K]

omit [LinearOrder K] [IsStrictOrderedRing K] [FloorRing K] [Field K] in
theorem items_length : (items P).length ≤ P.reps * (P.n + P.rows) := by
  unfold items
  rw [List.length_append, List.length_flatMap, List.length_flatMap]
  simp only [List.length_map]
  rw [List.map_const', List.map_const', List.sum_replicate, List.sum_replicate, List.length_finRange, List.length_finRange, smul_eq_mul, smul_eq_mul,
    List.length_finRange, Nat.mul_add]
  refine Nat.add_le_add (Nat.mul_le_mul_left _ ((List.length_filter_le _ _).trans ?_)) (Nat.mul_le_mul_right _ (Nat.sub_le _ _))
  rw [List.length_finRange]

section
variable (hm : Mild P) (virt : Bool)
include hm

omit [FloorRing K] in
theorem reduced_weight (E : History P) : ∑ i ∈ reduced E, (item P virt i).weight ≤ weightOf E := by
  classical
  unfold reduced causes weightOf
  rw [Finset.sum_filter, Finset.sum_disjSum]
  refine add_le_add (Finset.sum_le_sum fun x _ => ?_) (Finset.sum_le_sum fun x _ => ?_)
  · obtain ⟨t, c⟩ := x
    split
    · rename_i hi
      rw [(item_weight hm.two virt hi).1]
    · rename_i hi
      rw [mem_left, not_not] at hi
      exact hm.zero c hi
  · obtain ⟨t, r⟩ := x
    rw [if_pos (mem_right t r), (item_weight hm.two virt (mem_right t r)).1]

omit [IsStrictOrderedRing K] [FloorRing K] in
theorem weight_of {S : Finset (Cause P)} (hS : ∀ i ∈ S, i ∈ items P) : weightOf (ofCauses S) = ∑ i ∈ S, (item P virt i).weight := by
  conv_rhs => rw [← causes_of S]
  unfold weightOf causes
  rw [Finset.sum_disjSum]
  congr 1
  refine Finset.sum_congr rfl fun x hx => ?_
  rw [(item_weight hm.two virt (hS _ (Finset.mem_toLeft.1 hx))).1]

end

omit [LinearOrder K] [IsStrictOrderedRing K] [FloorRing K] [Field K] in
theorem reduced_card (E : History P) : (reduced E).card ≤ size E := by
  classical
  unfold reduced size
  refine (Finset.card_filter_le _ _).trans ?_
  unfold causes
  rw [Finset.card_disjSum]

omit [LinearOrder K] [IsStrictOrderedRing K] [FloorRing K] [Field K] in
theorem size_of (S : Finset (Cause P)) : size (ofCauses S) = S.card := by
  conv_rhs => rw [← causes_of S]
  unfold size causes
  rw [Finset.card_disjSum]

section
variable {virt : Bool} {g : UGraph K} (hl : Loaded P virt g) (hin : ∀ c, ∀ r ∈ P.col c, r < P.rows) (hm : Mild P)
include hl hin hm

omit [IsStrictOrderedRing K] [FloorRing K] in
/-- A set of edges that explains the events is a history that accounts for them. -/
theorem history_of {events : List Nat} (hev : ∀ d ∈ events, d < g.nodes.length) {C : Choice g} (hC : Props.EndToEnd.Explains C events) :
    ∃ E : History P, Accounts E events ∧ weightOf E = trueWeight C ∧ size E = C.card ∧ (∀ k, flipped E k = Props.EndToEnd.crossed C k) ∧
      (∀ i ∈ causes E, i ∈ items P) ∧ ∀ κ, (∃ j ∈ C, g.edges[j].key = κ) ↔ ∃ i ∈ causes E, (item P virt i).key = κ := by
  have hS := expand_mem hl.kept C
  refine ⟨ofCauses (expand hl.kept C), ?_, ?_, ?_, fun k => ?_, by rw [causes_of]; exact hS, fun κ => ?_⟩
  · refine (explains_iff hl (C := C) (fun t r ht hr => ?_) hev).1 hC
    rw [← reduced_ends hin hm.two virt _ ht hr, reduced_eq _ hS, expand_degree]
  · rw [weight_of hm virt hS, expand_weight]
  · rw [size_of, expand_card]
  · rw [flipped_of hm virt hS, expand_crossed]
  · rw [causes_of]
    unfold expand
    constructor
    · rintro ⟨j, hj, rfl⟩
      exact ⟨_, Finset.mem_map_of_mem _ hj, (origin_spec hl.kept j).2.1.symm⟩
    · rintro ⟨i, hi, rfl⟩
      obtain ⟨j, hj, rfl⟩ := Finset.mem_map.1 hi
      exact ⟨j, hj, (origin_spec hl.kept j).2.1⟩

omit [FloorRing K] in
/-- A history that accounts for the events gives a set of edges that explains them and is not heavier. -/
theorem choice_of {events : List Nat} (hev : ∀ d ∈ events, d < g.nodes.length) {E : History P} (hE : Accounts E events) :
    ∃ C : Choice g, Props.EndToEnd.Explains C events ∧ trueWeight C ≤ weightOf E ∧ C.card ≤ size E := by
  have hR : ∀ i ∈ reduced E, i ∈ items P := by
    classical
    intro i hi
    exact (Finset.mem_filter.1 hi).2
  refine ⟨collapse (item P virt) g (reduced E), (explains_iff hl (fun t r ht hr => ?_) hev).2 hE, ?_, (collapse_card hl.kept hR).trans (reduced_card E)⟩
  · rw [collapse_degree hl.kept hR, reduced_ends hin hm.two virt _ ht hr]
  · exact (collapse_weight hl.kept hR fun i hi i' hi' hne hk => same_ends hin hm virt hi hi' hne hk).trans (reduced_weight hm virt E)

end

end Verif.MatrixWeight
