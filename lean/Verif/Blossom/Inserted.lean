import Verif.Props.EndToEnd

/-!
# Edges inserted with merge strategy "smallest-weight"

Every edge that is kept is one of the inserted ones, with all its data; and for every inserted edge there is a kept one with the same ends and no
larger weight.  So for the purpose of finding explanations of least weight, nothing is lost.
-/

namespace Verif.Inserted

open Verif Verif.UG Verif.Conv
open Verif.Props.UserGraph Verif.Props.EndToEnd

variable {K : Type} [Field K] [LinearOrder K]

/-- The call that inserts an edge. -/
def callOf (s : Strategy) (e : UEdge K) : Call K := .add e.node1 e.node2 e.obs e.weight e.prob s

/-- The graph consists of the edges `f i`, `i` in `L`, of which among those with the same ends one of least weight is kept. -/
structure Kept {ι : Type} (f : ι → UEdge K) (L : List ι) (g : UGraph K) : Prop where
  wf : WF g
  src : ∀ j (h : j < g.edges.length), ∃ i ∈ L, g.edges[j].key = (f i).key ∧ g.edges[j].obs = (f i).obs ∧ g.edges[j].weight = (f i).weight ∧
    g.edges[j].implied = []
  hit : ∀ i ∈ L, ∃ j, ∃ h : j < g.edges.length, g.edges[j].key = (f i).key ∧ g.edges[j].weight ≤ (f i).weight

variable {ι : Type} {f : ι → UEdge K} {L : List ι} {g : UGraph K}

theorem kept_new (n m : Nat) : Kept f [] (UGraph.new n m : UGraph K) :=
  ⟨wf_new n m, by simp [UGraph.new], by simp⟩

theorem kept_add (mergeW : K → K → K) (h : Kept f L g) (i : ι) :
    Kept f (L ++ [i]) (exec mergeW g (callOf .smallestWeight (f i))).1 ∧ (exec mergeW g (callOf .smallestWeight (f i))).2 = true := by
  unfold callOf
  rcases add_cases mergeW h.wf (f i).node1 (f i).node2 (f i).obs (f i).weight (f i).prob .smallestWeight with ⟨g', e, hw, he, -⟩ | ⟨ei, hei, hk, e⟩
  · rw [e]
    refine ⟨⟨hw, ?_, ?_⟩, rfl⟩
    · intro j hj
      simp only [he] at hj ⊢
      by_cases hlt : j < g.edges.length
      · obtain ⟨i', hi', hh⟩ := h.src j hlt
        refine ⟨i', List.mem_append_left _ hi', ?_⟩
        simpa only [List.getElem_append_left hlt] using hh
      · have : j = g.edges.length := by simp at hj; omega
        subst this
        exact ⟨i, by simp, by simp [UEdge.key], by simp, by simp, by simp⟩
    · intro i' hi'
      rcases List.mem_append.1 hi' with hi' | hi'
      · obtain ⟨j, hj, hh⟩ := h.hit i' hi'
        refine ⟨j, by rw [he]; simp; omega, ?_⟩
        simp only [he, List.getElem_append_left hj]
        exact hh
      · obtain rfl : i' = i := by simpa using hi'
        refine ⟨g.edges.length, by rw [he]; simp, ?_⟩
        simp [he, UEdge.key]
  · rw [e]
    rcases mergeEdge_cases mergeW h.wf ei hei (f i).obs (f i).weight (f i).prob .smallestWeight with ⟨hh, -⟩ | ⟨-, g', e', he, hw, hed, h1, h2, -, b, hd, -⟩
    · cases hh
    · rw [he]
      refine ⟨?_, rfl⟩
      have hkey : e'.key = g.edges[ei].key := by unfold UEdge.key; rw [h1, h2]
      have hdat : ((e'.obs = g.edges[ei].obs ∧ e'.weight = g.edges[ei].weight ∧ e'.weight ≤ (f i).weight) ∨
          (e'.obs = (f i).obs ∧ e'.weight = (f i).weight ∧ e'.weight ≤ g.edges[ei].weight)) ∧ e'.implied = g.edges[ei].implied := by
        simp only [mergeData] at hd
        split at hd
        · rename_i hge
          simp only [Option.some.injEq, Prod.mk.injEq] at hd
          rw [← hd.1]
          exact ⟨.inl ⟨rfl, rfl, hge⟩, rfl⟩
        · rename_i hge
          simp only [Option.some.injEq, Prod.mk.injEq] at hd
          rw [← hd.1]
          exact ⟨.inr ⟨rfl, rfl, (not_le.1 hge).le⟩, rfl⟩
      refine ⟨hw, ?_, ?_⟩
      · intro j hj
        have hj' : j < g.edges.length := by rw [hed] at hj; simpa using hj
        obtain ⟨i', hi', k1, k2, k3, k4⟩ := h.src j hj'
        simp only [hed]
        by_cases hji : ei = j
        · subst hji
          rw [List.getElem_set_self]
          rcases hdat with ⟨⟨d1, d2, -⟩ | ⟨d1, d2, -⟩, d3⟩
          · exact ⟨i', List.mem_append_left _ hi', hkey.trans k1, d1.trans k2, d2.trans k3, d3.trans k4⟩
          · exact ⟨i, by simp, hkey.trans hk, d1, d2, d3.trans k4⟩
        · rw [List.getElem_set_ne hji]
          exact ⟨i', List.mem_append_left _ hi', k1, k2, k3, k4⟩
      · intro i' hi'
        have hle : e'.weight ≤ g.edges[ei].weight := by
          rcases hdat.1 with ⟨-, d2, -⟩ | ⟨-, -, d3⟩
          · exact d2.le
          · exact d3
        rcases List.mem_append.1 hi' with hi' | hi'
        · obtain ⟨j, hj, k1, k2⟩ := h.hit i' hi'
          refine ⟨j, by rw [hed]; simpa using hj, ?_⟩
          simp only [hed]
          by_cases hji : ei = j
          · subst hji
            rw [List.getElem_set_self]
            exact ⟨hkey.trans k1, hle.trans k2⟩
          · rw [List.getElem_set_ne hji]
            exact ⟨k1, k2⟩
        · obtain rfl : i' = i := by simpa using hi'
          refine ⟨ei, by rw [hed]; simpa using hei, ?_⟩
          simp only [hed, List.getElem_set_self]
          refine ⟨hkey.trans hk, ?_⟩
          rcases hdat.1 with ⟨-, -, d3⟩ | ⟨-, d2, -⟩
          · exact d3
          · exact d2.le

theorem kept_run (mergeW : K → K → K) (L' : List ι) : ∀ {L : List ι} {g : UGraph K}, Kept f L g →
    Kept f (L ++ L') (run mergeW g (L'.map fun i => callOf .smallestWeight (f i))) := by
  induction L' with
  | nil => intro L g h; simpa [run] using h
  | cons i L' ih =>
    intro L g h
    have := ih (kept_add mergeW h i).1
    rw [List.append_assoc] at this
    exact this

theorem kept_boundary (h : Kept f L g) (B : List Nat) (mergeW : K → K → K) : Kept f L (exec mergeW g (.setBoundary B)).1 :=
  ⟨wf_exec mergeW h.wf _, h.src, h.hit⟩

/-! ## Sets of inserted edges -/

section
omit [Field K] [LinearOrder K]

theorem ends_of_key {e e' : UEdge K} (h : e.key = e'.key) (x : Nat) : endsAt e x = endsAt e' x := by
  unfold UEdge.key at h
  rcases (key_eq_iff _ _ _ _).1 h with ⟨h1, h2⟩ | ⟨v, h1, h2, h3⟩
  · unfold endsAt; rw [h1, h2]
  · unfold endsAt
    rw [h1, h2, h3, Nat.add_comm]
    simp

end

open Classical in
/-- The kept edges, as inserted ones. -/
noncomputable def origin (h : Kept f L g) (j : Fin g.edges.length) : ι := (h.src j j.2).choose

theorem origin_spec (h : Kept f L g) (j : Fin g.edges.length) : origin h j ∈ L ∧ g.edges[j].key = (f (origin h j)).key ∧
    g.edges[j].obs = (f (origin h j)).obs ∧ g.edges[j].weight = (f (origin h j)).weight :=
  have := (h.src j j.2).choose_spec
  ⟨this.1, this.2.1, this.2.2.1, this.2.2.2.1⟩

theorem origin_inj (h : Kept f L g) : Function.Injective (origin h) := by
  intro j j' e
  have h1 := (origin_spec h j).2.1
  have h2 := (origin_spec h j').2.1
  rw [e] at h1
  exact Fin.ext (h.wf.uniq j j' j.2 j'.2 (h1.trans h2.symm))

/-- A set of kept edges, as a set of inserted ones. -/
noncomputable def expand (h : Kept f L g) (C : Choice g) : Finset ι := C.map ⟨origin h, origin_inj h⟩

theorem expand_mem (h : Kept f L g) (C : Choice g) : ∀ i ∈ expand h C, i ∈ L := by
  intro i hi
  obtain ⟨j, -, rfl⟩ := Finset.mem_map.1 hi
  exact (origin_spec h j).1

theorem expand_degree (h : Kept f L g) (C : Choice g) (x : Nat) : ∑ i ∈ expand h C, endsAt (f i) x = degree C x := by
  unfold expand degree
  rw [Finset.sum_map]
  exact Finset.sum_congr rfl fun j _ => (ends_of_key (origin_spec h j).2.1 x).symm

theorem expand_crossed (h : Kept f L g) (C : Choice g) (k : Nat) : ∑ i ∈ expand h C, (f i).obs.count k = crossed C k := by
  unfold expand crossed
  rw [Finset.sum_map]
  exact Finset.sum_congr rfl fun j _ => by rw [(origin_spec h j).2.2.1]; rfl

variable [IsStrictOrderedRing K] [FloorRing K]

theorem expand_total (h : Kept f L g) (C : Choice g) (scale : K) : ∑ i ∈ expand h C, rounded scale (f i) = total scale C := by
  unfold expand total
  rw [Finset.sum_map]
  exact Finset.sum_congr rfl fun j _ => by unfold rounded; rw [(origin_spec h j).2.2.2]; rfl

omit [IsStrictOrderedRing K] [FloorRing K] in
open Classical in
/-- A set of inserted edges, as a set of kept ones: those for which an odd number of inserted edges with the same ends is in the set. -/
noncomputable def collapse (f : ι → UEdge K) (g : UGraph K) (S : Finset ι) : Choice g :=
  Finset.univ.filter fun j => (S.filter fun i => (f i).key = g.edges[j].key).card % 2 = 1

omit [IsStrictOrderedRing K] [FloorRing K] in
open Classical in
theorem fiber_sum (h : Kept f L g) {S : Finset ι} (hS : ∀ i ∈ S, i ∈ L) {M : Type} [AddCommMonoid M] (w : ι → M) :
    ∑ i ∈ S, w i = ∑ j : Fin g.edges.length, ∑ i ∈ S.filter (fun i => (f i).key = g.edges[j].key), w i := by
  have hc : ∀ i ∈ S, ∃ j : Fin g.edges.length, (f i).key = g.edges[j].key := by
    intro i hi
    obtain ⟨j, hj, hk, -⟩ := h.hit i (hS i hi)
    exact ⟨⟨j, hj⟩, hk.symm⟩
  simp only [Finset.sum_filter]
  rw [Finset.sum_comm]
  refine Finset.sum_congr rfl fun i hi => ?_
  obtain ⟨j, hj⟩ := hc i hi
  rw [Finset.sum_eq_single j, if_pos hj]
  · intro j' _ hne
    rw [if_neg]
    intro hk
    exact hne (Fin.ext (h.wf.uniq j' j j'.2 j.2 (hk.symm.trans hj)))
  · intro hn; exact absurd (Finset.mem_univ _) hn

omit [IsStrictOrderedRing K] [FloorRing K] in
open Classical in
theorem collapse_degree (h : Kept f L g) {S : Finset ι} (hS : ∀ i ∈ S, i ∈ L) (x : Nat) :
    degree (collapse f g S) x % 2 = (∑ i ∈ S, endsAt (f i) x) % 2 := by
  rw [fiber_sum h hS]
  have : ∀ j : Fin g.edges.length, ∑ i ∈ S.filter (fun i => (f i).key = g.edges[j].key), endsAt (f i) x =
      (S.filter fun i => (f i).key = g.edges[j].key).card * endsAt g.edges[j] x := by
    intro j
    rw [Finset.card_eq_sum_ones, Finset.sum_mul]
    refine Finset.sum_congr rfl fun i hi => ?_
    rw [Finset.mem_filter] at hi
    rw [one_mul, ends_of_key hi.2]
  simp only [this]
  unfold degree collapse
  rw [Finset.sum_filter, Finset.sum_nat_mod]
  conv_rhs => rw [Finset.sum_nat_mod]
  congr 1
  refine Finset.sum_congr rfl fun j _ => ?_
  split
  · rename_i h1; rw [Nat.mul_mod, h1]; simp
  · rename_i h1
    have : (S.filter fun i => (f i).key = g.edges[j].key).card % 2 = 0 := by omega
    rw [Nat.mul_mod, this]; simp

theorem rounded_pair {scale : K} (hs : 0 < scale) {a b : UEdge K} (h : 0 ≤ a.weight + b.weight) : 0 ≤ rounded scale a + rounded scale b := by
  have hc : 0 < scale / 2 := by linarith
  have h3 := (Props.Discretise.C19_monotone_odd (scale / 2) hc (-b.weight) a.weight).1 (by linarith)
  rw [(Props.Discretise.C19_monotone_odd (scale / 2) hc 0 b.weight).2.1] at h3
  show 0 ≤ disc _ _ + disc _ _
  linarith

theorem rounded_mono {scale : K} (hs : 0 < scale) {a b : UEdge K} (h : a.weight ≤ b.weight) : rounded scale a ≤ rounded scale b :=
  (Props.Discretise.C19_monotone_odd (scale / 2) (by linarith) a.weight b.weight).1 h

theorem rounded_nonneg {scale : K} (hs : 0 < scale) {a : UEdge K} (h : 0 ≤ a.weight) : 0 ≤ rounded scale a :=
  (Props.Discretise.C19_monotone_odd (scale / 2) (by linarith) 0 a.weight).2.2 h

open Classical in
theorem collapse_total (h : Kept f L g) {S : Finset ι} (hS : ∀ i ∈ S, i ∈ L) {scale : K} (hs : 0 < scale)
    (hp : ∀ i ∈ L, ∀ i' ∈ L, i ≠ i' → (f i).key = (f i').key → 0 ≤ (f i).weight + (f i').weight) :
    total scale (collapse f g S) ≤ ∑ i ∈ S, rounded scale (f i) := by
  rw [fiber_sum h hS]
  unfold total collapse
  rw [Finset.sum_filter]
  refine Finset.sum_le_sum fun j _ => ?_
  refine sum_pairs (fun i => rounded scale (f i)) (rounded scale g.edges[j]) _ _ rfl ?_ ?_
  · intro i hi i' hi' hne
    rw [Finset.mem_filter] at hi hi'
    exact rounded_pair hs (hp i (hS i hi.1) i' (hS i' hi'.1) hne (hi.2.trans hi'.2.symm))
  · intro i hi
    rw [Finset.mem_filter] at hi
    obtain ⟨j', hj', hk, hle⟩ := h.hit i (hS i hi.1)
    have : j' = j := h.wf.uniq j' j hj' j.2 (hk.trans hi.2)
    subst this
    exact rounded_mono hs hle

end Verif.Inserted
