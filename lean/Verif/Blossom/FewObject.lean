import Verif.Blossom.NarrowObject
import Verif.Blossom.Few
import Verif.Props.Discretise

/-!
# The 32-bit wrapped radius: user graphs with few edges between detectors
-/

namespace Verif.Props.Narrow

open Verif Verif.Graph Verif.SB Verif.UG Verif.Conv Verif.Obj
open Verif.Props.EndToEnd Verif.Props.UserGraph Verif.Props.Answers Verif.Props.Paths

variable {K : Type} [Field K] [LinearOrder K] [IsStrictOrderedRing K] [FloorRing K]

/-- Any two detectors that are connected through detectors are connected by a path of at most 64 edges. -/
def Hops (g : UGraph K) : Prop :=
  ∀ scale, Scale g scale → ∀ u v ns W, Trail g scale u (some v) ns W → ∃ ns' W', Trail g scale u (some v) ns' W' ∧ ns'.length ≤ 65

/-- The rounded weight of an edge is at most `2 (2^24 - 1)`. -/
theorem rounded_le {g : UGraph K} {scale : K} (hs : Scale g scale) {e : UEdge K} (he : e ∈ g.edges) : |rounded scale e| ≤ 33554430 := by
  obtain ⟨c, hc, rfl⟩ := hs
  have hm : e.weight ∈ Props.Discretise.allWeights g := List.mem_flatMap.2 ⟨e, he, by simp⟩
  have h := (Props.Discretise.C19_weights g c hc e.weight hm).2.2.1
  have e2 : (2 * c) / 2 = c := by field_simp
  rw [rounded, e2]
  norm_num at h
  exact h

/-- The weight of a path, by the number of its nodes. -/
theorem trail_weight {g : UGraph K} {scale : K} (hs : Scale g scale) {u v : Nat} {ns : List Nat} {W : Int} (r : Trail g scale u (some v) ns W) :
    W + 33554430 ≤ 33554430 * (ns.length : Int) := by
  generalize ht : (some v : Option Nat) = t at r
  induction r with
  | here h hb => simp
  | @step u x t ns W e he hj r ih =>
    have h1 := ih ht
    have h2 := rounded_le hs he
    simp only [List.length_cons, Nat.cast_add, Nat.cast_one]
    omega
  | exit => cases ht

/-- Few edges between detectors suffice. -/
theorem near_of_hops {g : UGraph K} (h : Hops g) : Near g := by
  intro scale hs u v ns W r
  obtain ⟨ns', W', h1, h2⟩ := h scale hs u v ns W r
  have := trail_weight hs h1
  exact ⟨ns', W', h1, by omega⟩

omit [IsStrictOrderedRing K] in
/-- A path from a later node on a path. -/
theorem trail_from {g : UGraph K} {scale : K} {u x : Nat} {t : Option Nat} {ns : List Nat} {W : Int} (r : Trail g scale u t ns W) (hx : x ∈ ns) :
    ∃ ns' W', Trail g scale x t ns' W' ∧ ns' <:+ ns := by
  induction r with
  | here h hb =>
    obtain rfl := List.mem_singleton.1 hx
    exact ⟨_, _, .here h hb, List.suffix_rfl⟩
  | @step u v t ns W e he hj r ih =>
    rcases List.mem_cons.1 hx with rfl | hx
    · exact ⟨_, _, .step he hj r, List.suffix_rfl⟩
    · obtain ⟨ns', W', h1, h2⟩ := ih hx
      exact ⟨ns', W', h1, h2.trans (List.suffix_cons _ _)⟩
  | exit he hl =>
    obtain rfl := List.mem_singleton.1 hx
    exact ⟨_, _, .exit he hl, List.suffix_rfl⟩

omit [IsStrictOrderedRing K] in
/-- Every path can be cut down to one that visits no node twice. -/
theorem trail_simple {g : UGraph K} {scale : K} {u : Nat} {t : Option Nat} {ns : List Nat} {W : Int} (r : Trail g scale u t ns W) :
    ∃ ns' W', Trail g scale u t ns' W' ∧ ns'.Nodup := by
  induction r with
  | here h hb => exact ⟨_, _, .here h hb, by simp⟩
  | @step u v t ns W e he hj r ih =>
    obtain ⟨ns', W', h1, h2⟩ := ih
    by_cases hx : u ∈ ns'
    · obtain ⟨ms, V, h3, h4⟩ := trail_from h1 hx
      exact ⟨ms, V, h3, h2.sublist h4.sublist⟩
    · exact ⟨_, _, .step he hj h1, List.nodup_cons.2 ⟨hx, h2⟩⟩
  | exit he hl => exact ⟨_, _, .exit he hl, by simp⟩

omit [IsStrictOrderedRing K] in
/-- The nodes of a path are nodes of the graph. -/
theorem trail_nodes {g : UGraph K} (hw : WF g) {scale : K} {u v : Nat} {ns : List Nat} {W : Int} (r : Trail g scale u (some v) ns W) :
    ∀ x ∈ ns, x < g.nodes.length := by
  generalize ht : (some v : Option Nat) = t at r
  induction r with
  | here h hb => intro x hx; obtain rfl := List.mem_singleton.1 hx; exact h
  | @step u x t ns W e he hj r ih =>
    intro y hy
    rcases List.mem_cons.1 hy with rfl | hy
    · obtain ⟨i, hi, rfl⟩ := List.getElem_of_mem he
      obtain ⟨-, -, hne, ⟨h1, h2⟩ | ⟨h1, h2⟩⟩ := hj
      · obtain ⟨n, hn, -⟩ := hw.fwd1 i hi
        rw [h1] at hn
        exact (List.getElem?_eq_some_iff.1 hn).1
      · obtain ⟨n, hn, -⟩ := hw.fwd2 i hi y h2 (by rw [h1]; exact hne)
        exact (List.getElem?_eq_some_iff.1 hn).1
    · exact ih ht y hy
  | exit => cases ht

omit [IsStrictOrderedRing K] in
/-- A graph with at most 65 nodes has at most 64 edges between connected detectors. -/
theorem hops_of_few {g : UGraph K} (hw : WF g) (h : g.nodes.length ≤ 65) : Hops g := by
  intro scale _ u v ns W r
  obtain ⟨ns', W', h1, h2⟩ := trail_simple r
  refine ⟨ns', W', h1, ?_⟩
  have h3 := trail_nodes hw h1
  rw [← List.toFinset_card_of_nodup h2]
  refine le_trans ?_ h
  rw [← Finset.card_range g.nodes.length]
  exact Finset.card_le_card fun x hx => Finset.mem_range.2 (h3 x (List.mem_toFinset.1 hx))

/-- A graph with at most 65 nodes is near. -/
theorem near_of_few {g : UGraph K} (hw : WF g) (h : g.nodes.length ≤ 65) : Near g := near_of_hops (hops_of_few hw h)

omit [IsStrictOrderedRing K] in
/-- The weight of a path, by the number of its nodes and the largest weight of an edge. -/
theorem trail_weight_le {g : UGraph K} {scale : K} {B : Int} (hB : ∀ e ∈ g.edges, |rounded scale e| ≤ B) {u v : Nat} {ns : List Nat} {W : Int}
    (r : Trail g scale u (some v) ns W) : W + B ≤ B * (ns.length : Int) := by
  generalize ht : (some v : Option Nat) = t at r
  induction r with
  | here h hb => simp
  | @step u x t ns W e he hj r ih =>
    have h1 := ih ht
    have h2 := hB e he
    rw [List.length_cons]
    push_cast
    rw [mul_add, mul_one]
    omega
  | exit => cases ht

/-- A graph with integer weights is near if the largest weight times the number of nodes is at most `2^30`. -/
theorem near_of_integers {g : UGraph K} (hw : WF g) (hi : ∀ w ∈ Props.Discretise.allWeights g, Props.Discretise.IsInt w) (M : Nat)
    (hM : ∀ e ∈ g.edges, |e.weight| ≤ M) (h : M * g.nodes.length ≤ 2 ^ 30) : Near g := by
  intro scale hs u v ns W r
  obtain ⟨c, hc, rfl⟩ := hs
  have h1 := ((Props.Discretise.C19_constant g numDistinctWeights).2 c hc).1 hi
  subst h1
  obtain ⟨ns', W', h1, h2⟩ := trail_simple r
  refine ⟨ns', W', h1, ?_⟩
  have hlen : ns'.length ≤ g.nodes.length := by
    have h3 := trail_nodes hw h1
    rw [← List.toFinset_card_of_nodup h2, ← Finset.card_range g.nodes.length]
    exact Finset.card_le_card fun x hx => Finset.mem_range.2 (h3 x (List.mem_toFinset.1 hx))
  have h4 : W' + 2 * (M : Int) ≤ 2 * (M : Int) * (ns'.length : Int) := by
    refine trail_weight_le (fun e he => ?_) h1
    obtain ⟨z, hz⟩ := hi e.weight (List.mem_flatMap.2 ⟨e, he, by simp⟩)
    have h5 := hM e he
    have e2 : (2 * 1 : K) / 2 = 1 := by norm_num
    rw [rounded, e2, disc, mul_one, ← hz, Props.Discretise.cround_int]
    rw [← hz] at h5
    have : |z| ≤ M := by exact_mod_cast h5
    rw [abs_le] at this ⊢
    omega
  have h6 : (M : Int) * (ns'.length : Int) ≤ 2 ^ 30 := by
    refine le_trans (mul_le_mul_of_nonneg_left (Int.ofNat_le.2 hlen) (by omega)) ?_
    exact_mod_cast h
  rw [mul_assoc] at h4
  rcases Nat.eq_zero_or_pos M with rfl | hpos
  · simp only [Nat.cast_zero, mul_zero, add_zero, zero_mul] at h4
    omega
  · omega

end Verif.Props.Narrow
