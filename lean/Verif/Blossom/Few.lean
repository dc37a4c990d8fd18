import Verif.Blossom.Short
import Mathlib.Data.List.Nodup
import Mathlib.Data.Fintype.Card
import Mathlib.Data.Finset.Card

/-!
# The 32-bit wrapped radius: graphs with few edges between detectors

A path of at most 64 edges has a weight below `2^31`, since the greatest weight of an edge is `2^25 - 2`.
-/

namespace Verif.SB

open Verif Verif.Graph Verif.Spec

variable {g : MGraph}

/-- No edge has a weight above `2 (2^24 - 1)`, the greatest that rounding yields. -/
def Light (g : MGraph) : Prop := ∀ u i n, entry g (u, i) = some n → n.weight ≤ 33554430

/-- A check of all weights. -/
theorem light_of_all (h : ∀ l ∈ g.nodes, ∀ n ∈ l, n.weight ≤ 33554430) : Light g := by
  intro u i n e
  unfold entry at e
  cases hl : g.nodes[u]? with
  | none => rw [hl] at e; cases e
  | some l =>
    rw [hl] at e
    exact h l (List.mem_of_getElem? hl) n (List.mem_of_getElem? e)

/-- A walk from a later node on a walk. -/
theorem walk_from {u x : Nat} {t : Option Nat} {es : List Slot} (w : Walk g u t es) (hx : x ∈ es.map (·.1)) :
    ∃ fs, Walk g x t fs ∧ fs <:+ es ∧ fs ≠ [] := by
  induction w with
  | here u => cases hx
  | @step u i v n t es h hv w ih =>
    simp only [List.map_cons, List.mem_cons] at hx
    rcases hx with rfl | hx
    · exact ⟨_, .step h hv w, List.suffix_rfl, by simp⟩
    · obtain ⟨fs, h1, h2, h3⟩ := ih hx
      exact ⟨fs, h1, h2.trans (List.suffix_cons _ _), h3⟩
  | @exit u i n h hv =>
    simp only [List.map_cons, List.map_nil, List.mem_singleton] at hx
    subst hx
    exact ⟨_, .exit h hv, List.suffix_rfl, by simp⟩

/-- Every walk between detectors can be cut down to one that visits no node twice. -/
theorem walk_simple {u v : Nat} {es : List Slot} (w : Walk g u (some v) es) :
    ∃ fs, Walk g u (some v) fs ∧ (fs.map (·.1) ++ [v]).Nodup := by
  generalize ht : (some v : Option Nat) = t at w
  induction w with
  | here u =>
    obtain rfl : v = u := by simpa using ht
    exact ⟨[], by exact .here _, by simp⟩
  | @step u i x n t es h hv w ih =>
    subst ht
    obtain ⟨fs, h1, h2⟩ := ih rfl
    by_cases hx : u ∈ fs.map (·.1) ++ [v]
    · rcases List.mem_append.1 hx with hx | hx
      · obtain ⟨fs', h3, h4, -⟩ := walk_from h1 hx
        refine ⟨fs', h3, h2.sublist ?_⟩
        exact List.Sublist.append (h4.sublist.map _) (List.Sublist.refl _)
      · obtain rfl : u = v := by simpa using hx
        exact ⟨[], .here _, by simp⟩
    · exact ⟨_, .step h hv h1, by simpa using And.intro (by simpa using hx) h2⟩
  | exit => cases ht

/-- The nodes of a walk that is not empty are nodes of the graph. -/
theorem walk_nodes (hg : Proper g) {u v : Nat} {es : List Slot} (w : Walk g u (some v) es) (hne : es ≠ []) :
    ∀ x ∈ es.map (·.1) ++ [v], x < g.nodes.length := by
  have inside : ∀ {x i : Nat} {n : Nbr}, entry g (x, i) = some n → x < g.nodes.length := by
    intro x i n h
    by_contra hx
    unfold entry at h
    rw [List.getElem?_eq_none (by simpa using hx)] at h
    cases h
  generalize ht : (some v : Option Nat) = t at w
  induction w with
  | here u => exact absurd rfl hne
  | @step u i x n t es h hv w ih =>
    subst ht
    intro y hy
    simp only [List.map_cons, List.cons_append, List.mem_cons] at hy
    rcases hy with rfl | hy
    · exact inside h
    · cases hes : es with
      | nil =>
        rw [hes] at hy w
        obtain rfl : y = v := by simpa using hy
        cases w
        obtain ⟨-, j, n', h', -⟩ := hg.sym _ _ _ _ h hv
        exact inside h'
      | cons e es' => exact ih (by rw [hes]; simp) rfl y hy
  | exit => cases ht

/-- The weight of a list of edges. -/
theorem totalWeight_le (hl : Light g) (es : List Slot) : Spec.totalWeight g es ≤ 33554430 * (es.length : Int) := by
  induction es with
  | nil => simp [Spec.totalWeight]
  | cons e es ih =>
    have h1 : slotWeight g e ≤ 33554430 := by
      unfold slotWeight
      cases h : entry g e with
      | none => decide
      | some n => have := hl e.1 e.2 n h; simp only; exact_mod_cast this
    simp only [Spec.totalWeight, List.map_cons, List.sum_cons, List.length_cons, Nat.cast_add, Nat.cast_one] at ih ⊢
    omega

/-- A graph is short if connected detectors are joined by at most 64 edges. -/
theorem short_of_hops (hl : Light g) (h : ∀ u v es, Walk g u (some v) es → ∃ fs, Walk g u (some v) fs ∧ fs.length ≤ 64) : Short g := by
  intro u v es w
  obtain ⟨fs, h1, h2⟩ := h u v es w
  refine ⟨fs, h1, ?_⟩
  have := totalWeight_le hl fs
  omega

/-- A graph with at most 65 nodes is short. -/
theorem short_of_few (hg : Proper g) (hl : Light g) (h : g.nodes.length ≤ 65) : Short g := by
  refine short_of_hops hl fun u v es w => ?_
  obtain ⟨fs, h1, h2⟩ := walk_simple w
  refine ⟨fs, h1, ?_⟩
  cases hfs : fs with
  | nil => simp
  | cons e fs' =>
    have h3 := walk_nodes hg h1 (by rw [hfs]; simp)
    have h4 : (fs.map (·.1) ++ [v]).length ≤ g.nodes.length := by
      have h5 := List.toFinset_card_of_nodup h2
      rw [← h5, ← Finset.card_range g.nodes.length]
      exact Finset.card_le_card fun x hx => Finset.mem_range.2 (h3 x (List.mem_toFinset.1 hx))
    rw [List.length_append, List.length_map, List.length_singleton] at h4
    rw [hfs] at h4
    omega

end Verif.SB
