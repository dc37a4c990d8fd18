import Verif.CompressedEdge

/-!
# Property of compressed edges (C10)
-/

namespace Verif.Props.CompressedEdge

open Verif.CE

/-! ## Specification: walks -/

/-- A step of a walk: where it leads, and the observables it crosses. -/
structure Step where
  target : Option Nat
  obs : ObsInt

/-- Where a walk that starts at `s` ends. -/
def walkEnd (s : Option Nat) : List Step → Option Nat
  | [] => s
  | x :: xs => walkEnd x.target xs

/-- Number of steps of the walk that cross observable `i`. -/
def crossings (i : Nat) (w : List Step) : Nat := w.countP (fun x => x.obs.getLsbD i)

/-- The single-step edges of a walk starting at `s`. -/
def stepEdges (s : Option Nat) : List Step → List CompressedEdge
  | [] => []
  | x :: xs => ⟨s, x.target, x.obs⟩ :: stepEdges x.target xs

/-- Concatenation along a walk, starting from the trivial edge at `s`. -/
def compress (s : Option Nat) (w : List Step) : CompressedEdge :=
  (stepEdges s w).foldl CompressedEdge.mergedWith ⟨s, s, 0⟩

/-- The walk traversed backwards. -/
def backwards (s : Option Nat) : List Step → List Step
  | [] => []
  | x :: xs => backwards x.target xs ++ [⟨s, x.obs⟩]

theorem crossings_cons (i : Nat) (x : Step) (xs : List Step) :
    crossings i (x :: xs) = crossings i xs + if x.obs.getLsbD i then 1 else 0 := by
  simp [crossings, List.countP_cons]

theorem foldl_spec (w : List Step) (s : Option Nat) (e : CompressedEdge) (he : e.locTo = s) :
    let r := (stepEdges s w).foldl CompressedEdge.mergedWith e
    r.locFrom = e.locFrom ∧ r.locTo = walkEnd s w ∧
      ∀ i, r.obsMask.getLsbD i = (e.obsMask.getLsbD i ^^ decide (crossings i w % 2 = 1)) := by
  induction w generalizing s e with
  | nil => simp [stepEdges, walkEnd, crossings, he]
  | cons x xs ih =>
    simp only [stepEdges, List.foldl_cons, walkEnd]
    obtain ⟨h1, h2, h3⟩ := ih x.target (e.mergedWith ⟨s, x.target, x.obs⟩) rfl
    refine ⟨h1, h2, fun i => ?_⟩
    rw [h3 i]
    rw [crossings_cons]
    simp only [CompressedEdge.mergedWith, BitVec.getLsbD_xor]
    cases hx : x.obs.getLsbD i
    · simp [hx]
    · have h : ∀ n : Nat, decide ((n + 1) % 2 = 1) = !decide (n % 2 = 1) := by
        intro n; by_cases hn : n % 2 = 1
        · simp [hn]; omega
        · simp [hn]; omega
      simp [hx, h, Bool.xor_assoc]

/-- C10.  Concatenating the steps of a walk gives the edge from its start to its end; bit `i` of the mask
is set iff the walk crosses observable `i` an odd number of times. -/
theorem C10_concatenation (s : Option Nat) (w : List Step) :
    (compress s w).locFrom = s ∧ (compress s w).locTo = walkEnd s w ∧
    ∀ i, (compress s w).obsMask.getLsbD i = true ↔ crossings i w % 2 = 1 := by
  obtain ⟨h1, h2, h3⟩ := foldl_spec w s ⟨s, s, 0⟩ rfl
  refine ⟨h1, h2, fun i => ?_⟩
  unfold compress
  rw [h3 i]; simp

/-- C10.  Concatenation is associative. -/
theorem C10_assoc (a b c : CompressedEdge) :
    (a.mergedWith b).mergedWith c = a.mergedWith (b.mergedWith c) := by
  simp [CompressedEdge.mergedWith, BitVec.xor_assoc]

/-- C10.  Reversal is an involution that swaps the ends, keeps the mask and reverses concatenation. -/
theorem C10_reversed (a b : CompressedEdge) :
    a.reversed.reversed = a ∧ a.reversed.locFrom = a.locTo ∧ a.reversed.locTo = a.locFrom ∧
    a.reversed.obsMask = a.obsMask ∧ (a.mergedWith b).reversed = b.reversed.mergedWith a.reversed := by
  refine ⟨rfl, rfl, rfl, rfl, ?_⟩
  simp [CompressedEdge.mergedWith, CompressedEdge.reversed, BitVec.xor_comm]

theorem walkEnd_append (w v : List Step) (s : Option Nat) : walkEnd s (w ++ v) = walkEnd (walkEnd s w) v := by
  induction w generalizing s with
  | nil => rfl
  | cons x xs ih => exact ih _

theorem backwards_end (w : List Step) (s : Option Nat) : walkEnd (walkEnd s w) (backwards s w) = s := by
  induction w generalizing s with
  | nil => rfl
  | cons x xs ih =>
    show walkEnd (walkEnd x.target xs) (backwards x.target xs ++ [⟨s, x.obs⟩]) = s
    rw [walkEnd_append, ih]; rfl

theorem crossings_backwards (i : Nat) (w : List Step) (s : Option Nat) :
    crossings i (backwards s w) = crossings i w := by
  induction w generalizing s with
  | nil => rfl
  | cons x xs ih =>
    have := ih x.target
    simp only [crossings] at this
    simp only [crossings, backwards, List.countP_append, List.countP_cons, this, List.countP_nil]
    omega

/-- C10.  The edge of the walk traversed backwards is the reversed edge. -/
theorem C10_walk_reversed (s : Option Nat) (w : List Step) :
    compress (walkEnd s w) (backwards s w) = (compress s w).reversed := by
  obtain ⟨a1, a2, a3⟩ := C10_concatenation s w
  obtain ⟨b1, b2, b3⟩ := C10_concatenation (walkEnd s w) (backwards s w)
  have e3 : (compress (walkEnd s w) (backwards s w)).obsMask = (compress s w).obsMask := by
    apply BitVec.eq_of_getLsbD_eq
    intro i _
    rw [Bool.eq_iff_iff, b3, a3, crossings_backwards]
  rw [backwards_end] at b2
  rcases h1 : compress (walkEnd s w) (backwards s w) with ⟨x, y, z⟩
  rcases h2 : compress s w with ⟨x', y', z'⟩
  rw [h1] at b1 b2 e3
  rw [h2] at a1 a2 e3
  simp only at a1 a2 b1 b2 e3
  simp [CompressedEdge.reversed, a1, a2, b1, b2, e3]

/-- C10.  A walk followed by its reverse is a closed walk with empty mask. -/
theorem C10_there_and_back (s : Option Nat) (w : List Step) :
    (compress s w).mergedWith (compress (walkEnd s w) (backwards s w)) = ⟨s, s, 0⟩ := by
  rw [C10_walk_reversed]
  obtain ⟨a1, a2, -⟩ := C10_concatenation s w
  simp [CompressedEdge.mergedWith, CompressedEdge.reversed, a1]

/-- A non-trivial walk: observable 1 is crossed twice, observable 0 once; it ends at the boundary. -/
example : compress (some 3) [⟨some 4, 3#64⟩, ⟨some 9, 2#64⟩, ⟨none, 0⟩] = ⟨some 3, none, 1#64⟩ := by decide

end Verif.Props.CompressedEdge
