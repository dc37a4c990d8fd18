import Verif.Reweight

/-!
# Property of temporary reweighting (C12)
-/

namespace Verif.Props.Reweight

open Verif.RW

/-- C12 (undo).  Whatever rules are applied, in whatever order and however often, undoing restores every weight
cell exactly and empties the undo log.  No assumption is made about aliasing of cells. -/
theorem C12_undo_restores (m : Mem) (rounds : List (List ImpliedWeight)) :
    (rounds.foldl State.apply ⟨m, []⟩).undo = ⟨m, []⟩ := by
  have h : ∀ (s : State), (rounds.foldl State.apply s).undo = s.undo := by
    induction rounds with
    | nil => intro s; rfl
    | cons r rs ih => intro s; exact (ih _).trans (undo_apply r s)
  rw [h]; rfl

/-- C12 (correlated decode).  `reweight_for_edges` either refuses, without touching any weight, exactly when the
graph was loaded without correlations, or is undone exactly. -/
theorem C12_reweight_for_edges {E : Type} (m : Mem) (wo : Bool) (rulesOf : E → List ImpliedWeight) (edges : List E) :
    (wo = true → State.reweightForEdges ⟨m, []⟩ wo rulesOf edges = none) ∧
    (wo = false → ∃ s, State.reweightForEdges ⟨m, []⟩ wo rulesOf edges = some s ∧ s.undo = ⟨m, []⟩) := by
  constructor
  · rintro rfl; rfl
  · rintro rfl
    refine ⟨_, rfl, ?_⟩
    rw [foldl_apply, undo_apply]; rfl

/-- C12 (effect).  On a graph whose edges have equal weights at both ends, while reweights are applied:
the ends still agree, no weight has increased, and each cell holds the minimum of its original weight and all the
implied weights that target its edge. -/
theorem C12_effect (P : Pairing) (m : Mem) (rs : List ImpliedWeight) (hs : Symmetric P m) (hr : ∀ r ∈ rs, RuleOk P r) :
    let m' := (State.apply ⟨m, []⟩ rs).mem
    Symmetric P m' ∧ (∀ a, m' a ≤ m a) ∧
    (∀ a, ∀ r ∈ rs, (a = r.edge0 ∨ some a = r.edge1) → m' a ≤ r.weight) ∧
    (∀ a, m' a = m a ∨ ∃ r ∈ rs, (a = r.edge0 ∨ some a = r.edge1) ∧ m' a = r.weight) := by
  intro m'
  obtain ⟨h1, h2⟩ := apply_mem P rs ⟨m, []⟩ hs hr
  have hmin : ∀ (l : List Nat) (x : Nat), l.foldl min x ≤ x ∧ (∀ y ∈ l, l.foldl min x ≤ y) ∧
      (l.foldl min x = x ∨ l.foldl min x ∈ l) := by
    intro l
    induction l with
    | nil => intro x; simp
    | cons y ys ih =>
      intro x
      obtain ⟨a, b, c⟩ := ih (min x y)
      refine ⟨by simp only [List.foldl_cons]; omega, ?_, ?_⟩
      · intro z hz
        rcases List.mem_cons.1 hz with rfl | hz
        · simp only [List.foldl_cons]; omega
        · exact b z hz
      · simp only [List.foldl_cons]
        rcases c with c | c
        · rw [c]
          by_cases hxy : x ≤ y
          · left; omega
          · right; rw [List.mem_cons]; left; omega
        · right; exact List.mem_cons_of_mem _ c
  have e : ∀ a, m' a = (targeting a rs).foldl min (m a) := h2
  have memt : ∀ a w, w ∈ targeting a rs ↔ ∃ r ∈ rs, (a = r.edge0 ∨ some a = r.edge1) ∧ r.weight = w := by
    intro a w
    simp only [targeting, List.mem_map, List.mem_filter, decide_eq_true_eq]
    constructor
    · rintro ⟨r, ⟨h, h'⟩, h''⟩; exact ⟨r, h, h', h''⟩
    · rintro ⟨r, h, h', h''⟩; exact ⟨r, ⟨h, h'⟩, h''⟩
  refine ⟨h1, fun a => ?_, fun a r hr hra => ?_, fun a => ?_⟩
  · rw [e a]; exact (hmin _ _).1
  · rw [e a]; exact (hmin _ _).2.1 _ ((memt a _).2 ⟨r, hr, hra, rfl⟩)
  · rcases (hmin (targeting a rs) (m a)).2.2 with h | h
    · left; rw [e a]; exact h
    · right
      obtain ⟨r, h3, h4, h5⟩ := (memt a _).1 h
      exact ⟨r, h3, h4, by rw [e a, h5]⟩

/-- Two cells `(0,0)` and `(1,0)` of one edge, and a boundary cell `(2,0)`; three rules, two of which hit. -/
def examplePairing : Pairing where
  twin := fun p => if p = (0, 0) then some (1, 0) else if p = (1, 0) then some (0, 0) else none
  symm := by
    intro p q h
    by_cases h1 : p = (0, 0)
    · subst h1; simp at h; subst h; decide
    · by_cases h2 : p = (1, 0)
      · subst h2; simp at h; subst h; decide
      · simp [h1, h2] at h
  ne := by
    intro p h
    by_cases h1 : p = (0, 0)
    · subst h1; simp at h
    · by_cases h2 : p = (1, 0)
      · subst h2; simp at h
      · simp [h1, h2] at h

example : let m : Mem := fun p => if p = (2, 0) then 4 else 10
    let rs : List ImpliedWeight := [⟨(0, 0), some (1, 0), 8⟩, ⟨(2, 0), none, 6⟩, ⟨(1, 0), some (0, 0), 2⟩]
    Symmetric examplePairing m ∧ (∀ r ∈ rs, RuleOk examplePairing r) ∧
    (State.apply ⟨m, []⟩ rs).mem (0, 0) = 2 ∧ (State.apply ⟨m, []⟩ rs).mem (2, 0) = 4 := by
  refine ⟨?_, ?_, by decide, by decide⟩
  · intro p q h
    by_cases h1 : p = (0, 0)
    · subst h1; simp [examplePairing] at h; subst h; decide
    · by_cases h2 : p = (1, 0)
      · subst h2; simp [examplePairing] at h; subst h; decide
      · simp [examplePairing, h1, h2] at h
  · intro r hr
    simp only [List.mem_cons, List.not_mem_nil, or_false] at hr
    rcases hr with rfl | rfl | rfl <;> simp [RuleOk, examplePairing]

end Verif.Props.Reweight
