import Verif.Varying

/-!
# Properties of time-varying radii (C07, C08)
-/

namespace Verif.Props.Varying

open Verif.Vary

/-! ## Specification: a piecewise linear quantity -/

/-- A request to change the growth rate at a time. -/
inductive Change where
  | grow (t : Int)
  | shrink (t : Int)
  | freeze (t : Int)

/-- Spec state: at time `since` the value was `value`; from then on it moves with rate `rate`. -/
structure Motion where
  since : Int
  value : Int
  rate : Int

/-- The value at time `t` (elapsed time times rate). -/
def Motion.at (m : Motion) (t : Int) : Int := m.value + m.rate * (t - m.since)

/-- A change of rate keeps the value it has at that time. -/
def Motion.change (m : Motion) : Change → Motion
  | .grow t => ⟨t, m.at t, 1⟩
  | .shrink t => ⟨t, m.at t, -1⟩
  | .freeze t => ⟨t, m.at t, 0⟩

/-- The model's reaction to a change. -/
def applyChange (v : Varying) : Change → Varying
  | .grow t => v.thenGrowingAt t
  | .shrink t => v.thenShrinkingAt t
  | .freeze t => v.thenFrozenAt t

/-- C07 (one change).  The value at the time of change is kept, the rate afterwards is the requested one. -/
theorem C07_change_is_continuous (v : Varying) (t t' : Int) :
    (v.thenGrowingAt t).distanceAt t' = v.distanceAt t + (t' - t) ∧
    (v.thenShrinkingAt t).distanceAt t' = v.distanceAt t - (t' - t) ∧
    (v.thenFrozenAt t).distanceAt t' = v.distanceAt t ∧
    (v.thenGrowingAt t).isGrowing = true ∧ (v.thenShrinkingAt t).isShrinking = true ∧
    (v.thenShrinkingAt t).isGrowing = false ∧ (v.thenFrozenAt t).isFrozen = true := by
  obtain ⟨a1, a2, a3⟩ := thenGrowing_spec v t
  obtain ⟨b1, b2, b3⟩ := thenShrinking_spec v t
  obtain ⟨c1, c2, c3⟩ := thenFrozen_spec v t
  refine ⟨?_, ?_, ?_, ?_, ?_, ?_, ?_⟩
  · rw [distanceAt_eq, a2, a3]; omega
  · rw [distanceAt_eq, b2, b3]; omega
  · rw [distanceAt_eq, c2, c3]; omega
  · rcases valid_cases _ a1 with h | h | h
    · exact h.1
    · omega
    · omega
  · rcases valid_cases _ b1 with h | h | h
    · omega
    · exact h.2.1
    · omega
  · rcases valid_cases _ b1 with h | h | h
    · omega
    · exact h.1
    · omega
  · rcases valid_cases _ c1 with h | h | h
    · omega
    · omega
    · simp [Varying.isFrozen, h.1, h.2.1]

/-- C07 (histories).  After any sequence of changes of rate, the stored quantity is at every time the
value obtained by adding the signed elapsed times. -/
theorem C07_history_integrates (v : Varying) (s : Int) (cs : List Change) (t : Int) :
    (cs.foldl applyChange v).distanceAt t =
      (cs.foldl Motion.change ⟨s, v.distanceAt s, v.slope⟩).at t := by
  have gen : ∀ (cs : List Change) (v : Varying) (m : Motion),
      (∀ t, v.distanceAt t = m.at t) →
      (cs.foldl applyChange v).distanceAt t = (cs.foldl Motion.change m).at t := by
    intro cs
    induction cs with
    | nil => intro v m h; exact h t
    | cons c cs ih =>
      intro v m h
      simp only [List.foldl_cons]
      refine ih _ _ ?_
      intro t'
      cases c with
      | grow t0 =>
        have := (C07_change_is_continuous v t0 t').1
        simp only [applyChange, Motion.change, Motion.at] at *
        rw [this, h]; omega
      | shrink t0 =>
        have := (C07_change_is_continuous v t0 t').2.1
        simp only [applyChange, Motion.change, Motion.at] at *
        rw [this, h]; omega
      | freeze t0 =>
        have := (C07_change_is_continuous v t0 t').2.2.1
        simp only [applyChange, Motion.change, Motion.at] at *
        rw [this, h]; omega
  refine gen cs v _ ?_
  intro t'
  rw [distanceAt_eq, distanceAt_eq, Motion.at]
  simp only
  rw [Int.mul_sub]
  omega

/-- C07 (offsets).  Adding a constant shifts the value at every time by that constant. -/
theorem C07_offset (v : Varying) (o t : Int) :
    (v.addOffset o).distanceAt t = v.distanceAt t + o ∧ (v.subOffset o).distanceAt t = v.distanceAt t - o := by
  obtain ⟨a1, a2, _⟩ := addOffset_spec v o
  obtain ⟨b1, b2, _⟩ := subOffset_spec v o
  constructor <;> rw [distanceAt_eq, distanceAt_eq]
  · rw [a1, a2]; omega
  · rw [b1, b2]; omega

/-- A radius that starts at time 3, grows to time 10, shrinks to time 12 and freezes has value 5. -/
example : ([Change.shrink 10, Change.freeze 12].foldl applyChange (growingZeroAt 3)).distanceAt 100 = 5 := by
  decide

/-! ## C08 -/

/-- C08 (collide).  Two radii are reported as approaching each other iff their sum is increasing. -/
theorem C08_colliding_iff (v w : Varying) (hv : v.Valid) (hw : w.Valid) :
    v.collidingWith w = true ↔
      v.distanceAt 0 + w.distanceAt 0 < v.distanceAt 1 + w.distanceAt 1 := by
  rw [distanceAt_eq, distanceAt_eq, distanceAt_eq, distanceAt_eq]
  unfold Varying.collidingWith
  rcases valid_cases v hv with h | h | h <;> rcases valid_cases w hw with k | k | k <;>
    rw [h.1, h.2.1, h.2.2, k.1, k.2.1, k.2.2] <;> simp <;> omega

/-- C08 (collision time).  For two approaching radii and an edge of length `len`, the computed time `T` is
exact: if the slack is even or only one radius grows, the radii sum to `len` at `T` and at no other time. -/
theorem C08_collision_time_exact (v w : Varying) (len : Int) (hv : v.Valid) (hw : w.Valid)
    (hc : v.collidingWith w = true)
    (hpar : v.isGrowing = true → w.isGrowing = true → (len - v.distanceAt 0 - w.distanceAt 0) % 2 = 0) (t : Int) :
    v.distanceAt t + w.distanceAt t = len ↔ t = v.timeOfXInterceptWhenAddedTo (w.subOffset len) := by
  obtain ⟨b1, b2, b3⟩ := subOffset_spec w len
  have hw' := b3.2 hw
  unfold Varying.timeOfXInterceptWhenAddedTo
  unfold Varying.collidingWith at hc
  unfold Varying.isGrowing at hpar
  simp only [distanceAt_eq] at *
  rcases valid_cases v hv with h | h | h <;> rcases valid_cases w hw with k | k | k <;>
    rcases valid_cases _ hw' with l | l | l <;> (rw [h.1, h.2.1, k.1, k.2.1] at hc) <;> simp at hc <;>
    rw [h.2.2, k.2.2, h.1, l.1, b2] <;>
    (try (exfalso; rw [b1] at l; omega)) <;>
    (rw [h.1, k.1, h.2.2, k.2.2] at hpar) <;> simp at hpar ⊢ <;> omega

/-- C08 (collision time, any parity).  Strictly before the computed time the radii do not yet reach each
other; one time unit after it they have. -/
theorem C08_collision_time_first (v w : Varying) (len : Int) (hv : v.Valid) (hw : w.Valid)
    (hc : v.collidingWith w = true) :
    (∀ t, t < v.timeOfXInterceptWhenAddedTo (w.subOffset len) → v.distanceAt t + w.distanceAt t < len) ∧
    (∀ t, v.timeOfXInterceptWhenAddedTo (w.subOffset len) < t → len ≤ v.distanceAt t + w.distanceAt t) := by
  obtain ⟨b1, b2, b3⟩ := subOffset_spec w len
  have hw' := b3.2 hw
  unfold Varying.timeOfXInterceptWhenAddedTo
  unfold Varying.collidingWith at hc
  simp only [distanceAt_eq] at *
  rcases valid_cases v hv with h | h | h <;> rcases valid_cases w hw with k | k | k <;>
    rcases valid_cases _ hw' with l | l | l <;> (rw [h.1, h.2.1, k.1, k.2.1] at hc) <;> simp at hc <;>
    rw [h.2.2, k.2.2, h.1, l.1, b2] <;>
    (try (exfalso; rw [b1] at l; omega)) <;>
    simp <;> constructor <;> intros <;> omega

/-- The hypotheses of the collision theorems are met by two growing radii on an edge of length 14. -/
example : (growingZeroAt 0).Valid ∧ (growingZeroAt 4).Valid ∧
    (growingZeroAt 0).collidingWith (growingZeroAt 4) = true ∧
    (growingZeroAt 0).timeOfXInterceptWhenAddedTo ((growingZeroAt 4).subOffset 14) = 9 := by
  simp only [Varying.Valid]; decide

/-- C08 (zero crossing).  The x intercept of a growing or shrinking value is exactly the time at which it is
zero; for a frozen value the request is rejected. -/
theorem C08_x_intercept (v : Varying) (hv : v.Valid) :
    (v.isFrozen = true ↔ v.timeOfXIntercept = none) ∧
    ∀ T, v.timeOfXIntercept = some T → ∀ t, v.distanceAt t = 0 ↔ t = T := by
  unfold Varying.isFrozen Varying.timeOfXIntercept
  simp only [distanceAt_eq]
  rcases valid_cases v hv with h | h | h <;> rw [h.1, h.2.1, h.2.2] <;> simp
  · intro t; omega
  · intro t; omega

/-- C08 (zero crossing of a shrinking value, unchecked variant). -/
theorem C08_x_intercept_shrinking (v : Varying) (hv : v.Valid) (hs : v.isShrinking = true) (t : Int) :
    v.distanceAt t = 0 ↔ t = v.timeOfXInterceptForShrinking := by
  unfold Varying.isShrinking at hs
  unfold Varying.timeOfXInterceptForShrinking
  rw [distanceAt_eq]
  rcases valid_cases v hv with h | h | h
  · rw [h.2.1] at hs; simp at hs
  · rw [h.2.2]; omega
  · rw [h.2.1] at hs; simp at hs

/-- The order in which a radius is a shrinking one that reaches zero at time 9. -/
example : ((growingZeroAt 1).thenShrinkingAt 5).Valid ∧
    ((growingZeroAt 1).thenShrinkingAt 5).isShrinking = true ∧
    ((growingZeroAt 1).thenShrinkingAt 5).timeOfXInterceptForShrinking = 9 := by
  simp only [Varying.Valid]; decide

end Verif.Props.Varying
