/-!
# Time-varying radii

Model of `pm::Varying<T>`, `/repo/src/pymatching/sparse_blossom/flooder_matcher_interop/varying.inl`
lines 20-209.  `T` is modelled by unbounded `Int` (simplification: overflow of `int64_t` is not
modelled).  On two's complement integers `x >> 2` is floor division by 4, `x << 2` multiplication by 4,
`x & 1`, `x & 2`, `x & 3` are read off `x mod 4`.
-/

namespace Verif.Vary

/-- `Varying::data`: intercept in the upper bits, slope code (1 growing, 2 shrinking, 0 frozen) in the low
two bits (varying.h:31-34). -/
structure Varying where
  data : Int
deriving DecidableEq, Repr

/-- `data & 1` -/
def Varying.bit0 (v : Varying) : Bool := v.data % 2 == 1
/-- `data & 2` -/
def Varying.bit1 (v : Varying) : Bool := (v.data / 2) % 2 == 1
/-- `data >> 2` (`y_intercept`, varying.inl:191-193) -/
def Varying.yIntercept (v : Varying) : Int := v.data / 4

/-- `get_distance_at_time` (varying.inl:24-32). -/
def Varying.distanceAt (v : Varying) (time : Int) : Int :=
  if v.bit0 then v.yIntercept + time else if v.bit1 then v.yIntercept - time else v.yIntercept

/-- `get_growing_distance_at_time` (varying.inl:34-37). -/
def Varying.growingDistanceAt (v : Varying) (time : Int) : Int := v.yIntercept + time

/-- `get_shrinking_distance_at_time` (varying.inl:39-42). -/
def Varying.shrinkingDistanceAt (v : Varying) (time : Int) : Int := v.yIntercept - time

/-- `time_of_x_intercept` (varying.inl:44-53); `none` = the exception. -/
def Varying.timeOfXIntercept (v : Varying) : Option Int :=
  if v.bit0 then some (v.yIntercept * -1) else if v.bit1 then some v.yIntercept else none

/-- `time_of_x_intercept_for_growing` (varying.inl:55-59). -/
def Varying.timeOfXInterceptForGrowing (v : Varying) : Int := -v.yIntercept

/-- `time_of_x_intercept_for_shrinking` (varying.inl:61-64). -/
def Varying.timeOfXInterceptForShrinking (v : Varying) : Int := v.yIntercept

/-- `time_of_x_intercept_when_added_to` (varying.inl:66-76). -/
def Varying.timeOfXInterceptWhenAddedTo (v other : Varying) : Int :=
  let timeWithUnitSlope := -v.yIntercept - other.yIntercept
  if v.bit0 && other.bit0 then timeWithUnitSlope / 2 else timeWithUnitSlope

/-- `time_of_x_intercept_when_added_to_giving_unit_slope` (varying.inl:78-82). -/
def Varying.timeOfXInterceptWhenAddedToGivingUnitSlope (v other : Varying) : Int :=
  -v.yIntercept - other.yIntercept

/-- `(a | b) & 1` and `(a | b) & 2` of two integers. -/
def Varying.collidingWith (v other : Varying) : Bool :=
  -- `((data | other.data) & 3) == 1` (varying.inl:84-87): bit 0 of the or is set, bit 1 is not
  (v.bit0 || other.bit0) && !(v.bit1 || other.bit1)

/-- `then_growing_at_time` (varying.inl:89-93). -/
def Varying.thenGrowingAt (v : Varying) (t : Int) : Varying := ⟨(v.distanceAt t - t) * 4 + 1⟩

/-- `then_shrinking_at_time` (varying.inl:95-99). -/
def Varying.thenShrinkingAt (v : Varying) (t : Int) : Varying := ⟨(v.distanceAt t + t) * 4 + 2⟩

/-- `then_frozen_at_time` (varying.inl:101-105). -/
def Varying.thenFrozenAt (v : Varying) (t : Int) : Varying := ⟨v.distanceAt t * 4⟩

/-- `growing_varying_with_zero_distance_at_time` (varying.inl:114-117). -/
def growingZeroAt (t : Int) : Varying := ⟨-t * 4 + 1⟩

/-- `from_base_and_growth` (varying.inl:119-130); `none` = the exception. -/
def fromBaseAndGrowth (base growth : Int) : Option Varying :=
  if growth = 1 then some ⟨base * 4 + 1⟩
  else if growth = -1 then some ⟨base * 4 + 2⟩
  else if growth = 0 then some ⟨base * 4⟩
  else none

/-- `frozen` (varying.inl:142-145). -/
def frozen (base : Int) : Varying := ⟨base * 4⟩

/-- `operator+` (varying.inl:168-171). -/
def Varying.addOffset (v : Varying) (o : Int) : Varying := ⟨v.data + o * 4⟩
/-- `operator-` (varying.inl:173-176). -/
def Varying.subOffset (v : Varying) (o : Int) : Varying := ⟨v.data - o * 4⟩

/-- `is_shrinking` (varying.inl:196-198). -/
def Varying.isShrinking (v : Varying) : Bool := v.bit1
/-- `is_frozen` (varying.inl:201-203). -/
def Varying.isFrozen (v : Varying) : Bool := !(v.bit0 || v.bit1)
/-- `is_growing` (varying.inl:206-208). -/
def Varying.isGrowing (v : Varying) : Bool := v.bit0

/-- The slope code 3 never occurs in values built by the constructors. -/
def Varying.Valid (v : Varying) : Prop := v.data % 4 ≠ 3

/-- The slope of a value: `+1`, `-1` or `0`. -/
def Varying.slope (v : Varying) : Int := if v.isGrowing then 1 else if v.isShrinking then -1 else 0

theorem distanceAt_eq (v : Varying) (t : Int) : v.distanceAt t = v.yIntercept + v.slope * t := by
  unfold Varying.distanceAt Varying.slope Varying.isGrowing Varying.isShrinking
  split
  · omega
  · split <;> omega

theorem thenGrowing_spec (v : Varying) (t : Int) :
    (v.thenGrowingAt t).Valid ∧ (v.thenGrowingAt t).slope = 1 ∧
      (v.thenGrowingAt t).yIntercept = v.distanceAt t - t := by
  unfold Varying.Valid Varying.slope Varying.isGrowing Varying.bit0 Varying.yIntercept Varying.thenGrowingAt
  refine ⟨by simp only; omega, ?_, by simp only; omega⟩
  have : ((v.distanceAt t - t) * 4 + 1) % 2 = 1 := by omega
  simp [this]

theorem thenShrinking_spec (v : Varying) (t : Int) :
    (v.thenShrinkingAt t).Valid ∧ (v.thenShrinkingAt t).slope = -1 ∧
      (v.thenShrinkingAt t).yIntercept = v.distanceAt t + t := by
  unfold Varying.Valid Varying.slope Varying.isGrowing Varying.isShrinking Varying.bit0 Varying.bit1
    Varying.yIntercept Varying.thenShrinkingAt
  refine ⟨by simp only; omega, ?_, by simp only; omega⟩
  have h1 : ((v.distanceAt t + t) * 4 + 2) % 2 = 0 := by omega
  have h2 : ((v.distanceAt t + t) * 4 + 2) / 2 % 2 = 1 := by omega
  simp [h1, h2]

theorem thenFrozen_spec (v : Varying) (t : Int) :
    (v.thenFrozenAt t).Valid ∧ (v.thenFrozenAt t).slope = 0 ∧
      (v.thenFrozenAt t).yIntercept = v.distanceAt t := by
  unfold Varying.Valid Varying.slope Varying.isGrowing Varying.isShrinking Varying.bit0 Varying.bit1
    Varying.yIntercept Varying.thenFrozenAt
  refine ⟨by simp only; omega, ?_, by simp only; omega⟩
  have h1 : (v.distanceAt t * 4) % 2 = 0 := by omega
  have h2 : (v.distanceAt t * 4) / 2 % 2 = 0 := by omega
  simp [h1, h2]

theorem addOffset_spec (v : Varying) (o : Int) :
    (v.addOffset o).slope = v.slope ∧ (v.addOffset o).yIntercept = v.yIntercept + o ∧
      ((v.addOffset o).Valid ↔ v.Valid) := by
  unfold Varying.Valid Varying.slope Varying.isGrowing Varying.isShrinking Varying.bit0 Varying.bit1
    Varying.yIntercept Varying.addOffset
  have h1 : (v.data + o * 4) % 2 = v.data % 2 := by omega
  have h2 : (v.data + o * 4) / 2 % 2 = v.data / 2 % 2 := by omega
  refine ⟨by simp only [h1, h2], by simp only; omega, by simp only; omega⟩

theorem subOffset_spec (v : Varying) (o : Int) :
    (v.subOffset o).slope = v.slope ∧ (v.subOffset o).yIntercept = v.yIntercept - o ∧
      ((v.subOffset o).Valid ↔ v.Valid) := by
  unfold Varying.Valid Varying.slope Varying.isGrowing Varying.isShrinking Varying.bit0 Varying.bit1
    Varying.yIntercept Varying.subOffset
  have h1 : (v.data - o * 4) % 2 = v.data % 2 := by omega
  have h2 : (v.data - o * 4) / 2 % 2 = v.data / 2 % 2 := by omega
  refine ⟨by simp only [h1, h2], by simp only; omega, by simp only; omega⟩

/-- The three legal slope codes in terms of the two bits. -/
theorem valid_cases (v : Varying) (h : v.Valid) :
    (v.bit0 = true ∧ v.bit1 = false ∧ v.slope = 1) ∨ (v.bit0 = false ∧ v.bit1 = true ∧ v.slope = -1) ∨
    (v.bit0 = false ∧ v.bit1 = false ∧ v.slope = 0) := by
  unfold Varying.Valid at h
  unfold Varying.slope Varying.isGrowing Varying.isShrinking
  have hb0 : v.bit0 = true ↔ v.data % 2 = 1 := by simp [Varying.bit0]
  have hb1 : v.bit1 = true ↔ v.data / 2 % 2 = 1 := by simp [Varying.bit1]
  by_cases c0 : v.bit0 = true
  · have hb : v.bit1 = false := by
      rw [Bool.eq_false_iff]; intro hh
      have := hb0.1 c0; have := hb1.1 hh; omega
    left; simp [c0, hb]
  · by_cases c1 : v.bit1 = true
    · right; left; simp [c0, c1]
    · right; right; simp [c0, c1]

end Verif.Vary
