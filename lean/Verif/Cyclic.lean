/-!
# Cyclic 32-bit integers

Model of `pm::cyclic<uint32_t>` (`cyclic_time_int`),
`/repo/src/pymatching/sparse_blossom/tracker/cyclic.h` lines 33-116, with
`cyclic_time_int = cyclic<uint32_t>` and `cumulative_time_int = int64_t` from
`/repo/src/pymatching/sparse_blossom/ints.h`.

A cyclic value is a `BitVec 32` (all arithmetic is modulo `2^32`, as in C++ `uint32_t`).  The 64-bit
cumulative times are unbounded `Int`s (simplification: overflow of `int64_t` is not modelled).
-/

namespace Verif

/-- A cyclic time: `cyclic<uint32_t>::value` (cyclic.h:34). -/
abbrev CycTime := BitVec 32

namespace Cyc

/-- `HALF = ((T)-1 >> 1) + 1 = 2^31` (cyclic.h:35). -/
def HALF : BitVec 32 := 0x80000000#32

/-- `explicit cyclic(O value) : value((T)value)` - truncation to 32 bits (cyclic.h:40-42). -/
def ofTime (t : Int) : CycTime := BitVec.ofInt 32 t

/-- `operator<=`: `(T)(other.value - value) < HALF` (cyclic.h:74-76). -/
def le (a b : CycTime) : Bool := (b - a).ult HALF

/-- `operator>=`: `(T)(value - other.value) < HALF` (cyclic.h:77-79). -/
def ge (a b : CycTime) : Bool := (a - b).ult HALF

/-- `operator<`: `(T)(other.value - value - 1) < (T)(HALF - 1)` (cyclic.h:80-82). -/
def lt (a b : CycTime) : Bool := (b - a - 1#32).ult (HALF - 1#32)

/-- `operator>`: `(T)(value - other.value - 1) < HALF - 1` (cyclic.h:83-85). -/
def gt (a b : CycTime) : Bool := (a - b - 1#32).ult (HALF - 1#32)

/-- `widen_from_nearby_reference` (cyclic.h:99-109). -/
def widen (v : CycTime) (reference : Int) : Int :=
  let cyclicReference := ofTime reference
  let result := reference + ((v - cyclicReference).toNat : Int)
  if gt cyclicReference v then result - 4294967296 else result

/-! ## Helper lemmas -/

theorem ofTime_toNat (t : Int) : ((ofTime t).toNat : Int) = t % 4294967296 := by
  unfold ofTime
  rw [BitVec.toNat_ofInt]
  have : (0 : Int) ≤ t % 4294967296 := Int.emod_nonneg _ (by decide)
  simp only [Nat.reducePow]
  omega

theorem sub_toNat (a b : Int) :
    ((ofTime a - ofTime b).toNat : Int) = (a - b) % 4294967296 := by
  rw [BitVec.toNat_sub]
  have h1 := ofTime_toNat a
  have h2 := ofTime_toNat b
  have := (ofTime b).isLt
  simp only [Nat.reducePow] at *
  omega

theorem sub_one_toNat (a b : Int) :
    ((ofTime a - ofTime b - 1#32).toNat : Int) = (a - b - 1) % 4294967296 := by
  rw [BitVec.toNat_sub]
  have h1 := sub_toNat a b
  have := (ofTime a - ofTime b).isLt
  simp only [Nat.reducePow, BitVec.toNat_ofNat] at *
  omega

theorem half_toNat : HALF.toNat = 2147483648 := rfl
theorem half_sub_one_toNat : (HALF - 1#32).toNat = 2147483647 := rfl

theorem le_iff (a b : Int) : le (ofTime a) (ofTime b) = true ↔ (b - a) % 4294967296 < 2147483648 := by
  unfold le
  have h := sub_toNat b a
  have h2 := half_toNat
  simp only [BitVec.ult, decide_eq_true_eq]
  omega

theorem lt_iff (a b : Int) : lt (ofTime a) (ofTime b) = true ↔
    (b - a - 1) % 4294967296 < 2147483647 := by
  unfold lt
  have h := sub_one_toNat b a
  have h2 := half_sub_one_toNat
  simp only [BitVec.ult, decide_eq_true_eq]
  omega

theorem ge_eq_le (a b : CycTime) : ge a b = le b a := rfl
theorem gt_eq_lt (a b : CycTime) : gt a b = lt b a := rfl

theorem ofTime_eq_iff (a b : Int) : ofTime a = ofTime b ↔ (a - b) % 4294967296 = 0 := by
  rw [← BitVec.toNat_inj]
  have h1 := ofTime_toNat a
  have h2 := ofTime_toNat b
  omega

/-- Widening relative to any reference: the unique representative in the window
`[reference - (2^31 - 1), reference + 2^31]`. -/
theorem widen_ofTime (t r : Int) (h1 : r - 2147483647 ≤ t) (h2 : t ≤ r + 2147483648) :
    widen (ofTime t) r = t := by
  unfold widen
  have hs := sub_toNat t r
  have hg := lt_iff t r
  simp only [gt_eq_lt]
  by_cases h : lt (ofTime t) (ofTime r) = true
  · simp only [h, if_true]
    have := hg.1 h
    omega
  · have h' : lt (ofTime t) (ofTime r) = false := by simpa using h
    simp only [h']
    have : ¬ ((r - t - 1) % 4294967296 < 2147483647) := fun hh => h (hg.2 hh)
    simp only [Bool.false_eq_true, if_false]
    omega

end Cyc
end Verif
