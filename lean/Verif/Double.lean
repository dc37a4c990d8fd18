import Mathlib.Data.Int.Log
import Mathlib.Data.Rat.Floor
import Mathlib.Algebra.Order.Floor.Ring
import Mathlib.Tactic.Linarith
import Mathlib.Tactic.Ring
import Mathlib.Tactic.FieldSimp
import Mathlib.Tactic.Positivity
import Mathlib.Tactic.NormNum

/-!
# Double precision numbers

IEEE 754 binary64, the C++ type `double` that `/repo` uses for weights (e.g. `/repo/src/pymatching/sparse_blossom/driver/user_graph.h:39-42, 116, 142-146`):
53 bits of precision, exponents of the last bit from -1074, results rounded to nearest with ties to even, overflow to infinity.  Simplification: the two
zeros are not told apart (no code modelled here depends on the sign of a zero).
-/

namespace Verif.Dbl

/-- Nearest integer, ties to even. -/
def rne (x : ℚ) : ℤ :=
  if x - ⌊x⌋ < 1 / 2 then ⌊x⌋
  else if 1 / 2 < x - ⌊x⌋ then ⌊x⌋ + 1
  else if ⌊x⌋ % 2 = 0 then ⌊x⌋
  else ⌊x⌋ + 1

/-- Exponent of the last bit for numbers of the size of `x`. -/
def lastBit (x : ℚ) : ℤ := max (Int.log 2 |x| - 52) (-1074)

/-- Rounding to 53 bits, without overflow. -/
def rnd (x : ℚ) : ℚ := (rne (x / 2 ^ lastBit x) : ℚ) * 2 ^ lastBit x

/-- A value of type `double`. -/
inductive Double where
  | num (q : ℚ)
  | inf (negative : Bool)
  | nan
deriving DecidableEq

/-- The double that the exact result of an operation is rounded to. -/
def Double.of (x : ℚ) : Double := if |rnd x| < 2 ^ (1024 : ℕ) then .num (rnd x) else .inf (decide (x < 0))

/-- Multiplication. -/
def Double.mul : Double → Double → Double
  | .num a, .num b => .of (a * b)
  | .num a, .inf s => if a = 0 then .nan else .inf (s ^^ decide (a < 0))
  | .inf s, .num b => if b = 0 then .nan else .inf (s ^^ decide (b < 0))
  | .inf s, .inf t => .inf (s ^^ t)
  | .nan, _ => .nan
  | _, .nan => .nan

/-- Division.  Of the zeros only the positive one is modelled as a divisor. -/
def Double.div : Double → Double → Double
  | .num a, .num b => if b = 0 then (if a = 0 then .nan else .inf (decide (a < 0))) else .of (a / b)
  | .num _, .inf _ => .num 0
  | .inf s, .num b => .inf (s ^^ decide (b < 0))
  | .inf _, .inf _ => .nan
  | .nan, _ => .nan
  | _, .nan => .nan

/-- `x >= 0.` -/
def Double.nonneg : Double → Bool
  | .num a => decide (0 ≤ a)
  | .inf s => !s
  | .nan => false

end Verif.Dbl
