import Verif.Dem
import Verif.Double

/-!
# The weights of a detector error model, in double precision

`/repo/src/pymatching/sparse_blossom/driver/user_graph.cc:22-37, 349-365, 537-538`.  The library functions `std::exp` and `std::log` are parameters; every other operation is
exact or rounded to 53 bits (`Verif.Dbl.rnd`; with the arguments that occur there is no overflow).  The sign of zero does not matter: `signed_min` is zero if one of the
arguments is.
-/

namespace Verif.DemD

open Verif.Dbl

/-- `std::log((1 - p) / p)` (user_graph.cc:29-31, 352, 354). -/
def weightD (ln : ℚ → ℚ) (p : ℚ) : ℚ := ln (rnd (rnd (1 - p) / p))

/-- `std::copysign(1, a)`, for `a` not zero (user_graph.cc:34). -/
def sgnD (a : ℚ) : ℚ := if a < 0 then -1 else 1

/-- `merge_weights` (user_graph.cc:33-37). -/
def mergeD (ex ln : ℚ → ℚ) (a b : ℚ) : ℚ :=
  rnd (rnd (sgnD a * sgnD b * min |a| |b| + ln (rnd (1 + ex (-|rnd (a + b)|)))) - ln (rnd (1 + ex (-|rnd (a - b)|))))

/-- `bernoulli_xor` (user_graph.cc:22-24), and the quotient of two probabilities (user_graph.cc:537-538). -/
def rounded : Dem.Arith ℚ := ⟨fun p q => rnd (rnd (p * rnd (1 - q)) + rnd (q * rnd (1 - p))), fun x y => rnd (x / y)⟩

end Verif.DemD
