import Mathlib.Data.Rat.Floor
import Mathlib.Data.Int.Log
import Mathlib.Algebra.Order.Floor.Ring

/-!
# Rounding to binary64 precision

numpy and Python floats are modelled as rationals; an operation is the exact operation followed by a
rounding function `fl`.  `fl = id` is exact arithmetic, `fl = rne53` is IEEE-754 binary64
round-to-nearest-even without the exponent limits (no overflow, no subnormal numbers, no NaN).
-/

namespace Phik

/-- Round to the nearest integer, ties to even.
(binary64 arithmetic of numpy and of phik/simcore/asa159.cpp:442-778) -/
def rhe (q : ℚ) : ℤ :=
  if q - ⌊q⌋ < 1 / 2 then ⌊q⌋
  else if 1 / 2 < q - ⌊q⌋ then ⌊q⌋ + 1
  else if ⌊q⌋ % 2 = 0 then ⌊q⌋ else ⌊q⌋ + 1

/-- Exponent of the unit in the last place of the binary64 numbers of the size of `x`.
(binary64 arithmetic, phik/simcore/asa159.cpp:442-778) -/
def ulpExp (x : ℚ) : ℤ := Int.log 2 |x| - 52

/-- Round to 53 significant bits, ties to even.
(binary64 arithmetic, phik/binning.py:36-40, phik/simcore/asa159.cpp:442-778) -/
def rne53 (x : ℚ) : ℚ := if x = 0 then 0 else rhe (x / 2 ^ ulpExp x) * 2 ^ ulpExp x

/-- Truncation towards zero: the C++ conversion `(int)` and Python's `int(x)` of a float.
(phik/binning.py:106, 109, phik/simcore/asa159.cpp:442-778) -/
def truncQ (q : ℚ) : ℤ := if 0 ≤ q then ⌊q⌋ else -⌊-q⌋

end Phik
