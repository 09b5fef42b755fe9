import Mathlib.Data.EReal.Operations
import Mathlib.Analysis.SpecialFunctions.Log.Basic

/-!
# Floating point numbers with infinities and NaN, without rounding

`none` is NaN.  The operations follow IEEE 754 (numpy), with exact results.
-/

namespace Phik

/-- A number, an infinity or NaN. (the floats of phik/outliers.py and phik/statistics.py:108-135) -/
abbrev FVal := Option EReal

namespace FVal

/-- A real number. (phik/outliers.py:33-241) -/
noncomputable def ofReal (x : ℝ) : FVal := some (x : EReal)

open scoped Classical in
/-- `x + y`; infinities of opposite sign give NaN. (phik/outliers.py:198, 205) -/
noncomputable def add : FVal → FVal → FVal
  | some x, some y => if (x = ⊤ ∧ y = ⊥) ∨ (x = ⊥ ∧ y = ⊤) then none else some (x + y)
  | _, _ => none

/-- `-x`. (phik/outliers.py:239) -/
noncomputable def neg : FVal → FVal := Option.map fun x => -x

/-- `x - y`. (phik/outliers.py:198, 205) -/
noncomputable def sub (x y : FVal) : FVal := add x (neg y)

/-- `np.log(x)` of a number: minus infinity at 0, NaN below. (phik/outliers.py:117) -/
noncomputable def log (x : ℝ) : FVal :=
  if x < 0 then none else if x = 0 then some ⊥ else some (Real.log x : ℝ)

/-- `np.log(1 + np.exp(x))`; `fexp` is the exponential function of real numbers.
(phik/outliers.py:198, 205) -/
noncomputable def log1pexp (fexp : ℝ → ℝ) : FVal → FVal
  | none => none
  | some x =>
    if x = ⊥ then log 1
    else if x = ⊤ then some ⊤
    else log (1 + fexp x.toReal)

end FVal
end Phik
