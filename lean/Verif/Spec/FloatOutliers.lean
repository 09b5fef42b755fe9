import Verif.Model.FloatOutliers
import Verif.Spec.Betainc
import Mathlib.Analysis.Real.Sqrt

namespace Phik.Spec

/-- A square root with a relative error of at most 2^-53. -/
def SqrtRounding (sq : ℚ → ℚ) : Prop := ∀ x : ℚ, 0 ≤ x → |(sq x : ℝ) - √(x : ℝ)| ≤ √(x : ℝ) / 2 ^ 53

/-- A square with a relative error of at most 2^-52, one unit in the last place. -/
def SquareRounding (pw : ℚ → ℚ) : Prop := ∀ x : ℚ, |pw x - x ^ 2| ≤ x ^ 2 / 2 ^ 52

/-- The computed expectation and error `x` of a cell agree with the exact ones `y`: both are NaN, or none of them is, and the relative errors
of the expectation and of its error are at most `a` and `b`. -/
def EstimateWithin (a b : ℝ) : Option ℝ × Option ℝ → Option (ℚ × ℚ) → Prop
  | (some e, some s), some (e', s') => |(e' : ℝ) - e| ≤ a * e ∧ |(s' : ℝ) - s| ≤ b * s
  | (none, none), none => True
  | _, _ => False

/-- A computed number agrees with the exact one: both are NaN, or none of them is, and the relative error is at most `a`. -/
def NumberWithin (a : ℝ) : Option ℝ → Option ℚ → Prop
  | some p, some p' => |(p' : ℝ) - p| ≤ a * p
  | none, none => True
  | _, _ => False

/-- An implementation of the regularised incomplete beta function with a relative error of at most `k` units of rounding. -/
def BetaRounding (k : ℕ) (bi : ℕ → ℚ → ℚ → ℚ) : Prop :=
  ∀ (n : ℕ) (b x : ℚ), n ≠ 0 → 1 ≤ b → 0 < x → x ≤ 1 → |(bi n b x : ℝ) - regBeta n b x| ≤ k / 2 ^ 53 * regBeta n b x

end Phik.Spec
