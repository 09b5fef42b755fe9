import Verif.Spec.Bivariate
import Mathlib.Probability.Distributions.Gaussian.Real

/-! # The bivariate normal distribution -/

namespace Phik.Spec
open MeasureTheory ProbabilityTheory

/-- The pair `(X, Y)` with correlation `rho`, made of two independent standard normal variables. -/
noncomputable def corrPair (rho : ℝ) (p : ℝ × ℝ) : ℝ × ℝ := (p.1, rho * p.1 + Real.sqrt (1 - rho ^ 2) * p.2)

/-- The probability that a pair of standard normal variables with correlation `rho` falls into a rectangle (there is
no such pair when `rho` is not between -1 and 1). -/
noncomputable def gaussMvn (rho : ℝ) (R : Rect) : ℝ :=
  if rho ^ 2 ≤ 1 then ((gaussianReal 0 1).prod (gaussianReal 0 1)).real
    {p | corrPair rho p ∈ Set.Icc R.1.1 R.2.1 ×ˢ Set.Icc R.1.2 R.2.2}
  else 0

end Phik.Spec
