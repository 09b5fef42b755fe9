import Mathlib.Algebra.ContinuedFractions.Basic
import Mathlib.MeasureTheory.Integral.IntervalIntegral.Basic
import Mathlib.Analysis.SpecialFunctions.Pow.Real

/-! # The incomplete beta function and its continued fraction -/

namespace Phik.Spec

/-- The incomplete beta integral. -/
noncomputable def betaInt (a b x : ℝ) : ℝ := ∫ t in (0 : ℝ)..x, t ^ (a - 1) * (1 - t) ^ (b - 1)

/-- The regularised incomplete beta function, what `incompbeta` is documented to compute. -/
noncomputable def regBeta (a b x : ℝ) : ℝ := betaInt a b x / betaInt a b 1

/-- Coefficient `n + 1` of the continued fraction (Numerical Recipes 6.4.6, DLMF 8.17.22):
`d (2 m + 1) = - (a + m) (a + b + m) x / ((a + 2 m) (a + 2 m + 1))`,
`d (2 m) = m (b - m) x / ((a + 2 m - 1) (a + 2 m))`. -/
noncomputable def betaCoef (a b x : ℝ) (n : ℕ) : ℝ :=
  let m : ℝ := ((n / 2 : ℕ) : ℝ)
  if n % 2 = 1 then -((a + m) * (a + b + m) * x / ((a + 2 * m) * (a + 2 * m + 1)))
  else m * (b - m) * x / ((a + 2 * m - 1) * (a + 2 * m))

/-- The continued fraction `1 / (1 + d 1 / (1 + d 2 / (1 + ...)))`, as a Mathlib object. -/
noncomputable def betaCF (a b x : ℝ) : GenContFract ℝ :=
  ⟨0, Stream'.Seq.ofStream fun n => if n = 0 then ⟨1, 1⟩ else ⟨betaCoef a b x n, 1⟩⟩

/-- The `n`-th convergent: the fraction cut off after `n` divisions. -/
noncomputable def betaConv (a b x : ℝ) (n : ℕ) : ℝ := (betaCF a b x).convs n

/-- Iteration `i = 0, 1, 2, ...` produces convergent `2 i + 4` and compares it with this number: the
convergent of the iteration before, or 1 (the first convergent) in the first iteration. -/
noncomputable def betaPrev (a b x : ℝ) (i : ℕ) : ℝ := if i = 0 then 1 else betaConv a b x (2 * i + 2)

/-- Iteration `i` meets the stopping criterion of Numerical Recipes. -/
def BetaStop (a b x eps : ℝ) (i : ℕ) : Prop :=
  |betaConv a b x (2 * i + 4) - betaPrev a b x i| < eps * |betaConv a b x (2 * i + 4)|

end Phik.Spec
