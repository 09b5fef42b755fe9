import Verif.Spec.Bivariate
import Verif.Spec.Stats
import Mathlib.Probability.Distributions.Gaussian.Real

/-! # Cramér's V, for the comparison with phik -/

namespace Phik.Spec
open MeasureTheory ProbabilityTheory

/-- Cramér's V of a table: the square root of chi2 over its maximum, `N` times the smaller dimension less one.  (Of a two by
two table chi2 has the continuity correction, as everywhere in the library.) -/
noncomputable def cramersV (a : Arr2 ℝ) : ℝ :=
  √(statistic pearsonCell a / (a.total * (min (a.r - 1) (a.c - 1) : ℕ)))

/-- Cramér's V with `ped` subtracted from chi2 and from its maximum, zero when chi2 is below `ped`. -/
noncomputable def cramersVAbove (ped : ℝ) (a : Arr2 ℝ) : ℝ :=
  √((statistic pearsonCell a - ped) / (a.total * (min (a.r - 1) (a.c - 1) : ℕ) - ped))

/-- The variance of a standard normal variable that is left when it is replaced by its mean over the bin it falls in, for `k`
equal bins on [-5, 5]: the sum over the bins of `E[X; bin]² / P[bin]`. -/
noncomputable def binnedVariance (k : ℕ) : ℝ :=
  ∑ i ∈ Finset.range k, (∫ x in Set.Icc ((uniformEdges k).getD i 0) ((uniformEdges k).getD (i + 1) 0), x ∂gaussianReal 0 1) ^ 2 /
    (gaussianReal 0 1).real (Set.Icc ((uniformEdges k).getD i 0) ((uniformEdges k).getD (i + 1) 0))

end Phik.Spec
