import Verif.Spec.Bivariate
import Mathlib.Algebra.BigOperators.Group.List.Basic

/-! # Specifications for bin edges given by the caller -/

namespace Phik.Spec

/-- Bin edges that fit the half-grid evaluation: strictly increasing, symmetric around zero, two bins or more. -/
structure GoodEdges (s : List ℝ) : Prop where
  incr : s.Pairwise (· < ·)
  symm : SymmetricEdges s
  bins : 3 ≤ s.length

/-- The edges that apply: those given, or `n` equal bins on [-5, 5]. -/
noncomputable def gridOf (s : Option (List ℝ)) (n : ℕ) : List ℝ := s.getD (uniformEdges n)

/-- Squared distance of the binned normal distribution with correlation `rho` from the one without correlation, relative to
the latter, summed over all cells of the grid. -/
noncomputable def gridDistance (mvn : ℝ → Rect → ℝ) (sx sy : List ℝ) (rho : ℝ) : ℝ :=
  ((gridCells sx sy).map fun R => (mvn rho R - mvn 0 R) ^ 2 / mvn 0 R).sum

/-- The theoretical chi2 of correlation `rho` on the grid, scaled to run from the pedestal to `mx`. -/
noncomputable def gridTheory (mvn : ℝ → Rect → ℝ) (sx sy : List ℝ) (mx pedestal rho : ℝ) : ℝ :=
  pedestal + (mx - pedestal) * (gridDistance mvn sx sy rho / gridDistance mvn sx sy 1)

end Phik.Spec
