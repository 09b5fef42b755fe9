import Verif.Spec.Stats

/-! # Specification: how far a table is from the table expected under independence (C102) -/

namespace Phik.Spec

open Phik

/-- The deviation of a contingency table from independence: the number of records (counted in both the cells that have too many and the
cells that have too few) by which the table differs from the expected one.  For a table of two by two, in which every cell has the same
difference, scipy's continuity correction leaves out half a record per cell. -/
noncomputable def tableDeviation (a : Arr2 ℝ) : ℝ :=
  if nRows a = 2 ∧ nCols a = 2 then ∑ i, ∑ j, max (|a.v i j - expect a i j| - 1 / 2) 0
  else ∑ i, ∑ j, |a.v i j - expect a i j|

end Phik.Spec
