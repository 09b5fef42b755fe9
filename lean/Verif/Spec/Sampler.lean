import Mathlib.Algebra.BigOperators.Intervals

/-!
# Specification of the fixed-margin sampler, independent of the model
-/

namespace Phik.Spec

open Finset

/-- Margins a contingency table with no empty row or column can have. -/
structure ValidMargins (nrowt ncolt : List ℤ) : Prop where
  two_rows : 2 ≤ nrowt.length
  two_cols : 2 ≤ ncolt.length
  pos_rows : ∀ v ∈ nrowt, 0 < v
  pos_cols : ∀ v ∈ ncolt, 0 < v
  sums : nrowt.sum = ncolt.sum

/-- The buffer `buf` holds, column by column, a table `X` of non-negative numbers with exactly these
row and column totals; in particular every cell of the buffer has been written. -/
structure HoldsTable (nrowt ncolt : List ℤ) (buf : List (Option ℤ)) (X : ℕ → ℕ → ℤ) : Prop where
  size : buf.length = nrowt.length * ncolt.length
  cells : ∀ i < nrowt.length, ∀ j < ncolt.length, buf[i + j * nrowt.length]? = some (some (X i j))
  nonneg : ∀ i < nrowt.length, ∀ j < ncolt.length, 0 ≤ X i j
  rows : ∀ i, (h : i < nrowt.length) → ∑ j ∈ range ncolt.length, X i j = nrowt[i]
  cols : ∀ j, (h : j < ncolt.length) → ∑ i ∈ range nrowt.length, X i j = ncolt[j]

end Phik.Spec
