import Verif.Model.Arr
import Mathlib.Analysis.SpecialFunctions.Log.Basic

/-! # Specifications of the statistics of contingency tables -/

namespace Phik.Spec

/-- A table of counts: no negative entry and at least one record. -/
structure IsCount (a : Arr2 ℝ) : Prop where
  nonneg : ∀ i j, 0 ≤ a.v i j
  pos : 0 < a.total

/-- The row (column) contains something. -/
def FullRow (a : Arr2 ℝ) (i : Fin a.r) : Prop := ∃ j, a.v i j ≠ 0
def FullCol (a : Arr2 ℝ) (j : Fin a.c) : Prop := ∃ i, a.v i j ≠ 0

/-- Number of non-empty rows and columns. -/
noncomputable def nRows (a : Arr2 ℝ) : ℕ := Nat.card {i // FullRow a i}
noncomputable def nCols (a : Arr2 ℝ) : ℕ := Nat.card {j // FullCol a j}

/-- Expected frequency of a cell under independence. -/
noncomputable def expect (a : Arr2 ℝ) (i : Fin a.r) (j : Fin a.c) : ℝ :=
  (∑ j', a.v i j') * (∑ i', a.v i' j) / ∑ i', ∑ j', a.v i' j'

/-- The table is the product of its margins. -/
def Independent (a : Arr2 ℝ) : Prop := ∀ i j, a.v i j = expect a i j

/-- The two tables hold the same numbers up to the order of rows and columns and up to rows and columns
of zeros. -/
def SameTable (a b : Arr2 ℝ) : Prop :=
  ∃ (e : {i // FullRow a i} ≃ {i // FullRow b i}) (f : {j // FullCol a j} ≃ {j // FullCol b j}),
    ∀ i j, b.v (e i) (f j) = a.v i j

/-- Pearson's and the likelihood-ratio contribution of a cell with observation `o`, expectation `e`. -/
noncomputable def pearsonCell (o e : ℝ) : ℝ := (o - e) ^ 2 / e
noncomputable def gCell (o e : ℝ) : ℝ := 2 * (o * Real.log (o / e))

/-- Continuity correction: the observation is moved towards the expectation by one half, but not past
it. -/
noncomputable def corrected (o e : ℝ) : ℝ :=
  if |e - o| ≤ 1 / 2 then e else if o < e then o + 1 / 2 else o - 1 / 2

open scoped Classical in
/-- The test statistic: 0 for a single non-empty row or column, the sum over the cells with non-zero
expectation otherwise, with the continuity correction for two by two. -/
noncomputable def statistic (cell : ℝ → ℝ → ℝ) (a : Arr2 ℝ) : ℝ :=
  if nRows a = 1 ∨ nCols a = 1 then 0
  else ∑ i, ∑ j, if expect a i j = 0 then 0
    else cell (if nRows a = 2 ∧ nCols a = 2 then corrected (a.v i j) (expect a i j) else a.v i j)
      (expect a i j)

end Phik.Spec
