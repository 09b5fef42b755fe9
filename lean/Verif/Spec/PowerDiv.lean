import Verif.Spec.Stats
import Mathlib.Analysis.SpecialFunctions.Pow.Real

/-! # Specifications of the less common test statistics -/

namespace Phik.Spec

/-- Contributions of a cell with observation `o` and expectation `e` (Cressie and Read, Freeman and Tukey, Neyman, the
modified likelihood ratio). -/
noncomputable def cressieReadCell (o e : ℝ) : ℝ := 9 / 5 * (o * ((o / e) ^ (2 / 3 : ℝ) - 1))
noncomputable def freemanTukeyCell (o e : ℝ) : ℝ := 4 * (√o - √e) ^ 2
noncomputable def neymanCell (o e : ℝ) : ℝ := (o - e) ^ 2 / o
noncomputable def modGCell (o e : ℝ) : ℝ := 2 * (e * Real.log (e / o))

/-- A cell without records in a row and a column with records. -/
def EmptyCell (a : Arr2 ℝ) : Prop := ∃ i j, FullRow a i ∧ FullCol a j ∧ a.v i j = 0

/-- The continuity correction applies. -/
def TwoByTwo (a : Arr2 ℝ) : Prop := nRows a = 2 ∧ nCols a = 2

end Phik.Spec
