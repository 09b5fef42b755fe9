import Verif.Model.HistPlot

/-! # Specification of the histogram with a curve -/

namespace Phik.Spec

/-- The figure has one bar per neighbouring pair of edges, with the number of records in it: a record on an edge belongs to
the bar on its right, except for the last edge. -/
def ShowsBars (data edges : List ℚ) (fig : HistFigure) : Prop :=
  fig.bars.length + 1 = edges.length ∧ ∀ (i : ℕ) (b : Bar), fig.bars[i]? = some b →
    edges[i]? = some b.lo ∧ edges[i + 1]? = some b.hi ∧
    b.count = (data.filter fun x => decide (b.lo ≤ x ∧ (x < b.hi ∨ x = b.hi ∧ i + 2 = edges.length))).length

/-- Over the middle of each bar there is a point of the curve, at the expected number of records in the bar: the number of
records times the width of the bar times the function. -/
def ShowsCurve (data : List ℚ) (func : ℚ → ℝ) (fig : HistFigure) : Prop :=
  fig.curve = fig.bars.map fun b =>
    ((b.lo + b.hi) / 2, (data.length : ℝ) * ((b.hi - b.lo : ℚ) : ℝ) * func ((b.lo + b.hi) / 2))

/-- The edges of `n` bins of equal width from `a` to `b`. -/
def equalBins (n : ℕ) (a b : ℚ) : List ℚ := (List.range (n + 1)).map fun i : ℕ => a + (i : ℚ) * ((b - a) / n)

end Phik.Spec
