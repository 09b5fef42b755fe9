import Verif.Spec.Binning

/-! # The same data on another scale -/

namespace Phik.Spec

/-- Apply `φ` to a number; missing values stay missing. -/
def onNum (φ : ℚ → ℚ) : Cell → Cell
  | .num x => .num (φ x)
  | c => c

/-- The column with its numbers replaced by their images under `φ`. -/
def rescale (φ : ℚ → ℚ) (c : Column) : Column := { c with cells := c.cells.map (onNum φ) }

/-- `φ` keeps the order of the numbers in `s`. -/
def IncreasingOn (φ : ℚ → ℚ) (s : Set ℚ) : Prop := ∀ x ∈ s, ∀ y ∈ s, x < y → φ x < φ y

/-- The numbers of a column. -/
def numbersOf (c : Column) : Set ℚ := {x | Cell.num x ∈ c.cells}

/-- The interval column `c`, with the entry `s` for its bins, and the column `c'` with the entry `s'` hold the same data on two
scales: unchanged; quantile bins and any increasing change of scale; equal-width bins and a shift; or
explicit bin edges, moved along with the data by an increasing change of scale.  `fl` is the rounding; the computed edges
are assumed to be exact. -/
inductive SameData (fl : ℚ → ℚ) (quantile : Bool) : BinSpec → BinSpec → Column → Column → Prop
  | unchanged (s : BinSpec) (c : Column) (hs : s ≠ .other) : SameData fl quantile s s c c
  | quantiles (q : ℚ) (c : Column) (φ : ℚ → ℚ) (hfl : fl = id) (hq : quantile = true)
      (hstr : ∀ x ∈ c.cells, ∀ t, x ≠ .str t) (hφ : IncreasingOn φ (numbersOf c)) :
      SameData fl quantile (.num q) (.num q) c (rescale φ c)
  | shift (q : ℚ) (c : Column) (b : ℚ) (hfl : fl = id) (hq : quantile = false)
      (hstr : ∀ x ∈ c.cells, ∀ t, x ≠ .str t) :
      SameData fl quantile (.num q) (.num q) c (rescale (· + b) c)
  | edges (l : List ℚ) (c : Column) (φ : ℚ → ℚ)
      (hstr : ∀ x ∈ c.cells, ∀ t, x ≠ .str t) (hφ : IncreasingOn φ (numbersOf c ∪ {x | x ∈ l})) :
      SameData fl quantile (.edges l) (.edges (l.map φ)) c (rescale φ c)

/-- Two frames with the same data: the interval columns possibly on another scale, with the bins adapted; all other columns
unchanged. -/
structure SameFrames (fl : ℚ → ℚ) (quantile : Bool) (ic : List String) (bins bins' : Bins) (f g : Frame) : Prop where
  nrows : g.nrows = f.nrows
  cols : List.Forall₂ (fun c c' => if c.name ∈ ic then
      ∃ s s', EntryFor bins c.name s ∧ EntryFor bins' c.name s' ∧ SameData fl quantile s s' c c'
    else c' = c) f.cols g.cols

end Phik.Spec
