import Verif.Model.Infinite

/-! # Data without infinities as data that may have them -/

namespace Phik.Spec

/-- A value that is a number or missing, as a floating point number. -/
def asXF : Option ℚ → XF
  | none => .nan
  | some q => .fin q

/-- A frame without infinite values. -/
def asXFrame (f : Frame) : XFrame := f.cols.map fun c => ⟨c.name, c.numeric, c.cells.map .cell⟩

/-- An entry of `bins` without infinite edges. -/
def asXSpec : BinSpec → XBinSpec
  | .num q => .num q
  | .edges l => .edges (l.map .fin)
  | .other => .other

/-- The `bins` argument without infinite edges. -/
def asXBins : Bins → XBins
  | .one s => .one (asXSpec s)
  | .dict d => .dict (d.map fun p => (p.1, asXSpec p.2))

/-- Reading of strings, where no string is an infinite number. -/
def asXParse (pf : String → Option (Option ℚ)) : String → Option XF := fun s => (pf s).map asXF

/-- Bin labels. -/
def asXLabels (l : List (ℚ × ℚ)) : List (XF × XF) := l.map fun p => (.fin p.1, .fin p.2)

/-- Labels of all columns. -/
def asXDict (d : List (String × List (ℚ × ℚ))) : List (String × List (XF × XF)) := d.map fun p => (p.1, asXLabels p.2)

/-- The entries with a meaning of their own: missing values, 'UF', 'OF' and 'NaN'. -/
def sentinels : List XCell := [.cell .nan, .cell (.str "UF"), .cell (.str "OF"), .cell (.str "NaN")]

/-- The frame in which the entries of the columns outside of `ic` are replaced: `g n` replaces the entries of column `n`. -/
def relabelX (ic : List String) (g : String → XCell → XCell) (f : XFrame) : XFrame :=
  f.map fun c => if c.name ∈ ic then c else { c with cells := c.cells.map (g c.name) }

end Phik.Spec
