import Verif.Model.Binning

/-! # Specifications of binning and counting -/

namespace Phik.Spec

/-- The edges a user asks for with one entry of `bins`: the given edges, or edges computed from the
values of the column for a number of bins (truncated to an integer). -/
inductive Requested (fl : ℚ → ℚ) (quantile : Bool) (values : List (Option ℚ)) : BinSpec → List ℚ → Prop
  | edges (l : List ℚ) : Requested fl quantile values (.edges l) l
  | num (q : ℚ) (l : List ℚ) (h : binEdges fl (values.filterMap id) (truncQ q) quantile = .ok l) :
      Requested fl quantile values (.num q) l

/-- The entry of `bins` for a column: the argument itself, or the value of the dictionary. -/
inductive EntryFor : Bins → String → BinSpec → Prop
  | one (s : BinSpec) (name : String) : EntryFor (.one s) name s
  | dict (d : List (String × BinSpec)) (name : String) (s : BinSpec) (h : d.lookup name = some s) :
      EntryFor (.dict d) name s

/-- How a record's entry enters the contingency table: `none` if the record is left out. -/
def view (dropna du dof : Bool) : Cell → Option Cell
  | .nan => if dropna then none else some (.str "NaN")
  | .str s =>
    if s = "UF" ∧ du = true then none
    else if s = "OF" ∧ dof = true then none
    else some (.str s)
  | .num q => some (.num q)

/-- `h` is the contingency table of the records `recs`: the labels are the values of the records that
are kept, sorted and without repetition, and every cell counts the records with its pair of labels. -/
structure IsTable (recs : List (Option Cell × Option Cell)) (h : Hist) : Prop where
  rows_sorted : h.rows.Pairwise (· < ·)
  cols_sorted : h.cols.Pairwise (· < ·)
  rows_mem : ∀ a, a ∈ h.rows ↔ ∃ b, (some a, some b) ∈ recs
  cols_mem : ∀ b, b ∈ h.cols ↔ ∃ a, (some a, some b) ∈ recs
  counts : ∀ i j, h.v i j = recs.count (some h.rows[i], some h.cols[j])

end Phik.Spec
