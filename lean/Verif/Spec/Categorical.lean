import Verif.Model.Categorical
import Verif.Spec.Matrix
import Verif.Spec.Significance

/-! # Specifications for columns of categorical dtype -/

namespace Phik.Spec

/-- A column pandas can have: the categories of its dtype are distinct, none is missing, and the entries are categories or
missing. -/
def DColumn.WF (c : DColumn) : Prop :=
  ∀ L, c.levels = some L → L.Nodup ∧ Cell.nan ∉ L ∧ ∀ x ∈ c.cells, x = Cell.nan ∨ x ∈ L

/-- The records of two columns as they enter the contingency table (`dropna=True`). -/
def recordsD (du dof : Bool) (a b : DColumn) : List (Option Cell × Option Cell) :=
  (a.cells.zip b.cells).map fun p => (view true du dof p.1, view true du dof p.2)

/-- The labels of a column in a table with a categorical column: all its categories that are not dropped, in their order;
for another column its values, sorted. -/
def IsAxis (du dof : Bool) (c : DColumn) (l : List Cell) : Prop :=
  match c.levels with
  | some L => l = L.filter fun x => (view true du dof x).isSome
  | none => l.Pairwise (· < ·) ∧ ∀ x, x ∈ l ↔ ∃ y ∈ c.cells, view true du dof y = some x

/-- The contingency table when a column is categorical: a row and a column for every label, used or not. -/
structure IsTableD (du dof : Bool) (a b : DColumn) (h : Hist) : Prop where
  rows : IsAxis du dof a h.rows
  cols : IsAxis du dof b h.cols
  counts : ∀ i j, h.v i j = (recordsD du dof a b).count (some h.rows[i], some h.cols[j])

/-- phik of two columns: as for plain columns if neither is categorical, otherwise NaN when there are fewer than two labels,
else `phik_from_hist2d` of the table with all labels. -/
def IsPhikD (nm : Numerics) (noise du dof : Bool) (a b : DColumn) (v : Option ℝ) : Prop :=
  if a.levels = none ∧ b.levels = none then IsPhik nm noise (recordsD du dof a b) v
  else ∃ h : Hist, IsTableD du dof a b h ∧
    ((h.rows.length < 2 ∨ h.cols.length < 2) ∧ v = none ∨
     2 ≤ h.rows.length ∧ 2 ≤ h.cols.length ∧
      ∃ x, phikFromHist2d nm.mvn nm.brentq h.values noise = .ok x ∧ v = some x)

/-- Some record has a value in both columns. -/
def HasRecord (du dof : Bool) (a b : DColumn) : Prop := ∃ x y, (some x, some y) ∈ recordsD du dof a b

/-- The column has fewer than two labels. -/
def FewLabels (du dof : Bool) (c : DColumn) : Prop := ∀ l, IsAxis du dof c l → l.length < 2

/-- Every label of the first (second) axis occurs in a record with a value in both columns. -/
def AllUsed (du dof : Bool) (a b : DColumn) : Prop :=
  (∀ l, IsAxis du dof a l → ∀ x ∈ l, ∃ y, (some x, some y) ∈ recordsD du dof a b) ∧
  ∀ l, IsAxis du dof b l → ∀ y ∈ l, ∃ x, (some x, some y) ∈ recordsD du dof a b

/-- The same column with plain entries. -/
def plain (c : DColumn) : DColumn := { c with levels := none }

/-- The significance of two columns: as for plain columns if neither is categorical, otherwise NaN when there are fewer than
two labels, else the Z-value of the table with all labels. -/
def IsSigD {F : Type} (S : SigNum) (R : SimRun F) (method : String) (du dof : Bool) (a b : DColumn) (v : Option EReal) :
    Prop :=
  if a.levels = none ∧ b.levels = none then IsSig S R method (recordsD du dof a b) v
  else ∃ h : Hist, IsTableD du dof a b h ∧ (Few h ∧ v = none ∨
    ¬ Few h ∧ ∃ p, sigFromHist2d S R h.values method = .ok (p, v))

/-- The significance matrix of a frame of plain and categorical columns. -/
structure IsSigMatrixD {F : Type} (S : SigNum) (R : ℕ → SimRun F) (method : String) (du dof : Bool) (f : List DColumn)
    (t : LTab EReal) : Prop where
  rows : t.rows = f.map (·.name)
  cols : t.cols = f.map (·.name)
  symm : ∀ a ∈ f.map (·.name), ∀ b ∈ f.map (·.name), t.v a b = t.v b a
  entry : ∀ k a b, (cwr (f.map (·.name)))[k]? = some (a, b) → ∃ ca ∈ f, ∃ cb ∈ f,
    ca.name = a ∧ cb.name = b ∧ IsSigD S (R k) method du dof ca cb (t.v a b)

end Phik.Spec
