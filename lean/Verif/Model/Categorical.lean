import Verif.Model.PhikMatrix
import Verif.Model.Significance

/-!
# Columns of pandas' categorical dtype

`Model/Frame.lean` has no categorical columns.  Here a column may carry the categories of its dtype, and the functions
that make and use contingency tables are modelled again for such columns.

Simplifications: only `dropna=True` (with `dropna=False` the effect of `replace(nan, 'NaN')` on a categorical column depends
on the pandas version); the functions return instead of changing their argument in place.
-/

namespace Phik

/-- A column: its name, the categories if its dtype is categorical, its entries. (pandas, the columns of
phik/phik.py:104) -/
structure DColumn where
  name : String
  levels : Option (List Cell)
  cells : List Cell

/-- The labels of the column on an axis of `groupby` when some key is categorical: the categories in their order, used or
not; for another column its values, sorted. (pandas `observed=False`, phik/phik.py:173, phik/significance.py:275) -/
def DColumn.axis (c : DColumn) : List Cell :=
  match c.levels with
  | some l => l
  | none => (c.cells.filter fun x => !x.isNan).toFinset.sort (· ≤ ·)

/-- `groupby([c0, c1])[c0].count().to_frame().unstack().fillna(0)`: as for other columns when no key is categorical,
otherwise the counts for the product of both axes. (phik/binning.py:165, phik/phik.py:173, phik/significance.py:275) -/
def histOfColumns (a b : DColumn) : Hist :=
  if a.levels = none ∧ b.levels = none then histOfPairs (a.cells.zip b.cells)
  else
    let kept := (a.cells.zip b.cells).filter fun p => !p.1.isNan && !p.2.isNan
    ⟨a.axis, b.axis, fun i j => kept.count (a.axis.get i, b.axis.get j)⟩

/-- `replace(s, np.nan)`: the entries become missing, and the category is removed from the dtype. (pandas 1.x,
phik/phik.py:129-132) -/
def DColumn.drop (s : String) (c : DColumn) : DColumn :=
  { c with
    levels := c.levels.map (·.filter fun x => x ≠ .str s)
    cells := c.cells.map fun x => if x = .str s then .nan else x }

/-- The replacements before counting, with `dropna=True`. (phik/phik.py:125-132) -/
def DColumn.flags (du dof : Bool) (c : DColumn) : DColumn :=
  let c := if du then c.drop "UF" else c
  if dof then c.drop "OF" else c

/-- `data_binned[name]`, raising KeyError. (phik/phik.py:140-149) -/
def getDCol (f : List DColumn) (name : String) : Except Err DColumn :=
  match f.find? (fun c => c.name == name) with
  | some c => .ok c
  | none => .error .key

/-- `_calc_phik` (phik.py:161-182). -/
noncomputable def calcPhikD (nm : Numerics) (f : List DColumn) (noise : Bool) (co : String × String) :
    Except Err (String × String × Option ℝ) := do
  if co.1 = co.2 then return (co.1, co.2, some 1)
  let a ← getDCol f co.1
  let b ← getDCol f co.2
  let h := histOfColumns a b
  if h.rows.length = 0 ∨ h.cols.length = 0 ∨ h.rows.length = 1 ∨ h.cols.length = 1 then
    return (co.1, co.2, none)
  let x ← phikFromHist2d nm.mvn nm.brentq h.values noise
  pure (co.1, co.2, some x)

/-- `phik_from_rebinned_df` (phik.py:104-158) of a frame with categorical columns. -/
noncomputable def phikFromRebinnedD (nm : Numerics) (sched : Option (List ℕ)) (f : List DColumn)
    (noise du dof : Bool) : Except Err LTable := do
  let f := f.map (DColumn.flags du dof)
  let names := f.map (·.name)
  let l ← runTasks sched ((cwr names).map (calcPhikD nm f noise))
  if l.length = 0 then pure ⟨names, names, fun _ _ => none⟩
  else pure (((overview l).reindexCols names).reindexRows names)

/-- One pass of the loop of `significance_from_rebinned_df` (significance.py:272-288), without the warning; `k` is the
number of the pair. -/
noncomputable def sigPairD {F : Type} (S : SigNum) (R : ℕ → SimRun F) (sigMethod : String) (f : List DColumn) (k : ℕ)
    (co : String × String) : Except Err (String × String × Option EReal) := do
  let a ← getDCol f co.1
  let b ← getDCol f co.2
  let h := histOfColumns a b
  if (h.rows.length = 1 ∨ h.cols.length = 1) ∨ (h.rows.length = 0 ∨ h.cols.length = 0) then return (co.1, co.2, none)
  let (_, z) ← sigFromHist2d S (R k) h.values sigMethod
  pure (co.1, co.2, z)

/-- `significance_from_rebinned_df` (significance.py:242-299) of a frame with categorical columns. -/
noncomputable def sigFromRebinnedD {F : Type} (S : SigNum) (R : ℕ → SimRun F) (f : List DColumn) (sigMethod : String)
    (du dof : Bool) : Except Err (LTab EReal) := do
  let f := f.map (DColumn.flags du dof)
  let names := f.map (·.name)
  let l ← ((cwr names).zipIdx.map fun p => sigPairD S R sigMethod f p.2 p.1).mapM id
  if l.length = 0 then pure ⟨names, names, fun _ _ => none⟩
  else pure (((overview l).reindexCols names).reindexRows names)

end Phik
