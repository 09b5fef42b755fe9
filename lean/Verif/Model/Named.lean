import Verif.Model.Outliers
import Verif.Model.Significance

/-!
# Arrays with names

`array_like_to_dataframe` names the two columns after the Series it is given, and 'x' and 'y' otherwise.
-/

namespace Phik

/-- `array_like_to_dataframe` (utils.py:7-17): `nx` and `ny` are the names of the two Series, 'x' and 'y' for arrays and
lists.  Simplifications as for `arraysToFrame`; Series without a name (the column name is then `None`) and two equal names
are not considered. -/
def arraysToFrameN (render : ℚ → String) (nx ny : String) (x y : List Cell) : Except Err Frame :=
  if x.length ≠ y.length then .error .value
  else if (x ++ y).any Cell.isStr then
    .ok ⟨x.length, [⟨nx, false, x.map (asStr render)⟩, ⟨ny, false, y.map (asStr render)⟩]⟩
  else .ok ⟨x.length, [⟨nx, true, x⟩, ⟨ny, true, y⟩]⟩

/-- `phik_from_array` (phik.py:293-330) of two Series with names. -/
noncomputable def phikFromArrayN (nm : Numerics) (render : ℚ → String) (fl : ℚ → ℚ)
    (pf : String → Option (Option ℚ)) (nx ny : String) (x y : List Cell) (numVars : List String) (bins : Bins)
    (quantile noise dropna du dof : Bool) : M (Option ℝ) := do
  if numVars.length > 0 then
    let df ← M.ofExcept (arraysToFrameN render nx ny x y)
    let r ← M.alloc df
    let (b, _) ← binData fl pf r numVars bins quantile
    let out ← M.read b
    match out.cols with
    | [cx, cy] => phikFromBinnedArray nm render cx.cells cy.cells noise dropna du dof
    | _ => throw .value
  else phikFromBinnedArray nm render x y noise dropna du dof

/-- `significance_from_array` (significance.py:341-381) of two Series with names. -/
noncomputable def sigFromArrayN {F : Type} (S : SigNum) (R : SimRun F) (render : ℚ → String) (fl : ℚ → ℚ)
    (pf : String → Option (Option ℚ)) (nx ny : String) (x y : List Cell) (numVars : List String) (bins : Bins)
    (quantile : Bool) (sigMethod : String) (dropna du dof : Bool) : M (Option ℝ × Option EReal) := do
  if numVars.length > 0 then
    let df ← M.ofExcept (arraysToFrameN render nx ny x y)
    let r ← M.alloc df
    let (b, _) ← binData fl pf r numVars bins quantile
    let out ← M.read b
    match out.cols with
    | [cx, cy] => sigFromBinnedArray S R render cx.cells cy.cells sigMethod dropna du dof
    | _ => throw .value
  else sigFromBinnedArray S R render x y sigMethod dropna du dof

/-- `outlier_significance_from_array` (outliers.py:567-602) of two Series with names; also
`Series.outlier_significance_matrix` (decorators/pandas.py:38). -/
noncomputable def outlierFromArrayN (N : OutNum) (fmt render : ℚ → String) (fl : ℚ → ℚ)
    (pf : String → Option (Option ℚ)) (nx ny : String) (x y : List Cell) (numVars : Option (List String)) (bins : Bins)
    (quantile : Bool) (ci : String) (dropna du dof : Bool) : M (Option OutTab) := do
  let df ← M.ofExcept (arraysToFrameN render nx ny x y)
  let r ← M.alloc df
  let nv := numVars.getD (guessIntervalCols df)
  let (t, _) ← outlierMatrix N fmt fl pf r (some nv) ci bins quantile dropna du dof
  pure t

/-- `hist2d_from_array` (binning.py:209-229), with `retbins=True`; also `Series.hist2d` (decorators/pandas.py:23). -/
def hist2dFromArrayN (render : ℚ → String) (fl : ℚ → ℚ) (pf : String → Option (Option ℚ)) (nx ny : String)
    (x y : List Cell) (intervalCols : Option (List String)) (bins : Bins) (quantile dropna du dof : Bool) :
    M (Hist × List (String × List (ℚ × ℚ))) := do
  let df ← M.ofExcept (arraysToFrameN render nx ny x y)
  let r ← M.alloc df
  hist2d fl pf r intervalCols bins quantile dropna du dof

/-- `hist2d_from_array` (binning.py:209-229) of arrays and lists. -/
def hist2dFromArray (render : ℚ → String) (fl : ℚ → ℚ) (pf : String → Option (Option ℚ))
    (x y : List Cell) (intervalCols : Option (List String)) (bins : Bins) (quantile dropna du dof : Bool) :
    M (Hist × List (String × List (ℚ × ℚ))) := do
  let df ← M.ofExcept (arraysToFrame render x y)
  let r ← M.alloc df
  hist2d fl pf r intervalCols bins quantile dropna du dof

end Phik
