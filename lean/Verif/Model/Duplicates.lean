import Verif.Model.Report

/-!
# Frames in which several columns have the same name

`df[name]` of a repeated name is a data frame, its `nunique()` a Series, and the truth value of a comparison of a Series of two or more entries
raises ValueError.  `groupby` by a repeated name raises ValueError ("Grouper for ... not 1-dimensional").
-/

namespace Phik

/-- `df[name].nunique()`, used as a number in a condition. (pandas, phik/data_quality.py:56-76) -/
def Frame.nuniqueDup (f : Frame) (name : String) : Except Err ℕ :=
  if 1 < f.names.count name then .error .value else .ok (f.nunique name)

/-- The first loop of `dq_check_nunique_values` (data_quality.py:55-61). -/
def dqManyDup (f : Frame) : List String → M Unit
  | [] => pure ()
  | c :: cs => do
    let n ← M.ofExcept (f.nuniqueDup c)
    if 1000 < n then M.warn (.manyUnique c)
    dqManyDup f cs

/-- The second and the third loop of `dq_check_nunique_values` (data_quality.py:66-82): the columns to drop. -/
def dqFewDup (f : Frame) (few : ℕ → Bool) : List String → M (List String)
  | [] => pure []
  | c :: cs => do
    let n ← M.ofExcept (f.nuniqueDup c)
    if few n then
      M.warn (.notEnoughUnique c)
      let rest ← dqFewDup f few cs
      pure (c :: rest)
    else dqFewDup f few cs

/-- `dq_check_nunique_values` (data_quality.py:24-90) of a frame with any column names. -/
def dqCheckDup (r : Ref) (intervalCols : List String) (dropna : Bool) : M (Ref × List String) := do
  let df ← M.read r
  let ic := intervalCols.filter fun c => df.names.contains c
  dqManyDup df (otherCols df ic)
  let drop₁ ← dqFewDup df (fun n => decide (n < 2)) ic
  let drop₂ ← dqFewDup df (fun n => decide (n = 0) || (decide (n = 1) && dropna)) (otherCols df ic)
  let drop := drop₁ ++ drop₂
  let copy ← M.alloc df
  if drop.length > 0 then
    M.write copy (df.drop drop)
    pure (copy, ic.filter fun c => !drop.contains c)
  else pure (copy, ic)

/-- The common beginning of the functions that take a data frame: the interval columns are guessed, the quality check runs, the rest works on the
cleaned copy. (phik/phik.py:211-216, 281-285, phik/significance.py:332-337, phik/outliers.py:459-464, 549-553, phik/report.py:262-268) -/
def onClean {α : Type} (dq : Ref → List String → Bool → M (Ref × List String)) (r : Ref) (intervalCols : Option (List String)) (dropna : Bool)
    (rest : Ref × List String → M α) : M α := do
  let df ← M.read r
  let x ← dq r (intervalCols.getD (guessIntervalCols df)) dropna
  rest x

/-- `phik_matrix` (phik.py:185-221). -/
noncomputable def phikMatrixDup (nm : Numerics) (sched : Option (List ℕ)) (fl : ℚ → ℚ) (pf : String → Option (Option ℚ)) (r : Ref)
    (intervalCols : Option (List String)) (bins : Bins) (quantile noise dropna du dof : Bool) : M LTable :=
  onClean dqCheckDup r intervalCols dropna fun x => do
    let (binned, _) ← binData fl pf x.1 x.2 bins quantile
    phikFromRebinned nm sched binned noise dropna du dof

/-- `global_phik_array` (phik.py:254-290). -/
noncomputable def globalPhikArrayDup (nm : Numerics) (sched : Option (List ℕ)) (fl : ℚ → ℚ) (pf : String → Option (Option ℚ)) (r : Ref)
    (intervalCols : Option (List String)) (bins : Bins) (quantile noise dropna du dof : Bool) : M (List GVal × List String) :=
  onClean dqCheckDup r intervalCols dropna fun x => do
    let (binned, _) ← binData fl pf x.1 x.2 bins quantile
    globalFromRebinned nm sched binned noise dropna du dof

/-- `significance_matrix` (significance.py:302-342). -/
noncomputable def significanceMatrixDup {F : Type} (S : SigNum) (R : ℕ → SimRun F) (fl : ℚ → ℚ) (pf : String → Option (Option ℚ)) (r : Ref)
    (intervalCols : Option (List String)) (bins : Bins) (sigMethod : String) (dropna du dof : Bool) : M (LTab EReal) :=
  onClean dqCheckDup r intervalCols dropna fun x => do
    let (binned, _) ← binData fl pf x.1 x.2 bins false
    sigFromRebinned S R binned sigMethod dropna du dof

/-- `outlier_significance_matrix` (outliers.py:431-473). -/
noncomputable def outlierMatrixDup (N : OutNum) (fmt : ℚ → String) (fl : ℚ → ℚ) (pf : String → Option (Option ℚ)) (r : Ref)
    (intervalCols : Option (List String)) (ci : String) (bins : Bins) (quantile dropna du dof : Bool) :
    M (Option OutTab × List (String × List (ℚ × ℚ))) := do
  let df ← M.read r
  if df.cols.length ≠ 2 then throw .value
  onClean dqCheckDup r intervalCols dropna fun x => do
    let (binned, dict) ← binData fl pf x.1 x.2 bins quantile
    let t ← outlierFromRebinned N fmt binned dict ci dropna du dof
    pure (t, dict)

/-- `outlier_significance_matrices` (outliers.py:518-564). -/
noncomputable def outlierMatricesDup (N : OutNum) (fmt : ℚ → String) (fl : ℚ → ℚ) (pf : String → Option (Option ℚ)) (r : Ref)
    (intervalCols : Option (List String)) (ci : String) (bins : Bins) (quantile : Bool) (combinations : List (String × String)) (dropna du dof : Bool) :
    M (List (String × Option OutTab) × List (String × List (ℚ × ℚ))) :=
  onClean dqCheckDup r intervalCols dropna fun x => do
    let (binned, dict) ← binData fl pf x.1 x.2 bins quantile
    let l ← outlierMatricesFromRebinned N fmt binned dict ci combinations dropna du dof
    pure (joinDict l, dict)

/-- `correlation_report` (report.py:220-357); the quality check comes before the pdf file is opened. -/
noncomputable def correlationReportDup {F : Type} (nm : Numerics) (sched : Option (List ℕ)) (S : SigNum) (R : ℕ → SimRun F)
    (N : OutNum) (fmt fmt0 : ℚ → String) (fmt2 : EReal → String) (fl : ℚ → ℚ)
    (pf : String → Option (Option ℚ)) (gnan : LTable → Except Err (List GVal)) (r : Ref)
    (intervalCols : Option (List String)) (bins : Bins) (quantile doOutliers : Bool) (pdf : String)
    (sigThr corrThr : ℝ) (noise storeEach : Bool) (sigMethod ci : String) : M Report :=
  onClean dqCheckDup r intervalCols true fun x => do
    let folder := if storeEach then some (reportFolder pdf) else none
    let pdf := if storeEach then "" else pdf
    let (binned, dict) ← binData fl pf x.1 x.2 bins quantile
    -- 1. phik
    let phik ← phikFromRebinned nm sched binned noise true true true
    let fig1 ← M.ofExcept (plotCorrelation fmt0 fmt2 (phik.values.map fvalOfReal) (phik.cols.map .str)
      (phik.rows.map .str) 0 1 20 none true true)
    -- 1b. global correlations
    let again ← phikFromRebinned nm sched binned noise true true true
    let g ← M.ofExcept (globalOrNan gnan again)
    let fig2 ← M.ofExcept (plotCorrelation fmt0 fmt2 ⟨g.length, 1, fun i _ => fvalOfG g[i]⟩ [.str ""]
      (again.rows.map .str) 0 1 20 none true true)
    -- 2. significance
    let sig ← sigFromRebinned S R binned sigMethod true true true
    let fig3 ← M.ofExcept (plotCorrelation fmt0 fmt2 (sig.values.map fun z => some (z.getD 0))
      (sig.cols.map .str) (sig.rows.map .str) (-5) 5 20 none true true)
    -- 3. outliers
    let st : LoopState := ⟨[], matrixFile folder "phik_matrix" ++ matrixFile folder "global_phik" ++
      matrixFile folder "significance_matrix", [fig1, fig2, fig3]⟩
    let data ← M.read binned
    let st ← if doOutliers then
        reportLoop N fmt fmt0 fmt2 binned dict ci sigThr corrThr folder phik sig (comb2 data.names) st
      else pure st
    let files := if pdf ≠ "" then dictSet st.files "all" pdf else st.files
    pure ⟨phik, g, sig, st.outliers, files, st.figures⟩

/-- `_calc_phik` (phik.py:161-182) on a frame with any column names. -/
noncomputable def calcPhikDup (nm : Numerics) (f : Frame) (noise : Bool) (co : String × String) : Except Err (String × String × Option ℝ) :=
  if co.1 = co.2 then .ok (co.1, co.2, some 1)
  else if 1 < f.names.count co.1 ∨ 1 < f.names.count co.2 then .error .value
  else calcPhik nm f noise co

/-- The part of `phik_from_rebinned_df` after the replacements (phik.py:134-158); `reindex` repeats the labels. -/
noncomputable def phikOfFrameDup (nm : Numerics) (sched : Option (List ℕ)) (f : Frame) (noise : Bool) : Except Err LTable := do
  let l ← runTasks sched ((cwr f.names).map (calcPhikDup nm f noise))
  if l.length = 0 then pure ⟨f.names, f.names, fun _ _ => none⟩
  else pure (((overview l).reindexCols f.names).reindexRows f.names)

/-- `phik_from_rebinned_df` (phik.py:104-158). -/
noncomputable def phikFromRebinnedDup (nm : Numerics) (sched : Option (List ℕ)) (r : Ref) (noise dropna du dof : Bool) : M LTable := do
  let data ← M.read r
  M.write r (applyFlags dropna du dof data)
  M.ofExcept (phikOfFrameDup nm sched (applyFlags dropna du dof data) noise)

end Phik
