import Verif.Model.Outliers
import Verif.Model.Significance

/-!
# Model of phik/report.py

Figures are lists of what is written where; colours, fonts and files are left out (except for the colour
of the annotations).
-/

namespace Phik

/-! ### `plot_correlation_matrix` -/

/-- `[a[::-1] for a in matrix]` (report.py:128, 131). -/
def Arr2.revCols {K : Type} (a : Arr2 K) : Arr2 K := ⟨a.r, a.c, fun i j => a.v i j.rev⟩

/-- A number written in a figure: its place, its text and whether it is white. (phik/report.py:207) -/
structure Note where
  x : ℚ
  y : ℚ
  text : String
  white : Bool

/-- The content of a figure: the coloured cells (row, column), the ticks of the axes with their labels, and
the numbers written into it. (phik/report.py:135-208) -/
structure Figure where
  mesh : Arr2 FVal
  xticks : List (ℚ × String)
  yticks : List (ℚ × String)
  notes : List Note

/-- `tick` (report.py:141-148); `fmt0` is `'{0:.0f}'.format`. -/
def tickText (fmt0 : ℚ → String) (top : ℕ) (lab : Cell) : String :=
  let s := match lab with
    | .nan => "NaN"
    | .num q => fmt0 q
    | .str s => s
  if top < s.length then String.ofList (s.toList.take 17) ++ "..." else s

/-- Ticks and labels of one axis with `n` cells (report.py:153-164): at the edges of the cells if there is
one label more than cells, otherwise in the middle of the cells. -/
def axisTicks (fmt0 : ℚ → String) (top n : ℕ) (labels : List Cell) : List (ℚ × String) :=
  if labels.length = n + 1 then labels.mapIdx fun i l => ((i : ℚ), tickText fmt0 top l)
  else labels.mapIdx fun i l => ((i : ℚ) + 1 / 2, tickText fmt0 top l)

/-- Text of a number (report.py:204-205); `fmt2` is `'{0:.2f}'.format`. -/
def numText (fmt2 : EReal → String) : FVal → String
  | none => "NaN"
  | some x => fmt2 x

open scoped Classical in
/-- `white_cond` (report.py:196). -/
noncomputable def whiteCond (vmin vmax : ℝ) : FVal → Bool
  | none => true
  | some x => decide (x < ((0.7 * vmin : ℝ) : EReal)) || decide (((0.7 * vmax : ℝ) : EReal) ≤ x)

/-- The numbers of one cell (report.py:195-208): one number in the middle, or two above each other. -/
noncomputable def cellNotes (fmt2 : EReal → String) (vmin vmax : ℝ) (both : Bool) (i j : ℕ) (number color : FVal) :
    List Note :=
  if both then
    [⟨i + 1 / 2, j + 7 / 10, numText fmt2 number, whiteCond vmin vmax color⟩,
     ⟨i + 1 / 2, j + 1 / 4, numText fmt2 color, whiteCond vmin vmax color⟩]
  else [⟨i + 1 / 2, j + 1 / 2, numText fmt2 number, whiteCond vmin vmax color⟩]

/-- The loop over the cells of `matrix_numbers` (report.py:192-208).  `matrix_colors[j][i]` raises IndexError
outside of that array. -/
noncomputable def drawNotes (fmt2 : EReal → String) (vmin vmax : ℝ) (both : Bool) (nums colors : Arr2 FVal) :
    Except Err (List Note) :=
  if h : (nums.r ≤ colors.r ∧ nums.c ≤ colors.c) ∨ nums.r = 0 ∨ nums.c = 0 then
    .ok ((List.finRange nums.c).flatMap fun (i : Fin nums.c) => (List.finRange nums.r).flatMap fun (j : Fin nums.r) =>
      cellNotes fmt2 vmin vmax both i j (nums.v j i)
        (colors.v ⟨j, by have := i.2; have := j.2; omega⟩ ⟨i, by have := i.2; have := j.2; omega⟩))
  else .error .index

/-- `len(x_labels)==1 and len(x_labels[0]) == 0` (report.py:167, 174), which decides whether ticks are drawn (left out);
`len` of a number is a TypeError. -/
def lenCheck (labels : List Cell) : Except Err Unit :=
  match labels with
  | [.str _] => .ok ()
  | [_] => .error .type
  | _ => .ok ()

/-- `plot_correlation_matrix` (report.py:90-217), for a numpy array of numbers.
Simplifications: labels are strings, floats or Python integers; `pcolormesh` accepts every two-dimensional
array; reversing an array without rows makes it one-dimensional, which `pcolormesh` rejects (ValueError). -/
noncomputable def plotCorrelation (fmt0 : ℚ → String) (fmt2 : EReal → String) (colors : Arr2 FVal)
    (xLabels yLabels : List Cell) (vmin vmax : ℝ) (top : ℕ) (numbers : Option (Arr2 FVal))
    (printBoth identity : Bool) : Except Err Figure := do
  if ¬ (colors.r = yLabels.length ∨ colors.r + 1 = yLabels.length) then throw .assertion
  if ¬ (colors.c = xLabels.length ∨ colors.c + 1 = xLabels.length) then throw .assertion
  let nums := numbers.getD colors
  let both := if numbers.isSome then printBoth else false
  if numbers.isSome ∧ ¬ nums.r = yLabels.length then throw .assertion
  if numbers.isSome ∧ ¬ nums.c = xLabels.length then throw .assertion
  if identity ∧ colors.r = 0 then throw .value
  let mcolors := if identity then colors.revCols else colors
  let xl := if identity then xLabels.reverse else xLabels
  let mnums := if identity then nums.revCols else nums
  lenCheck xl
  lenCheck yLabels
  let notes ← drawNotes fmt2 vmin vmax both mnums mcolors
  pure ⟨mcolors, axisTicks fmt0 top mcolors.c xl, axisTicks fmt0 top mcolors.r yLabels, notes⟩

/-! ### `correlation_report` -/

/-- `matrix.values` of a labelled table (report.py:285, 311). -/
def LTab.values {α : Type} (t : LTab α) : Arr2 (Option α) :=
  ⟨t.rows.length, t.cols.length, fun i j => t.v t.rows[i] t.cols[j]⟩

/-- A number of the phik matrix, as passed to the plot (report.py:285). -/
noncomputable def fvalOfReal : Option ℝ → FVal := Option.map fun x => (x : EReal)

/-- A global correlation; a division by zero is shown here as NaN (see `GVal`) (report.py:297). -/
noncomputable def fvalOfG : GVal → FVal
  | .num x => some (x : EReal)
  | .nan => none
  | .byZero => none

/-- The condition under which a pair is skipped (report.py:323-325); comparisons with NaN are false. -/
noncomputable def reportSkip (sigThr corrThr : ℝ) (sig : Option EReal) (phik : Option ℝ) : Bool :=
  (match sig with
    | none => false
    | some z => decide (max z (-z) < (sigThr : EReal))) ||
  (match phik with
    | none => false
    | some p => decide (p < corrThr))

/-- `':'.join(comb).replace(' ', '_')` (report.py:329). -/
def reportKey (c0 c1 : String) : String :=
  (c0 ++ ":" ++ c1).map fun ch => if ch = ' ' then '_' else ch

/-- `os.path.dirname` on POSIX, called in report.py:270. -/
def dirname (p : List Char) : List Char :=
  let head := (p.reverse.dropWhile (· ≠ '/')).reverse
  if head.all (· = '/') then head else (head.reverse.dropWhile (· = '/')).reverse

/-- The folder of the plots (report.py:270-271). -/
def reportFolder (pdf : String) : String :=
  let d := dirname pdf.toList
  String.ofList d ++ (if d.isEmpty then "./" else "/")

/-- The entry of `output_files` for a matrix (report.py:281-283, 293-295, 307-309), when each plot is stored. -/
def matrixFile (folder : Option String) (name : String) : List (String × String) :=
  match folder with
  | some d => [(name, d ++ name ++ ".pdf")]
  | none => []

/-- The result of `correlation_report`, with the figures it draws, in order (report.py:357). -/
structure Report where
  phik : LTable
  globalPhik : List GVal
  significance : LTab EReal
  outliers : List (String × OutTab)
  files : List (String × String)
  figures : List Figure

/-- State of the loop over the pairs (report.py:319-349): `outliers_overview`, `output_files` and the figures. -/
structure LoopState where
  outliers : List (String × OutTab)
  files : List (String × String)
  figures : List Figure

/-- The loop over the pairs (report.py:321-349).  `zvalues_df` is the number NaN when there are too few
categories, which has no attribute `columns`. -/
noncomputable def reportLoop (N : OutNum) (fmt fmt0 : ℚ → String) (fmt2 : EReal → String) (r : Ref)
    (dict : List (String × List (ℚ × ℚ))) (ci : String) (sigThr corrThr : ℝ) (folder : Option String)
    (phik : LTable) (sig : LTab EReal) : List (String × String) → LoopState → M LoopState
  | [], st => pure st
  | (c0, c1) :: rest, st => do
    if reportSkip sigThr corrThr (sig.v c0 c1) (phik.v c0 c1) then
      reportLoop N fmt fmt0 fmt2 r dict ci sigThr corrThr folder phik sig rest st
    else
      let data ← M.read r
      let a ← M.ofExcept (data.getCol c0)
      let b ← M.ofExcept (data.getCol c1)
      -- data_binned[[c0, c1]].copy()
      let s ← M.alloc ⟨data.nrows, [a, b]⟩
      let z ← outlierFromRebinned N fmt s dict ci true true true
      match z with
      | none => throw .attribute
      | some t =>
        let fig ← M.ofExcept (plotCorrelation fmt0 fmt2 ⟨t.rows.length, t.cols.length, t.v⟩ t.cols t.rows
          (-5) 5 20 none true false)
        let key := reportKey c0 c1
        let files := match folder with
          | some d => dictSet st.files key (d ++ "pulls_" ++ key ++ ".pdf")
          | none => st.files
        reportLoop N fmt fmt0 fmt2 r dict ci sigThr corrThr folder phik sig rest
          ⟨dictSet st.outliers key t, files, st.figures ++ [fig]⟩

/-- The global correlations of a matrix (phik.py:248-251); `gnan` is what `numpy.linalg.inv` and the following
formula make of a matrix with NaN. -/
noncomputable def globalOrNan (gnan : LTable → Except Err (List GVal)) (t : LTable) : Except Err (List GVal) :=
  match globalOf t with
  | .error .nonfinite => gnan t
  | res => res

/-- `correlation_report` (report.py:220-357).  `gnan` is what `numpy.linalg.inv` and the following formula
make of a matrix with NaN. -/
noncomputable def correlationReport {F : Type} (nm : Numerics) (sched : Option (List ℕ)) (S : SigNum) (R : ℕ → SimRun F)
    (N : OutNum) (fmt fmt0 : ℚ → String) (fmt2 : EReal → String) (fl : ℚ → ℚ)
    (pf : String → Option (Option ℚ)) (gnan : LTable → Except Err (List GVal)) (r : Ref)
    (intervalCols : Option (List String)) (bins : Bins) (quantile doOutliers : Bool) (pdf : String)
    (sigThr corrThr : ℝ) (noise storeEach : Bool) (sigMethod ci : String) : M Report := do
  let df ← M.read r
  let ic := intervalCols.getD (guessIntervalCols df)
  let (clean, icClean) ← dqCheck r ic true
  let folder := if storeEach then some (reportFolder pdf) else none
  let pdf := if storeEach then "" else pdf
  let (binned, dict) ← binData fl pf clean icClean bins quantile
  -- 1. phik
  let phik ← phikFromRebinned nm sched binned noise true true true
  let fig1 ← M.ofExcept (plotCorrelation fmt0 fmt2 (phik.values.map fvalOfReal) (phik.cols.map .str)
    (phik.rows.map .str) 0 1 20 none true true)
  -- 1b. global correlations
  let again ← phikFromRebinned nm sched binned noise true true true
  let g ← M.ofExcept (globalOrNan gnan again)
  let fig2 ← M.ofExcept (plotCorrelation fmt0 fmt2 ⟨g.length, 1, fun i _ => fvalOfG g[i]⟩ [.str ""]
    (again.rows.map .str) 0 1 20 none true true)
  -- 2. significance
  let sig ← sigFromRebinned S R binned sigMethod true true true
  let fig3 ← M.ofExcept (plotCorrelation fmt0 fmt2 (sig.values.map fun z => some (z.getD 0))
    (sig.cols.map .str) (sig.rows.map .str) (-5) 5 20 none true true)
  -- 3. outliers
  let st : LoopState := ⟨[], matrixFile folder "phik_matrix" ++ matrixFile folder "global_phik" ++
    matrixFile folder "significance_matrix", [fig1, fig2, fig3]⟩
  let data ← M.read binned
  let st ← if doOutliers then
      reportLoop N fmt fmt0 fmt2 binned dict ci sigThr corrThr folder phik sig (comb2 data.names) st
    else pure st
  let files := if pdf ≠ "" then dictSet st.files "all" pdf else st.files
  pure ⟨phik, g, sig, st.outliers, files, st.figures⟩

end Phik
