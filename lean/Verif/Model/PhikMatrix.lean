import Verif.Model.Bivariate
import Mathlib.LinearAlgebra.Matrix.NonsingularInverse

/-!
# Model of `phik/data_quality.py`, of the overview table (`phik/binning.py`) and of the data frame and
array functions of `phik/phik.py`

The value of a pair is `Option ℝ`; `none` is NaN.
-/

namespace Phik

/-! ### data_quality.py -/

/-- `df[col].nunique()`: number of distinct values, missing values not counted.
(pandas, phik/data_quality.py:56-76) -/
def Column.nunique (c : Column) : ℕ := (c.cells.filter fun x => !x.isNan).toFinset.card

/-- `df[name].nunique()`.  The name is always one of the columns. (phik/data_quality.py:56-76) -/
def Frame.nunique (f : Frame) (name : String) : ℕ :=
  match f.col? name with
  | some c => c.nunique
  | none => 0

/-- `set(df.columns) - set(interval_cols)`, sorted (data_quality.py:55, 76). -/
def otherCols (f : Frame) (ic : List String) : List String :=
  (f.names.toFinset \ ic.toFinset).sort (· ≤ ·)

/-- `drop_cols` (data_quality.py:63-81): interval columns with fewer than two values, then other columns
with no value, or with one value when missing values are dropped. -/
def dropCols (f : Frame) (ic : List String) (dropna : Bool) : List String :=
  ic.filter (fun c => decide (f.nunique c < 2)) ++
  (otherCols f ic).filter fun c => decide (f.nunique c = 0) || (decide (f.nunique c = 1) && dropna)

/-- `df.drop(columns=names)`. (phik/data_quality.py:87) -/
def Frame.drop (f : Frame) (names : List String) : Frame :=
  { f with cols := f.cols.filter fun c => !names.contains c.name }

/-- Issue warnings one after the other. (phik/data_quality.py:55-80) -/
def M.warnAll : List Warning → M Unit
  | [] => pure ()
  | x :: xs => do
    M.warn x
    M.warnAll xs

/-- `dq_check_nunique_values` (data_quality.py:24-90). -/
def dqCheck (r : Ref) (intervalCols : List String) (dropna : Bool) : M (Ref × List String) := do
  let df ← M.read r
  let ic := intervalCols.filter fun c => df.names.contains c
  M.warnAll (((otherCols df ic).filter fun c => decide (1000 < df.nunique c)).map .manyUnique)
  let drop := dropCols df ic dropna
  M.warnAll (drop.map .notEnoughUnique)
  let copy ← M.alloc df
  if drop.length > 0 then
    M.write copy (df.drop drop)
    pure (copy, ic.filter fun c => !drop.contains c)
  else pure (copy, ic)

/-- `dq_check_hist2d` (data_quality.py:93-124) of a table of the given shape. -/
def dqCheckHist2d (r c : ℕ) : M Bool := do
  if (r = 0 ∨ c = 0) ∨ (r = 1 ∨ c = 1) then
    M.warn (.tooFew r c)
    pure false
  else
    if 1000 < r then M.warn (.manyBinsX r)
    -- the message contains shape[0], not shape[1]
    if 1000 < c then M.warn (.manyBinsY r)
    pure true

/-! ### the overview table -/

/-- A table with labelled rows and columns; `none` is NaN. (phik/binning.py:122-139) -/
structure LTab (α : Type) where
  rows : List String
  cols : List String
  v : String → String → Option α

/-- A table of real numbers. (phik/phik.py:151-157) -/
abbrev LTable := LTab ℝ

/-- Values of which pandas can take the mean; the mean of equal values is that value.
(pandas `pivot_table`, phik/binning.py:122-139) -/
class Avg (α : Type) where
  avg : List α → α
  avg_const : ∀ (n : ℕ) (v : α), avg (List.replicate (n + 1) v) = v

/-- Mean of numbers. -/
noncomputable instance : Avg ℝ where
  avg l := l.sum / l.length
  avg_const n v := by
    simp only [List.sum_replicate, List.length_replicate, nsmul_eq_mul]
    have : ((n + 1 : ℕ) : ℝ) ≠ 0 := by positivity
    field_simp

/-- Mean of the values that are numbers. (pandas `pivot_table`, phik/binning.py:122-139) -/
def groupMean {α : Type} [Avg α] (l : List (Option α)) : Option α :=
  let x := l.filterMap id
  if x.isEmpty then none else some (Avg.avg x)

/-- `create_correlation_overview_table` (binning.py:122-139) with `pandas.pivot_table`: every value is
entered for both orders of the pair; equal pairs are averaged over the values that are numbers; pairs
without such a value are left out, and so are rows and columns without a value; labels are sorted. -/
def overview {α : Type} [Avg α] (vals : List (String × String × Option α)) : LTab α :=
  let ll := vals.flatMap fun p => [(p.1, p.2.1, p.2.2), (p.2.1, p.1, p.2.2)]
  let v : String → String → Option α := fun a b =>
    groupMean ((ll.filter fun p => p.1 == a && p.2.1 == b).map fun p => p.2.2)
  let keep := ll.filter fun p => (v p.1 p.2.1).isSome
  ⟨(keep.map fun p => p.1).toFinset.sort (· ≤ ·), (keep.map fun p => p.2.1).toFinset.sort (· ≤ ·), v⟩

/-- `df.reindex(columns=names)`. (phik/phik.py:155, phik/significance.py:296) -/
def LTab.reindexCols {α : Type} (t : LTab α) (names : List String) : LTab α :=
  { t with cols := names, v := fun a b => if t.cols.contains b then t.v a b else none }

/-- `df.reindex(index=names)`. (phik/phik.py:156, phik/significance.py:297) -/
def LTab.reindexRows {α : Type} (t : LTab α) (names : List String) : LTab α :=
  { t with rows := names, v := fun a b => if t.rows.contains a then t.v a b else none }

/-- `itertools.combinations_with_replacement(l, 2)`. (phik/phik.py:141, 146, phik/significance.py:274) -/
def cwr {α : Type} : List α → List (α × α)
  | [] => []
  | x :: xs => (x :: xs).map (fun y => (x, y)) ++ cwr xs

/-- `itertools.combinations(l, 2)`. (phik/outliers.py:505, phik/report.py:321) -/
def comb2 {α : Type} : List α → List (α × α)
  | [] => []
  | x :: xs => xs.map (fun y => (x, y)) ++ comb2 xs

/-! ### running the tasks -/

/-- The tasks are run in the given order; every result is stored in the slot of its task; an exception
stops the run.  A task that is never run leaves its slot empty.
(joblib, phik/phik.py:144-147, phik/simulation.py:171) -/
def runOrder {α : Type} (tasks : List (Except Err α)) : List ℕ → List (Option α) → Except Err (List (Option α))
  | [], slots => .ok slots
  | k :: rest, slots =>
    match tasks[k]? with
    | some (.ok a) => runOrder tasks rest (slots.set k (some a))
    | some (.error e) => .error e
    | none => .error .index

/-- The result list, when all slots are filled. (joblib, phik/phik.py:144-147) -/
def collect {α : Type} : List (Option α) → Except Err (List α)
  | [] => .ok []
  | some a :: rest => (collect rest).map (a :: ·)
  | none :: _ => .error .fuel

/-- A list of tasks, run serially (`none`, the list comprehension for `NCORES == 1`) or by joblib
(`some order`: the order in which the workers finish the tasks; `Parallel` returns the results in the
order of submission).  joblib.Parallel as used in phik.py:137-147, simulation.py:170-173. -/
def runTasks {α : Type} (sched : Option (List ℕ)) (tasks : List (Except Err α)) : Except Err (List α) :=
  match sched with
  | none => tasks.mapM id
  | some order => do
    let slots ← runOrder tasks order (tasks.map fun _ => none)
    collect slots

/-! ### phik.py -/

/-- The integration and root finding libraries. (called at phik/bivariate.py:36, 79 and 226) -/
structure Numerics where
  mvn : ℝ → Rect → ℝ
  brentq : (ℝ → ℝ) → ℝ → ℝ → ℝ → Except Err ℝ

/-- The contingency table as an array of numbers (`datahist.values`). (phik/phik.py:174) -/
def Hist.values (h : Hist) : Arr2 ℝ := Arr2.map (fun n : ℕ => (n : ℝ)) h.arr

/-- `_calc_phik` (phik.py:161-182) on the frame that contains the two columns. -/
noncomputable def calcPhik (nm : Numerics) (f : Frame) (noise : Bool) (co : String × String) :
    Except Err (String × String × Option ℝ) := do
  if co.1 = co.2 then return (co.1, co.2, some 1)
  let a ← f.getCol co.1
  let b ← f.getCol co.2
  let h := histOfPairs (a.cells.zip b.cells)
  if h.rows.length = 0 ∨ h.cols.length = 0 ∨ h.rows.length = 1 ∨ h.cols.length = 1 then
    return (co.1, co.2, none)
  let x ← phikFromHist2d nm.mvn nm.brentq h.values noise
  pure (co.1, co.2, some x)

/-- The part of `phik_from_rebinned_df` after the replacements (phik.py:134-158). -/
noncomputable def phikOfFrame (nm : Numerics) (sched : Option (List ℕ)) (f : Frame) (noise : Bool) :
    Except Err LTable := do
  let l ← runTasks sched ((cwr f.names).map (calcPhik nm f noise))
  if l.length = 0 then pure ⟨f.names, f.names, fun _ _ => none⟩
  else pure (((overview l).reindexCols f.names).reindexRows f.names)

/-- `phik_from_rebinned_df` (phik.py:104-158): changes its argument in place. -/
noncomputable def phikFromRebinned (nm : Numerics) (sched : Option (List ℕ)) (r : Ref)
    (noise dropna du dof : Bool) : M LTable := do
  let data ← M.read r
  M.write r (applyFlags dropna du dof data)
  M.ofExcept (phikOfFrame nm sched (applyFlags dropna du dof data) noise)

/-- `phik_matrix` (phik.py:185-221). -/
noncomputable def phikMatrix (nm : Numerics) (sched : Option (List ℕ)) (fl : ℚ → ℚ)
    (pf : String → Option (Option ℚ)) (r : Ref) (intervalCols : Option (List String)) (bins : Bins)
    (quantile noise dropna du dof : Bool) : M LTable := do
  let df ← M.read r
  let ic := intervalCols.getD (guessIntervalCols df)
  let (clean, icClean) ← dqCheck r ic dropna
  let (binned, _) ← binData fl pf clean icClean bins quantile
  phikFromRebinned nm sched binned noise dropna du dof

/-- One value of the global correlations: a number, NaN (the square root of a negative number), or the
result of a division by zero, which is NaN or infinite depending on the sign of the zero.
(phik/phik.py:248-251) -/
inductive GVal
  | num (x : ℝ)
  | nan
  | byZero

open scoped Classical in
/-- The matrix part of `global_phik_from_rebinned_df` (phik.py:248-251).  `numpy.linalg.inv` raises
LinAlgError for a singular matrix (in exact arithmetic); a matrix with NaN is outside of the model
(`nonfinite`). -/
noncomputable def globalOf (t : LTable) : Except Err (List GVal) :=
  let n := t.rows.length
  if ∃ a ∈ t.rows, ∃ b ∈ t.rows, t.v a b = none then .error .nonfinite
  else
    let V : Matrix (Fin n) (Fin n) ℝ := fun i j => (t.v t.rows[i] t.rows[j]).getD 0
    if V.det = 0 then .error .linAlg
    else .ok ((List.finRange n).map fun i =>
      if V i i * V⁻¹ i i = 0 then .byZero
      else
        let x := 1 - 1 / (V i i * V⁻¹ i i)
        if x < 0 then .nan else .num (Real.sqrt x))

/-- `global_phik_from_rebinned_df` (phik.py:224-251). -/
noncomputable def globalFromRebinned (nm : Numerics) (sched : Option (List ℕ)) (r : Ref)
    (noise dropna du dof : Bool) : M (List GVal × List String) := do
  let t ← phikFromRebinned nm sched r noise dropna du dof
  let g ← M.ofExcept (globalOf t)
  pure (g, t.rows)

/-- `global_phik_array` (phik.py:254-290). -/
noncomputable def globalPhikArray (nm : Numerics) (sched : Option (List ℕ)) (fl : ℚ → ℚ)
    (pf : String → Option (Option ℚ)) (r : Ref) (intervalCols : Option (List String)) (bins : Bins)
    (quantile noise dropna du dof : Bool) : M (List GVal × List String) := do
  let df ← M.read r
  let ic := intervalCols.getD (guessIntervalCols df)
  let (clean, icClean) ← dqCheck r ic dropna
  let (binned, _) ← binData fl pf clean icClean bins quantile
  globalFromRebinned nm sched binned noise dropna du dof

/-- `pd.Series(x).astype(str)` of one entry; `render` is `str` of a number. (phik/phik.py:355-360) -/
def asStr (render : ℚ → String) : Cell → Cell
  | .nan => .str "nan"
  | .num q => .str (render q)
  | .str s => .str s

/-- The preparation of one array in `phik_from_binned_array` (phik.py:354-366). -/
def prepArray (render : ℚ → String) (dropna du dof : Bool) (x : List Cell) : List Cell :=
  let x := if dropna then x else (x.map fun c => if c = .nan then .str "NaN" else c).map (asStr render)
  if du || dof then
    let x := x.map (asStr render)
    let x := if du then x.map fun c => if c = .str "UF" then .nan else c else x
    if dof then x.map fun c => if c = .str "OF" then .nan else c else x
  else x

/-- `phik_from_binned_array` (phik.py:333-373).  The arrays must have equal lengths; a mismatch makes
`pd.crosstab` raise ValueError. -/
noncomputable def phikFromBinnedArray (nm : Numerics) (render : ℚ → String) (x y : List Cell)
    (noise dropna du dof : Bool) : M (Option ℝ) := do
  if x.length ≠ y.length then throw .value
  let h := histOfPairs ((prepArray render dropna du dof x).zip (prepArray render dropna du dof y))
  let ok ← dqCheckHist2d h.rows.length h.cols.length
  if !ok then return none
  let v ← M.ofExcept (phikFromHist2d nm.mvn nm.brentq h.values noise)
  pure (some v)

/-- Whether an entry is a string. (numpy's choice of a dtype in utils.py:17) -/
def Cell.isStr : Cell → Bool
  | .str _ => true
  | _ => false

/-- `array_like_to_dataframe` (utils.py:7-17) for two lists that are not named Series: `np.array([x, y])` is an array
of numbers, or of strings if there is any string in the lists.  Lists of different lengths are a ValueError.
Simplification: arrays and Series of Python objects, which are not turned into strings, are not considered. -/
def arraysToFrame (render : ℚ → String) (x y : List Cell) : Except Err Frame :=
  if x.length ≠ y.length then .error .value
  else if (x ++ y).any Cell.isStr then
    .ok ⟨x.length, [⟨"x", false, x.map (asStr render)⟩, ⟨"y", false, y.map (asStr render)⟩]⟩
  else .ok ⟨x.length, [⟨"x", true, x⟩, ⟨"y", true, y⟩]⟩

/-- `phik_from_array` (phik.py:293-330). -/
noncomputable def phikFromArray (nm : Numerics) (render : ℚ → String) (fl : ℚ → ℚ)
    (pf : String → Option (Option ℚ)) (x y : List Cell) (numVars : List String) (bins : Bins)
    (quantile noise dropna du dof : Bool) : M (Option ℝ) := do
  if numVars.length > 0 then
    let df ← M.ofExcept (arraysToFrame render x y)
    let r ← M.alloc df
    let (b, _) ← binData fl pf r numVars bins quantile
    let out ← M.read b
    match out.cols with
    | [cx, cy] => phikFromBinnedArray nm render cx.cells cy.cells noise dropna du dof
    | _ => throw .value
  else phikFromBinnedArray nm render x y noise dropna du dof

/-- `key.split(':')` on the characters of the key. (phik/phik.py:66) -/
def splitColon : List Char → List (List Char)
  | [] => [[]]
  | c :: cs =>
    if c = ':' then [] :: splitColon cs
    else match splitColon cs with
      | [] => [[c]]
      | w :: ws => (c :: w) :: ws

/-- `_phik_from_row` (phik.py:58-73).  A table that is not a numeric array (`none`) makes
`phik_from_hist2d` raise TypeError. -/
noncomputable def phikFromRow (nm : Numerics) (key : List Char) (grid : Option (Arr2 ℝ)) :
    Except Err (List Char × List Char × Option ℝ) := do
  let c := splitColon key
  if c.length = 2 ∧ c[0]? = c[1]? then return (c.getD 0 [], c.getD 1 [], some 1)
  let v ← match (match grid with
      | some g => phikFromHist2d nm.mvn nm.brentq g true
      | none => .error .type) with
    | .ok x => pure (some x)
    | .error .type => pure none
    | .error e => throw e
  match c with
  | a :: b :: _ => pure (a, b, v)
  | _ => throw .index

/-- `spark_phik_matrix_from_hist2d_dict` (phik.py:32-55): the rows may be evaluated in any order, the
results are collected in the order of the dictionary.  A value that is not an array is a TypeError. -/
noncomputable def sparkPhikMatrix (nm : Numerics) (sched : Option (List ℕ))
    (hists : List (List Char × Option (Arr2 ℝ))) : Except Err LTable := do
  if hists.any fun p => p.2.isNone then throw .type
  let l ← runTasks sched (hists.map fun p => phikFromRow nm p.1 p.2)
  pure (overview (l.map fun p => (String.ofList p.1, String.ofList p.2.1, p.2.2)))

end Phik
