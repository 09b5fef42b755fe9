import Verif.Model.Frame
import Verif.Model.Arr
import Verif.Model.Float

/-!
# Model of `phik/binning.py` and of the helpers in `phik/utils.py`

Floating point arithmetic is exact arithmetic followed by the rounding function `fl`; all functions
take `fl` as a parameter.
-/

namespace Phik

/-! ### numpy functions -/

/-- Left binary search of numpy (`binsearch` of `npysort/binsearch.cpp`): the keys are searched one by
one.  Simplification: numpy re-uses the bounds of the previous key, which gives the same result for
sorted edges (`infinite_search`). (numpy, called by phik/binning.py:57) -/
def searchGo (edges : List ℚ) (x : ℚ) (lo hi : ℕ) : ℕ :=
  if _h : lo < hi then
    let mid := lo + (hi - lo) / 2
    if edges.getD mid 0 < x then searchGo edges x (mid + 1) hi else searchGo edges x lo mid
  else lo
termination_by hi - lo

/-- `np.searchsorted(edges, x)`; a NaN key (`none`) is larger than every edge.
(numpy, called at phik/binning.py:57) -/
def searchsorted (edges : List ℚ) : Option ℚ → ℕ
  | none => edges.length
  | some x => searchGo edges x 0 edges.length

/-- `np.linspace(start, stop, num)` (endpoint included), `numpy/core/function_base.py`. -/
def linspace (fl : ℚ → ℚ) (start stop : ℚ) (num : ℤ) : Except Err (List ℚ) :=
  if num < 0 then .error .value
  else
    let n := num.toNat
    let div : ℚ := (num : ℚ) - 1
    let delta := fl (stop - start)
    let step := fl (delta / div)
    let y : ℕ → ℚ := fun i =>
      if 0 < div then
        (if step = 0 then fl (fl (fl (i / div) * delta) + start) else fl (fl (i * step) + start))
      else fl (fl (i * delta) + start)
    .ok ((List.range n).map fun i => if 1 < n ∧ i + 1 = n then stop else y i)

/-- `np.quantile(a, q)` with linear interpolation for one `q`; `s` is the sorted data.
(numpy, called at phik/binning.py:37) -/
def quantile1 (fl : ℚ → ℚ) (s : List ℚ) (q : ℚ) : ℚ :=
  let n := s.length
  let v := fl (((n : ℚ) - 1) * q)
  let top := decide ((n : ℚ) - 1 ≤ v)
  let k := if top then n - 1 else ⌊v⌋.toNat
  let a := s.getD k 0
  let b := if top then s.getD (n - 1) 0 else s.getD (k + 1) 0
  let g := fl (v - ⌊v⌋)
  let diff := fl (b - a)
  if g < 1 / 2 then fl (a + fl (diff * g)) else fl (b - fl (diff * fl (1 - g)))

/-! ### binning.py -/

/-- `bin_edges` (binning.py:25-42).  `arr` is the data after `arr[~np.isnan(arr)]`.  The minimum of no
data is a ValueError; quantiles of no data and `xbins[0]` of no edges are an IndexError (the exact
exception of `np.quantile` of no data differs between numpy versions). -/
def binEdges (fl : ℚ → ℚ) (arr : List ℚ) (nbins : ℤ) (quantile : Bool) : Except Err (List ℚ) := do
  if quantile then
    let qs ← linspace fl 0 1 (nbins + 1)
    let s := arr.mergeSort
    if s.isEmpty then throw .index
    match qs.map (quantile1 fl s) with
    | [] => throw .index
    | x :: xs => pure (fl (x - fl (1 / 10 ^ 14)) :: xs)
  else
    match arr.min?, arr.max? with
    | some lo, some hi => linspace fl (fl (lo - fl (1 / 10 ^ 14))) hi (nbins + 1)
    | _, _ => throw .value

/-- `bin_array` (binning.py:45-75): bin index per entry, and the labels of the populated bins. -/
def binArray (arr : List (Option ℚ)) (edges : List ℚ) : List Cell × List (ℚ × ℚ) :=
  -- binned_arr = np.searchsorted(bin_edges, arr).astype(object)
  let idx := arr.map (searchsorted edges)
  -- bin_labels
  let labels := (List.range (edges.length - 1)).filterMap fun i =>
    if i + 1 ∈ idx then some (edges.getD i 0, edges.getD (i + 1) 0) else none
  let b0 : List Cell := idx.map fun (k : ℕ) => Cell.num (k : ℚ)
  -- binned_arr[np.argwhere(np.isnan(arr))] = np.nan
  let b1 := List.zipWith (fun (x : Option ℚ) b => if x.isNone then Cell.nan else b) arr b0
  -- binned_arr[np.argwhere(binned_arr == 0)] = defs.UF
  let b2 := b1.map fun b => if b = Cell.num 0 then Cell.str "UF" else b
  -- binned_arr[np.argwhere(binned_arr == len(bin_edges))] = defs.OF
  let b3 := b2.map fun b => if b = Cell.num edges.length then Cell.str "OF" else b
  (b3, labels)

/-- One entry of the `bins` argument: `int`/`float`, `list`/`ndarray`, or anything else.
(phik/binning.py:103-112) -/
inductive BinSpec
  | num (q : ℚ)
  | edges (l : List ℚ)
  | other

/-- The `bins` argument of `bin_data`. (phik/binning.py:78, 103-112) -/
inductive Bins
  | one (s : BinSpec)
  | dict (d : List (String × BinSpec))

/-- `series.astype(float)` of one entry; `pf` is Python's `float(str)` (`none`: ValueError,
`some none`: a NaN). (phik/binning.py:106, 109, 112) -/
def toFloat (pf : String → Option (Option ℚ)) : Cell → Except Err (Option ℚ)
  | .nan => .ok none
  | .num q => .ok (some q)
  | .str s => match pf s with
    | some v => .ok v
    | none => .error .value

/-- `data[col].astype(float)`. (phik/binning.py:106, 109, 112) -/
def colFloats (pf : String → Option (Option ℚ)) (data : Frame) (name : String) :
    Except Err (List (Option ℚ)) := do
  let c ← data.getCol name
  c.cells.mapM (toFloat pf)

/-- What the body of the column loop of `bin_data` selects: the entry of the dictionary, or the
argument itself. (phik/binning.py:103-112) -/
def Bins.entry (bins : Bins) (name : String) : BinSpec :=
  match bins with
  | .one s => s
  | .dict d => match d.lookup name with
    | some s => s
    | none => .other

/-- The assignment to `xbins` in the loop of `bin_data` (binning.py:105-111): the variable keeps its old
value for an unsupported entry. -/
def selectEdges (fl : ℚ → ℚ) (pf : String → Option (Option ℚ)) (data : Frame) (bins : Bins)
    (quantile : Bool) (name : String) (xbins : Option (List ℚ)) : Except Err (Option (List ℚ)) :=
  match bins.entry name with
  | .num q => do
    let arr ← colFloats pf data name
    let e ← binEdges fl (arr.filterMap id) (truncQ q) quantile
    pure (some e)
  | .edges l => pure (some l)
  | .other => pure xbins

/-- The column loop of `bin_data` (binning.py:104-114).  `xbins` is the local variable of that name
(`none` when unbound): it keeps its value between iterations. -/
def binLoop (fl : ℚ → ℚ) (pf : String → Option (Option ℚ)) (data : Frame) (bins : Bins)
    (quantile : Bool) : List String → Option (List ℚ) → Frame → List (String × List (ℚ × ℚ)) →
    Except Err (Frame × List (String × List (ℚ × ℚ)))
  | [], _, out, dict => .ok (out, dict)
  | name :: rest, xbins, out, dict => do
    let xbins ← selectEdges fl pf data bins quantile name xbins
    let arr ← colFloats pf data name
    match xbins with
    | none => throw .unboundLocal
    | some e =>
      binLoop fl pf data bins quantile rest xbins
        (out.setCol name ⟨name, false, (binArray arr e).1⟩)
        ((name, (binArray arr e).2) :: dict.filter (fun p => p.1 != name))

/-- The check of a bins dictionary (binning.py:92-97). -/
def dictCheck (cols : List String) : Bins → Except Err Unit
  | .one _ => .ok ()
  | .dict d => if cols.all (fun c => (d.lookup c).isSome) then .ok () else .error .value

/-- `bin_data` without the frame bookkeeping (binning.py:78-119), with `retbins=True`. -/
def binDataCore (fl : ℚ → ℚ) (pf : String → Option (Option ℚ)) (data : Frame) (cols : List String)
    (bins : Bins) (quantile : Bool) : Except Err (Frame × List (String × List (ℚ × ℚ))) := do
  dictCheck cols bins
  let xbins := match bins with
    | .one (.edges l) => some l
    | _ => none
  binLoop fl pf data bins quantile cols xbins data []

/-- `bin_data` (binning.py:78-119): the binning is written into a copy.  Simplification: the columns
are written into the copy at the end, not one by one; when an exception is raised in the loop the copy
is unreachable. -/
def binData (fl : ℚ → ℚ) (pf : String → Option (Option ℚ)) (r : Ref) (cols : List String)
    (bins : Bins) (quantile : Bool) : M (Ref × List (String × List (ℚ × ℚ))) := do
  let data ← M.read r
  let copy ← M.alloc data
  let (out, dict) ← M.ofExcept (binDataCore fl pf data cols bins quantile)
  M.write copy out
  pure (copy, dict)

/-- Replacements made before counting (binning.py:157-162, phik.py:125-132): NaN becomes the string
'NaN' unless `dropna`; then 'UF' and 'OF' become NaN when they are to be dropped. -/
def applyFlags (dropna du dof : Bool) (f : Frame) : Frame :=
  let f := if dropna then f else f.mapCells fun c => if c = .nan then .str "NaN" else c
  let f := if du then f.mapCells fun c => if c = .str "UF" then .nan else c else f
  if dof then f.mapCells fun c => if c = .str "OF" then .nan else c else f

/-- A contingency table with its labels. (phik/binning.py:165-167, phik/phik.py:173) -/
structure Hist where
  rows : List Cell
  cols : List Cell
  v : Fin rows.length → Fin cols.length → ℕ

/-- The numbers of the table. (phik/phik.py:173-174) -/
def Hist.arr (h : Hist) : Arr2 ℕ := ⟨h.rows.length, h.cols.length, h.v⟩

/-- `groupby([c0, c1])[c0].count().to_frame().unstack().fillna(0)` of the records `pairs`: groups with a
NaN key are left out, both axes are sorted, absent pairs count zero.  Also `pd.crosstab(x, y)`.
(phik/binning.py:165, phik/phik.py:173, phik/significance.py:275) -/
def histOfPairs (pairs : List (Cell × Cell)) : Hist :=
  let kept := pairs.filter fun p => !p.1.isNan && !p.2.isNan
  let rows := (kept.map Prod.fst).toFinset.sort (· ≤ ·)
  let cols := (kept.map Prod.snd).toFinset.sort (· ≤ ·)
  ⟨rows, cols, fun i j => kept.count (rows.get i, cols.get j)⟩

/-- `hist2d_from_rebinned_df` (binning.py:142-168): changes its argument in place. -/
def hist2dFromRebinned (r : Ref) (dropna du dof : Bool) : M Hist := do
  let data ← M.read r
  -- c0, c1 = data_binned.columns
  if data.cols.length ≠ 2 then throw .value
  M.write r (applyFlags dropna du dof data)
  match (applyFlags dropna du dof data).cols with
  | [a, b] => pure (histOfPairs (a.cells.zip b.cells))
  | _ => throw .value

/-- `guess_interval_cols` (utils.py:20-33). -/
def guessIntervalCols (f : Frame) : List String := (f.cols.filter (·.numeric)).map (·.name)

/-- `hist2d` (binning.py:171-206). -/
def hist2d (fl : ℚ → ℚ) (pf : String → Option (Option ℚ)) (r : Ref)
    (intervalCols : Option (List String)) (bins : Bins) (quantile dropna du dof : Bool) :
    M (Hist × List (String × List (ℚ × ℚ))) := do
  let df ← M.read r
  if df.cols.length ≠ 2 then throw .value
  let ic := intervalCols.getD (guessIntervalCols df)
  let (b, dict) ← binData fl pf r ic bins quantile
  let h ← hist2dFromRebinned b dropna du dof
  pure (h, dict)

end Phik
