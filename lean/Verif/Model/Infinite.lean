import Verif.Model.PhikMatrix

/-!
# Infinite values

`Model/Frame.lean` and `Model/Binning.lean` have no infinities.  Here the values of a column may be infinite, and the functions
from `bin_edges` to `phik_matrix` are modelled again for such columns.  The rounding of finite numbers is `fl`, as there.

Simplifications: the functions return instead of changing frames in place and issuing warnings; a finite operation does not
overflow to an infinity; quantile binning of infinite data, which depends on the version of numpy, is outside of the model
(`nonfinite`).
-/

namespace Phik

/-! ### floating point numbers -/

/-- A floating point number. (IEEE 754, the data of phik/binning.py:25-75) -/
inductive XF
  | ninf
  | fin (q : ℚ)
  | pinf
  | nan
  deriving DecidableEq

namespace XF

/-- Encoding used to order numbers: NaN is the largest. (numpy, called at phik/binning.py:57) -/
def enc : XF → ℕ ×ₗ ℚ
  | ninf => toLex (0, 0)
  | fin q => toLex (1, q)
  | pinf => toLex (2, 0)
  | nan => toLex (3, 0)

theorem enc_injective : Function.Injective enc := by
  intro a b h
  cases a <;> cases b <;> simp_all [enc]

/-- The order of `np.searchsorted`: `a < b` or `b` is NaN and `a` is not. (numpy, called at phik/binning.py:57) -/
instance : LinearOrder XF := LinearOrder.lift' enc enc_injective

/-- `-a`. (IEEE 754) -/
def neg : XF → XF
  | ninf => pinf
  | fin q => fin (-q)
  | pinf => ninf
  | nan => nan

/-- `a + b`. (IEEE 754, numpy `linspace`, called at phik/binning.py:40) -/
def add (fl : ℚ → ℚ) : XF → XF → XF
  | nan, _ => nan
  | _, nan => nan
  | pinf, ninf => nan
  | ninf, pinf => nan
  | pinf, _ => pinf
  | _, pinf => pinf
  | ninf, _ => ninf
  | _, ninf => ninf
  | fin a, fin b => fin (fl (a + b))

/-- `a - b`. (IEEE 754, phik/binning.py:40) -/
def sub (fl : ℚ → ℚ) (a b : XF) : XF := add fl a (neg b)

/-- `q * a` for a finite number `q`. (IEEE 754, numpy `linspace`, called at phik/binning.py:40) -/
def scale (fl : ℚ → ℚ) (q : ℚ) : XF → XF
  | nan => nan
  | fin a => fin (fl (q * a))
  | pinf => if q = 0 then nan else if 0 < q then pinf else ninf
  | ninf => if q = 0 then nan else if 0 < q then ninf else pinf

/-- `a / d` for a positive finite number `d`. (IEEE 754, numpy `linspace`, called at phik/binning.py:40) -/
def divPos (fl : ℚ → ℚ) (a : XF) (d : ℚ) : XF :=
  match a with
  | fin a => fin (fl (a / d))
  | a => a

end XF

/-! ### numpy functions -/

/-- `np.linspace(start, stop, num)`, `numpy/core/function_base.py`. (called at phik/binning.py:40) -/
def linspaceX (fl : ℚ → ℚ) (start stop : XF) (num : ℤ) : Except Err (List XF) :=
  if num < 0 then .error .value
  else
    let n := num.toNat
    let div : ℚ := (num : ℚ) - 1
    let delta := XF.sub fl stop start
    let step := XF.divPos fl delta div
    let y : ℕ → XF := fun i =>
      if 0 < div then
        (if step = .fin 0 then XF.add fl (XF.scale fl (fl (i / div)) delta) start
         else XF.add fl (XF.scale fl i step) start)
      else XF.add fl (XF.scale fl i delta) start
    .ok ((List.range n).map fun i => if 1 < n ∧ i + 1 = n then stop else y i)

/-- The inner loop of `binsearch` (numpy, `npysort/binsearch.cpp`): left binary search of one key in `edges[lo:hi]`.
(called at phik/binning.py:57) -/
def searchGoX (edges : List XF) (x : XF) (lo hi : ℕ) : ℕ :=
  if _h : lo < hi then
    let mid := lo + (hi - lo) / 2
    if edges.getD mid .nan < x then searchGoX edges x (mid + 1) hi else searchGoX edges x lo mid
  else lo
termination_by hi - lo

/-- The outer loop of `binsearch` (numpy, `npysort/binsearch.cpp`): `lo`, `hi` and `last` are the bounds after the previous
key and that key. (called at phik/binning.py:57) -/
def searchKeys (edges : List XF) : List XF → XF → ℕ → ℕ → List ℕ
  | [], _, _, _ => []
  | x :: xs, last, lo, hi =>
    let lo' := if last < x then lo else 0
    let hi' := if last < x then edges.length else if hi < edges.length then hi + 1 else edges.length
    let k := searchGoX edges x lo' hi'
    k :: searchKeys edges xs x k k

/-- `np.searchsorted(edges, arr)`: the previous key of the first key is that key, the bounds are the whole list.
(numpy, called at phik/binning.py:57) -/
def searchsortedX (edges : List XF) (arr : List XF) : List ℕ :=
  match arr with
  | [] => []
  | x :: xs => searchKeys edges (x :: xs) x 0 edges.length

/-! ### binning.py -/

/-- The finite numbers of a list without infinities. (phik/binning.py:37) -/
def finites (arr : List XF) : Option (List ℚ) :=
  arr.mapM fun x => match x with
    | .fin q => some q
    | _ => none

/-- `bin_edges` (binning.py:25-42).  `arr` is the data after `arr[~np.isnan(arr)]`. -/
def binEdgesX (fl : ℚ → ℚ) (arr : List XF) (nbins : ℤ) (quantile : Bool) : Except Err (List XF) :=
  if quantile then
    match finites arr with
    | some l => (binEdges fl l nbins true).map (·.map .fin)
    | none => .error .nonfinite
  else
    match arr.min?, arr.max? with
    | some lo, some hi => linspaceX fl (XF.sub fl lo (.fin (fl (1 / 10 ^ 14)))) hi (nbins + 1)
    | _, _ => .error .value

/-- `bin_array` (binning.py:45-75). -/
def binArrayX (arr : List XF) (edges : List XF) : List Cell × List (XF × XF) :=
  -- binned_arr = np.searchsorted(bin_edges, arr).astype(object)
  let idx := searchsortedX edges arr
  -- bin_labels
  let labels := (List.range (edges.length - 1)).filterMap fun i =>
    if i + 1 ∈ idx then some (edges.getD i .nan, edges.getD (i + 1) .nan) else none
  let b0 : List Cell := idx.map fun (k : ℕ) => Cell.num (k : ℚ)
  -- binned_arr[np.argwhere(np.isnan(arr))] = np.nan
  let b1 := List.zipWith (fun (x : XF) b => if x = .nan then Cell.nan else b) arr b0
  -- binned_arr[np.argwhere(binned_arr == 0)] = defs.UF
  let b2 := b1.map fun b => if b = Cell.num 0 then Cell.str "UF" else b
  -- binned_arr[np.argwhere(binned_arr == len(bin_edges))] = defs.OF
  let b3 := b2.map fun b => if b = Cell.num edges.length then Cell.str "OF" else b
  (b3, labels)

/-! ### frames -/

/-- One entry of a column. (pandas, the data of phik/binning.py and phik/phik.py) -/
inductive XCell
  | cell (c : Cell)
  | ninf
  | pinf
  deriving DecidableEq

namespace XCell

/-- Encoding used to order entries: missing values, minus infinity, numbers, infinity, strings.
(pandas sorts the groups of phik/phik.py:173) -/
def enc : XCell → ℕ ×ₗ Cell
  | cell .nan => toLex (0, .nan)
  | ninf => toLex (1, .nan)
  | cell (.num q) => toLex (2, .num q)
  | pinf => toLex (3, .nan)
  | cell (.str s) => toLex (4, .str s)

theorem enc_injective : Function.Injective enc := by
  intro a b h
  rcases a with (_ | _ | _) | _ | _ <;> rcases b with (_ | _ | _) | _ | _ <;> simp_all [enc]

instance : LinearOrder XCell := LinearOrder.lift' enc enc_injective

/-- `pandas.isna` of one entry: an infinite number is not missing. (pandas, phik/phik.py:127-132, 173) -/
def isNan : XCell → Bool
  | cell c => c.isNan
  | _ => false

/-- Change the finite entries. (phik/phik.py:127-132) -/
def map (g : Cell → Cell) : XCell → XCell
  | cell c => cell (g c)
  | x => x

end XCell

/-- A column: name, whether its dtype is a subtype of `np.number`, entries. (pandas, phik/utils.py:20-31) -/
structure XColumn where
  name : String
  numeric : Bool
  cells : List XCell

/-- A frame: its columns from left to right. (pandas, the `df` of phik/phik.py:185) -/
abbrev XFrame := List XColumn

/-- `df[name]`, raising KeyError. (pandas, phik/binning.py:106, phik/phik.py:140-149) -/
def getXCol (f : XFrame) (name : String) : Except Err XColumn :=
  match f.find? (fun c => c.name == name) with
  | some c => .ok c
  | none => .error .key

/-- One entry of the `bins` argument. (phik/binning.py:103-112) -/
inductive XBinSpec
  | num (q : ℚ)
  | edges (l : List XF)
  | other

/-- The `bins` argument of `bin_data`. (phik/binning.py:78, 103-112) -/
inductive XBins
  | one (s : XBinSpec)
  | dict (d : List (String × XBinSpec))

/-- `series.astype(float)` of one entry; `pf` is Python's `float(str)`, which reads 'inf'.
(phik/binning.py:106, 109, 112) -/
def toFloatX (pf : String → Option XF) : XCell → Except Err XF
  | .cell .nan => .ok .nan
  | .cell (.num q) => .ok (.fin q)
  | .cell (.str s) => match pf s with
    | some v => .ok v
    | none => .error .value
  | .ninf => .ok .ninf
  | .pinf => .ok .pinf

/-- `data[col].astype(float)`. (phik/binning.py:106, 109, 112) -/
def colFloatsX (pf : String → Option XF) (data : XFrame) (name : String) : Except Err (List XF) := do
  let c ← getXCol data name
  c.cells.mapM (toFloatX pf)

/-- The entry of the dictionary, or the argument itself. (phik/binning.py:103-112) -/
def XBins.entry (bins : XBins) (name : String) : XBinSpec :=
  match bins with
  | .one s => s
  | .dict d => match d.lookup name with
    | some s => s
    | none => .other

/-- The assignment to `xbins` in the loop of `bin_data` (binning.py:105-111). -/
def selectEdgesX (fl : ℚ → ℚ) (pf : String → Option XF) (data : XFrame) (bins : XBins)
    (quantile : Bool) (name : String) (xbins : Option (List XF)) : Except Err (Option (List XF)) :=
  match bins.entry name with
  | .num q => do
    let arr ← colFloatsX pf data name
    let e ← binEdgesX fl (arr.filter (· ≠ .nan)) (truncQ q) quantile
    pure (some e)
  | .edges l => pure (some l)
  | .other => pure xbins

/-- `df[name] = values` for an existing column. (phik/binning.py:112) -/
def setXCol (f : XFrame) (name : String) (c : XColumn) : XFrame :=
  f.map fun d => if d.name == name then c else d

/-- The column loop of `bin_data` (binning.py:104-114). -/
def binLoopX (fl : ℚ → ℚ) (pf : String → Option XF) (data : XFrame) (bins : XBins)
    (quantile : Bool) : List String → Option (List XF) → XFrame → List (String × List (XF × XF)) →
    Except Err (XFrame × List (String × List (XF × XF)))
  | [], _, out, dict => .ok (out, dict)
  | name :: rest, xbins, out, dict => do
    let xbins ← selectEdgesX fl pf data bins quantile name xbins
    let arr ← colFloatsX pf data name
    match xbins with
    | none => throw .unboundLocal
    | some e =>
      binLoopX fl pf data bins quantile rest xbins
        (setXCol out name ⟨name, false, (binArrayX arr e).1.map .cell⟩)
        ((name, (binArrayX arr e).2) :: dict.filter (fun p => p.1 != name))

/-- The check of a bins dictionary (binning.py:92-97). -/
def dictCheckX (cols : List String) : XBins → Except Err Unit
  | .one _ => .ok ()
  | .dict d => if cols.all (fun c => (d.lookup c).isSome) then .ok () else .error .value

/-- `bin_data` (binning.py:78-119), with `retbins=True`. -/
def binDataX (fl : ℚ → ℚ) (pf : String → Option XF) (data : XFrame) (cols : List String)
    (bins : XBins) (quantile : Bool) : Except Err (XFrame × List (String × List (XF × XF))) := do
  dictCheckX cols bins
  let xbins := match bins with
    | .one (.edges l) => some l
    | _ => none
  binLoopX fl pf data bins quantile cols xbins data []

/-! ### data_quality.py and phik.py -/

/-- `df[name].nunique()`. (pandas, phik/data_quality.py:56-76) -/
def nuniqueX (f : XFrame) (name : String) : ℕ :=
  match f.find? (fun c => c.name == name) with
  | some c => (c.cells.filter fun x => !x.isNan).toFinset.card
  | none => 0

/-- `dq_check_nunique_values` (data_quality.py:24-90), without the warnings: the frame and the interval columns that are
left. -/
def dqCheckX (f : XFrame) (intervalCols : List String) (dropna : Bool) : XFrame × List String :=
  let names := f.map (·.name)
  let ic := intervalCols.filter fun c => names.contains c
  let drop := ic.filter (fun c => decide (nuniqueX f c < 2)) ++
    ((names.toFinset \ ic.toFinset).sort (· ≤ ·)).filter fun c =>
      decide (nuniqueX f c = 0) || (decide (nuniqueX f c = 1) && dropna)
  (f.filter fun c => !drop.contains c.name, ic.filter fun c => !drop.contains c)

/-- The replacements made before counting. (phik/phik.py:125-132) -/
def applyFlagsX (dropna du dof : Bool) (f : XFrame) : XFrame :=
  let m (g : Cell → Cell) (f : XFrame) : XFrame := f.map fun c => { c with cells := c.cells.map (XCell.map g) }
  let f := if dropna then f else m (fun c => if c = .nan then .str "NaN" else c) f
  let f := if du then m (fun c => if c = .str "UF" then .nan else c) f else f
  if dof then m (fun c => if c = .str "OF" then .nan else c) f else f

/-- `groupby([c0, c1])[c0].count().to_frame().unstack().fillna(0).values`. (phik/phik.py:173-174) -/
def countsX (pairs : List (XCell × XCell)) : Arr2 ℕ :=
  let kept := pairs.filter fun p => !p.1.isNan && !p.2.isNan
  let rows := (kept.map Prod.fst).toFinset.sort (· ≤ ·)
  let cols := (kept.map Prod.snd).toFinset.sort (· ≤ ·)
  ⟨rows.length, cols.length, fun i j => kept.count (rows.get i, cols.get j)⟩

/-- `_calc_phik` (phik.py:161-182). -/
noncomputable def calcPhikX (nm : Numerics) (f : XFrame) (noise : Bool) (co : String × String) :
    Except Err (String × String × Option ℝ) := do
  if co.1 = co.2 then return (co.1, co.2, some 1)
  let a ← getXCol f co.1
  let b ← getXCol f co.2
  let h := countsX (a.cells.zip b.cells)
  if h.r = 0 ∨ h.c = 0 ∨ h.r = 1 ∨ h.c = 1 then
    return (co.1, co.2, none)
  let x ← phikFromHist2d nm.mvn nm.brentq (Arr2.map (fun n : ℕ => (n : ℝ)) h) noise
  pure (co.1, co.2, some x)

/-- `phik_from_rebinned_df` (phik.py:104-158). -/
noncomputable def phikFromRebinnedX (nm : Numerics) (sched : Option (List ℕ)) (f : XFrame)
    (noise dropna du dof : Bool) : Except Err LTable := do
  let f := applyFlagsX dropna du dof f
  let names := f.map (·.name)
  let l ← runTasks sched ((cwr names).map (calcPhikX nm f noise))
  if l.length = 0 then pure ⟨names, names, fun _ _ => none⟩
  else pure (((overview l).reindexCols names).reindexRows names)

/-- `phik_matrix` (phik.py:185-221). -/
noncomputable def phikMatrixX (nm : Numerics) (sched : Option (List ℕ)) (fl : ℚ → ℚ)
    (pf : String → Option XF) (f : XFrame) (intervalCols : Option (List String)) (bins : XBins)
    (quantile noise dropna du dof : Bool) : Except Err LTable := do
  let ic := intervalCols.getD ((f.filter (·.numeric)).map (·.name))
  let (clean, icClean) := dqCheckX f ic dropna
  let (binned, _) ← binDataX fl pf clean icClean bins quantile
  phikFromRebinnedX nm sched binned noise dropna du dof

end Phik
