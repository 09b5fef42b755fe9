import Verif.Model.Betainc
import Verif.Model.PhikMatrix
import Verif.Model.Stats

/-!
# Model of `phik/outliers.py`

p-values are `Option ℝ` (`none` is NaN), logarithms and Z-values are `FVal`.  Arithmetic is exact, except
that the distribution functions and the exponential function are parameters which may underflow.
Observed counts are natural numbers.
-/

namespace Phik

/-- scipy's functions.
* `betainc a b x` is `scipy.special.betainc`;
* `poisSf k mu`, `poisLogSf k mu` are `stats.poisson.sf`, `stats.poisson.logsf` for `mu ≥ 0`;
* `ppf` is `stats.norm.ppf` on [0, 1]; `normcdf` is `stats.norm.cdf`; `chi2ppf p k` is `stats.chi2.ppf`;
* `fexp` is `np.exp`. (called at phik/outliers.py:69-71, 110-117, 150, 239, 335-336) -/
structure OutNum where
  betainc : ℝ → ℝ → ℝ → ℝ
  poisSf : ℕ → ℝ → ℝ
  poisLogSf : ℕ → ℝ → FVal
  ppf : ℝ → EReal
  fexp : ℝ → ℝ
  normcdf : ℝ → ℝ
  chi2ppf : ℝ → ℝ → ℝ

/-! ### p-values -/

/-- The arguments `b` and `x` of the incomplete beta function (outliers.py:65-68, 109-112) for an
uncertainty `s > 0`; a comparison with NaN is false. -/
noncomputable def linnemann (nexp : Option ℝ) (s : ℝ) : ℝ × ℝ :=
  let nexpalt := match nexp with
    | some e => if 0 < e then e else s
    | none => s
  let tau := nexpalt / (s * s)
  (nexpalt * tau + 1, 1 / (1 + tau))

/-- `stats.poisson.sf(k, mu)`: NaN for a negative mean and for NaN. (phik/outliers.py:71, 116) -/
noncomputable def poisSfF (N : OutNum) (k : ℕ) : Option ℝ → Option ℝ
  | some mu => if mu < 0 then none else some (N.poisSf k mu)
  | none => none

/-- `stats.poisson.logsf(k, mu)`: NaN for a negative mean and for NaN. (phik/outliers.py:115) -/
noncomputable def poisLogSfF (N : OutNum) (k : ℕ) : Option ℝ → FVal
  | some mu => if mu < 0 then none else N.poisLogSf k mu
  | none => none

/-- `np.log(x)`, NaN for NaN. (phik/outliers.py:117) -/
noncomputable def flogF : Option ℝ → FVal
  | some x => FVal.log x
  | none => none

/-- The test `nexperr > 0`, which is false for NaN; the value when it is true. (phik/outliers.py:64, 108) -/
noncomputable def positive : Option ℝ → Option ℝ
  | some s => if 0 < s then some s else none
  | none => none

/-- `poisson_obs_p` (outliers.py:33-73). -/
noncomputable def poissonObsP (N : OutNum) (nobs : ℕ) (nexp nexperr : Option ℝ) : Option ℝ :=
  if nobs = 0 then some 1
  else match positive nexperr with
    | some s => some (N.betainc nobs (linnemann nexp s).1 (linnemann nexp s).2)
    | none => poisSfF N (nobs - 1) nexp

/-- `log_poisson_obs_p` (outliers.py:76-119). -/
noncomputable def logPoissonObsP (N : OutNum) (nobs : ℕ) (nexp nexperr : Option ℝ) :
    Except Err (FVal × FVal) :=
  if nobs = 0 then .ok (FVal.ofReal 0, some ⊥)
  else match positive nexperr with
    | some s => logIncompbeta N.fexp nobs (linnemann nexp s).1 (linnemann nexp s).2
    | none => .ok (poisLogSfF N (nobs - 1) nexp, flogF ((poisSfF N (nobs - 1) nexp).map fun p => 1 - p))

open scoped Classical in
/-- `z_from_logp` (statistics.py:108-136) for any logarithm; `stats.norm.ppf` is NaN outside of [0, 1]. -/
noncomputable def zFromLogpF (fexp : ℝ → ℝ) (ppf : ℝ → EReal) (logp : FVal) (flip : Bool) : FVal :=
  match logp with
  | none => none
  | some x =>
    if x = ⊥ then some (zFromLogp fexp ppf ⊥ flip)
    else if x = ⊤ then none
    else if 1 < fexp x.toReal then none
    else some (zFromLogp fexp ppf (x.toReal : WithBot ℝ) flip)

open scoped Classical in
/-- The Z-value of a p-value, with the logarithms evaluated when it is 0 or 1
(outliers.py:138-152, 227-241). -/
noncomputable def zOfPOrLog (N : OutNum) (p : Option ℝ) (logs : Except Err (FVal × FVal)) : Except Err FVal :=
  if p = some 0 ∨ p = some 1 then do
    let t ← logs
    if p = some 0 then pure (zFromLogpF N.fexp N.ppf t.1 false)
    else pure (zFromLogpF N.fexp N.ppf t.2 true)
  else pure (p.map fun p => -N.ppf p)

/-- `poisson_obs_z` (outliers.py:122-152). -/
noncomputable def poissonObsZ (N : OutNum) (nobs : ℕ) (nexp nexperr : Option ℝ) : Except Err FVal :=
  zOfPOrLog N (poissonObsP N nobs nexp nexperr) (logPoissonObsP N nobs nexp nexperr)

/-- `poisson_obs_mid_p` (outliers.py:155-174). -/
noncomputable def poissonObsMidP (N : OutNum) (nobs : ℕ) (nexp nexperr : Option ℝ) : Option ℝ := do
  let p ← poissonObsP N nobs nexp nexperr
  let pplus1 ← poissonObsP N (nobs + 1) nexp nexperr
  pure (p - 1 / 2 * (p - pplus1))

/-- `log_poisson_obs_mid_p` (outliers.py:177-207). -/
noncomputable def logPoissonObsMidP (N : OutNum) (nobs : ℕ) (nexp nexperr : Option ℝ) :
    Except Err (FVal × FVal) := do
  let tlogp ← logPoissonObsP N nobs nexp nexperr
  let tlogpp1 ← logPoissonObsP N (nobs + 1) nexp nexperr
  let lp := tlogp.1
  let lp1 := tlogpp1.1
  let logmidp := FVal.add (FVal.add (FVal.log (1 / 2)) lp) (FVal.log1pexp N.fexp (FVal.sub lp1 lp))
  let lq := tlogp.2
  let lq1 := tlogpp1.2
  let logmidq := FVal.add (FVal.add (FVal.log (1 / 2)) lq1) (FVal.log1pexp N.fexp (FVal.sub lq lq1))
  pure (logmidp, logmidq)

/-- `poisson_obs_mid_z` (outliers.py:210-241). -/
noncomputable def poissonObsMidZ (N : OutNum) (nobs : ℕ) (nexp nexperr : Option ℝ) : Except Err FVal :=
  zOfPOrLog N (poissonObsMidP N nobs nexp nexperr) (logPoissonObsMidP N nobs nexp nexperr)

/-! ### uncertainties -/

/-- `get_poisson_uncertainty` (outliers.py:304-312). -/
noncomputable def poissonUncertainty (x : ℝ) : ℝ := if 1 ≤ x then Real.sqrt x else 1

/-- `get_exact_poisson_uncertainty` (outliers.py:315-339). -/
noncomputable def exactPoissonUncertainty (N : OutNum) (x nsigmas : ℝ) : ℝ :=
  let pl := N.normcdf (-1 * nsigmas)
  let pu := N.normcdf (1 * nsigmas)
  let lb := if x ≠ 0 then N.chi2ppf pl (2 * x) / 2 else 0
  let ub := N.chi2ppf pu (2 * (x + 1)) / 2
  (ub - lb) / 2

/-- `get_uncertainty` (outliers.py:280-301). -/
noncomputable def getUncertainty (N : OutNum) (x : ℝ) (ci : String) : Except Err ℝ :=
  if ci = "exact_poisson" then .ok (exactPoissonUncertainty N x 1)
  else if ci = "poisson" then .ok (poissonUncertainty x)
  else .error .notImplemented

/-! ### tables -/

/-- A double loop over the cells of a table: the values, or the exception of the first cell in
row-by-row order that raises one. (phik/outliers.py:259-275, 358-361) -/
def cells2 {α : Type} [Inhabited α] (r c : ℕ) (f : Fin r → Fin c → Except Err α) : Except Err (Arr2 α) :=
  match (List.finRange r).findSome? fun i => (List.finRange c).findSome? fun j =>
      match f i j with
      | .error e => some e
      | .ok _ => none with
  | some e => .error e
  | none => .ok ⟨r, c, fun i j => match f i j with
    | .ok a => a
    | .error _ => default⟩

/-- One cell of `get_independent_frequency_estimates` (outliers.py:261-275): expectation and error. -/
noncomputable def estimateCell (N : OutNum) (values : Arr2 ℕ) (ci : String) (i : Fin values.r)
    (j : Fin values.c) : Except Err (Option ℝ × Option ℝ) := do
  let A : ℝ := values.v i j
  let B : ℝ := values.rowSum i - A
  let C : ℝ := values.colSum j - A
  let D : ℝ := values.total - B - C - A
  if 0 < D then
    let e := B * C / D
    let sigmaB ← getUncertainty N B ci
    let sigmaC ← getUncertainty N C ci
    let sigmaD ← getUncertainty N D ci
    pure (some e, some (Real.sqrt ((sigmaB * C / D) ^ 2 + (sigmaC * B / D) ^ 2 + (sigmaD * e / D) ^ 2)))
  else pure (none, none)

/-- `get_independent_frequency_estimates` (outliers.py:244-277). -/
noncomputable def independentEstimates (N : OutNum) (values : Arr2 ℕ) (ci : String) :
    Except Err (Arr2 (Option ℝ × Option ℝ)) :=
  cells2 values.r values.c (estimateCell N values ci)

/-- `outlier_significance_matrix_from_hist2d` with `get_outlier_significances`
(outliers.py:342-380): p-value and Z-value of every cell. -/
noncomputable def outlierFromHist2d (N : OutNum) (data : Arr2 ℕ) (ci : String) :
    Except Err (Arr2 (Option ℝ × FVal)) := do
  match cells2 data.r data.c (estimateCell N data ci) with
  | .error e => throw e
  | .ok _ =>
    cells2 data.r data.c fun i j => do
      let (e, s) ← estimateCell N data ci i j
      let z ← poissonObsMidZ N (data.v i j) e s
      pure (poissonObsMidP N (data.v i j) e s, z)

/-! ### frames -/

/-- An outlier matrix with its labels. (phik/outliers.py:425-428) -/
structure OutTab where
  rows : List Cell
  cols : List Cell
  v : Fin rows.length → Fin cols.length → FVal

/-- The new labels of one axis (outliers.py:411-423).  `cells` is the column after the replacements made by
`hist2d_from_rebinned_df`, `bins` the entry of the binning dictionary, `labels` the old labels, `fmt` the
formatting of an edge with the given number of decimals.  pandas raises ValueError when the number of
labels differs. -/
def axisLabels (fmt : ℚ → String) (cells : List Cell) (bins : List (ℚ × ℚ)) (labels : List Cell) :
    Except Err (List Cell) :=
  let orig := (cells.filter fun x => !x.isNan && !([Cell.str "UF", .str "OF", .str "NaN"].contains x)).toFinset.sort (· ≤ ·)
  let missing := orig.filter fun v => !labels.contains v
  let imissing := missing.map fun v => orig.idxOf v
  let vals := ((List.range bins.length).filter fun i => !imissing.contains i).map fun i =>
    Cell.str (fmt (bins.getD i (0, 0)).1 ++ "_" ++ fmt (bins.getD i (0, 0)).2)
  let vals := vals ++ labels.drop vals.length
  if vals.length = labels.length then .ok vals else .error .value

/-- The labels of one axis: unchanged for a column without an entry in the binning dictionary.
(phik/outliers.py:411-423) -/
def relabel (fmt : ℚ → String) (dict : List (String × List (ℚ × ℚ))) (col : Column) (labels : List Cell) :
    Except Err (List Cell) :=
  match dict.lookup col.name with
  | some bins => axisLabels fmt col.cells bins labels
  | none => .ok labels

/-- `outlier_significance_matrix_from_rebinned_df` (outliers.py:383-428); `none` is NaN, returned when
there are too few categories.  The argument is changed in place. -/
noncomputable def outlierFromRebinned (N : OutNum) (fmt : ℚ → String) (r : Ref)
    (dict : List (String × List (ℚ × ℚ))) (ci : String) (dropna du dof : Bool) : M (Option OutTab) := do
  let h ← hist2dFromRebinned r dropna du dof
  let data ← M.read r
  match data.cols with
  | [a, b] =>
    if (h.rows.length = 1 ∨ h.cols.length = 1) ∨ (h.rows.length = 0 ∨ h.cols.length = 0) then
      M.warn (.tooFewOut a.name h.rows.length b.name h.cols.length)
      pure none
    else
      let rows ← M.ofExcept (relabel fmt dict a h.rows)
      let cols ← M.ofExcept (relabel fmt dict b h.cols)
      let t ← M.ofExcept (outlierFromHist2d N h.arr ci)
      if hs : t.r = rows.length ∧ t.c = cols.length then
        pure (some ⟨rows, cols, fun i j => (t.v (i.cast hs.1.symm) (j.cast hs.2.symm)).2⟩)
      else throw .value
  | _ => throw .value

/-- `outlier_significance_matrix` (outliers.py:431-473), with `retbins=True`. -/
noncomputable def outlierMatrix (N : OutNum) (fmt : ℚ → String) (fl : ℚ → ℚ)
    (pf : String → Option (Option ℚ)) (r : Ref) (intervalCols : Option (List String)) (ci : String)
    (bins : Bins) (quantile dropna du dof : Bool) : M (Option OutTab × List (String × List (ℚ × ℚ))) := do
  let df ← M.read r
  if df.cols.length ≠ 2 then throw .value
  let ic := intervalCols.getD (guessIntervalCols df)
  let (clean, icClean) ← dqCheck r ic dropna
  let (binned, dict) ← binData fl pf clean icClean bins quantile
  let t ← outlierFromRebinned N fmt binned dict ci dropna du dof
  pure (t, dict)

/-- The loop over the pairs (outliers.py:507-513).  A pair of equal names makes pandas raise ValueError
("Grouper for ... not 1-dimensional"); an unknown name is a KeyError. -/
noncomputable def outlierLoop (N : OutNum) (fmt : ℚ → String) (r : Ref)
    (dict : List (String × List (ℚ × ℚ))) (ci : String) (dropna du dof : Bool) :
    List (String × String) → M (List (String × String × Option OutTab))
  | [] => pure []
  | (c0, c1) :: rest => do
    let data ← M.read r
    let a ← M.ofExcept (data.getCol c0)
    let b ← M.ofExcept (data.getCol c1)
    if c0 = c1 then throw .value
    -- data_binned[[c0, c1]].copy()
    let s ← M.alloc ⟨data.nrows, [a, b]⟩
    let t ← outlierFromRebinned N fmt s dict ci dropna du dof
    let l ← outlierLoop N fmt r dict ci dropna du dof rest
    pure ((c0, c1, t) :: l)

/-- `outlier_significance_matrices_from_rebinned_df` (outliers.py:476-515). -/
noncomputable def outlierMatricesFromRebinned (N : OutNum) (fmt : ℚ → String) (r : Ref)
    (dict : List (String × List (ℚ × ℚ))) (ci : String) (combinations : List (String × String))
    (dropna du dof : Bool) : M (List (String × String × Option OutTab)) := do
  let data ← M.read r
  let co := if combinations.isEmpty then comb2 data.names else combinations
  outlierLoop N fmt r dict ci dropna du dof co

/-- `d[key] = value` in a Python dictionary, in insertion order: the place of the first insertion, the
value of the last. (Python, phik/outliers.py:512, phik/report.py:345) -/
def dictSet {α : Type} (d : List (String × α)) (k : String) (v : α) : List (String × α) :=
  if d.any fun p => p.1 == k then d.map fun p => if p.1 == k then (k, v) else p else d ++ [(k, v)]

/-- `{":".join([c0, c1]): v for c0, c1, v in l}` (outliers.py:560). -/
def joinDict {α : Type} (l : List (String × String × α)) : List (String × α) :=
  l.foldl (fun d p => dictSet d (p.1 ++ ":" ++ p.2.1) p.2.2) []

/-- `outlier_significance_matrices` (outliers.py:518-564), with `retbins=True`. -/
noncomputable def outlierMatrices (N : OutNum) (fmt : ℚ → String) (fl : ℚ → ℚ)
    (pf : String → Option (Option ℚ)) (r : Ref) (intervalCols : Option (List String)) (ci : String)
    (bins : Bins) (quantile : Bool) (combinations : List (String × String)) (dropna du dof : Bool) :
    M (List (String × Option OutTab) × List (String × List (ℚ × ℚ))) := do
  let df ← M.read r
  let ic := intervalCols.getD (guessIntervalCols df)
  let (clean, icClean) ← dqCheck r ic dropna
  let (binned, dict) ← binData fl pf clean icClean bins quantile
  let l ← outlierMatricesFromRebinned N fmt binned dict ci combinations dropna du dof
  pure (joinDict l, dict)

/-- `outlier_significance_from_array` (outliers.py:567-602), with the simplifications of
`arraysToFrame`. -/
noncomputable def outlierFromArray (N : OutNum) (fmt render : ℚ → String) (fl : ℚ → ℚ)
    (pf : String → Option (Option ℚ)) (x y : List Cell) (numVars : Option (List String)) (bins : Bins)
    (quantile : Bool) (ci : String) (dropna du dof : Bool) : M (Option OutTab) := do
  let df ← M.ofExcept (arraysToFrame render x y)
  let r ← M.alloc df
  let nv := numVars.getD (guessIntervalCols df)
  let (t, _) ← outlierMatrix N fmt fl pf r (some nv) ci bins quantile dropna du dof
  pure t

/-- `outlier_significance_from_binned_array` (outliers.py:605-629): the interval columns are guessed and
the default binning is used. -/
noncomputable def outlierFromBinnedArray (N : OutNum) (fmt render : ℚ → String) (fl : ℚ → ℚ)
    (pf : String → Option (Option ℚ)) (x y : List Cell) (ci : String) (dropna du dof : Bool) :
    M (Option OutTab) := do
  let df ← M.ofExcept (arraysToFrame render x y)
  let r ← M.alloc df
  let (t, _) ← outlierMatrix N fmt fl pf r none ci (.one (.num 10)) false dropna du dof
  pure t

end Phik
