import Verif.Model.Simulation
import Mathlib.Data.EReal.Inv

/-!
# Model of `phik/significance.py`

p-values are `Option ℝ` and Z-values are `Option EReal`; `none` is NaN.  Arithmetic is exact, except that
the distribution functions are parameters which may underflow to 0 as the floating point versions do.
-/

namespace Phik

/-- scipy's distribution functions and optimiser.
* `chi2sf x k` is `stats.chi2.sf(x, k)`, NaN for `k ≤ 0`; `normsf x m s` is `stats.norm.sf(x, m, s)`;
* `chi2pdf`, `normpdf` likewise;
* `ppf` is `stats.norm.ppf` on [0, 1];
* `lsq res` is `optimize.least_squares(res, (1.,), bounds=((0.,), (1,)))`, its result `x[0]`.
(called at phik/significance.py:50-72, 96-101, 148-149, 185-189) -/
structure SigNum where
  chi2sf : ℝ → ℝ → Option ℝ
  normsf : ℝ → ℝ → ℝ → Option ℝ
  chi2pdf : ℝ → ℝ → Option ℝ
  normpdf : ℝ → ℝ → ℝ → Option ℝ
  ppf : ℝ → EReal
  lsq : (ℝ → List (Option ℝ)) → Except Err ℝ

/-- `-stats.norm.ppf(p)`; NaN for NaN. (phik/significance.py:101, 149, 189) -/
noncomputable def zOfP (S : SigNum) (p : Option ℝ) : Option EReal := p.map fun p => -S.ppf p

/-- The Chernoff bound used when the p-value is 0 (significance.py:107-109, 194-198); `extra` is added to
`u`.  `math.log` raises ValueError for arguments that are not positive. -/
noncomputable def chernoff (chi2 ndof extra : ℝ) : Except Err EReal := do
  if ndof = 0 then throw .zeroDiv
  let z := chi2 / ndof
  if z ≤ 0 then throw .value
  let u := -Real.log (2 * Real.pi) - ndof * Real.log z + ndof * (z - 1) + extra
  if u ≤ 0 then throw .value
  pure ((Real.sqrt (u - Real.log u) : ℝ) : EReal)

open scoped Classical in
/-- `significance_from_chi2_ndof` (significance.py:90-111). -/
noncomputable def sigFromNdof (S : SigNum) (chi2 ndof : ℝ) : Except Err (Option ℝ × Option EReal) := do
  let p := S.chi2sf chi2 ndof
  if p = some 0 then
    let z ← chernoff chi2 ndof 0
    pure (p, some z)
  else pure (p, zOfP S p)

/-- `significance_from_chi2_asymptotic` (significance.py:114-128). -/
noncomputable def sigAsymptotic (S : SigNum) (values : Arr2 ℝ) (chi2 : ℝ) :
    Except Err (Option ℝ × Option EReal) :=
  sigFromNdof S chi2 (theoreticalNdof values : ℤ)

open scoped Classical in
/-- `scipy.stats.percentileofscore(a, score)` (kind 'rank'; 100 for no values). (phik/significance.py:148) -/
noncomputable def percentileOfScore (a : List ℝ) (score : ℝ) : ℝ :=
  if a.length = 0 then 100
  else
    let left := (a.filter fun x => x < score).length
    let right := (a.filter fun x => x ≤ score).length
    ((right + left + (if left < right then 1 else 0) : ℕ) : ℝ) * 50 / a.length

/-- The simulated values a significance function uses: given by the caller, or simulated.
(phik/significance.py:143-148) -/
structure SimRun (F : Type) where
  env : SimEnv F
  draws : ℕ → Draws F
  sched : Option (List ℕ)
  nsim : ℕ
  lambda : String
  method : String

/-- `sim_chi2_distribution(values, nsim=nsim, lambda_=lambda_, simulation_method=simulation_method)` when
no values are given (significance.py:144-145, 176-177). -/
noncomputable def SimRun.chi2s {F : Type} (R : SimRun F) (values : Arr2 ℝ) (given : Option (List ℝ)) :
    Except Err (List ℝ) :=
  match given with
  | some l => .ok l
  | none => simChi2 R.env R.draws R.sched values R.nsim R.lambda R.method false

/-- `significance_from_chi2_MC` (significance.py:131-151). -/
noncomputable def sigMC {F : Type} (S : SigNum) (R : SimRun F) (chi2 : ℝ) (values : Arr2 ℝ)
    (given : Option (List ℝ)) : Except Err (Option ℝ × Option EReal) := do
  let chi2s ← R.chi2s values given
  let p := 1 - percentileOfScore chi2s chi2 / 100
  pure (some p, zOfP S (some p))

/-- Edges of `np.histogram(a, bins=nbins)` of a non-empty list: equal bins between the extreme values, or
of total width 1 around a single value. (phik/significance.py:64) -/
noncomputable def fitEdges (a : List ℝ) (nbins : ℕ) : ℕ → ℝ :=
  let lo := a.foldr min (a.headD 0)
  let hi := a.foldr max (a.headD 0)
  let lo' := if lo = hi then lo - 1 / 2 else lo
  let hi' := if lo = hi then hi + 1 / 2 else hi
  fun i => lo' + i * ((hi' - lo') / nbins)

open scoped Classical in
/-- Counts of `np.histogram(a, bins=nbins)`: half-open bins, the last one closed.
(phik/significance.py:64) -/
noncomputable def fitCounts (a : List ℝ) (nbins : ℕ) (i : ℕ) : ℕ :=
  (a.filter fun x => fitEdges a nbins i ≤ x ∧
    (x < fitEdges a nbins (i + 1) ∨ i + 1 = nbins ∧ x = fitEdges a nbins (i + 1))).length

/-- Expected counts of the hybrid distribution (significance.py:51-53). -/
noncomputable def fitExpect (S : SigNum) (N k sigma x f : ℝ) : Option ℝ := do
  let c ← S.chi2pdf x k
  let g ← S.normpdf x k sigma
  pure (N * (f * c + (1 - f) * g))

open scoped Classical in
/-- The square of one residual of the fit (significance.py:57): minus the logarithm of a Poisson
probability.  `gammaln(y + 1) = log(y!)`.  A vanishing expectation of a bin with entries makes it
infinite, which is `none` here like NaN. -/
noncomputable def fitTerm (y : ℕ) (f : Option ℝ) : Option ℝ :=
  match f with
  | none => none
  | some f => if f ≤ 0 ∧ 0 < y then none else some (f - xlogy y f + Real.log (Nat.factorial y))

/-- The residuals (significance.py:55-66); the square root of a negative number is NaN. -/
noncomputable def fitResiduals (S : SigNum) (chi2s : List ℝ) (nbins : ℕ) (f : ℝ) : List (Option ℝ) :=
  let kmean := chi2s.sum / chi2s.length
  let bw := fitEdges chi2s nbins 1 - fitEdges chi2s nbins 0
  (List.range nbins).map fun i =>
    let x := fitEdges chi2s nbins i + (fitEdges chi2s nbins (i + 1) - fitEdges chi2s nbins i) / 2
    match fitTerm (fitCounts chi2s nbins i)
        (fitExpect S (chi2s.length * bw) kmean (Real.sqrt kmean) x f) with
    | none => none
    | some t => if t < 0 then none else some (Real.sqrt t)

/-- `fit_test_statistic_distribution` (significance.py:36-71): f, ndof, sigma, bin width.  An empty list
gives NaN residuals, which `least_squares` refuses with ValueError. -/
noncomputable def fitDistribution (S : SigNum) (chi2s : List ℝ) (nbins : ℕ) :
    Except Err (ℝ × ℝ × ℝ × ℝ) := do
  if chi2s.isEmpty then throw .value
  let f ← S.lsq (fitResiduals S chi2s nbins)
  let kmean := chi2s.sum / chi2s.length
  pure (f, kmean, Real.sqrt kmean, fitEdges chi2s nbins 1 - fitEdges chi2s nbins 0)

/-- `avg_per_bin` (significance.py:180), with Python's precedence. -/
noncomputable def avgPerBin (values : Arr2 ℝ) : ℝ := values.total / values.r * values.c

open scoped Classical in
/-- `significance_from_chi2_hybrid` (significance.py:154-200).  A table without rows makes the average
infinite or NaN: not considered (`nonfinite`). -/
noncomputable def sigHybrid {F : Type} (S : SigNum) (R : SimRun F) (chi2 : ℝ) (values : Arr2 ℝ)
    (given : Option (List ℝ)) : Except Err (Option ℝ × Option EReal) := do
  let chi2s ← R.chi2s values given
  if values.r = 0 then throw .nonfinite
  if avgPerBin values ≤ 4 then
    let (f, endof, lsigma, _) ← fitDistribution S chi2s 50
    let p : Option ℝ := do
      let a ← S.chi2sf chi2 endof
      let b ← S.normsf chi2 endof lsigma
      pure (f * a + (1 - f) * b)
    if p = some 0 then
      -- math.log(f) raises ValueError for f = 0
      if f ≤ 0 then throw .value
      let z ← chernoff chi2 endof (-2 * Real.log f)
      pure (p, some z)
    else pure (p, zOfP S p)
  else
    match estimateNdof chi2s with
    | none => pure (none, none)
    | some endof =>
      let p := S.chi2sf chi2 endof
      if p = some 0 then
        let z ← chernoff chi2 endof 0
        pure (p, some z)
      else pure (p, zOfP S p)

/-- `significance_from_hist2d` (significance.py:203-239). -/
noncomputable def sigFromHist2d {F : Type} (S : SigNum) (R : SimRun F) (values : Arr2 ℝ)
    (sigMethod : String) : Except Err (Option ℝ × Option EReal) := do
  let chi2 ← getChi2 values R.lambda
  if sigMethod = "asymptotic" then sigAsymptotic S values chi2
  else if sigMethod = "MC" then sigMC S R chi2 values none
  else if sigMethod = "hybrid" then sigHybrid S R chi2 values none
  else throw .notImplemented

/-- The loop over the pairs in `significance_from_rebinned_df` (significance.py:272-288); `k` is the number
of the pair, `R k` its simulations. -/
noncomputable def sigLoop {F : Type} (S : SigNum) (R : ℕ → SimRun F) (sigMethod : String) (f : Frame) :
    ℕ → List (String × String) → M (List (String × String × Option EReal))
  | _, [] => pure []
  | k, (c0, c1) :: rest => do
    let a ← M.ofExcept (f.getCol c0)
    let b ← M.ofExcept (f.getCol c1)
    let h := histOfPairs (a.cells.zip b.cells)
    if (h.rows.length = 1 ∨ h.cols.length = 1) ∨ (h.rows.length = 0 ∨ h.cols.length = 0) then
      M.warn (.tooFewSig c0 h.rows.length c1 h.cols.length)
      let l ← sigLoop S R sigMethod f (k + 1) rest
      pure ((c0, c1, none) :: l)
    else
      let (_, z) ← M.ofExcept (sigFromHist2d S (R k) h.values sigMethod)
      let l ← sigLoop S R sigMethod f (k + 1) rest
      pure ((c0, c1, z) :: l)

/-- Mean of numbers that may be infinite. -/
noncomputable instance : Avg EReal where
  avg l := l.sum / l.length
  avg_const n v := by
    have key : (List.replicate (n + 1) v).sum = (n + 1 : ℕ) * v := by
      induction n with
      | zero => simp
      | succ n ih =>
        rw [List.replicate_succ, List.sum_cons, ih]
        have : (((n + 1 + 1 : ℕ) : EReal)) = 1 + ((n + 1 : ℕ) : EReal) := by push_cast; rw [add_comm]
        rw [this, EReal.right_distrib_of_nonneg (by norm_num) (by positivity), one_mul]
    rw [key, List.length_replicate, ← EReal.mul_div, EReal.mul_div_cancel (EReal.natCast_ne_bot _)
      (EReal.natCast_ne_top _) (by exact_mod_cast Nat.succ_ne_zero n)]

/-- `significance_from_rebinned_df` (significance.py:242-299): changes its argument in place. -/
noncomputable def sigFromRebinned {F : Type} (S : SigNum) (R : ℕ → SimRun F) (r : Ref) (sigMethod : String)
    (dropna du dof : Bool) : M (LTab EReal) := do
  let data ← M.read r
  M.write r (applyFlags dropna du dof data)
  let f := applyFlags dropna du dof data
  let l ← sigLoop S R sigMethod f 0 (cwr f.names)
  if l.length = 0 then pure ⟨f.names, f.names, fun _ _ => none⟩
  else pure (((overview l).reindexCols f.names).reindexRows f.names)

/-- `significance_matrix` (significance.py:302-338); always bins uniformly. -/
noncomputable def significanceMatrix {F : Type} (S : SigNum) (R : ℕ → SimRun F) (fl : ℚ → ℚ)
    (pf : String → Option (Option ℚ)) (r : Ref) (intervalCols : Option (List String)) (bins : Bins)
    (sigMethod : String) (dropna du dof : Bool) : M (LTab EReal) := do
  let df ← M.read r
  let ic := intervalCols.getD (guessIntervalCols df)
  let (clean, icClean) ← dqCheck r ic dropna
  let (binned, _) ← binData fl pf clean icClean bins false
  sigFromRebinned S R binned sigMethod dropna du dof

/-- `significance_from_binned_array` (significance.py:384-431). -/
noncomputable def sigFromBinnedArray {F : Type} (S : SigNum) (R : SimRun F) (render : ℚ → String)
    (x y : List Cell) (sigMethod : String) (dropna du dof : Bool) : M (Option ℝ × Option EReal) := do
  if x.length ≠ y.length then throw .value
  let h := histOfPairs ((prepArray render dropna du dof x).zip (prepArray render dropna du dof y))
  let ok ← dqCheckHist2d h.rows.length h.cols.length
  if !ok then return (none, none)
  M.ofExcept (sigFromHist2d S R h.values sigMethod)

/-- `significance_from_array` (significance.py:341-381), with the simplifications of `arraysToFrame`. -/
noncomputable def sigFromArray {F : Type} (S : SigNum) (R : SimRun F) (render : ℚ → String) (fl : ℚ → ℚ)
    (pf : String → Option (Option ℚ)) (x y : List Cell) (numVars : List String) (bins : Bins)
    (quantile : Bool) (sigMethod : String) (dropna du dof : Bool) : M (Option ℝ × Option EReal) := do
  if numVars.length > 0 then
    let df ← M.ofExcept (arraysToFrame render x y)
    let r ← M.alloc df
    let (b, _) ← binData fl pf r numVars bins quantile
    let out ← M.read b
    match out.cols with
    | [cx, cy] => sigFromBinnedArray S R render cx.cells cy.cells sigMethod dropna du dof
    | _ => throw .value
  else sigFromBinnedArray S R render x y sigMethod dropna du dof

end Phik
