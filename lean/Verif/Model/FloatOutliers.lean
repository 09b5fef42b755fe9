import Verif.Model.FloatStats

/-!
# The expected frequencies of the outlier test in floating point arithmetic

As in `Model/FloatStats.lean`: numbers are rationals, every operation is followed by the rounding `fl`, sums are evaluated in any
order.  `sq` is `np.sqrt`, `pw` is `pow(·, 2)`, `unc` is `get_uncertainty` of the chosen method.
-/

namespace Phik

/-- `get_poisson_uncertainty` (outliers.py:304-312). -/
def flPoissonUncertainty (sq : ℚ → ℚ) (x : ℚ) : ℚ := if 1 ≤ x then sq x else 1

/-- One cell of `get_independent_frequency_estimates` (outliers.py:261-275): expectation and its error, `none` for NaN. -/
def flEstimateCell (fl sq pw unc : ℚ → ℚ) (order : SumSite → List ℚ → SumTree) (a : Arr2 ℚ) (i : Fin a.r) (j : Fin a.c) :
    Option (ℚ × ℚ) :=
  let A := a.v i j
  let B := fl (flSum fl order (.row i) (List.ofFn (a.v i)) - A)
  let C := fl (flSum fl order (.col j) (List.ofFn fun i => a.v i j) - A)
  let D := fl (fl (fl (flSum fl order .total (cellList a.v) - B) - C) - A)
  if 0 < D then
    let e := fl (fl (B * C) / D)
    let sigmaB := unc B
    let sigmaC := unc C
    let sigmaD := unc D
    some (e, sq (fl (fl (pw (fl (fl (sigmaB * C) / D)) + pw (fl (fl (sigmaC * B) / D))) + pw (fl (fl (sigmaD * e) / D)))))
  else none

/-- The arguments of the incomplete beta function (outliers.py:65-68) for an uncertainty `s > 0`. -/
def flLinnemann (fl : ℚ → ℚ) (e s : ℚ) : ℚ × ℚ :=
  let nexpalt := if 0 < e then e else s
  let tau := fl (nexpalt / fl (s * s))
  (fl (fl (nexpalt * tau) + 1), fl (1 / fl (1 + tau)))

/-- `poisson_obs_p` (outliers.py:33-73) of an expectation and its error, `none` for NaN; `bi` is `betainc`, `ps` is `stats.poisson.sf`, which is NaN
for a NaN. -/
def flPoissonObsP (fl : ℚ → ℚ) (bi : ℕ → ℚ → ℚ → ℚ) (ps : ℕ → ℚ → ℚ) (nobs : ℕ) (es : Option (ℚ × ℚ)) : Option ℚ :=
  if nobs = 0 then some 1
  else match es with
    | none => none
    | some (e, s) => some (if 0 < s then bi nobs (flLinnemann fl e s).1 (flLinnemann fl e s).2 else ps (nobs - 1) e)

/-- `poisson_obs_mid_p` (outliers.py:155-174). -/
def flPoissonObsMidP (fl : ℚ → ℚ) (bi : ℕ → ℚ → ℚ → ℚ) (ps : ℕ → ℚ → ℚ) (nobs : ℕ) (es : Option (ℚ × ℚ)) : Option ℚ := do
  let p ← flPoissonObsP fl bi ps nobs es
  let pplus1 ← flPoissonObsP fl bi ps (nobs + 1) es
  pure (fl (p - fl (1 / 2 * fl (p - pplus1))))

/-- The p-values of `outlier_significance_matrix_from_hist2d` (outliers.py:342-380) with the method `'poisson'`. -/
def flOutlierP (fl sq pw : ℚ → ℚ) (bi : ℕ → ℚ → ℚ → ℚ) (ps : ℕ → ℚ → ℚ) (order : SumSite → List ℚ → SumTree) (t : Arr2 ℕ) (i : Fin t.r)
    (j : Fin t.c) : Option ℚ :=
  flPoissonObsMidP fl bi ps (t.v i j) (flEstimateCell fl sq pw (flPoissonUncertainty sq) order (t.map (Nat.cast : ℕ → ℚ)) i j)

/-- The default branch of `poisson_obs_mid_z` (outliers.py:239) for the p-value `p`; `qf` is `stats.norm.ppf`.  `none` stands for NaN and for the
branches with logarithms (outliers.py:229-236), which are not modelled here. -/
def flMidZ (qf : ℚ → ℚ) (p : Option ℚ) : Option ℚ :=
  p.bind fun p => if p = 0 ∨ p = 1 then none else some (-qf p)

end Phik
