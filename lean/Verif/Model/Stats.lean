import Verif.Model.Core
import Verif.Model.Arr
import Mathlib.Analysis.SpecialFunctions.Pow.Real
import Mathlib.Data.EReal.Basic

/-!
# Model of `phik/statistics.py` and of the scipy functions it calls

Tables are arrays of real numbers and arithmetic is exact.  scipy is modelled as of version 1.7
(`scipy/stats/contingency.py`, `scipy/stats/stats.py`).
-/

namespace Phik

open scoped Classical in
/-- Number of indices with a property (`mask.sum()`). (phik/statistics.py:87) -/
noncomputable def countCells {r c : ℕ} (p : Fin r → Fin c → Prop) : ℕ :=
  ∑ i, ∑ j, if p i j then 1 else 0

/-- `scipy.stats.contingency.expected_freq` of a two-dimensional table, also
`get_dependent_frequency_estimates` (statistics.py:22-33): product of the marginal sums divided by the
total.  `none` is the NaN or infinity numpy produces when the total is zero. -/
noncomputable def expectedFreq (a : Arr2 ℝ) : Arr2 (Option ℝ) :=
  ⟨a.r, a.c, fun i j => if a.total = 0 then none else some (a.rowSum i * a.colSum j / a.total)⟩

/-- `expectedFreq` of a table with non-zero total, as plain numbers. (phik/statistics.py:22-33) -/
noncomputable def expected (a : Arr2 ℝ) (i : Fin a.r) (j : Fin a.c) : ℝ :=
  a.rowSum i * a.colSum j / a.total

/-- The names of test statistics `scipy.stats.power_divergence` knows and their exponent
(`_power_div_lambda_names`); `none` for any other string. (scipy, called at phik/statistics.py:55) -/
noncomputable def powerDivLambda (name : String) : Option ℝ :=
  if name = "pearson" then some 1
  else if name = "log-likelihood" then some 0
  else if name = "freeman-tukey" then some (-1 / 2)
  else if name = "mod-log-likelihood" then some (-1)
  else if name = "neyman" then some (-2)
  else if name = "cressie-read" then some (2 / 3)
  else none

/-- `scipy.special.xlogy`. (scipy, called at phik/statistics.py:55) -/
noncomputable def xlogy (x y : ℝ) : ℝ := if x = 0 then 0 else x * Real.log y

/-- One term of the sum in `power_divergence`. (scipy, called at phik/statistics.py:55) -/
noncomputable def powerTerm (lam o e : ℝ) : ℝ :=
  if lam = 1 then (o - e) ^ 2 / e
  else if lam = 0 then 2 * xlogy o (o / e)
  else if lam = -1 then 2 * xlogy e (e / o)
  else o * ((o / e) ^ lam - 1) / (1 / 2 * lam * (lam + 1))

open scoped Classical in
/-- `scipy.stats.power_divergence(f_obs, f_exp, axis=None, lambda_=...)[0]`, including its check that
both sums agree to a relative tolerance of 1e-8.  An infinite term (negative exponent, zero count) is
`nonfinite`. (scipy, called at phik/statistics.py:55) -/
noncomputable def powerDivergence {r c : ℕ} (obs exp : Fin r → Fin c → ℝ) (lam : ℝ) : Except Err ℝ :=
  let so := ∑ i, ∑ j, obs i j
  let se := ∑ i, ∑ j, exp i j
  if 1 / 10 ^ 8 < |so - se| / min so se then .error .value
  else if lam < 0 ∧ ∃ i j, obs i j = 0 then .error .nonfinite
  else .ok (∑ i, ∑ j, powerTerm lam (obs i j) (exp i j))

/-- Nominal number of degrees of freedom `size - sum(shape) + ndim - 1`. (phik/statistics.py:87, 105) -/
def nominalDof (r c : ℕ) : ℤ := (r * c : ℕ) - ((r : ℤ) + c) + 2 - 1

/-- Yates' continuity correction of one cell: the observation is moved towards the expectation by at
most one half. (scipy, called at phik/statistics.py:55) -/
noncomputable def yates (o e : ℝ) : ℝ := o + min (1 / 2) |e - o| * SignType.sign (e - o)

open scoped Classical in
/-- `scipy.stats.chi2_contingency(observed, lambda_=name)[0]`. (scipy, called at phik/statistics.py:55) -/
noncomputable def chi2Contingency (a : Arr2 ℝ) (name : String) : Except Err ℝ :=
  if ∃ i j, a.v i j < 0 then .error .value
  else if a.size = 0 then .error .value
  else if a.total = 0 then .error .nonfinite
  else if ∃ i j, expected a i j = 0 then .error .value
  else if nominalDof a.r a.c = 0 then .ok 0
  else
    let obs : Fin a.r → Fin a.c → ℝ :=
      if nominalDof a.r a.c = 1 then fun i j => yates (a.v i j) (expected a i j) else a.v
    match powerDivLambda name with
    | none => .error .value
    | some lam => powerDivergence obs (expected a) lam

open scoped Classical in
/-- Removal of the rows that contain only zeros. (phik/statistics.py:51-52) -/
noncomputable def dropZeroRows (a : Arr2 ℝ) : Arr2 ℝ := a.filterRows fun i => !decide (∀ j, a.v i j = 0)

/-- `get_chi2_using_dependent_frequency_estimates` (statistics.py:36-57). -/
noncomputable def getChi2 (vals : Arr2 ℝ) (lambda : String) : Except Err ℝ :=
  let values := dropZeroRows vals
  let values := (dropZeroRows values.transpose).transpose
  chi2Contingency values lambda

/-- `estimate_ndof` (statistics.py:60-71): the mean; the mean of no values is NaN. -/
noncomputable def estimateNdof (chi2values : List ℝ) : Option ℝ :=
  if chi2values.isEmpty then none else some (chi2values.sum / chi2values.length)

/-- `estimate_simple_ndof` (statistics.py:74-91). -/
noncomputable def estimateSimpleNdof (observed : Arr2 ℝ) : ℤ :=
  let e := expectedFreq observed
  let endof := nominalDof e.r e.c - countCells (fun i j => e.v i j = some 0)
  if endof < 0 then 0 else endof

/-- `theoretical_ndof` (statistics.py:94-105). -/
def theoreticalNdof {K : Type*} (observed : Arr2 K) : ℤ := nominalDof observed.r observed.c

/-- `z_from_logp` (statistics.py:108-136) for a log p-value in `[-∞, 0]`.  `fexp` is the
floating point exponential (it may underflow to 0) and `ppf` is `stats.norm.ppf`. -/
noncomputable def zFromLogp (fexp : ℝ → ℝ) (ppf : ℝ → EReal) (logp : WithBot ℝ) (flip : Bool) : EReal :=
  match logp with
  | ⊥ => if flip then ⊥ else ⊤
  | (l : ℝ) =>
    let z : EReal :=
      if fexp l = 0 then
        let u := -2 * Real.log (2 * Real.pi) - 2 * l
        ((Real.sqrt (u - Real.log u) : ℝ) : EReal)
      else - ppf (fexp l)
    if flip then -z else z

end Phik
