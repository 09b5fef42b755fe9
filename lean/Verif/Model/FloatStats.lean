import Verif.Model.Float
import Verif.Model.Arr
import Verif.Model.Core
import Verif.Model.Stats
import Verif.Model.Bivariate

/-!
# The Pearson statistic of `phik/statistics.py` in floating point arithmetic

Numbers are rationals, every operation is followed by the rounding `fl` (see `Model/Float.lean`; no overflow, no subnormal numbers).
numpy adds the elements of an array in an order that depends on its version, the memory layout and the processor; here the order
is a parameter: for every sum, any tree of additions.  scipy is modelled as of version 1.7.
-/

namespace Phik

/-- An order of additions. (`np.sum` within scipy, called at phik/statistics.py:55) -/
inductive SumTree
  | leaf (x : ℚ)
  | node (s t : SumTree)

namespace SumTree

/-- The numbers that are added. (`np.sum` within scipy, called at phik/statistics.py:55) -/
def leaves : SumTree → List ℚ
  | leaf x => [x]
  | node s t => s.leaves ++ t.leaves

/-- The largest number of additions a number goes through. (`np.sum` within scipy, called at phik/statistics.py:55) -/
def depth : SumTree → ℕ
  | leaf _ => 0
  | node s t => max s.depth t.depth + 1

/-- The sum in floating point arithmetic. (`np.sum` within scipy, called at phik/statistics.py:55) -/
def eval (fl : ℚ → ℚ) : SumTree → ℚ
  | leaf x => x
  | node s t => fl (s.eval fl + t.eval fl)

end SumTree

/-- The sums of the computation. (scipy `margins`, `expected_freq`, `power_divergence`, called at phik/statistics.py:55) -/
inductive SumSite
  | row (i : ℕ)
  | col (j : ℕ)
  | total
  | observed
  | expected
  | terms

/-- `np.sum`; the sum of no numbers is 0. (scipy, called at phik/statistics.py:55) -/
def flSum (fl : ℚ → ℚ) (order : SumSite → List ℚ → SumTree) (site : SumSite) (l : List ℚ) : ℚ :=
  if l = [] then 0 else (order site l).eval fl

/-- The cells of a table, row by row. (numpy, called at phik/statistics.py:55) -/
def cellList {r c : ℕ} (v : Fin r → Fin c → ℚ) : List ℚ := (List.ofFn fun i => List.ofFn (v i)).flatten

/-- `scipy.stats.contingency.expected_freq`: the product of the marginal sums, divided by the total. (called at phik/statistics.py:55) -/
def flExpected (fl : ℚ → ℚ) (order : SumSite → List ℚ → SumTree) (a : Arr2 ℚ) (i : Fin a.r) (j : Fin a.c) : ℚ :=
  fl (fl (flSum fl order (.row i) (List.ofFn (a.v i)) * flSum fl order (.col j) (List.ofFn fun i => a.v i j)) /
    flSum fl order .total (cellList a.v))

/-- Yates' correction: `diff = expected - observed; observed + minimum(0.5, abs(diff)) * sign(diff)`.
(scipy `chi2_contingency`, called at phik/statistics.py:55) -/
def flYates (fl : ℚ → ℚ) (o e : ℚ) : ℚ :=
  let diff := fl (e - o)
  fl (o + fl (min (1 / 2) |diff| * SignType.sign diff))

/-- A term of Pearson's statistic, `(f_obs - f_exp)**2 / f_exp`. (scipy `power_divergence`, called at phik/statistics.py:55) -/
def flTerm (fl : ℚ → ℚ) (o e : ℚ) : ℚ := fl (fl (fl (o - e) * fl (o - e)) / e)

/-- `scipy.stats.power_divergence(f_obs, f_exp, axis=None, lambda_="pearson")[0]` with its check of the sums.
(called at phik/statistics.py:55) -/
def flPearson (fl : ℚ → ℚ) (order : SumSite → List ℚ → SumTree) {r c : ℕ} (obs exp : Fin r → Fin c → ℚ) : Except Err ℚ :=
  let so := flSum fl order .observed (cellList obs)
  let se := flSum fl order .expected (cellList exp)
  if fl (1 / 10 ^ 8) < fl (|fl (so - se)| / min so se) then .error .value
  else .ok (flSum fl order .terms (cellList fun i j => flTerm fl (obs i j) (exp i j)))

/-- `scipy.stats.chi2_contingency(observed, lambda_="pearson")[0]`. (called at phik/statistics.py:55) -/
def flChi2Contingency (fl : ℚ → ℚ) (order : SumSite → List ℚ → SumTree) (a : Arr2 ℚ) : Except Err ℚ :=
  if ∃ i j, a.v i j < 0 then .error .value
  else if a.size = 0 then .error .value
  else if flSum fl order .total (cellList a.v) = 0 then .error .nonfinite
  else if ∃ i j, flExpected fl order a i j = 0 then .error .value
  else if nominalDof a.r a.c = 0 then .ok 0
  else flPearson fl order
    (if nominalDof a.r a.c = 1 then fun i j => flYates fl (a.v i j) (flExpected fl order a i j) else a.v) (flExpected fl order a)

/-- Removal of the rows that contain only zeros. (phik/statistics.py:51-52) -/
def flDropZeroRows (a : Arr2 ℚ) : Arr2 ℚ := a.filterRows fun i => !decide (∀ j, a.v i j = 0)

/-- `get_chi2_using_dependent_frequency_estimates(vals, lambda_="pearson")` (statistics.py:36-57). -/
def flGetChi2 (fl : ℚ → ℚ) (order : SumSite → List ℚ → SumTree) (vals : Arr2 ℚ) : Except Err ℚ :=
  let values := flDropZeroRows vals
  let values := (flDropZeroRows values.transpose).transpose
  flChi2Contingency fl order values

/-- `estimate_simple_ndof` (statistics.py:74-91); for an empty sum the expectations are NaN, which is not 0. -/
def flEstimateSimpleNdof (fl : ℚ → ℚ) (order : SumSite → List ℚ → SumTree) (a : Arr2 ℚ) : ℤ :=
  let zeros : ℕ := ∑ i, ∑ j, if flSum fl order .total (cellList a.v) ≠ 0 ∧ flExpected fl order a i j = 0 then 1 else 0
  let endof := nominalDof a.r a.c - zeros
  if endof < 0 then 0 else endof

/-- `phik_from_hist2d` (phik.py:76-101) with the rounding errors of the chi2 and of the number of degrees of freedom.  Simplification: the
operations of `phik_from_chi2` are exact (the grid, the normal probabilities and the root finder are those of `Model/Bivariate.lean`). -/
noncomputable def flPhikFromHist2d (mvn : ℝ → Rect → ℝ) (brentq : (ℝ → ℝ) → ℝ → ℝ → ℝ → Except Err ℝ) (fl : ℚ → ℚ)
    (order : SumSite → List ℚ → SumTree) (observed : Arr2 ℚ) (noise : Bool) : Except Err ℝ := do
  let chi2 ← flGetChi2 fl order observed
  let endof : ℤ := if noise then flEstimateSimpleNdof fl order observed else 0
  let pedestal := if endof < 0 then 0 else endof
  phikFromChi2 mvn brentq (chi2 : ℝ) ((flSum fl order .total (cellList observed.v) : ℚ) : ℝ) observed.r observed.c none none pedestal

end Phik
