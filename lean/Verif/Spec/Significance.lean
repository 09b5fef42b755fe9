import Verif.Model.Significance
import Verif.Spec.Matrix
import Mathlib.Order.Interval.Set.Basic

/-! # Contract of scipy's distribution functions, and specifications for significances -/

namespace Phik.Spec

/-- What is assumed of `scipy.stats.chi2`, `scipy.stats.norm` and `scipy.optimize.least_squares`: NaN for
parameters out of range; otherwise tail probabilities in [0, 1] that do not increase with the argument
(they may underflow to 0), non-negative densities, a non-decreasing quantile function of the normal
distribution; a minimiser that respects its bounds and refuses NaN at its starting point.
(`trueSig_spec` shows that the true functions satisfy this.) -/
structure SigSpec (S : SigNum) : Prop where
  chi2_nan : ∀ x k, k ≤ 0 → S.chi2sf x k = none
  chi2_range : ∀ x k, 0 < k → ∃ p, S.chi2sf x k = some p ∧ 0 ≤ p ∧ p ≤ 1
  chi2_anti : ∀ x y k p q, x ≤ y → S.chi2sf x k = some p → S.chi2sf y k = some q → q ≤ p
  chi2_start : ∀ k, 0 < k → S.chi2sf 0 k = some 1
  norm_nan : ∀ x m s, s ≤ 0 → S.normsf x m s = none
  norm_range : ∀ x m s, 0 < s → ∃ p, S.normsf x m s = some p ∧ 0 ≤ p ∧ p ≤ 1
  norm_anti : ∀ x y m s p q, x ≤ y → S.normsf x m s = some p → S.normsf y m s = some q → q ≤ p
  chi2pdf_nonneg : ∀ x k d, S.chi2pdf x k = some d → 0 ≤ d
  normpdf_nonneg : ∀ x m s d, S.normpdf x m s = some d → 0 ≤ d
  ppf_mono : MonotoneOn S.ppf (Set.Icc 0 1)
  ppf_zero : S.ppf 0 = ⊥
  ppf_one : S.ppf 1 = ⊤
  ppf_half : S.ppf (1 / 2) = 0
  ppf_neg : ∀ p, 0 ≤ p → p < 1 / 2 → S.ppf p < 0
  ppf_pos : ∀ p, 1 / 2 < p → p ≤ 1 → 0 < S.ppf p
  ppf_finite : ∀ p, 0 < p → p < 1 → S.ppf p ≠ ⊥ ∧ S.ppf p ≠ ⊤
  lsq_bounds : ∀ res f, S.lsq res = .ok f → 0 ≤ f ∧ f ≤ 1
  lsq_nan : ∀ res, none ∈ res 1 → S.lsq res = .error .value

/-- Number of values greater than / equal to / less than `x`. -/
noncomputable def above (l : List ℝ) (x : ℝ) : ℕ := l.countP fun y => decide (x < y)
noncomputable def ties (l : List ℝ) (x : ℝ) : ℕ := l.countP fun y => decide (y = x)
noncomputable def below (l : List ℝ) (x : ℝ) : ℕ := l.countP fun y => decide (y < x)

/-- The documented Monte-Carlo p-value: the fraction of simulated values above the observed one; of `t`
values equal to the observed one, half of all but one count (scipy's "rank" convention). -/
noncomputable def mcP (l : List ℝ) (x : ℝ) : ℝ :=
  (above l x + ((ties l x - 1 : ℕ) : ℝ) / 2) / l.length

/-- The documented average number of records per bin. -/
noncomputable def recordsPerBin (a : Arr2 ℝ) : ℝ := (∑ i, ∑ j, a.v i j) / (a.r * a.c)

/-- The documented exponent of the Chernoff bound. -/
noncomputable def chernoffU (chi2 ndof : ℝ) : ℝ :=
  -Real.log (2 * Real.pi) + ndof * (chi2 / ndof - 1 - Real.log (chi2 / ndof))

/-- Mean of a list. -/
noncomputable def mean (l : List ℝ) : ℝ := l.sum / l.length

/-- Tail probability of the documented mixture `f * chi2(ndof) + (1 - f) * gauss(ndof, sqrt(ndof))`. -/
noncomputable def mixP (S : SigNum) (f ndof chi2 : ℝ) : Option ℝ := do
  let a ← S.chi2sf chi2 ndof
  let b ← S.normsf chi2 ndof (Real.sqrt ndof)
  pure (f * a + (1 - f) * b)

/-- A sensible pair of p-value and significance: both NaN; or a probability with its negated normal
quantile; or, for a p-value of 0, a real number of at least 1. -/
def GoodSig (S : SigNum) (pz : Option ℝ × Option EReal) : Prop :=
  pz = (none, none) ∨ ∃ p, 0 ≤ p ∧ p ≤ 1 ∧ pz.1 = some p ∧
    (pz.2 = some (-S.ppf p) ∨ p = 0 ∧ ∃ z : ℝ, 1 ≤ z ∧ pz.2 = some (z : EReal))

/-- The contingency table has fewer than two rows or columns. -/
def Few (h : Hist) : Prop := h.rows.length < 2 ∨ h.cols.length < 2

/-- `v` is the significance of the records: NaN when their contingency table has fewer than two rows or
columns, otherwise the Z-value `significance_from_hist2d` gives for the table. -/
def IsSig {F : Type} (S : SigNum) (R : SimRun F) (method : String)
    (recs : List (Option Cell × Option Cell)) (v : Option EReal) : Prop :=
  ∃ h : Hist, IsTable recs h ∧ (Few h ∧ v = none ∨
    ¬ Few h ∧ ∃ p, sigFromHist2d S R h.values method = .ok (p, v))

/-- `t` is the significance matrix of a binned frame: rows and columns labelled with the columns in
order, symmetric, and the entry of the `k`-th pair of columns (a column may be paired with itself) is the
significance of their records, evaluated with the `k`-th set of simulations. -/
structure IsSigMatrix {F : Type} (S : SigNum) (R : ℕ → SimRun F) (method : String) (dropna du dof : Bool)
    (f : Frame) (t : LTab EReal) : Prop where
  rows : t.rows = f.names
  cols : t.cols = f.names
  symm : ∀ a ∈ f.names, ∀ b ∈ f.names, t.v a b = t.v b a
  entry : ∀ k a b, (cwr f.names)[k]? = some (a, b) → ∃ ca ∈ f.cols, ∃ cb ∈ f.cols,
    ca.name = a ∧ cb.name = b ∧ IsSig S (R k) method (records dropna du dof ca cb) (t.v a b)

/-- `ws` is the list of warnings about pairs with too few categories: one for each such pair, in order. -/
def SigWarnings (dropna du dof : Bool) (f : Frame) (ws : List Warning) : Prop :=
  ∃ shape : String × String → ℕ × ℕ,
    (∀ ca ∈ f.cols, ∀ cb ∈ f.cols, ∃ h, IsTable (records dropna du dof ca cb) h ∧
      shape (ca.name, cb.name) = (h.rows.length, h.cols.length)) ∧
    ws = ((cwr f.names).filter fun co => decide ((shape co).1 < 2 ∨ (shape co).2 < 2)).map
      fun co => Warning.tooFewSig co.1 (shape co).1 co.2 (shape co).2

end Phik.Spec
