import Verif.Model.Outliers
import Verif.Spec.Betainc
import Verif.Spec.Matrix
import Mathlib.Probability.Distributions.Gamma
import Mathlib.Probability.Distributions.Poisson.Basic

/-! # Specifications for outlier significances -/

namespace Phik.Spec
open MeasureTheory ProbabilityTheory

/-- Probability of at least `n` counts when the count is Poisson distributed around an unknown mean, and
the mean has a gamma distribution with the given shape and rate. -/
noncomputable def gammaPoissonTail (n : ℕ) (shape rate : ℝ) : ℝ :=
  ∫ mean, (poissonMeasure mean.toNNReal).real {m | n ≤ m} ∂(gammaMeasure shape rate)

/-- The documented probability of at least `n` counts, for an expectation `e` with uncertainty `s`: without
uncertainty that of the Poisson distribution; otherwise Linnemann's, where the expectation comes from an
auxiliary measurement of `e tau` counts with `tau = e / s^2`, and an expectation of zero is replaced by its
uncertainty. -/
noncomputable def countTail (e s : ℝ) (n : ℕ) : ℝ :=
  if 0 < s then
    if 0 < e then gammaPoissonTail n (e * (e / s ^ 2) + 1) (e / s ^ 2)
    else gammaPoissonTail n (s * (s / s ^ 2) + 1) (s / s ^ 2)
  else (poissonMeasure e.toNNReal).real {m | n ≤ m}

/-- Number of the other records in row `i` ("B"). -/
def inRow (t : Arr2 ℕ) (i : Fin t.r) (j : Fin t.c) : ℕ := ∑ l ∈ Finset.univ.erase j, t.v i l

/-- Number of the other records in column `j` ("C"). -/
def inCol (t : Arr2 ℕ) (i : Fin t.r) (j : Fin t.c) : ℕ := ∑ k ∈ Finset.univ.erase i, t.v k j

/-- Number of records neither in row `i` nor in column `j` ("D"). -/
def elsewhere (t : Arr2 ℕ) (i : Fin t.r) (j : Fin t.c) : ℕ :=
  ∑ k ∈ Finset.univ.erase i, ∑ l ∈ Finset.univ.erase j, t.v k l

/-- The documented expectation. -/
noncomputable def abcd (B C D : ℝ) : ℝ := B * C / D

/-- Its uncertainty by linear error propagation, for uncertainties `u` on the three counts: every count
contributes its uncertainty times the derivative of the expectation. -/
noncomputable def abcdErr (u : ℝ → ℝ) (B C D : ℝ) : ℝ :=
  Real.sqrt ((u B * deriv (fun b => abcd b C D) B) ^ 2 + (u C * deriv (fun c => abcd B c D) C) ^ 2 +
    (u D * deriv (fun d => abcd B C d) D) ^ 2)

/-- What is assumed of scipy: probabilities in [0, 1] that do not increase with the count, in the domain of
the functions (they may underflow to 0 or be rounded to 1), exactly 0 for a Poisson distribution with mean 0; a strictly
increasing normal quantile function; an exponential function that may underflow.
(`trueOut_spec` shows that the true functions satisfy this.) -/
structure OutSpec (N : OutNum) : Prop where
  beta_range : ∀ (n : ℕ) b x, n ≠ 0 → 1 < b → 0 < x → x < 1 → 0 ≤ N.betainc n b x ∧ N.betainc n b x ≤ 1
  beta_anti : ∀ (n : ℕ) b x, n ≠ 0 → 1 < b → 0 < x → x < 1 → N.betainc ((n + 1 : ℕ) : ℝ) b x ≤ N.betainc n b x
  pois_range : ∀ k mu, 0 ≤ mu → 0 ≤ N.poisSf k mu ∧ N.poisSf k mu ≤ 1
  pois_anti : ∀ k mu, 0 ≤ mu → N.poisSf (k + 1) mu ≤ N.poisSf k mu
  pois_zero : ∀ k, N.poisSf k 0 = 0
  poisLog_zero : ∀ k, N.poisLogSf k 0 = some ⊥
  ppf_mono : StrictMonoOn N.ppf (Set.Icc 0 1)
  ppf_zero : N.ppf 0 = ⊥
  ppf_one : N.ppf 1 = ⊤
  ppf_half : N.ppf (1 / 2) = 0
  fexp_range : ∀ x, x ≤ 0 → 0 ≤ N.fexp x ∧ N.fexp x ≤ 1

/-! ### The categories of an outlier matrix -/

/-- A category of one variable: a value of a variable that is not binned; the values above `lo` and up to `hi`; or
one of the extra categories 'UF', 'OF', 'NaN' of a binned variable. -/
inductive Category
  | value (c : Cell)
  | interval (lo hi : ℚ)
  | special (s : String)

namespace Category

/-- The label of a category; `fmt` prints an edge. -/
def name (fmt : ℚ → String) : Category → Cell
  | value c => c
  | interval lo hi => .str (fmt lo ++ "_" ++ fmt hi)
  | special s => .str s

/-- The order of the categories on an axis: values ascending; intervals ascending, then the extra categories. -/
def Before : Category → Category → Prop
  | value c, value d => c < d
  | interval _ hi, interval lo _ => hi ≤ lo
  | interval _ _, special _ => True
  | special s, special s' => s < s'
  | _, _ => False

end Category

/-- The category an entry of the input belongs to, for a variable binned with the given edges (`none`: not binned);
`pf` reads a number from a text.  Entries that are to be left out belong to no category. -/
inductive Belongs (pf : String → Option (Option ℚ)) (dropna du dof : Bool) : Option (List ℚ) → Cell → Category → Prop
  | value {c v : Cell} (h : view dropna du dof c = some v) : Belongs pf dropna du dof none c (.value v)
  | interval {e : List ℚ} {c : Cell} {x : ℚ} {k : ℕ} (hx : toFloat pf c = .ok (some x)) (hk : k + 1 < e.length)
      (h1 : e[k] < x) (h2 : x ≤ e[k + 1]) : Belongs pf dropna du dof (some e) c (.interval e[k] e[k + 1])
  | under {e : List ℚ} {c : Cell} {x : ℚ} (hx : toFloat pf c = .ok (some x)) (he : e ≠ []) (h : x ≤ e.head he)
      (hd : du = false) : Belongs pf dropna du dof (some e) c (.special "UF")
  | over {e : List ℚ} {c : Cell} {x : ℚ} (hx : toFloat pf c = .ok (some x)) (he : e ≠ []) (h : e.getLast he < x)
      (hd : dof = false) : Belongs pf dropna du dof (some e) c (.special "OF")
  | missing {e : List ℚ} {c : Cell} (hx : toFloat pf c = .ok none) (hd : dropna = false) :
      Belongs pf dropna du dof (some e) c (.special "NaN")

/-- The edges used for a column: none if it is not one of the interval columns, otherwise those its entry of `bins`
asks for. -/
def EdgesFor (fl : ℚ → ℚ) (pf : String → Option (Option ℚ)) (quantile : Bool) (bins : Bins) (ic : List String)
    (c : Column) : Option (List ℚ) → Prop
  | none => c.name ∉ ic
  | some e => c.name ∈ ic ∧ ∃ arr s, c.cells.mapM (toFloat pf) = .ok arr ∧ EntryFor bins c.name s ∧
      Requested fl quantile arr s e

/-- A bin specification that gives edges in ascending order: such edges, or a number of bins (at most 2^48). -/
def SortedSpec : BinSpec → Prop
  | .edges l => l ≠ [] ∧ l.Pairwise (· ≤ ·)
  | .num q => 1 ≤ q ∧ q ≤ 2 ^ 48
  | .other => False

open scoped Classical in
/-- `n` counts the records of the columns `a` and `b` in the categories `ra`, `rb`, which are all that occur together
with a category of the other variable, in order. -/
structure Counts (pf : String → Option (Option ℚ)) (dropna du dof : Bool) (ea eb : Option (List ℚ)) (a b : Column)
    (ra rb : List Category) (n : Fin ra.length → Fin rb.length → ℕ) : Prop where
  rows_order : ra.Pairwise Category.Before
  cols_order : rb.Pairwise Category.Before
  rows_mem : ∀ c, c ∈ ra ↔ ∃ p ∈ a.cells.zip b.cells, Belongs pf dropna du dof ea p.1 c ∧
    ∃ d, Belongs pf dropna du dof eb p.2 d
  cols_mem : ∀ d, d ∈ rb ↔ ∃ p ∈ a.cells.zip b.cells, (∃ c, Belongs pf dropna du dof ea p.1 c) ∧
    Belongs pf dropna du dof eb p.2 d
  counts : ∀ i j, n i j = (a.cells.zip b.cells).countP fun p =>
    decide (Belongs pf dropna du dof ea p.1 ra[i] ∧ Belongs pf dropna du dof eb p.2 rb[j])

/-- `res` is the outlier significance matrix of a table with categories `ra`, `rb` and counts `n`: NaN if there are fewer
than two rows or columns; otherwise a matrix labelled with the names of the categories that contains the Z-values of
`outlier_significance_matrix_from_hist2d`, or the exception of that function. -/
def IsOutlierMatrix (N : OutNum) (fmt : ℚ → String) (ci : String) (ra rb : List Category)
    (n : Fin ra.length → Fin rb.length → ℕ) : Except Err (Option OutTab) → Prop
  | .ok none => ra.length < 2 ∨ rb.length < 2
  | .ok (some t) => 2 ≤ ra.length ∧ 2 ≤ rb.length ∧ t.rows = ra.map (Category.name fmt) ∧
      t.cols = rb.map (Category.name fmt) ∧
      ∃ z, outlierFromHist2d N ⟨ra.length, rb.length, n⟩ ci = .ok ⟨ra.length, rb.length, z⟩ ∧
        ∀ i j i' j', i'.val = i.val → j'.val = j.val → t.v i j = (z i' j').2
  | .error e => 2 ≤ ra.length ∧ 2 ≤ rb.length ∧ outlierFromHist2d N ⟨ra.length, rb.length, n⟩ ci = .error e

end Phik.Spec
