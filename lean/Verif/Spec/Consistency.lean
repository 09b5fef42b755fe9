import Verif.Spec.Binning
import Verif.Spec.Bivariate
import Verif.Spec.PhikShape
import Verif.Spec.Matrix
import Verif.Spec.Significance
import Mathlib.MeasureTheory.Measure.Typeclasses.Probability

/-! # Specifications: what phik of a sample estimates -/

namespace Phik.Spec

open MeasureTheory

/-- A joint distribution of two variables with `r` and `c` values, all of which occur. -/
structure IsJoint {r c : ℕ} (p : Fin r → Fin c → ℝ) : Prop where
  nonneg : ∀ i j, 0 ≤ p i j
  total : ∑ i, ∑ j, p i j = 1
  rows : ∀ i, 0 < ∑ j, p i j
  cols : ∀ j, 0 < ∑ i, p i j

/-- The two variables are independent. -/
def IndepJoint {r c : ℕ} (p : Fin r → Fin c → ℝ) : Prop :=
  ∀ i j, p i j = (∑ j', p i j') * ∑ i', p i' j

/-- Pearson's mean square contingency of the distribution. -/
noncomputable def phi2 {r c : ℕ} (p : Fin r → Fin c → ℝ) : ℝ :=
  ∑ i, ∑ j, (p i j - (∑ j', p i j') * ∑ i', p i' j) ^ 2 / ((∑ j', p i j') * ∑ i', p i' j)

/-- The mutual information of the two variables. -/
noncomputable def mutualInfo {r c : ℕ} (p : Fin r → Fin c → ℝ) : ℝ :=
  ∑ i, ∑ j, p i j * Real.log (p i j / ((∑ j', p i j') * ∑ i', p i' j))

/-- `rho` is phik of the distribution: the distance of the binned normal distribution with correlation `rho` from independence is
the same part of its largest value as the mean square contingency is of its largest value. -/
def IsPhikOfLaw (mvn : ℝ → Rect → ℝ) {r c : ℕ} (p : Fin r → Fin c → ℝ) (rho : ℝ) : Prop :=
  0 ≤ rho ∧ rho ≤ 1 ∧ distance mvn r c rho / distance mvn r c 1 = phi2 p / (min (r - 1) (c - 1) : ℕ)

/-- Tables of counts that approach the distribution: ever more records, with proportions tending to the probabilities. -/
structure Approaches {r c : ℕ} (T : ℕ → Fin r → Fin c → ℕ) (p : Fin r → Fin c → ℝ) : Prop where
  grows : Filter.Tendsto (fun n => ∑ i, ∑ j, T n i j) Filter.atTop Filter.atTop
  props : ∀ i j, Filter.Tendsto (fun n => (T n i j : ℝ) / ∑ i', ∑ j', (T n i' j' : ℝ)) Filter.atTop (nhds (p i j))

/-- Independent draws from a distribution on a set of possible records. -/
structure IIDRecords {Ω α : Type} [MeasurableSpace Ω] (μ : Measure Ω) (R : ℕ → Ω → α) (law : α → ℝ) : Prop where
  prob : IsProbabilityMeasure μ
  nonneg : ∀ z, 0 ≤ law z
  meas : ∀ k z, MeasurableSet {ω | R k ω = z}
  dist : ∀ k z, μ {ω | R k ω = z} = ENNReal.ofReal (law z)
  indep : ∀ k l, k ≠ l → ∀ z z', μ {ω | R k ω = z ∧ R l ω = z'} = ENNReal.ofReal (law z * law z')

/-- Independent draws from a distribution, any finite number of which are independent. -/
structure IndepRecords {Ω α : Type} [MeasurableSpace Ω] (μ : Measure Ω) (R : ℕ → Ω → α) (law : α → ℝ) : Prop where
  prob : IsProbabilityMeasure μ
  nonneg : ∀ z, 0 ≤ law z
  meas : ∀ k z, MeasurableSet {ω | R k ω = z}
  joint : ∀ (s : Finset ℕ) (z : ℕ → α), μ {ω | ∀ k ∈ s, R k ω = z k} = ∏ k ∈ s, ENNReal.ofReal (law (z k))

/-- The distribution of the complete records is `p`, for the given names of the values: records where neither entry is
missing have probability `q`, and then the `i`-th and `j`-th value with probability `p i j`. -/
structure CompleteLaw {α β : Type} {r c : ℕ} (law : Option α × Option β → ℝ) (q : ℝ) (p : Fin r → Fin c → ℝ)
    (u : Fin r → α) (v : Fin c → β) : Prop where
  pos : 0 < q
  u_inj : Function.Injective u
  v_inj : Function.Injective v
  value : ∀ i j, law (some (u i), some (v j)) = q * p i j
  other : ∀ a b, law (some a, some b) ≠ 0 → a ∈ Set.range u ∧ b ∈ Set.range v

/-- What binning with sorted edges makes of an entry of a column: the number of edges below the value, `"UF"` for a value that is not
above any edge, `"OF"` for a value above all edges. -/
def binLabel (e : List ℚ) : Cell → Cell
  | .num q =>
    if ∀ x ∈ e, q ≤ x then .str "UF"
    else if ∀ x ∈ e, x < q then .str "OF"
    else .num (e.countP (· < q) : ℕ)
  | c => c

/-- The numbers of a column, `none` for the other entries. -/
def numberList (c : Column) : List (Option ℚ) :=
  c.cells.map fun x => match x with
    | .num q => some q
    | _ => none

/-- How `phik_matrix` prepares the entries of a column: if it is one of the columns to bin, with the given edges or with the edges computed from its
numbers; otherwise the entries are left as they are. -/
def PreparedBy (fl : ℚ → ℚ) (quantile : Bool) (ic : List String) (bins : Bins) (c : Column) (g : Cell → Cell) : Prop :=
  (c.name ∈ ic → ∃ (s : BinSpec) (e : List ℚ), EntryFor bins c.name s ∧ Requested fl quantile (numberList c) s e ∧ e.Pairwise (· ≤ ·) ∧
    g = binLabel e) ∧
  (c.name ∉ ic → g = id)

open scoped Classical in
/-- The distribution of what `φ` makes of a record, for records that are in `S`. -/
noncomputable def pushLaw {α β : Type} (S : Finset α) (raw : α → ℝ) (φ : α → β) (z : β) : ℝ := ∑ x ∈ S with φ x = z, raw x

/-- `lo` and `hi` are the smallest and the largest number that a variable of the records takes with positive probability. -/
structure HasRange {α : Type} (raw : α → ℝ) (var : α → Cell) (lo hi : ℚ) : Prop where
  low : ∃ x, raw x ≠ 0 ∧ var x = .num lo
  high : ∃ x, raw x ≠ 0 ∧ var x = .num hi
  within : ∀ x y, raw x ≠ 0 → var x = .num y → lo ≤ y ∧ y ≤ hi

/-- The tails of the chi2 distributions vanish, as far as the functions can tell, and the quantiles of the normal distribution have no lower bound. -/
structure TailsVanish (S : SigNum) : Prop where
  chi2 : ∀ k, 0 < k → ∀ ε, 0 < ε → ∃ x p, S.chi2sf x k = some p ∧ p < ε
  ppf : ∀ z : ℝ, ∃ p, 0 < p ∧ p ≤ 1 ∧ S.ppf p < ((-z : ℝ) : EReal)

end Phik.Spec
