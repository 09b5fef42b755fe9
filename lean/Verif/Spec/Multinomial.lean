import Verif.Model.Simulation
import Mathlib.MeasureTheory.Measure.MeasureSpace
import Mathlib.Data.Nat.Choose.Basic
import Mathlib.Topology.Instances.ENNReal.Lemmas

/-! # Specification of the distribution of the multinomial samplers -/

namespace Phik.Spec
open MeasureTheory Finset

/-- Probability of `k` successes in `n` independent trials of probability `p`. -/
noncomputable def binomProb (n k : ℕ) (p : ℝ) : ℝ := n.choose k * p ^ k * (1 - p) ^ (n - k)

/-- An ideal binomial generator: the answers to the requests `(i, j)` are independent binomial variables,
whatever numbers of trials and probabilities are asked for.  (`i` numbers the multinomial draws, `j` the categories.) -/
structure IdealBinom {ι Ω : Type} [MeasurableSpace Ω] (μ : Measure Ω) (B : Ω → ι → ℕ → ℕ → ℝ → ℕ) : Prop where
  measurable : ∀ i j n k p, 0 ≤ p ∧ p ≤ 1 → MeasurableSet {ω | B ω i j n p = k}
  law : ∀ (s : Finset (ι × ℕ)) (n k : ι × ℕ → ℕ) (p : ι × ℕ → ℝ), (∀ q ∈ s, 0 ≤ p q ∧ p q ≤ 1) →
    μ {ω | ∀ q ∈ s, B ω q.1 q.2 (n q) (p q) = k q} = ENNReal.ofReal (∏ q ∈ s, binomProb (n q) (k q) (p q))

/-- Probability that `n` independent records, each in cell `c` with probability `p c`, give the counts `X`: the
multinomial distribution. -/
noncomputable def multinomProb {ι : Type} [Fintype ι] (n : ℕ) (p : ι → ℝ) (X : ι → ℕ) : ℝ :=
  if ∑ c, X c = n then n.factorial / (∏ c, ((X c).factorial : ℝ)) * ∏ c, p c ^ X c else 0

/-- Probability of the sample `X` of the table `e`, for the three multinomial methods: of all records; of the records
of every row (the method is named after the columns, see C35); of the records of every column. -/
noncomputable def sampleProb (method : String) (e : Arr2 ℝ) (X : Fin e.r → Fin e.c → ℕ) : ℝ :=
  if method = "multinominal" then
    multinomProb ⌊∑ i, ∑ j, e.v i j⌋₊ (fun q : Fin e.r × Fin e.c => e.v q.1 q.2 / ∑ i, ∑ j, e.v i j) fun q => X q.1 q.2
  else if method = "col_product_multinominal" then
    ∏ i, multinomProb ⌊∑ j, e.v i j⌋₊ (fun j => e.v i j / ∑ k, e.v i k) (X i)
  else ∏ j, multinomProb ⌊∑ i, e.v i j⌋₊ (fun i => e.v i j / ∑ k, e.v k j) fun i => X i j

open scoped Classical in
/-- Probability that the statistic of a sample of the table `e` is `x`: the sum over all tables of counts with this
statistic. -/
noncomputable def statProb (method lambda : String) (e : Arr2 ℝ) (x : ℝ) : ENNReal :=
  ∑' X : Fin e.r → Fin e.c → ℕ,
    if getChi2 ⟨e.r, e.c, fun i j => (X i j : ℝ)⟩ lambda = .ok x then ENNReal.ofReal (sampleProb method e X) else 0

open scoped Classical in
/-- Probability that the statistic of a sample of the table `e` is in `C`. -/
noncomputable def statIn (method lambda : String) (e : Arr2 ℝ) (C : Set ℝ) : ENNReal :=
  ∑' X : Fin e.r → Fin e.c → ℕ,
    if ∃ x ∈ C, getChi2 ⟨e.r, e.c, fun i j => (X i j : ℝ)⟩ lambda = .ok x
    then ENNReal.ofReal (sampleProb method e X) else 0

end Phik.Spec
