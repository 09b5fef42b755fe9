import Verif.Model.Simulation
import Verif.Spec.Matrix

/-! # Specifications of the simulated data sets -/

namespace Phik.Spec

/-- What the random number generators can return: a binomial variable with `n` trials is at most `n`, is
0 for probability 0 and `n` for probability 1; the random seed is below `2^31 - 2`. -/
structure GoodDraws {F : Type} (d : Draws F) : Prop where
  le : ∀ i j n p, d.binom i j n p ≤ n
  zero : ∀ i j n, d.binom i j n 0 = 0
  one : ∀ i j n, d.binom i j n 1 = n
  seed_nonneg : 0 ≤ d.seed
  seed_lt : d.seed < 2147483646

/-- The sample has no negative entry, and no record in a cell of probability zero. -/
def Supported (a : Arr2 ℝ) (v : Fin a.r → Fin a.c → ℤ) : Prop :=
  ∀ i j, 0 ≤ v i j ∧ (a.v i j = 0 → v i j = 0)

/-- Every row (column) sum is a whole number of records, at least one. -/
def WholeRows (a : Arr2 ℝ) : Prop := ∀ i, ∃ k : ℕ, 0 < k ∧ ∑ j, a.v i j = k
def WholeCols (a : Arr2 ℝ) : Prop := ∀ j, ∃ k : ℕ, 0 < k ∧ ∑ i, a.v i j = k

end Phik.Spec
