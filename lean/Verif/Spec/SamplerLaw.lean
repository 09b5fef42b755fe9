import Verif.Model.Rcont2
import Mathlib.Analysis.SpecialFunctions.Log.Basic
import Mathlib.Data.Nat.Factorial.Basic

/-!
# Specification of the distribution of the fixed-margin sampler

The sampler is run with exact real arithmetic and with a tape of numbers from (0, 1] in the place of the generator.
-/

namespace Phik.Spec
open Finset

/-- Exact arithmetic in the place of `double`. `toInt` is the truncation of a C++ cast. -/
noncomputable def exactOps : FloatOps ℝ where
  ofInt z := z
  add x y := x + y
  sub x y := x - y
  mul x y := x * y
  div x y := x / y
  exp := Real.exp
  log := Real.log
  zero := 0
  half := 1 / 2
  uni := 4656612875 / 10 ^ 19
  le x y := decide (x ≤ y)
  toInt x := if 0 ≤ x then ⌊x⌋ else ⌈x⌉

/-- A tape of random numbers as generator. -/
def tape : List ℝ → Except Err (ℝ × List ℝ)
  | [] => .error .fuel
  | u :: us => .ok (u, us)

/-- Probability of the table `X` among all tables with the given margins, when the records of one variable are shuffled at
random against those of the other: the product of the factorials of all totals, over the factorial of the number of records
and the factorials of all cells. -/
noncomputable def tableProb (nrowt ncolt : List ℤ) (X : ℕ → ℕ → ℤ) : ℝ :=
  ((nrowt.map fun v => (v.toNat.factorial : ℝ)).prod * (ncolt.map fun v => (v.toNat.factorial : ℝ)).prod) /
    (nrowt.sum.toNat.factorial *
      ∏ i ∈ range nrowt.length, ∏ j ∈ range ncolt.length, ((X i j).toNat.factorial : ℝ))

end Phik.Spec
