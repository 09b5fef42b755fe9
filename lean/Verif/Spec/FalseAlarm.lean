import Mathlib.MeasureTheory.Measure.Map
import Mathlib.MeasureTheory.Constructions.BorelSpace.Real
import Mathlib.Logic.Equiv.Basic

/-! # Values none of which is special -/

namespace Phik.Spec

open MeasureTheory

/-- A law of `n + 1` values that does not depend on their order: the observed value (number 0) is not distinguished from the `n`
simulated ones.  This is what "no correlation" says about a Monte-Carlo test. -/
def Exchangeable {n : ℕ} (μ : Measure (Fin (n + 1) → ℝ)) : Prop :=
  ∀ σ : Equiv.Perm (Fin (n + 1)), μ.map (fun v => v ∘ σ) = μ

end Phik.Spec
