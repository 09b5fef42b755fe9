import Verif.Spec.Bivariate
import Verif.Model.Frame

/-! # Specifications: how phik depends on the table -/

namespace Phik.Spec

/-- Every count multiplied by `k`: the table of the data with every record repeated `k` times. -/
def repeated (k : ℝ) (a : Arr2 ℝ) : Arr2 ℝ := ⟨a.r, a.c, fun i j => k * a.v i j⟩

/-- A root finder whose answer does not depend on the unit of the function values.  (Bisection, secant steps and
inverse quadratic interpolation only use signs and quotients of values.) -/
def ScaleFree (brentq : (ℝ → ℝ) → ℝ → ℝ → ℝ → Except Err ℝ) : Prop :=
  ∀ (f : ℝ → ℝ) (a b xtol k : ℝ), 0 < k → brentq (fun x => k * f x) a b xtol = brentq f a b xtol

/-- The tolerance asked of the root finder, with its relative part. -/
noncomputable def rootTol : ℝ := 1 / 10 ^ 5 + 4 * 2 ^ (-52 : ℤ)

/-- The list `k` times over. -/
def rep {α : Type} (k : ℕ) (l : List α) : List α := (List.replicate k l).flatten

/-- The frame with all its records `k` times over. -/
def repeatedFrame (k : ℕ) (f : Frame) : Frame := ⟨k * f.nrows, f.cols.map fun c => { c with cells := rep k c.cells }⟩

end Phik.Spec
