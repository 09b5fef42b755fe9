import Verif.Model.Bivariate
import Verif.Spec.Stats
import Mathlib.Topology.Order.Basic
import Mathlib.Topology.Instances.Real.Lemmas

/-! # Contracts of the numerical libraries, and specifications for phik -/

namespace Phik.Spec

/-- What is assumed of the integrals over rectangles of the bivariate normal density: point symmetry,
symmetry under exchange of the two variables, continuity in the correlation, positivity on proper
rectangles for correlation 0, and no mass off the diagonal for correlation 1.  (`gaussian_mvn_spec` shows that the true integrals satisfy this.) -/
structure MvnSpec (mvn : ℝ → Rect → ℝ) : Prop where
  symm : ∀ rho (a b c d : ℝ), mvn rho ((-c, -d), (-a, -b)) = mvn rho ((a, b), (c, d))
  swap : ∀ rho (a b c d : ℝ), mvn rho ((b, a), (d, c)) = mvn rho ((a, b), (c, d))
  cont : ∀ R, ContinuousOn (fun rho => mvn rho R) (Set.Icc 0 1)
  pos : ∀ a b c d : ℝ, a < c → b < d → 0 < mvn 0 ((a, b), (c, d))
  diag : ∀ a b c d : ℝ, a < c → b < d → c ≤ b → mvn 1 ((a, b), (c, d)) = 0

/-- What is assumed of `optimize.brentq(f, a, b, xtol=xtol)` with the default `rtol` (four times machine
epsilon): for a continuous function with opposite signs at the ends it returns a point of the interval
that agrees with a root up to the tolerance; for equal non-zero signs it raises ValueError. -/
structure BrentqSpec (brentq : (ℝ → ℝ) → ℝ → ℝ → ℝ → Except Err ℝ) : Prop where
  root : ∀ (f : ℝ → ℝ) (a b xtol : ℝ), a ≤ b → 0 < xtol → ContinuousOn f (Set.Icc a b) →
    f a < 0 → 0 < f b →
    ∃ x, brentq f a b xtol = .ok x ∧ x ∈ Set.Icc a b ∧
      ∃ x₀ ∈ Set.Icc a b, f x₀ = 0 ∧ |x - x₀| ≤ xtol + 4 * 2 ^ (-52 : ℤ) * |x₀|
  inside : ∀ (f : ℝ → ℝ) (a b xtol x : ℝ), a ≤ b → brentq f a b xtol = .ok x → x ∈ Set.Icc a b
  signs : ∀ (f : ℝ → ℝ) (a b xtol : ℝ), 0 < f a * f b → brentq f a b xtol = .error .value

/-- All cells of the grid with the given edges. -/
def gridCells (sx sy : List ℝ) : List Rect :=
  (List.range (sx.length - 1)).flatMap fun i => (List.range (sy.length - 1)).map fun j =>
    ((sx.getD i 0, sy.getD j 0), (sx.getD (i + 1) 0, sy.getD (j + 1) 0))

/-- Edges symmetric around zero. -/
def SymmetricEdges (s : List ℝ) : Prop := s.reverse = s.map fun x => -x

/-- `n` equal bins on [-5, 5]. -/
noncomputable def uniformEdges (n : ℕ) : List ℝ := (List.range (n + 1)).map fun i : ℕ => -5 + 10 * (i : ℝ) / n

/-- Squared distance of the binned normal distribution with correlation `rho` from the one without
correlation, relative to the latter, on an `r` by `c` grid. -/
noncomputable def distance (mvn : ℝ → Rect → ℝ) (r c : ℕ) (rho : ℝ) : ℝ :=
  ((gridCells (uniformEdges r) (uniformEdges c)).map fun R => (mvn rho R - mvn 0 R) ^ 2 / mvn 0 R).sum

/-- The theoretical chi2 of correlation `rho` for `n` records on an `r` by `c` grid with a noise
pedestal: a curve from the pedestal at 0 to the maximum `n min(r-1, c-1)` at 1. -/
noncomputable def theoryChi2 (mvn : ℝ → Rect → ℝ) (r c : ℕ) (n pedestal rho : ℝ) : ℝ :=
  pedestal + (n * (min (r - 1) (c - 1) : ℕ) - pedestal) * (distance mvn r c rho / distance mvn r c 1)

/-- The value of the first variable determines the value of the second. -/
def Determines (a : Arr2 ℝ) : Prop := ∀ i j j', a.v i j ≠ 0 → a.v i j' ≠ 0 → j = j'

/-- A table of integer counts without empty rows and columns: what the library builds from data. -/
structure DataTable (a : Arr2 ℝ) : Prop where
  counts : ∀ i j, ∃ k : ℕ, a.v i j = k
  rows : ∀ i, FullRow a i
  cols : ∀ j, FullCol a j

end Phik.Spec
