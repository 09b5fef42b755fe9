import Verif.Spec.Stats
import Verif.Spec.Binning

/-! # Tables and records with coarser categories -/

namespace Phik.Spec

/-- `b` is the table `a` with categories taken together: row `i` of `a` belongs to row `ρ i` of `b`, column `j` to column
`σ j`, and every entry of `b` is the sum of the entries of `a` that belong to it. -/
def MergedBy (a b : Arr2 ℝ) (ρ : Fin a.r → Fin b.r) (σ : Fin a.c → Fin b.c) : Prop :=
  ∀ k l, b.v k l = ∑ i, ∑ j, if ρ i = k ∧ σ j = l then a.v i j else 0

def Merged (a b : Arr2 ℝ) : Prop := ∃ ρ σ, MergedBy a b ρ σ

/-- Within the categories taken together nothing is lost: a cell has the same share of the coarser cell as expected. -/
def Proportional (a b : Arr2 ℝ) (ρ : Fin a.r → Fin b.r) (σ : Fin a.c → Fin b.c) : Prop :=
  ∀ i j, a.v i j * expect b (ρ i) (σ j) = b.v (ρ i) (σ j) * expect a i j

/-- `g` takes categories of a column together: missing values stay missing, and the three strings the library uses as markers
are neither old nor new categories. -/
structure Coarsens (g : Cell → Cell) (cells : List Cell) : Prop where
  nan : ∀ a ∈ cells, (g a = .nan ↔ a = .nan)
  old : ∀ a ∈ cells, a ≠ .str "UF" ∧ a ≠ .str "OF" ∧ a ≠ .str "NaN"
  new : ∀ a ∈ cells, g a ≠ .str "UF" ∧ g a ≠ .str "OF" ∧ g a ≠ .str "NaN"

/-- `e'` are the sorted edges `e` with some inner edges left out. -/
structure CoarserEdges (e e' : List ℚ) : Prop where
  sorted : e.Pairwise (· ≤ ·)
  sub : e'.Sublist e
  first : e'.head? = e.head?
  last : e'.getLast? = e.getLast?

end Phik.Spec
