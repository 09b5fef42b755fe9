import Verif.Model.Outliers

/-! # Specification for property C100: tables with added records -/

namespace Phik.Spec

variable {r c : ℕ}

/-- The second table has more records in row `i`, but not in column `j`; nothing else differs. -/
def AddedInRow (i : Fin r) (j : Fin c) (t t' : Fin r → Fin c → ℕ) : Prop :=
  (∀ k l, ¬ (k = i ∧ l ≠ j) → t' k l = t k l) ∧ (∀ l, t i l ≤ t' i l) ∧ t' ≠ t

/-- The second table has more records in column `j`, but not in row `i`; nothing else differs. -/
def AddedInCol (i : Fin r) (j : Fin c) (t t' : Fin r → Fin c → ℕ) : Prop :=
  (∀ k l, ¬ (k ≠ i ∧ l = j) → t' k l = t k l) ∧ (∀ k, t k j ≤ t' k j) ∧ t' ≠ t

/-- The second table has more records in the cell; nothing else differs. -/
def AddedInCell (i : Fin r) (j : Fin c) (t t' : Fin r → Fin c → ℕ) : Prop :=
  (∀ k l, ¬ (k = i ∧ l = j) → t' k l = t k l) ∧ t i j < t' i j

/-- The second table has more records outside row `i` and column `j`; nothing else differs. -/
def AddedElsewhere (i : Fin r) (j : Fin c) (t t' : Fin r → Fin c → ℕ) : Prop :=
  (∀ k l, ¬ (k ≠ i ∧ l ≠ j) → t' k l = t k l) ∧ (∀ k l, t k l ≤ t' k l) ∧ t' ≠ t

end Phik.Spec
