import Verif.Spec.Outliers
import Verif.Lemmas.BetaTail

/-! # Lemmas about outlier significances -/

namespace Phik.Out
open Phik.Spec Phik.BetaCF MeasureTheory ProbabilityTheory

theorem cells2_ok {α : Type} [Inhabited α] {r c : ℕ} {f : Fin r → Fin c → Except Err α} {g : Fin r → Fin c → α}
    (h : ∀ i j, f i j = .ok (g i j)) : cells2 r c f = .ok ⟨r, c, g⟩ := by
  unfold cells2
  split
  · rename_i e he
    obtain ⟨i, -, hi⟩ := List.exists_of_findSome?_eq_some he
    obtain ⟨j, -, hj⟩ := List.exists_of_findSome?_eq_some hi
    simp [h i j] at hj
  · simp [h]

theorem cells2_inv {α : Type} [Inhabited α] {r c : ℕ} {f : Fin r → Fin c → Except Err α} {t : Arr2 α}
    (h : cells2 r c f = .ok t) : ∃ g : Fin r → Fin c → α, t = ⟨r, c, g⟩ ∧ ∀ i j, f i j = .ok (g i j) := by
  have hf : ∀ i j, ∃ a, f i j = .ok a := by
    intro i j
    unfold cells2 at h
    split at h
    · cases h
    rename_i e
    rw [List.findSome?_eq_none_iff] at e
    have := e i (List.mem_finRange _)
    rw [List.findSome?_eq_none_iff] at this
    have := this j (List.mem_finRange _)
    cases h : f i j with
    | ok a => exact ⟨a, rfl⟩
    | error e => rw [h] at this; cases this
  choose g hg using hf
  refine ⟨g, ?_, hg⟩
  rw [cells2_ok hg] at h
  cases h; rfl

theorem cells2_error {α : Type} [Inhabited α] {r c : ℕ} {f : Fin r → Fin c → Except Err α} {e : Err}
    (h : cells2 r c f = .error e) : ∃ i j, f i j = .error e := by
  unfold cells2 at h
  split at h
  · rename_i e' he
    cases h
    obtain ⟨i, -, hi⟩ := List.exists_of_findSome?_eq_some he
    obtain ⟨j, -, hj⟩ := List.exists_of_findSome?_eq_some hi
    refine ⟨i, j, ?_⟩
    cases hf : f i j with
    | ok a => rw [hf] at hj; cases hj
    | error e => rw [hf] at hj; cases hj; rfl
  · cases h

/-- If all exceptions are the same one, it is raised when any cell raises. -/
theorem cells2_error_iff {α : Type} [Inhabited α] {r c : ℕ} {f : Fin r → Fin c → Except Err α} {e : Err}
    (hu : ∀ i j e', f i j = .error e' → e' = e) : cells2 r c f = .error e ↔ ∃ i j, f i j = .error e := by
  constructor
  · exact cells2_error
  · rintro ⟨i, j, h⟩
    cases hc : cells2 r c f with
    | ok t =>
      obtain ⟨g, -, hg⟩ := cells2_inv hc
      rw [hg] at h; cases h
    | error e' =>
      obtain ⟨k, l, hk⟩ := cells2_error hc
      rw [hu k l e' hk]

/-! ### The blocks of the table -/

theorem block_row (t : Arr2 ℕ) (i : Fin t.r) (j : Fin t.c) : t.rowSum i = t.v i j + inRow t i j := by
  unfold Arr2.rowSum inRow
  rw [Finset.add_sum_erase _ _ (Finset.mem_univ j)]

theorem block_col (t : Arr2 ℕ) (i : Fin t.r) (j : Fin t.c) : t.colSum j = t.v i j + inCol t i j := by
  unfold Arr2.colSum inCol
  rw [Finset.add_sum_erase _ (fun k => t.v k j) (Finset.mem_univ i)]

theorem block_total (t : Arr2 ℕ) (i : Fin t.r) (j : Fin t.c) :
    t.total = t.v i j + inRow t i j + inCol t i j + elsewhere t i j := by
  have h : ∀ k, ∑ l, t.v k l = t.v k j + ∑ l ∈ Finset.univ.erase j, t.v k l := fun k =>
    (Finset.add_sum_erase _ _ (Finset.mem_univ j)).symm
  unfold Arr2.total inRow inCol elsewhere
  rw [← Finset.add_sum_erase _ _ (Finset.mem_univ i), h i]
  simp only [h]
  rw [Finset.sum_add_distrib]
  ring

/-! ### Tails -/

theorem gammaPoissonTail_lt {s r : ℝ} (hs : 0 < s) (hr : 0 < r) (n : ℕ) :
    gammaPoissonTail (n + 1) s r < gammaPoissonTail n s r := by
  rw [gammaPoissonTail_eq hs hr, gammaPoissonTail_eq hs hr, Finset.sum_range_succ]
  have h1 := Real.Gamma_pos_of_pos hs
  have h2 := Real.Gamma_pos_of_pos (show 0 < s + n by positivity)
  have h3 : 0 < 1 - 1 / (1 + r) := by
    have : 1 - 1 / (1 + r) = r / (1 + r) := by field_simp; ring
    rw [this]; positivity
  have : 0 < Real.Gamma (s + n) / (Real.Gamma s * n.factorial) * (1 / (1 + r)) ^ n * (1 - 1 / (1 + r)) ^ s := by
    have := Real.rpow_pos_of_pos h3 s
    positivity
  linarith

theorem gammaPoissonTail_pos {s r : ℝ} (hs : 0 < s) (hr : 0 < r) (n : ℕ) : 0 < gammaPoissonTail n s r :=
  lt_of_le_of_lt (gammaPoissonTail_nonneg (n + 1) s r) (gammaPoissonTail_lt hs hr n)

theorem poissonTail_lt {mu : NNReal} (h : 0 < mu) (n : ℕ) :
    (poissonMeasure mu).real {m | n + 1 ≤ m} < (poissonMeasure mu).real {m | n ≤ m} := by
  rw [poisson_tail, poisson_tail, Finset.sum_range_succ]
  have h' : (0 : ℝ) < mu := h
  have : 0 < Real.exp (-mu) * (mu : ℝ) ^ n / n.factorial := by positivity
  linarith

theorem poissonTail_zero (mu : NNReal) : (poissonMeasure mu).real {m | 0 ≤ m} = 1 := by
  rw [poisson_tail]; simp

theorem poissonTail_mean_zero (n : ℕ) : (poissonMeasure 0).real {m | n + 1 ≤ m} = 0 := by
  rw [poisson_tail, Finset.sum_range_succ']
  simp

end Phik.Out
