import Verif.Props.PowerDiv

/-! # Property C77: the statistics of Pearson, of the likelihood ratio and of Cressie and Read bound each other -/

namespace Phik.Props

open Spec

theorem statistic_centred {a : Arr2 ℝ} (h : IsCount a) (cell : ℝ → ℝ → ℝ) (k : ℝ) :
    statistic cell a = statistic (fun o e => cell o e - k * (o - e)) a := by
  unfold statistic
  split
  · rfl
  · have : ∀ i j, (if expect a i j = 0 then (0 : ℝ) else
        cell (if nRows a = 2 ∧ nCols a = 2 then corrected (a.v i j) (expect a i j) else a.v i j)
          (expect a i j)) =
        (if expect a i j = 0 then 0 else
        cell (if nRows a = 2 ∧ nCols a = 2 then corrected (a.v i j) (expect a i j) else a.v i j)
          (expect a i j) -
          k * ((if nRows a = 2 ∧ nCols a = 2 then corrected (a.v i j) (expect a i j) else a.v i j)
            - expect a i j)) +
        k * ((if expect a i j = 0 then 0 else
          (if nRows a = 2 ∧ nCols a = 2 then corrected (a.v i j) (expect a i j) else a.v i j))
            - expect a i j) := by
      intro i j
      split
      · next he => rw [he]; ring
      · ring
    rw [Finset.sum_congr rfl fun i _ => Finset.sum_congr rfl fun j _ => this i j]
    simp only [Finset.sum_add_distrib, ← Finset.mul_sum, Finset.sum_sub_distrib]
    rw [sum_expect h]
    have e : ∑ i, ∑ j, (if expect a i j = 0 then 0 else
          (if nRows a = 2 ∧ nCols a = 2 then corrected (a.v i j) (expect a i j) else a.v i j)) = a.total := by
      by_cases h2 : nRows a = 2 ∧ nCols a = 2
      · simp only [h2, and_self, if_true]; exact sum_corrected h h2
      · simp only [h2, if_false]
        refine Finset.sum_congr rfl fun i _ => Finset.sum_congr rfl fun j _ => ?_
        split
        · next he => exact (zero_of_expect_zero h he).symm
        · rfl
    rw [e]; ring

theorem statistic_mul (cell : ℝ → ℝ → ℝ) (a : Arr2 ℝ) (k : ℝ) : statistic (fun o e => k * cell o e) a = k * statistic cell a := by
  unfold statistic
  split
  · ring
  · simp only [Finset.mul_sum, mul_ite, mul_zero]

theorem statistic_le {a : Arr2 ℝ} (h : IsCount a) {f g : ℝ → ℝ → ℝ} (hfg : ∀ o e, 0 ≤ o → 0 < e → f o e ≤ g o e) :
    statistic f a ≤ statistic g a := by
  have he : ∀ i j, 0 ≤ expect a i j := fun i j =>
    div_nonneg (mul_nonneg (Finset.sum_nonneg fun _ _ => h.nonneg _ _) (Finset.sum_nonneg fun _ _ => h.nonneg _ _)) h.pos.le
  unfold statistic
  split
  · exact le_rfl
  · refine Finset.sum_le_sum fun i _ => Finset.sum_le_sum fun j _ => ?_
    split
    · exact le_rfl
    · next hz =>
      refine hfg _ _ ?_ (lt_of_le_of_ne (he i j) (Ne.symm hz))
      split
      · exact corrected_nonneg (h.nonneg i j) (he i j)
      · exact h.nonneg i j

theorem pow23_le {x : ℝ} (hx : 0 ≤ x) : x ^ (2 / 3 : ℝ) - 1 ≤ 2 / 3 * (x - 1) := by
  have := rpow_one_add_le_one_add_mul_self (s := x - 1) (by linarith) (p := 2 / 3) (by norm_num) (by norm_num)
  rw [show 1 + (x - 1) = x by ring] at this
  linarith

theorem log_le_pow23 {x : ℝ} (hx : 0 < x) : 2 / 3 * Real.log x ≤ x ^ (2 / 3 : ℝ) - 1 := by
  have := Real.log_le_sub_one_of_pos (Real.rpow_pos_of_pos hx (2 / 3))
  rwa [Real.log_rpow hx] at this

theorem pearson_split {o e : ℝ} (he : 0 < e) : o * (o / e - 1) = pearsonCell o e + (o - e) := by
  unfold pearsonCell
  field_simp
  ring

/-- **C77 (comparison).** For every table of counts: the statistic of Cressie and Read is at least 3/5 of the likelihood ratio and at
most 6/5 of Pearson's, and the likelihood ratio is at most twice Pearson's. -/
theorem statistics_compare {a : Arr2 ℝ} (h : IsCount a) :
    ∃ p g c, getChi2 a "pearson" = .ok p ∧ getChi2 a "log-likelihood" = .ok g ∧ getChi2 a "cressie-read" = .ok c ∧
      3 / 5 * g ≤ c ∧ c ≤ 6 / 5 * p ∧ g ≤ 2 * p := by
  refine ⟨_, _, _, (get_chi2_value h).1, (get_chi2_value h).2, get_chi2_cressie_read h, ?_, ?_, ?_⟩
  · rw [← statistic_mul]
    refine statistic_le h fun o e ho he => ?_
    unfold gCell cressieReadCell
    rcases ho.eq_or_lt with rfl | ho
    · simp
    · have := mul_le_mul_of_nonneg_left (log_le_pow23 (div_pos ho he)) ho.le
      linarith
  · rw [statistic_centred h cressieReadCell (6 / 5), ← statistic_mul]
    refine statistic_le h fun o e ho he => ?_
    unfold cressieReadCell
    have := mul_le_mul_of_nonneg_left (pow23_le (div_nonneg ho he.le)) ho
    have e2 := pearson_split (o := o) he
    linarith
  · rw [statistic_centred h gCell 2, ← statistic_mul]
    refine statistic_le h fun o e ho he => ?_
    unfold gCell
    rcases ho.eq_or_lt with rfl | ho
    · have e2 := pearson_split (o := 0) he
      simp at e2 ⊢
      linarith
    · have := mul_le_mul_of_nonneg_left (Real.log_le_sub_one_of_pos (div_pos ho he)) ho.le
      have e2 := pearson_split (o := o) he
      linarith

/-- Non-vacuity: a table with an empty cell. -/
example : ∃ p g c, getChi2 holeTable "pearson" = .ok p ∧ getChi2 holeTable "log-likelihood" = .ok g ∧
    getChi2 holeTable "cressie-read" = .ok c ∧ 3 / 5 * g ≤ c ∧ c ≤ 6 / 5 * p ∧ g ≤ 2 * p :=
  statistics_compare holeTable_isCount

end Phik.Props
