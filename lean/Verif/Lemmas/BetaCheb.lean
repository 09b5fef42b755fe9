import Verif.Lemmas.BetaTail

/-! # Chebyshev's inequality for the incomplete beta function -/

namespace Phik.BetaCF
open Spec MeasureTheory Set

variable {a b x : ℝ}

theorem rpow_shift (a : ℝ) {t : ℝ} (ht : 0 < t) (k : ℕ) : t ^ (a + k - 1) = t ^ k * t ^ (a - 1) := by
  rw [← Real.rpow_natCast, ← Real.rpow_add ht]; congr 1; ring

theorem betaInt_moment (a b : ℝ) (k : ℕ) : ∫ t in (0 : ℝ)..1, t ^ k * (t ^ (a - 1) * (1 - t) ^ (b - 1)) = betaInt (a + k) b 1 := by
  unfold betaInt
  refine intervalIntegral.integral_congr_ae (Filter.Eventually.of_forall fun t ht => ?_)
  rw [uIoc_of_le zero_le_one] at ht
  rw [rpow_shift a ht.1, mul_assoc]

theorem moment_integrable (ha : 0 < a) (hb : 0 < b) (k : ℕ) :
    IntervalIntegrable (fun t : ℝ => t ^ k * (t ^ (a - 1) * (1 - t) ^ (b - 1))) volume 0 1 := by
  refine (betaInt_integrable_one (a := a + k) (b := b) (by positivity) hb).congr_ae ?_
  rw [uIoc_of_le zero_le_one]
  filter_upwards [ae_restrict_mem measurableSet_Ioc] with t ht
  rw [rpow_shift a ht.1, mul_assoc]

theorem betaInt_mean (ha : 0 < a) (hb : 0 < b) : betaInt (a + 1) b 1 = a / (a + b) * betaInt a b 1 := by
  have h := betaInt_rec ha hb zero_le_one le_rfl
  rw [sub_self, Real.zero_rpow hb.ne', mul_zero, zero_add] at h
  field_simp
  linarith

/-- The variance of the beta distribution. -/
theorem beta_variance (ha : 0 < a) (hb : 0 < b) :
    ∫ t in (0 : ℝ)..1, (a / (a + b) - t) ^ 2 * (t ^ (a - 1) * (1 - t) ^ (b - 1)) =
      a * b / ((a + b) ^ 2 * (a + b + 1)) * betaInt a b 1 := by
  have h0 := moment_integrable ha hb 0
  have h1 := moment_integrable ha hb 1
  have h2 := moment_integrable ha hb 2
  set m := a / (a + b) with hm
  have e : ∀ t : ℝ, (m - t) ^ 2 * (t ^ (a - 1) * (1 - t) ^ (b - 1)) = m ^ 2 * (t ^ 0 * (t ^ (a - 1) * (1 - t) ^ (b - 1))) -
      2 * m * (t ^ 1 * (t ^ (a - 1) * (1 - t) ^ (b - 1))) + t ^ 2 * (t ^ (a - 1) * (1 - t) ^ (b - 1)) := fun t => by ring
  simp_rw [e]
  rw [intervalIntegral.integral_add ((h0.const_mul _).sub (h1.const_mul _)) h2,
    intervalIntegral.integral_sub (h0.const_mul _) (h1.const_mul _), intervalIntegral.integral_const_mul,
    intervalIntegral.integral_const_mul, betaInt_moment, betaInt_moment, betaInt_moment]
  have e1 := betaInt_mean ha hb
  have e2 := betaInt_mean (a := a + 1) (b := b) (by linarith) hb
  have e3 : a + ((2 : ℕ) : ℝ) = a + 1 + 1 := by push_cast; ring
  rw [e3, e2]
  push_cast
  rw [e1, add_zero, hm]
  have : a + b ≠ 0 := by positivity
  have : a + 1 + b ≠ 0 := by positivity
  have : a + b + 1 ≠ 0 := by positivity
  field_simp
  ring

/-- The probability that a beta variable is below `x`, for `x` below the mean. -/
theorem regBeta_le (ha : 0 < a) (hb : 0 < b) (hx : 0 ≤ x) {d : ℝ} (hd : 0 < d) (hxm : x + d ≤ a / (a + b)) :
    regBeta a b x ≤ 1 / (4 * (a + b) * d ^ 2) := by
  have hm1 : a / (a + b) < 1 := by rw [div_lt_one (by linarith)]; linarith
  have hx1 : x ≤ 1 := by linarith
  have hB := betaInt_one_pos ha hb
  have hint := betaInt_integrable_one ha hb
  have hint2 : IntervalIntegrable (fun t : ℝ => (a / (a + b) - t) ^ 2 * (t ^ (a - 1) * (1 - t) ^ (b - 1))) volume 0 1 :=
    hint.continuousOn_mul (by fun_prop)
  have hsub : uIcc (0 : ℝ) x ⊆ uIcc 0 1 := by
    rw [uIcc_of_le hx, uIcc_of_le zero_le_one]; exact Icc_subset_Icc le_rfl hx1
  have h1 : d ^ 2 * betaInt a b x ≤ ∫ t in (0 : ℝ)..x, (a / (a + b) - t) ^ 2 * (t ^ (a - 1) * (1 - t) ^ (b - 1)) := by
    unfold betaInt
    rw [← intervalIntegral.integral_const_mul]
    refine intervalIntegral.integral_mono_on hx ((hint.mono_set hsub).const_mul _) (hint2.mono_set hsub) fun t ht => ?_
    refine mul_le_mul_of_nonneg_right ?_ (mul_nonneg (Real.rpow_nonneg ht.1 _) (Real.rpow_nonneg (by linarith [ht.2]) _))
    nlinarith [ht.2]
  have h2 : ∫ t in (0 : ℝ)..x, (a / (a + b) - t) ^ 2 * (t ^ (a - 1) * (1 - t) ^ (b - 1)) ≤
      ∫ t in (0 : ℝ)..1, (a / (a + b) - t) ^ 2 * (t ^ (a - 1) * (1 - t) ^ (b - 1)) := by
    refine intervalIntegral.integral_mono_interval le_rfl hx hx1 ?_ hint2
    filter_upwards [ae_restrict_mem measurableSet_Ioc] with t ht
    exact mul_nonneg (sq_nonneg _) (mul_nonneg (Real.rpow_nonneg ht.1.le _) (Real.rpow_nonneg (by linarith [ht.2]) _))
  rw [beta_variance ha hb] at h2
  unfold regBeta
  rw [div_le_iff₀ hB]
  have h3 : a * b / ((a + b) ^ 2 * (a + b + 1)) ≤ 1 / (4 * (a + b)) := by
    rw [div_le_div_iff₀ (by positivity) (by positivity)]
    have h4 : 4 * (a * b) ≤ (a + b) ^ 2 := by nlinarith [sq_nonneg (a - b)]
    have h5 : 0 < a + b := by linarith
    calc a * b * (4 * (a + b)) = 4 * (a * b) * (a + b) := by ring
      _ ≤ (a + b) ^ 2 * (a + b) := mul_le_mul_of_nonneg_right h4 h5.le
      _ ≤ (a + b) ^ 2 * (a + b + 1) := mul_le_mul_of_nonneg_left (by linarith) (sq_nonneg _)
      _ = 1 * ((a + b) ^ 2 * (a + b + 1)) := by ring
  have h4 : d ^ 2 * betaInt a b x ≤ 1 / (4 * (a + b)) * betaInt a b 1 :=
    (h1.trans h2).trans (mul_le_mul_of_nonneg_right h3 hB.le)
  have h5 : 0 < d ^ 2 := by positivity
  calc betaInt a b x = d ^ 2 * betaInt a b x / d ^ 2 := by field_simp
    _ ≤ 1 / (4 * (a + b)) * betaInt a b 1 / d ^ 2 := by gcongr
    _ = 1 / (4 * (a + b) * d ^ 2) * betaInt a b 1 := by field_simp

/-- The probability that a beta variable is below `x`, for `x` above the mean. -/
theorem regBeta_ge (ha : 0 < a) (hb : 0 < b) (hx1 : x ≤ 1) {d : ℝ} (hd : 0 < d) (hxm : a / (a + b) + d ≤ x) :
    1 - 1 / (4 * (a + b) * d ^ 2) ≤ regBeta a b x := by
  have hm : 0 < a / (a + b) := by positivity
  have h := regBeta_le hb ha (x := 1 - x) (by linarith) hd (by
    have : b / (b + a) = 1 - a / (a + b) := by rw [add_comm b a]; field_simp; ring
    rw [this]; linarith)
  have h2 := betaInt_reflect ha hb (x := x) (by linarith) hx1
  have hB := betaInt_one_pos ha hb
  have hB' := betaInt_one_pos hb ha
  have hBB : betaInt b a 1 = betaInt a b 1 := by
    have := betaInt_reflect ha hb (x := 0) le_rfl zero_le_one
    rw [sub_zero] at this
    have h0 : betaInt a b 0 = 0 := by unfold betaInt; simp
    linarith
  have h3 : regBeta a b x = 1 - regBeta b a (1 - x) := by
    unfold regBeta
    rw [hBB]
    field_simp
    linarith
  rw [h3]
  have : 1 / (4 * (b + a) * d ^ 2) = 1 / (4 * (a + b) * d ^ 2) := by rw [add_comm b a]
  linarith

end Phik.BetaCF
