import Verif.Spec.Betainc
import Verif.Lemmas.BetaHyp
import Mathlib.Analysis.SpecialFunctions.Gamma.Beta
import Mathlib.Analysis.SpecialFunctions.Integrals.Basic
import Mathlib.Probability.Distributions.Beta

/-! # The incomplete beta integral -/

namespace Phik.BetaCF
open Phik.Spec MeasureTheory Set Filter Topology intervalIntegral

variable {a b x : ℝ}

theorem cpow_eq {t : ℝ} (h0 : 0 ≤ t) (h1 : t ≤ 1) (a b : ℝ) :
    (t : ℂ) ^ ((a : ℂ) - 1) * (1 - (t : ℂ)) ^ ((b : ℂ) - 1) = ((t ^ (a - 1) * (1 - t) ^ (b - 1) : ℝ) : ℂ) := by
  rw [Complex.ofReal_mul, Complex.ofReal_cpow h0, Complex.ofReal_cpow (by linarith)]
  push_cast
  rfl

theorem betaInt_integrable_one (ha : 0 < a) (hb : 0 < b) :
    IntervalIntegrable (fun t : ℝ => t ^ (a - 1) * (1 - t) ^ (b - 1)) volume 0 1 := by
  have h := Complex.betaIntegral_convergent (u := a) (v := b) (by simpa) (by simpa)
  have h2 : IntervalIntegrable (fun t : ℝ => ((t ^ (a - 1) * (1 - t) ^ (b - 1) : ℝ) : ℂ)) volume 0 1 := by
    refine h.congr ?_
    intro t ht
    rw [uIoc_of_le zero_le_one] at ht
    exact cpow_eq ht.1.le ht.2 a b
  rw [intervalIntegrable_iff] at h2 ⊢
  exact h2.re

theorem betaInt_one (ha : 0 < a) (hb : 0 < b) :
    betaInt a b 1 = Real.Gamma a * Real.Gamma b / Real.Gamma (a + b) := by
  have h := ProbabilityTheory.beta_eq_betaIntegralReal a b ha hb
  rw [ProbabilityTheory.beta] at h
  rw [h, Complex.betaIntegral, betaInt]
  have e : (∫ t in (0 : ℝ)..1, (t : ℂ) ^ ((a : ℂ) - 1) * (1 - (t : ℂ)) ^ ((b : ℂ) - 1)) =
      ∫ t in (0 : ℝ)..1, ((t ^ (a - 1) * (1 - t) ^ (b - 1) : ℝ) : ℂ) := by
    refine integral_congr ?_
    intro t ht
    rw [uIcc_of_le zero_le_one] at ht
    exact cpow_eq ht.1 ht.2 a b
  rw [e, intervalIntegral.integral_ofReal, Complex.ofReal_re]

theorem betaInt_integrable (ha : 0 < a) (hb : 0 < b) {u v : ℝ} (hu : 0 ≤ u) (hu1 : u ≤ 1) (hv : 0 ≤ v) (hv1 : v ≤ 1) :
    IntervalIntegrable (fun t : ℝ => t ^ (a - 1) * (1 - t) ^ (b - 1)) volume u v := by
  refine (betaInt_integrable_one ha hb).mono_set ?_
  rw [uIcc_of_le zero_le_one]
  intro t ht
  rcases le_total u v with h | h
  · rw [uIcc_of_le h] at ht; exact ⟨by linarith [ht.1], by linarith [ht.2]⟩
  · rw [uIcc_of_ge h] at ht; exact ⟨by linarith [ht.1], by linarith [ht.2]⟩

theorem betaInt_nonneg (hx : 0 ≤ x) (hx1 : x ≤ 1) : 0 ≤ betaInt a b x :=
  intervalIntegral.integral_nonneg hx fun t ht =>
    mul_nonneg (Real.rpow_nonneg ht.1 _) (Real.rpow_nonneg (by linarith [ht.2]) _)

theorem betaInt_one_pos (ha : 0 < a) (hb : 0 < b) : 0 < betaInt a b 1 := by
  rw [betaInt_one ha hb]
  have := Real.Gamma_pos_of_pos ha; have := Real.Gamma_pos_of_pos hb
  have := Real.Gamma_pos_of_pos (add_pos ha hb)
  positivity

/-- Reflection. -/
theorem betaInt_reflect (ha : 0 < a) (hb : 0 < b) (hx : 0 ≤ x) (hx1 : x ≤ 1) :
    betaInt a b x + betaInt b a (1 - x) = betaInt a b 1 := by
  have e : betaInt b a (1 - x) = ∫ t in x..1, t ^ (a - 1) * (1 - t) ^ (b - 1) := by
    unfold betaInt
    have := intervalIntegral.integral_comp_sub_left (a := x) (b := 1)
      (fun t : ℝ => t ^ (b - 1) * (1 - t) ^ (a - 1)) 1
    rw [sub_self] at this
    rw [← this]
    congr 1
    ext t
    rw [sub_sub_cancel, mul_comm]
  rw [e]
  exact intervalIntegral.integral_add_adjacent_intervals
    (betaInt_integrable ha hb le_rfl zero_le_one hx hx1) (betaInt_integrable ha hb hx hx1 zero_le_one le_rfl)

/-- Integration by parts. -/
theorem betaInt_rec (ha : 0 < a) (hb : 0 < b) (hx : 0 ≤ x) (hx1 : x ≤ 1) :
    a * betaInt a b x = x ^ a * (1 - x) ^ b + (a + b) * betaInt (a + 1) b x := by
  have hd : ∀ t ∈ Ioo 0 x, HasDerivAt (fun t : ℝ => t ^ a * (1 - t) ^ b)
      (a * (t ^ (a - 1) * (1 - t) ^ (b - 1)) - (a + b) * (t ^ (a + 1 - 1) * (1 - t) ^ (b - 1))) t := by
    intro t ht
    have h1 : t ≠ 0 := ht.1.ne'
    have h2 : 0 < 1 - t := by linarith [ht.2]
    have d1 := Real.hasDerivAt_rpow_const (x := t) (p := a) (Or.inl h1)
    have d2 : HasDerivAt (fun t : ℝ => (1 - t) ^ b) (-1 * b * (1 - t) ^ (b - 1)) t :=
      (((hasDerivAt_id t).const_sub 1).rpow_const (p := b) (Or.inl h2.ne'))
    refine (d1.mul d2).congr_deriv ?_
    have e1 : t ^ a = t ^ (a - 1) * t := by
      rw [← Real.rpow_add_one h1]; ring_nf
    have e2 : (1 - t) ^ b = (1 - t) ^ (b - 1) * (1 - t) := by
      rw [← Real.rpow_add_one h2.ne']; ring_nf
    rw [add_sub_cancel_right, e2, e1]
    ring
  have hc : ContinuousOn (fun t : ℝ => t ^ a * (1 - t) ^ b) (Icc 0 x) := by
    refine ContinuousOn.mul ?_ ?_
    · exact (Real.continuous_rpow_const ha.le).continuousOn
    · exact ((Real.continuous_rpow_const hb.le).comp (continuous_const.sub continuous_id)).continuousOn
  have i1 := (betaInt_integrable ha hb le_rfl zero_le_one hx hx1).const_mul a
  have i2 := (betaInt_integrable (add_pos ha zero_lt_one) hb le_rfl zero_le_one hx hx1).const_mul (a + b)
  have h := intervalIntegral.integral_eq_sub_of_hasDerivAt_of_le hx hc hd (i1.sub i2)
  rw [intervalIntegral.integral_sub i1 i2, intervalIntegral.integral_const_mul,
    intervalIntegral.integral_const_mul, Real.zero_rpow ha.ne', zero_mul, sub_zero] at h
  unfold betaInt
  linarith

theorem betaInt_mono_param (ha : 0 < a) (hb : 0 < b) (hx : 0 ≤ x) (hx1 : x ≤ 1) :
    betaInt (a + 1) b x ≤ x * betaInt a b x := by
  unfold betaInt
  rw [← intervalIntegral.integral_const_mul]
  refine intervalIntegral.integral_mono_on hx (betaInt_integrable (by linarith) hb le_rfl zero_le_one hx hx1)
    ((betaInt_integrable ha hb le_rfl zero_le_one hx hx1).const_mul x) ?_
  intro t ht
  have h2 : 0 ≤ (1 - t) ^ (b - 1) := Real.rpow_nonneg (by linarith [ht.2]) _
  rw [add_sub_cancel_right, ← mul_assoc]
  refine mul_le_mul_of_nonneg_right ?_ h2
  rcases eq_or_lt_of_le ht.1 with h | h
  · rw [← h, Real.zero_rpow ha.ne']
    exact mul_nonneg hx (Real.rpow_nonneg le_rfl _)
  · have e1 : t ^ a = t ^ (a - 1) * t := by
      rw [← Real.rpow_add_one h.ne']; ring_nf
    rw [e1, mul_comm x]
    exact mul_le_mul_of_nonneg_left ht.2 (Real.rpow_nonneg ht.1 _)

theorem hc_one {α γ : ℝ} (k : ℕ) : hc α 1 γ k = poch α k / poch γ k := by
  unfold hc
  rw [mul_div_mul_right _ _ (poch_pos one_pos k).ne']

theorem betaInt_partial (ha : 0 < a) (hb : 0 < b) (hx : 0 < x) (hx1 : x ≤ 1) (n : ℕ) :
    a * betaInt a b x = x ^ a * (1 - x) ^ b * ∑ k ∈ Finset.range n, hc (a + b) 1 (a + 1) k * x ^ k +
      a * (hc (a + b) 1 a n * betaInt (a + n) b x) := by
  induction n with
  | zero => simp [hc_zero]
  | succ n ih =>
    have hn : (0 : ℝ) ≤ n := Nat.cast_nonneg n
    have han : 0 < a + n := by linarith
    have hr := betaInt_rec (a := a + n) (b := b) han hb hx.le hx1
    have e : a + ((n + 1 : ℕ) : ℝ) = a + n + 1 := by push_cast; ring
    rw [ih, Finset.sum_range_succ, e, hc_one, hc_one, hc_one, poch_succ, poch_succ]
    have hp := (poch_pos ha n).ne'
    have hq := (poch_pos (add_pos ha one_pos) n).ne'
    have ep : poch a n * (a + n) = a * poch (a + 1) n := by rw [← poch_succ, poch_succ']
    have ex : x ^ (a + n) = x ^ a * x ^ n := by rw [Real.rpow_add hx, Real.rpow_natCast]
    rw [ex] at hr
    have hB : betaInt (a + n) b x = (x ^ a * x ^ n * (1 - x) ^ b + (a + n + b) * betaInt (a + n + 1) b x) / (a + n) := by
      rw [eq_div_iff han.ne']; linarith
    rw [hB]
    have hq2 : poch (a + 1) n = poch a n * (a + n) / a := by rw [ep]; field_simp
    rw [hq2]
    field_simp
    ring

theorem betaInt_le_pow (ha : 0 < a) (hb : 0 < b) (hx : 0 ≤ x) (hx1 : x ≤ 1) (n : ℕ) :
    betaInt (a + n) b x ≤ x ^ n * betaInt a b x := by
  induction n with
  | zero => simp
  | succ n ih =>
    have hn : (0 : ℝ) ≤ n := Nat.cast_nonneg n
    have e : a + ((n + 1 : ℕ) : ℝ) = a + n + 1 := by push_cast; ring
    rw [e]
    refine le_trans (betaInt_mono_param (by linarith) hb hx hx1) ?_
    rw [pow_succ', mul_assoc]
    exact mul_le_mul_of_nonneg_left ih hx

/-- The incomplete beta integral as a hypergeometric series, the limit of the continued fraction. -/
theorem betaInt_eq (ha : 0 < a) (hb : 0 < b) (hx : 0 < x) (hx1 : x < 1) :
    betaInt a b x = x ^ a * (1 - x) ^ b * gaussFn a b x 1 / a := by
  have hs := hyp_summable (α := a + b) (β := 1) (γ := a + 1) (by linarith) zero_le_one (by linarith) hx.le hx1
  have hs2 := hyp_summable (α := a + b) (β := 1) (γ := a) (by linarith) zero_le_one ha hx.le hx1
  have t1 := hs.hasSum.tendsto_sum_nat
  have t2 : Tendsto (fun n : ℕ => a * (hc (a + b) 1 a n * betaInt (a + n) b x)) atTop (𝓝 0) := by
    have t3 := (hs2.tendsto_atTop_zero.mul_const (a * betaInt a b x))
    rw [zero_mul] at t3
    refine squeeze_zero (fun n => ?_) (fun n => ?_) t3
    · have := hc_nonneg (α := a + b) (β := 1) (γ := a) (by linarith) zero_le_one ha n
      have := betaInt_nonneg (a := a + n) (b := b) hx.le hx1.le
      positivity
    · have h1 := hc_nonneg (α := a + b) (β := 1) (γ := a) (by linarith) zero_le_one ha n
      have h2 := betaInt_le_pow ha hb hx.le hx1.le n
      have h3 := mul_le_mul_of_nonneg_left h2 (mul_nonneg ha.le h1)
      linarith
  have t3 := (t1.const_mul (x ^ a * (1 - x) ^ b)).add t2
  rw [add_zero] at t3
  have t4 : Tendsto (fun _ : ℕ => a * betaInt a b x) atTop (𝓝 (a * betaInt a b x)) := tendsto_const_nhds
  have := tendsto_nhds_unique (t4.congr (fun n => betaInt_partial ha hb hx hx1.le n)) t3
  have e : gaussFn a b x 1 = ∑' k, hc (a + b) 1 (a + 1) k * x ^ k := by
    have := gauss_odd (a := a) (b := b) (x := x) 0
    simpa [hyp] using this
  rw [e, eq_div_iff ha.ne', ← this, mul_comm]

end Phik.BetaCF
