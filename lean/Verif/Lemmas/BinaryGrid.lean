import Verif.Lemmas.NormalCdf
import Mathlib.Analysis.Calculus.ParametricIntervalIntegral

/-! # The normal distribution on a grid with two bins for one of the variables

`strip rho l u` is the probability that the first variable lies between `l` and `u` and the second one between 0 and 5. -/

namespace Phik.Gauss
open MeasureTheory ProbabilityTheory Set Spec Props

/-- Standard deviation of one variable when the other is known. -/
noncomputable def sd (ρ : ℝ) : ℝ := √(1 - ρ ^ 2)

theorem sd_pos {ρ : ℝ} (h : ρ ∈ Ioo (-1 : ℝ) 1) : 0 < sd ρ := Real.sqrt_pos.2 (by nlinarith [h.1, h.2])

theorem sd_sq {ρ : ℝ} (h : ρ ∈ Ioo (-1 : ℝ) 1) : sd ρ ^ 2 = 1 - ρ ^ 2 := Real.sq_sqrt (by nlinarith [h.1, h.2])

/-- Probability that the second variable lies between 0 and 5 when the first is `y`. -/
noncomputable def cond (ρ y : ℝ) : ℝ := Φ ((5 - ρ * y) / sd ρ) - Φ (-(ρ * y) / sd ρ)

noncomputable def strip (ρ l u : ℝ) : ℝ := gaussMvn ρ ((l, 0), (u, 5))

theorem integral_ind_mul {l u : ℝ} (h : l ≤ u) (f : ℝ → ℝ) : ∫ z, ind l u z * f z ∂γ = ∫ y in l..u, φ y * f y := by
  have h1 : ∫ z, ind l u z * f z ∂γ = ∫ z in Icc l u, f z ∂γ := by
    rw [← integral_indicator measurableSet_Icc]
    refine integral_congr_ae (Filter.Eventually.of_forall fun z => ?_)
    simp only [ind, indicator]
    split <;> simp
  rw [h1, γ_density, setIntegral_withDensity_eq_setIntegral_toReal_smul (measurable_gaussianPDF 0 1)
      (Filter.Eventually.of_forall fun x => gaussianPDF_lt_top) _ measurableSet_Icc,
      intervalIntegral.integral_of_le h, ← integral_Icc_eq_integral_Ioc]
  refine integral_congr_ae (Filter.Eventually.of_forall fun x => ?_)
  simp only [toReal_gaussianPDF, smul_eq_mul]

theorem T_cond {ρ : ℝ} (h : ρ ∈ Ioo (-1 : ℝ) 1) (z : ℝ) : T ρ (ind 0 5) z = cond ρ z := by
  have hs := sd_pos h
  have h1 : (fun e => ind 0 5 (ρ * z + √(1 - ρ ^ 2) * e)) = ind (-(ρ * z) / sd ρ) ((5 - ρ * z) / sd ρ) := by
    funext e
    change ind 0 5 (ρ * z + sd ρ * e) = _
    simp only [ind, indicator, mem_Icc]
    have : (0 ≤ ρ * z + sd ρ * e ∧ ρ * z + sd ρ * e ≤ 5) ↔ (-(ρ * z) / sd ρ ≤ e ∧ e ≤ (5 - ρ * z) / sd ρ) := by
      rw [div_le_iff₀ hs, le_div_iff₀ hs]
      constructor <;> rintro ⟨h1, h2⟩ <;> constructor <;> nlinarith
    simp only [this]
  unfold T
  rw [h1, integral_ind, γ_Icc]
  · rfl
  · rw [div_le_div_iff_of_pos_right hs]; linarith

theorem strip_eq {ρ l u : ℝ} (h : ρ ∈ Ioo (-1 : ℝ) 1) (hlu : l ≤ u) : strip ρ l u = ∫ y in l..u, φ y * cond ρ y := by
  unfold strip
  rw [gaussMvn_K (by nlinarith [h.1, h.2]), K_eq _ (ind_BM _ _) (ind_BM _ _), integral_ind_mul hlu]
  simp only [T_cond h]

/-! ### The derivative with respect to the correlation -/

/-- Density at a point of the vertical line through 0, and of the line through 5. -/
noncomputable def dens0 (ρ y : ℝ) : ℝ := (2 * Real.pi * sd ρ)⁻¹ * Real.exp (-y ^ 2 / (2 * sd ρ ^ 2))
noncomputable def dens5 (ρ y : ℝ) : ℝ :=
  (2 * Real.pi * sd ρ)⁻¹ * (Real.exp (-25 / 2) * Real.exp (-(y - 5 * ρ) ^ 2 / (2 * sd ρ ^ 2)))

/-- The derivative of the conditional probability times the density. -/
noncomputable def dcond (ρ y : ℝ) : ℝ :=
  φ y * (φ ((5 - ρ * y) / sd ρ) * ((5 * ρ - y) / sd ρ ^ 3) + φ (ρ * y / sd ρ) * (y / sd ρ ^ 3))

theorem sd_deriv {ρ : ℝ} (h : ρ ∈ Ioo (-1 : ℝ) 1) : HasDerivAt sd (-ρ / sd ρ) ρ := by
  have h1 : HasDerivAt (fun x : ℝ => 1 - x ^ 2) (-(2 * ρ)) ρ := by
    have := (hasDerivAt_pow 2 ρ).const_sub 1
    simpa using this
  have h2 := h1.sqrt (by nlinarith [h.1, h.2])
  refine HasDerivAt.congr_deriv (f := sd) h2 ?_
  have := sd_pos h
  unfold sd at this ⊢
  field_simp

theorem cond_deriv {ρ : ℝ} (h : ρ ∈ Ioo (-1 : ℝ) 1) (y : ℝ) : HasDerivAt (fun r => φ y * cond r y) (dcond ρ y) ρ := by
  have hs := sd_pos h
  have hs2 := sd_sq h
  have hd := sd_deriv h
  have h1 : HasDerivAt (fun r => (5 - r * y) / sd r) ((5 * ρ - y) / sd ρ ^ 3) ρ := by
    have := (((hasDerivAt_id ρ).mul_const y).const_sub 5).div hd hs.ne'
    refine HasDerivAt.congr_deriv this ?_
    simp only [id]
    field_simp
    rw [hs2]; ring
  have h2 : HasDerivAt (fun r => -(r * y) / sd r) (-(y / sd ρ ^ 3)) ρ := by
    have := (((hasDerivAt_id ρ).mul_const y).neg).div hd hs.ne'
    refine HasDerivAt.congr_deriv this ?_
    simp only [id, Pi.neg_apply]
    field_simp
    rw [hs2]; ring
  have h3 := (((Φ_deriv _).comp ρ h1).sub ((Φ_deriv _).comp ρ h2)).const_mul (φ y)
  refine HasDerivAt.congr_deriv h3 ?_
  unfold dcond
  rw [neg_div, φ_neg]
  ring

theorem dcond_eq {ρ : ℝ} (h : ρ ∈ Ioo (-1 : ℝ) 1) (y : ℝ) : HasDerivAt (fun y => dens5 ρ y - dens0 ρ y) (dcond ρ y) y := by
  have hs := sd_pos h
  have hs2 := sd_sq h
  have e1 : HasDerivAt (fun y : ℝ => -y ^ 2 / (2 * sd ρ ^ 2)) (-(2 * y) / (2 * sd ρ ^ 2)) y := by
    have := ((hasDerivAt_pow 2 y).neg).div_const (2 * sd ρ ^ 2)
    simpa using this
  have e2 : HasDerivAt (fun y : ℝ => -(y - 5 * ρ) ^ 2 / (2 * sd ρ ^ 2)) (-(2 * (y - 5 * ρ)) / (2 * sd ρ ^ 2)) y := by
    have := ((((hasDerivAt_id y).sub_const (5 * ρ)).pow 2).neg).div_const (2 * sd ρ ^ 2)
    simpa using this
  have h3 := ((e2.exp.const_mul (Real.exp (-25 / 2))).const_mul (2 * Real.pi * sd ρ)⁻¹).sub
    (e1.exp.const_mul (2 * Real.pi * sd ρ)⁻¹)
  refine HasDerivAt.congr_deriv h3 ?_
  have hc : (√(2 * Real.pi))⁻¹ * (√(2 * Real.pi))⁻¹ = (2 * Real.pi)⁻¹ := by
    rw [← mul_inv, Real.mul_self_sqrt (by positivity)]
  have k1 : φ y * φ ((5 - ρ * y) / sd ρ) = (2 * Real.pi)⁻¹ *
      (Real.exp (-25 / 2) * Real.exp (-(y - 5 * ρ) ^ 2 / (2 * sd ρ ^ 2))) := by
    rw [φ_eq, φ_eq, ← Real.exp_add, ← hc, mul_mul_mul_comm, ← Real.exp_add]
    congr 2
    field_simp
    rw [hs2]; ring
  have k2 : φ y * φ (ρ * y / sd ρ) = (2 * Real.pi)⁻¹ * Real.exp (-y ^ 2 / (2 * sd ρ ^ 2)) := by
    rw [φ_eq, φ_eq, ← hc, mul_mul_mul_comm, ← Real.exp_add]
    congr 2
    field_simp
    rw [hs2]; ring
  have k3 : dcond ρ y = φ y * φ ((5 - ρ * y) / sd ρ) * ((5 * ρ - y) / sd ρ ^ 3) +
      φ y * φ (ρ * y / sd ρ) * (y / sd ρ ^ 3) := by unfold dcond; ring
  rw [k3, k1, k2, mul_inv]
  field_simp
  ring

theorem dcond_continuous {ρ : ℝ} : Continuous (dcond ρ) := by
  unfold dcond
  have := φ_continuous
  fun_prop

/-- The derivative of the probability of a strip. -/
theorem strip_deriv {ρ l u : ℝ} (h : ρ ∈ Ioo (-1 : ℝ) 1) (hlu : l ≤ u) :
    HasDerivAt (fun r => strip r l u) ((dens0 ρ l - dens0 ρ u) + (dens5 ρ u - dens5 ρ l)) ρ := by
  obtain ⟨ε, hε, hball⟩ := Metric.isOpen_iff.1 isOpen_Ioo ρ h
  have hsub : Metric.closedBall ρ (ε / 2) ⊆ Ioo (-1 : ℝ) 1 := fun x hx =>
    hball (Metric.mem_ball.2 (lt_of_le_of_lt (Metric.mem_closedBall.1 hx) (by linarith)))
  have hcont : ContinuousOn (fun p : ℝ × ℝ => dcond p.1 p.2) (Metric.closedBall ρ (ε / 2) ×ˢ Icc l u) := by
    have hsd : ContinuousOn (fun p : ℝ × ℝ => sd p.1) (Metric.closedBall ρ (ε / 2) ×ˢ Icc l u) := by
      unfold sd; fun_prop
    have hne : ∀ p ∈ Metric.closedBall ρ (ε / 2) ×ˢ Icc l u, sd p.1 ≠ 0 := fun p hp => (sd_pos (hsub hp.1)).ne'
    have hne3 : ∀ p ∈ Metric.closedBall ρ (ε / 2) ×ˢ Icc l u, sd p.1 ^ 3 ≠ 0 := fun p hp => pow_ne_zero 3 (hne p hp)
    have hφ : ∀ {f : ℝ × ℝ → ℝ} {S : Set (ℝ × ℝ)}, ContinuousOn f S → ContinuousOn (fun p => φ (f p)) S :=
      fun hf => φ_continuous.comp_continuousOn hf
    unfold dcond
    refine (hφ (by fun_prop)).mul (((hφ (ContinuousOn.div (by fun_prop) hsd hne)).mul
      (ContinuousOn.div (by fun_prop) (hsd.pow 3) hne3)).add ((hφ (ContinuousOn.div (by fun_prop) hsd hne)).mul
      (ContinuousOn.div (by fun_prop) (hsd.pow 3) hne3)))
  obtain ⟨C, hC⟩ := ((isCompact_closedBall ρ (ε / 2)).prod isCompact_Icc).exists_bound_of_continuousOn hcont
  have hcm : ∀ r, Continuous fun y => φ y * cond r y := by
    intro r
    unfold cond
    exact φ_continuous.mul ((Φ_continuous.comp (by fun_prop)).sub (Φ_continuous.comp (by fun_prop)))
  have key := intervalIntegral.hasDerivAt_integral_of_dominated_loc_of_deriv_le (μ := volume)
    (F := fun r y => φ y * cond r y) (F' := fun r y => dcond r y) (x₀ := ρ) (a := l) (b := u) (bound := fun _ => C)
    (s := Metric.ball ρ (ε / 2)) (Metric.ball_mem_nhds ρ (by linarith))
    (Filter.Eventually.of_forall fun r => (hcm r).aestronglyMeasurable)
    ((hcm ρ).intervalIntegrable _ _)
    (dcond_continuous.aestronglyMeasurable)
    (Filter.Eventually.of_forall fun y hy r hr => hC (r, y) ⟨Metric.ball_subset_closedBall hr, by
      rw [uIoc_of_le hlu] at hy; exact ⟨hy.1.le, hy.2⟩⟩)
    (by simp)
    (Filter.Eventually.of_forall fun y hy r hr => cond_deriv (hsub (Metric.ball_subset_closedBall hr)) y)
  have h2 := key.2
  rw [intervalIntegral.integral_eq_sub_of_hasDerivAt (fun y _ => dcond_eq h y) (dcond_continuous.intervalIntegrable _ _)] at h2
  have h3 : HasDerivAt (fun r => strip r l u) (dens5 ρ u - dens0 ρ u - (dens5 ρ l - dens0 ρ l)) ρ := by
    refine h2.congr_of_eventuallyEq ?_
    filter_upwards [isOpen_Ioo.mem_nhds h] with r hr
    exact strip_eq hr hlu
  convert h3 using 1
  ring

theorem strip_zero {l u : ℝ} (hlu : l ≤ u) : strip 0 l u = (Φ 5 - Φ 0) * (Φ u - Φ l) := by
  unfold strip
  rw [gaussMvn_K (by norm_num), K_zero (ind_BM _ _) (ind_BM _ _), integral_ind, integral_ind, γ_Icc hlu,
    γ_Icc (by norm_num)]
  ring

theorem strip_cont (l u : ℝ) : ContinuousOn (fun r => strip r l u) (Icc 0 1) := gaussMvn_cont _

end Phik.Gauss
