import Verif.Props.SigTrue
import Mathlib.Probability.Distributions.Gaussian.Multivariate
import Mathlib.Probability.Moments.ComplexMGF
import Mathlib.MeasureTheory.Integral.Pi

/-! # The sum of the squares of independent standard normal variables has the chi2 distribution -/

namespace Phik.Props

open MeasureTheory ProbabilityTheory Set Real

/-- Probability measures on the positive numbers with the moment generating function of a chi2 distribution are equal. -/
theorem chi2_of_mgf {k : ℝ} (hk : 0 < k) {μ ν : Measure ℝ} [IsProbabilityMeasure μ] [IsProbabilityMeasure ν]
    (hμ : ∀ᵐ x ∂μ, 0 ≤ x) (hν : ∀ᵐ x ∂ν, 0 ≤ x) (h1 : ∀ t < 1 / 2, mgf id μ t = (1 - 2 * t) ^ (-k / 2))
    (h2 : ∀ t < 1 / 2, mgf id ν t = (1 - 2 * t) ^ (-k / 2)) : μ = ν := by
  have key : ∀ {μ : Measure ℝ} [IsProbabilityMeasure μ], (∀ᵐ x ∂μ, 0 ≤ x) → (∀ t < 1 / 2, mgf id μ t = (1 - 2 * t) ^ (-k / 2)) →
      (∀ t, t ∈ integrableExpSet id μ ↔ t < 1 / 2) := by
    intro μ _ h0 h t
    constructor
    · intro ht
      by_contra hcon
      push Not at hcon
      have hle : ∀ s < 1 / 2, (1 - 2 * s) ^ (-k / 2) ≤ mgf id μ t := by
        intro s hs
        rw [← h s hs]
        have hint : Integrable (fun x : ℝ => exp (s * id x)) μ := by
          by_contra hni
          have h3 := h s hs
          rw [mgf_undef hni] at h3
          have : 0 < (1 - 2 * s) ^ (-k / 2) := Real.rpow_pos_of_pos (by linarith) _
          linarith
        refine integral_mono_ae hint ht ?_
        filter_upwards [h0] with x hx
        exact Real.exp_le_exp.2 (mul_le_mul_of_nonneg_right (by linarith) hx)
      have hlim : Filter.Tendsto (fun y : ℝ => y ^ (-(k / 2))) (nhdsWithin 0 (Ioi 0)) Filter.atTop :=
        tendsto_rpow_neg_nhdsGT_zero (by linarith)
      obtain ⟨y, hy1, hy2⟩ := ((hlim.eventually_gt_atTop (mgf id μ t)).and self_mem_nhdsWithin).exists
      have := hle ((1 - y) / 2) (by have : 0 < y := hy2; linarith)
      rw [show 1 - 2 * ((1 - y) / 2) = y by ring, neg_div] at this
      linarith
    · intro ht
      by_contra hni
      have h3 := h t ht
      rw [mgf_undef hni] at h3
      have : 0 < (1 - 2 * t) ^ (-k / 2) := Real.rpow_pos_of_pos (by linarith) _
      linarith
  have hm : mgf id μ = mgf id ν := by
    funext t
    by_cases ht : t < 1 / 2
    · rw [h1 t ht, h2 t ht]
    · rw [mgf_undef, mgf_undef]
      · exact fun h => ht ((key hν h2 t).1 h)
      · exact fun h => ht ((key hμ h1 t).1 h)
  have hint : interior (integrableExpSet id μ) = Iio (1 / 2) := by
    rw [show integrableExpSet id μ = Iio (1 / 2) from Set.ext fun t => key hμ h1 t, interior_Iio]
  refine Measure.ext_of_charFun ?_
  funext t
  have := eqOn_complexMGF_of_mgf hm (x := t * Complex.I) (by
    rw [hint]
    simp)
  rwa [complexMGF_id_mul_I, complexMGF_id_mul_I] at this

/-- Moment generating function of the square of a standard normal variable. -/
theorem mgf_sq_gaussian {t : ℝ} (ht : t < 1 / 2) :
    ∫ x, exp (t * x ^ 2) ∂(gaussianReal 0 1) = (1 - 2 * t) ^ (-(1 : ℝ) / 2) := by
  have hpos : 0 < 1 - 2 * t := by linarith
  rw [integral_gaussianReal_eq_integral_smul (by simp)]
  have e : ∀ x : ℝ, gaussianPDFReal 0 1 x • exp (t * x ^ 2) = (√(2 * π))⁻¹ * exp (-((1 - 2 * t) / 2) * x ^ 2) := by
    intro x
    simp only [gaussianPDFReal, smul_eq_mul, NNReal.coe_one, mul_one, sub_zero]
    rw [mul_assoc, ← Real.exp_add]
    congr 2
    ring
  simp_rw [e]
  rw [integral_const_mul, integral_gaussian, neg_div, Real.rpow_neg hpos.le, ← Real.sqrt_eq_rpow,
    ← Real.sqrt_inv, ← Real.sqrt_inv, ← Real.sqrt_mul (by positivity)]
  congr 1
  field_simp

theorem measurable_sum_sq {ι : Type*} [Fintype ι] : Measurable fun x : ι → ℝ => ∑ i, x i ^ 2 := by fun_prop

/-- Moment generating function of the sum of the squares of independent standard normal variables. -/
theorem mgf_sum_sq {ι : Type*} [Fintype ι] {t : ℝ} (ht : t < 1 / 2) :
    mgf id ((Measure.pi fun _ : ι => gaussianReal 0 1).map fun x => ∑ i, x i ^ 2) t =
      (1 - 2 * t) ^ (-(Fintype.card ι : ℝ) / 2) := by
  have hpos : 0 < 1 - 2 * t := by linarith
  rw [mgf_id_map measurable_sum_sq.aemeasurable, mgf]
  simp_rw [Finset.mul_sum, Real.exp_sum]
  rw [integral_fintype_prod_eq_pow (fun x : ℝ => exp (t * x ^ 2)), mgf_sq_gaussian ht, ← Real.rpow_natCast,
    ← Real.rpow_mul hpos.le]
  congr 1
  ring

/-- Moment generating function of the chi2 distribution. -/
theorem mgf_chi2 {k : ℝ} (hk : 0 < k) {t : ℝ} (ht : t < 1 / 2) : mgf id (chi2Law k) t = (1 - 2 * t) ^ (-k / 2) := by
  have hpos : 0 < 1 - 2 * t := by linarith
  rw [mgf, chi2Law, gammaMeasure]
  unfold gammaPDF
  rw [integral_withDensity_eq_integral_toReal_smul (by exact (measurable_gammaPDFReal _ _).ennreal_ofReal) (by simp)]
  have e : ∀ x : ℝ, (ENNReal.ofReal (gammaPDFReal (k / 2) (1 / 2) x)).toReal • exp (t * id x) =
      (Ici (0 : ℝ)).indicator (fun x => ((1 / 2) ^ (k / 2) / Gamma (k / 2)) * (x ^ (k / 2 - 1) * exp (-((1 - 2 * t) / 2 * x)))) x := by
    intro x
    rw [ENNReal.toReal_ofReal (gammaPDFReal_nonneg (by linarith) (by norm_num) x)]
    by_cases hx : 0 ≤ x
    · rw [Set.indicator_of_mem (by simpa using hx), gammaPDFReal, if_pos hx, smul_eq_mul, id, mul_assoc, mul_assoc, ← Real.exp_add]
      congr 3
      ring
    · rw [Set.indicator_of_notMem (by simpa using hx), gammaPDFReal, if_neg hx, zero_smul]
  simp_rw [e]
  rw [integral_indicator measurableSet_Ici, integral_const_mul, integral_Ici_eq_integral_Ioi,
    Real.integral_rpow_mul_exp_neg_mul_Ioi (by linarith) (by linarith)]
  have hG : Gamma (k / 2) ≠ 0 := (Real.Gamma_pos_of_pos (by linarith)).ne'
  rw [neg_div, Real.rpow_neg hpos.le, ← Real.inv_rpow hpos.le]
  rw [show (1 - 2 * t)⁻¹ = (1 / 2) * (1 / ((1 - 2 * t) / 2)) by field_simp, Real.mul_rpow (by norm_num) (by positivity)]
  field_simp

/-- The sum of the squares of independent standard normal variables has the chi2 distribution with as many degrees of freedom as
there are variables. -/
theorem sum_sq_law {ι : Type*} [Fintype ι] [Nonempty ι] :
    (Measure.pi fun _ : ι => gaussianReal 0 1).map (fun x => ∑ i, x i ^ 2) = chi2Law (Fintype.card ι) := by
  have hk : (0 : ℝ) < Fintype.card ι := by exact_mod_cast Fintype.card_pos
  have : Fact ((0 : ℝ) < Fintype.card ι) := ⟨hk⟩
  have : IsProbabilityMeasure ((Measure.pi fun _ : ι => gaussianReal 0 1).map fun x => ∑ i, x i ^ 2) :=
    Measure.isProbabilityMeasure_map measurable_sum_sq.aemeasurable
  refine chi2_of_mgf hk ?_ ?_ (fun t ht => mgf_sum_sq ht) (fun t ht => mgf_chi2 hk ht)
  · rw [ae_map_iff measurable_sum_sq.aemeasurable measurableSet_Ici]
    exact Filter.Eventually.of_forall fun x => Finset.sum_nonneg fun i _ => sq_nonneg _
  · have : chi2Law (Fintype.card ι) (Iio 0) = 0 := by
      rw [chi2Law, gammaMeasure, withDensity_apply _ measurableSet_Iio]
      exact lintegral_gammaPDF_of_nonpos le_rfl
    rw [ae_iff]
    convert this using 2
    ext x
    simp

/-- The squared length of a standard Gaussian vector has the chi2 distribution. -/
theorem norm_sq_law {ι : Type*} [Fintype ι] [Nonempty ι] :
    (stdGaussian (EuclideanSpace ℝ ι)).map (fun x => ‖x‖ ^ 2) = chi2Law (Fintype.card ι) := by
  rw [← map_pi_eq_stdGaussian, Measure.map_map (by fun_prop) (by fun_prop), ← sum_sq_law]
  congr 1
  funext x
  simp [EuclideanSpace.real_norm_sq_eq]

end Phik.Props
