import Verif.Lemmas.BetaTail
import Verif.Props.SigTrue
import Mathlib.Probability.Moments.ComplexMGF
import Mathlib.Probability.Kernel.Composition.IntegralCompProd
import Mathlib.Probability.Distributions.Gaussian.Real
import Mathlib.MeasureTheory.Measure.LevyConvergence
import Mathlib.Analysis.SpecialFunctions.Complex.LogBounds

/-! # The normal approximation of gamma-Poisson mixtures -/

namespace Phik.BetaCF
open Phik.Spec Phik.Props MeasureTheory ProbabilityTheory Set Topology
open Filter (Tendsto atTop)

/-! ### the gamma distribution -/

theorem gamma_exp_integrable {b τ x : ℝ} (hb : 0 < b) (hτ : 0 < τ) (hx : x < τ) :
    Integrable (fun y => Real.exp (x * y)) (gammaMeasure b τ) := by
  unfold gammaMeasure
  have hm : Measurable (gammaPDF b τ) := by unfold gammaPDF; fun_prop
  rw [integrable_withDensity_iff hm (ae_of_all _ fun y => by simp [gammaPDF])]
  have h1 : IntegrableOn (fun y : ℝ => τ ^ b / Real.Gamma b * (y ^ (b - 1) * Real.exp (-(τ - x) * y))) (Ioi 0) := by
    have := (integrableOn_rpow_mul_exp_neg_mul_rpow (s := b - 1) (p := 1) (b := τ - x) (by linarith) one_pos (by linarith)).const_mul (τ ^ b / Real.Gamma b)
    unfold IntegrableOn at this ⊢
    simpa using this
  rw [← integrableOn_univ, ← Set.Iic_union_Ioi (a := (0 : ℝ))]
  refine IntegrableOn.union ?_ ?_
  · have : IntegrableOn (fun _ : ℝ => (0 : ℝ)) (Iic 0) := integrableOn_zero
    refine this.congr_fun_ae ?_
    have h0 : ∀ᵐ y : ℝ ∂(volume.restrict (Iic 0)), y ≠ 0 := ae_restrict_of_ae (by rw [ae_iff]; simp)
    filter_upwards [h0, ae_restrict_mem measurableSet_Iic] with y hy hy'
    rw [gammaPDF_of_neg (lt_of_le_of_ne hy' hy)]
    simp
  · refine h1.congr_fun (fun y hy => ?_) measurableSet_Ioi
    have hy : 0 < y := hy
    rw [gammaPDF_of_nonneg hy.le, ENNReal.toReal_ofReal (by have := Real.Gamma_pos_of_pos hb; positivity)]
    have : Real.exp (-(τ - x) * y) = Real.exp (x * y) * Real.exp (-(τ * y)) := by rw [← Real.exp_add]; ring_nf
    simp only [this]
    ring

theorem gamma_mgf {b τ x : ℝ} (hb : 0 < b) (hτ : 0 < τ) (hx : x < τ) :
    mgf id (gammaMeasure b τ) x = (1 - x / τ) ^ (-b) := by
  unfold mgf
  rw [gamma_integral hb hτ]
  have hg := Real.Gamma_pos_of_pos hb
  have hd : 0 < τ - x := by linarith
  have e : ∀ y ∈ Ioi (0 : ℝ), Real.exp (x * id y) * (τ ^ b / Real.Gamma b * y ^ (b - 1) * Real.exp (-(τ * y))) =
      τ ^ b / Real.Gamma b * (y ^ (b - 1) * Real.exp (-((τ - x) * y))) := by
    intro y _
    have : Real.exp (-((τ - x) * y)) = Real.exp (x * id y) * Real.exp (-(τ * y)) := by rw [← Real.exp_add, id]; ring_nf
    rw [this]
    ring
  rw [setIntegral_congr_fun measurableSet_Ioi e, integral_const_mul, Real.integral_rpow_mul_exp_neg_mul_Ioi hb hd]
  have e2 : 1 - x / τ = (τ - x) / τ := by field_simp
  rw [e2, Real.rpow_neg (by positivity), Real.div_rpow hd.le hτ.le, Real.div_rpow zero_le_one hd.le, Real.one_rpow]
  field_simp

/-- The complex moment generating function of the gamma distribution. -/
theorem gamma_complexMGF {b τ : ℝ} (hb : 0 < b) (hτ : 0 < τ) {z : ℂ} (hz : z.re < τ) :
    complexMGF id (gammaMeasure b τ) z = (1 - z / τ) ^ (-(b : ℂ)) := by
  set U : Set ℂ := {z | z.re < τ} with hU
  have hUc : IsPreconnected U := (convex_halfSpace_re_lt τ).isPreconnected
  have hre : ∀ z : ℂ, (1 - z / τ).re = 1 - z.re / τ := by
    intro z; rw [Complex.sub_re, Complex.one_re, Complex.div_ofReal_re]
  have hint : Iio τ ⊆ interior (integrableExpSet id (gammaMeasure b τ)) := by
    refine interior_maximal (fun x hx => ?_) isOpen_Iio
    exact gamma_exp_integrable hb hτ hx
  have h1 : AnalyticOnNhd ℂ (complexMGF id (gammaMeasure b τ)) U := fun z hz => analyticAt_complexMGF (hint hz)
  have h2 : AnalyticOnNhd ℂ (fun z : ℂ => (1 - z / τ) ^ (-(b : ℂ))) U := by
    refine DifferentiableOn.analyticOnNhd (fun z hz => ?_) (isOpen_lt Complex.continuous_re continuous_const)
    refine DifferentiableAt.differentiableWithinAt ?_
    refine DifferentiableAt.cpow (by fun_prop) (by fun_prop) ?_
    left
    rw [hre]
    have : z.re / τ < 1 := by rw [div_lt_one hτ]; exact hz
    linarith
  have h3 : ∃ᶠ z in 𝓝[≠] (0 : ℂ), complexMGF id (gammaMeasure b τ) z = (1 - z / τ) ^ (-(b : ℂ)) := by
    have hseq : Tendsto (fun n : ℕ => ((-(1 / ((n : ℝ) + 1)) : ℝ) : ℂ)) atTop (𝓝[≠] 0) := by
      rw [tendsto_nhdsWithin_iff]
      constructor
      · have := tendsto_one_div_add_atTop_nhds_zero_nat (𝕜 := ℝ)
        have := this.neg
        rw [neg_zero] at this
        exact (Complex.continuous_ofReal.tendsto' 0 0 (by simp)).comp this
      · refine Filter.Eventually.of_forall fun n => ?_
        have : (0 : ℝ) < (n : ℝ) + 1 := by positivity
        simp only [mem_compl_iff, mem_singleton_iff, Complex.ofReal_eq_zero, neg_eq_zero]
        positivity
    refine hseq.frequently (Filter.Frequently.of_forall fun n => ?_)
    set x : ℝ := -(1 / ((n : ℝ) + 1)) with hx
    have hx0 : x < 0 := by rw [hx, neg_lt_zero]; positivity
    rw [complexMGF_ofReal, gamma_mgf hb hτ (by linarith)]
    have hpos : 0 ≤ 1 - x / τ := by have := div_neg_of_neg_of_pos hx0 hτ; linarith
    rw [Complex.ofReal_cpow hpos]
    push_cast
    rfl
  exact h1.eqOn_of_preconnected_of_frequently_eq h2 hUc (show (0 : ℂ) ∈ U by simpa [hU] using hτ) h3 hz

/-! ### the mixture -/

/-- The Poisson distribution as a kernel. -/
noncomputable def poissonKernel : Kernel ℝ ℕ where
  toFun y := poissonMeasure y.toNNReal
  measurable' := by
    refine Measure.measurable_of_measurable_coe _ fun s hs => ?_
    unfold poissonMeasure
    simp only [Measure.sum_apply _ hs, Measure.smul_apply, smul_eq_mul]
    refine Measurable.ennreal_tsum fun n => ?_
    fun_prop

instance : IsMarkovKernel poissonKernel := ⟨fun y => by change IsProbabilityMeasure (poissonMeasure y.toNNReal); infer_instance⟩

/-- The number of counts with a gamma distributed expectation. -/
noncomputable def mixture (b τ : ℝ) : Measure ℕ := (poissonKernel ∘ₖ Kernel.const Unit (gammaMeasure b τ)) ()

theorem mixture_prob {b τ : ℝ} (hb : 0 < b) (hτ : 0 < τ) : IsProbabilityMeasure (mixture b τ) := by
  have := isProbabilityMeasure_gammaMeasure hb hτ
  unfold mixture
  infer_instance

theorem mixture_tail {b τ : ℝ} (hb : 0 < b) (hτ : 0 < τ) (n : ℕ) : (mixture b τ).real {m | n ≤ m} = gammaPoissonTail n b τ := by
  have := isProbabilityMeasure_gammaMeasure hb hτ
  have := mixture_prob hb hτ
  have h := Kernel.integral_comp (κ := Kernel.const Unit (gammaMeasure b τ)) (η := poissonKernel) (a := ()) (f := ({m : ℕ | n ≤ m}).indicator fun _ => (1 : ℝ))
    ((integrable_indicator_iff .of_discrete).2 (integrableOn_const (measure_ne_top _ _)))
  rw [integral_indicator_const _ .of_discrete, smul_eq_mul, mul_one] at h
  unfold mixture
  rw [h]
  unfold gammaPoissonTail
  rw [Kernel.const_apply]
  refine integral_congr_ae (ae_of_all _ fun y => ?_)
  change ∫ m, ({m : ℕ | n ≤ m}).indicator (fun _ => (1 : ℝ)) m ∂(poissonMeasure y.toNNReal) = _
  rw [integral_indicator_const _ .of_discrete, smul_eq_mul, mul_one]

theorem mixture_charFun {b τ : ℝ} (hb : 0 < b) (hτ : 0 < τ) (t : ℝ) :
    charFun ((mixture b τ).map (Nat.cast : ℕ → ℝ)) t = (1 - (Complex.exp (t * Complex.I) - 1) / τ) ^ (-(b : ℂ)) := by
  have := isProbabilityMeasure_gammaMeasure hb hτ
  have := mixture_prob hb hτ
  rw [charFun_apply, integral_map .of_discrete (by fun_prop)]
  have hint : Integrable (fun m : ℕ => Complex.exp (inner ℝ (m : ℝ) t * Complex.I)) (mixture b τ) := by
    refine Integrable.of_bound .of_discrete 1 (ae_of_all _ fun m => ?_)
    rw [Complex.norm_exp_ofReal_mul_I]
  have h := Kernel.integral_comp (κ := Kernel.const Unit (gammaMeasure b τ)) (η := poissonKernel) (a := ()) hint
  unfold mixture at *
  rw [h, Kernel.const_apply, ← gamma_complexMGF hb hτ]
  · unfold complexMGF
    have hpos : ∀ᵐ y ∂(gammaMeasure b τ), 0 ≤ y := by
      have hm : Measurable (gammaPDF b τ) := by unfold gammaPDF; fun_prop
      unfold gammaMeasure
      rw [ae_withDensity_iff hm]
      refine ae_of_all _ fun y hy => ?_
      by_contra h0
      exact hy (gammaPDF_of_neg (not_le.1 h0))
    refine integral_congr_ae ?_
    filter_upwards [hpos] with y hy
    have := charFun_map_cast_poissonMeasure y.toNNReal t
    rw [charFun_apply, integral_map .of_discrete (by fun_prop)] at this
    change ∫ m : ℕ, Complex.exp (inner ℝ (m : ℝ) t * Complex.I) ∂(poissonMeasure y.toNNReal) = _
    rw [this, id, Real.coe_toNNReal y hy, mul_comm]
  · rw [Complex.sub_re, Complex.one_re, Complex.exp_ofReal_mul_I_re]
    have := Real.cos_le_one t
    linarith

/-! ### the limit of the characteristic functions -/

theorem log_second {z : ℂ} (hz : ‖z‖ < 1) : ‖Complex.log (1 + z) - (z - z ^ 2 / 2)‖ ≤ ‖z‖ ^ 3 * (1 - ‖z‖)⁻¹ / 3 := by
  have := Complex.norm_log_sub_logTaylor_le 2 hz
  norm_num [Complex.logTaylor_succ, Complex.logTaylor_zero] at this
  convert this using 2
  ring

theorem exp_second {s : ℝ} (hs : |s| ≤ 1) : ‖Complex.exp (s * Complex.I) - 1 - s * Complex.I‖ ≤ s ^ 2 ∧
    ‖Complex.exp (s * Complex.I) - 1 - s * Complex.I + s ^ 2 / 2‖ ≤ |s| ^ 3 := by
  have hn : ‖(s : ℂ) * Complex.I‖ = |s| := by simp
  constructor
  · have := Complex.norm_exp_sub_one_sub_id_le (x := (s : ℂ) * Complex.I) (by rw [hn]; exact hs)
    rwa [hn, sq_abs] at this
  · have := Complex.exp_bound (x := (s : ℂ) * Complex.I) (by rw [hn]; exact hs) (n := 3) (by norm_num)
    rw [hn] at this
    have e : ∑ m ∈ Finset.range 3, ((s : ℂ) * Complex.I) ^ m / (m.factorial : ℂ) = 1 + s * Complex.I - s ^ 2 / 2 := by
      simp only [Finset.sum_range_succ, Finset.sum_range_zero, Nat.factorial]
      rw [mul_pow _ _ 2, Complex.I_sq]
      push_cast
      ring
    rw [e] at this
    have h2 : |s| ^ 3 * ((Nat.succ 3 : ℝ) * ((Nat.factorial 3 : ℝ) * 3)⁻¹) ≤ |s| ^ 3 := by
      have : (0 : ℝ) ≤ |s| ^ 3 := by positivity
      norm_num [Nat.factorial]
      nlinarith
    have e3 : Complex.exp (s * Complex.I) - 1 - s * Complex.I + s ^ 2 / 2 = Complex.exp (s * Complex.I) - (1 + s * Complex.I - s ^ 2 / 2) := by ring
    rw [e3]
    exact this.trans (by push_cast at h2 ⊢; exact h2)

theorem log_bound {b s τ : ℝ} (hs : |s| ≤ 1) (hτ : 0 < τ) (hst : |s| / τ ≤ 1 / 2) :
    ‖(-(b : ℂ)) * Complex.log (1 - (Complex.exp (s * Complex.I) - 1) / τ) - b / τ * s * Complex.I + b * s ^ 2 * (1 / (2 * τ) + 1 / (2 * τ ^ 2))‖ ≤
      |b * s ^ 2| * (|s| * (1 / τ + 2 / τ ^ 2 + 1 / τ ^ 3)) := by
  obtain ⟨e1, e2⟩ := exp_second hs
  set x : ℂ := Complex.exp (s * Complex.I) - 1 with hx
  set y : ℂ := x - s * Complex.I with hy
  have hτc : (τ : ℂ) ≠ 0 := by exact_mod_cast hτ.ne'
  have hx1 : ‖x‖ ≤ |s| := by
    have := Real.norm_exp_I_mul_ofReal_sub_one_le (x := s)
    rwa [mul_comm, Real.norm_eq_abs] at this
  have hz : ‖-(x / τ)‖ ≤ |s| / τ := by
    rw [norm_neg, norm_div, Complex.norm_real, Real.norm_of_nonneg hτ.le]
    gcongr
  have hz1 : ‖-(x / τ)‖ < 1 := by linarith
  have hr := log_second hz1
  set rr : ℂ := Complex.log (1 + -(x / τ)) - (-(x / τ) - (-(x / τ)) ^ 2 / 2) with hrr
  have hr' : ‖rr‖ ≤ |s| ^ 3 / τ ^ 3 := by
    refine hr.trans ?_
    have h1 : (1 - ‖-(x / (τ : ℂ))‖)⁻¹ ≤ 2 := by
      rw [inv_le_comm₀ (by linarith) (by norm_num)]
      linarith
    have h2 : ‖-(x / (τ : ℂ))‖ ^ 3 ≤ (|s| / τ) ^ 3 := by gcongr
    rw [div_pow] at h2
    have h3 : 0 ≤ |s| ^ 3 / τ ^ 3 := by positivity
    have h4 : 0 ≤ (1 - ‖-(x / (τ : ℂ))‖)⁻¹ := inv_nonneg.2 (by linarith)
    calc _ ≤ |s| ^ 3 / τ ^ 3 * 2 / 3 := by gcongr
      _ ≤ _ := by linarith
  have key : (-(b : ℂ)) * Complex.log (1 - x / τ) - b / τ * s * Complex.I + b * s ^ 2 * (1 / (2 * τ) + 1 / (2 * τ ^ 2)) =
      b * ((y + s ^ 2 / 2) / τ + (2 * (s * Complex.I) * y + y ^ 2) / (2 * τ ^ 2) - rr) := by
    have hlog : Complex.log (1 - x / τ) = rr + (-(x / τ) - (-(x / τ)) ^ 2 / 2) := by rw [hrr, sub_eq_add_neg 1]; ring
    have hxy : x = y + s * Complex.I := by rw [hy]; ring
    rw [hlog, hxy]
    have hI : Complex.I ^ 2 = -1 := Complex.I_sq
    field_simp
    linear_combination ((b : ℂ) * s ^ 2) * hI
  rw [key, norm_mul, Complex.norm_real, Real.norm_eq_abs, abs_mul, abs_of_nonneg (sq_nonneg s), mul_assoc |b|]
  refine mul_le_mul_of_nonneg_left ?_ (abs_nonneg b)
  have t1 : ‖(y + s ^ 2 / 2) / (τ : ℂ)‖ ≤ |s| ^ 3 / τ := by
    rw [norm_div, Complex.norm_real, Real.norm_of_nonneg hτ.le]
    gcongr
  have t2 : ‖(2 * (s * Complex.I) * y + y ^ 2) / (2 * (τ : ℂ) ^ 2)‖ ≤ 2 * |s| ^ 3 / τ ^ 2 := by
    have e : ‖(2 : ℂ) * (τ : ℂ) ^ 2‖ = 2 * τ ^ 2 := by
      rw [norm_mul, norm_pow, Complex.norm_real, Real.norm_of_nonneg hτ.le]; simp
    rw [norm_div, e]
    have n1 : ‖2 * ((s : ℂ) * Complex.I) * y‖ ≤ 2 * |s| * s ^ 2 := by
      rw [norm_mul, norm_mul, norm_mul]
      simp only [Complex.norm_ofNat, Complex.norm_real, Real.norm_eq_abs, Complex.norm_I, mul_one]
      gcongr
    have n2 : ‖y ^ 2‖ ≤ s ^ 2 * s ^ 2 := by
      rw [norm_pow, sq]
      gcongr
    have n3 : s ^ 2 * s ^ 2 ≤ |s| ^ 3 := by
      rw [← sq_abs, ← pow_add]
      exact pow_le_pow_of_le_one (abs_nonneg _) hs (by norm_num)
    have n4 : 2 * |s| * s ^ 2 = 2 * |s| ^ 3 := by rw [← sq_abs]; ring
    have n5 : ‖2 * ((s : ℂ) * Complex.I) * y + y ^ 2‖ ≤ 3 * |s| ^ 3 := by
      refine (norm_add_le _ _).trans ?_
      linarith
    have n6 : (0 : ℝ) ≤ |s| ^ 3 := by positivity
    calc _ ≤ 3 * |s| ^ 3 / (2 * τ ^ 2) := by gcongr
      _ ≤ 4 * |s| ^ 3 / (2 * τ ^ 2) := by gcongr; norm_num
      _ = _ := by ring
  refine (norm_sub_le _ _).trans ((add_le_add ((norm_add_le _ _).trans (add_le_add t1 t2)) hr').trans (le_of_eq ?_))
  rw [← sq_abs s]
  ring

/-- The standardised mixture. -/
noncomputable def scaledMix (b τ σ : ℝ) : Measure ℝ := (mixture b τ).map fun m : ℕ => ((m : ℝ) - b / τ) / σ

theorem scaledMix_charFun {b τ σ : ℝ} (hb : 0 < b) (hτ : 0 < τ) (t : ℝ) :
    charFun (scaledMix b τ σ) t = Complex.exp (-(b : ℂ) * Complex.log (1 - (Complex.exp ((t / σ : ℝ) * Complex.I) - 1) / τ) -
      b / τ * ((t / σ : ℝ) : ℂ) * Complex.I) := by
  have h := mixture_charFun hb hτ (t / σ)
  rw [charFun_apply, integral_map .of_discrete (by fun_prop)] at h
  unfold scaledMix
  rw [charFun_apply, integral_map .of_discrete (by fun_prop)]
  have e : ∀ m : ℕ, Complex.exp (inner ℝ (((m : ℝ) - b / τ) / σ) t * Complex.I) =
      Complex.exp (inner ℝ (m : ℝ) (t / σ) * Complex.I) * Complex.exp (-(b / τ * ((t / σ : ℝ) : ℂ) * Complex.I)) := by
    intro m
    rw [← Complex.exp_add]
    congr 1
    simp only [Real.inner_apply]
    push_cast
    ring
  simp only [e]
  rw [integral_mul_const, h, sub_eq_add_neg (_ * _) (_ * Complex.I), Complex.exp_add]
  congr 1
  rw [Complex.cpow_def_of_ne_zero]
  · congr 1; ring
  · intro h0
    have := congrArg Complex.re h0
    rw [Complex.sub_re, Complex.one_re, Complex.div_ofReal_re, Complex.sub_re, Complex.one_re, Complex.exp_ofReal_mul_I_re, Complex.zero_re] at this
    have h1 : (Real.cos (t / σ) - 1) / τ ≤ 0 := div_nonpos_of_nonpos_of_nonneg (by have := Real.cos_le_one (t / σ); linarith) hτ.le
    linarith

theorem scaledMix_prob {b τ : ℝ} (σ : ℝ) (hb : 0 < b) (hτ : 0 < τ) : IsProbabilityMeasure (scaledMix b τ σ) := by
  have := mixture_prob hb hτ
  unfold scaledMix
  exact Measure.isProbabilityMeasure_map .of_discrete

/-- The characteristic functions of standardised mixtures tend to that of the normal distribution. -/
theorem scaledMix_limit {b τ σ : ℕ → ℝ} {κ τ0 : ℝ} (hb : ∀ n, 0 < b n) (hτ : ∀ n, 0 < τ n) (hτ0 : 0 < τ0) (hσ : Tendsto σ atTop atTop)
    (hτl : Tendsto τ atTop (𝓝 τ0)) (hbl : Tendsto (fun n => b n / σ n ^ 2) atTop (𝓝 κ)) (hκ : κ * (1 / τ0 + 1 / τ0 ^ 2) = 1) (t : ℝ) :
    Tendsto (fun n => charFun (scaledMix (b n) (τ n) (σ n)) t) atTop (𝓝 (charFun (gaussianReal 0 1) t)) := by
  simp only [scaledMix_charFun (hb _) (hτ _)]
  rw [charFun_gaussianReal]
  refine (Complex.continuous_exp.tendsto _).comp ?_
  have hs : Tendsto (fun n => t / σ n) atTop (𝓝 0) := Tendsto.const_div_atTop hσ t
  have hbs : Tendsto (fun n => b n * (t / σ n) ^ 2) atTop (𝓝 (κ * t ^ 2)) := by
    refine (hbl.mul_const (t ^ 2)).congr fun n => ?_
    rw [div_pow]; ring
  have hc : Tendsto (fun n => b n * (t / σ n) ^ 2 * (1 / (2 * τ n) + 1 / (2 * τ n ^ 2))) atTop (𝓝 (t ^ 2 / 2)) := by
    have h1 : Tendsto (fun n => 1 / (2 * τ n) + 1 / (2 * τ n ^ 2)) atTop (𝓝 (1 / (2 * τ0) + 1 / (2 * τ0 ^ 2))) :=
      (tendsto_const_nhds.div (hτl.const_mul 2) (by positivity)).add (tendsto_const_nhds.div ((hτl.pow 2).const_mul 2) (by positivity))
    have h2 := hbs.mul h1
    convert h2 using 2
    have e : 1 / (2 * τ0) + 1 / (2 * τ0 ^ 2) = (1 / τ0 + 1 / τ0 ^ 2) / 2 := by field_simp
    rw [e]
    linear_combination (-(t ^ 2) / 2) * hκ
  have hsa : Tendsto (fun n => |t / σ n|) atTop (𝓝 0) := by have := hs.abs; rwa [abs_zero] at this
  have hsmall : Tendsto (fun n => -(b n : ℂ) * Complex.log (1 - (Complex.exp ((t / σ n : ℝ) * Complex.I) - 1) / τ n) -
      b n / τ n * ((t / σ n : ℝ) : ℂ) * Complex.I + b n * ((t / σ n : ℝ) : ℂ) ^ 2 * (1 / (2 * τ n) + 1 / (2 * τ n ^ 2))) atTop (𝓝 0) := by
    have hb0 : Tendsto (fun n => |b n * (t / σ n) ^ 2| * (|t / σ n| * (1 / τ n + 2 / τ n ^ 2 + 1 / τ n ^ 3))) atTop (𝓝 0) := by
      have h3 : Tendsto (fun n => 1 / τ n + 2 / τ n ^ 2 + 1 / τ n ^ 3) atTop (𝓝 (1 / τ0 + 2 / τ0 ^ 2 + 1 / τ0 ^ 3)) :=
        ((tendsto_const_nhds.div hτl hτ0.ne').add (tendsto_const_nhds.div (hτl.pow 2) (by positivity))).add
          (tendsto_const_nhds.div (hτl.pow 3) (by positivity))
      have := hbs.abs.mul (hsa.mul h3)
      rwa [zero_mul, mul_zero] at this
    refine squeeze_zero_norm' ?_ hb0
    have hst : Tendsto (fun n => |t / σ n| / τ n) atTop (𝓝 0) := by
      have := hsa.div hτl hτ0.ne'
      rwa [zero_div] at this
    filter_upwards [hsa.eventually (ge_mem_nhds one_pos), hst.eventually (ge_mem_nhds (show (0 : ℝ) < 1 / 2 by norm_num))] with n h1 h2
    exact log_bound h1 (hτ n) h2
  have hc' := (Complex.continuous_ofReal.tendsto _).comp hc
  have := hsmall.sub hc'
  convert this using 2
  · simp only [Function.comp]
    push_cast
    ring
  · push_cast
    simp

/-- The tail of a mixture tends to that of the normal distribution. -/
theorem mixture_tail_limit {b τ σ : ℕ → ℝ} {m : ℕ → ℕ} {κ τ0 w : ℝ} (hb : ∀ n, 0 < b n) (hτ : ∀ n, 0 < τ n) (hτ0 : 0 < τ0) (hσ : Tendsto σ atTop atTop)
    (hτl : Tendsto τ atTop (𝓝 τ0)) (hbl : Tendsto (fun n => b n / σ n ^ 2) atTop (𝓝 κ)) (hκ : κ * (1 / τ0 + 1 / τ0 ^ 2) = 1)
    (hm : Tendsto (fun n => ((m n : ℝ) - b n / τ n) / σ n) atTop (𝓝 w)) :
    Tendsto (fun n => gammaPoissonTail (m n) (b n) (τ n)) atTop (𝓝 (normCdf (-w))) := by
  have hP := fun n => scaledMix_prob (σ n) (hb n) (hτ n)
  let ν : ℕ → ProbabilityMeasure ℝ := fun n => ⟨scaledMix (b n) (τ n) (σ n), hP n⟩
  let g : ProbabilityMeasure ℝ := ⟨gaussianReal 0 1, inferInstance⟩
  have hweak : Tendsto ν atTop (𝓝 g) :=
    ProbabilityMeasure.tendsto_iff_tendsto_charFun.2 fun t => scaledMix_limit hb hτ hτ0 hσ hτl hbl hκ t
  have hg : ∀ x, (gaussianReal 0 1).real (Ici x) = normCdf (-x) := by
    intro x
    unfold normCdf
    have h := gaussianReal_map_neg (μ := 0) (v := 1)
    rw [neg_zero] at h
    conv_lhs => rw [← h]
    rw [map_measureReal_apply (by fun_prop) measurableSet_Ici]
    congr 1
    ext y
    simp
  have htail : ∀ x, Tendsto (fun n => (scaledMix (b n) (τ n) (σ n)).real (Ici x)) atTop (𝓝 (normCdf (-x))) := by
    intro x
    rw [← hg x]
    have h1 := ProbabilityMeasure.tendsto_measure_of_null_frontier_of_tendsto' hweak (E := Ici x) (by
      change gaussianReal 0 1 (frontier (Ici x)) = 0
      rw [frontier_Ici]
      have := nullSingletonClass_gaussianReal (μ := 0) (v := 1) one_ne_zero
      exact measure_singleton x)
    exact (ENNReal.tendsto_toReal (measure_ne_top _ _)).comp h1
  have hlast : ∀ᶠ n in atTop, gammaPoissonTail (m n) (b n) (τ n) = (scaledMix (b n) (τ n) (σ n)).real (Ici (((m n : ℝ) - b n / τ n) / σ n)) := by
    filter_upwards [hσ.eventually_gt_atTop 0] with n hn
    rw [← mixture_tail (hb n) (hτ n)]
    unfold scaledMix
    rw [map_measureReal_apply .of_discrete measurableSet_Ici]
    congr 1
    ext k
    simp only [mem_ofPred_eq, mem_preimage, mem_Ici]
    rw [div_le_div_iff_of_pos_right hn, sub_le_sub_iff_right, Nat.cast_le]
  rw [Filter.tendsto_congr' hlast, tendsto_order]
  have hcont : Tendsto (fun x : ℝ => normCdf (-x)) (𝓝 w) (𝓝 (normCdf (-w))) := (normCdf_cont.comp continuous_neg).tendsto w
  constructor
  · intro l hl
    obtain ⟨x, hx, hxl⟩ := ((hcont.eventually (lt_mem_nhds hl)).filter_mono nhdsWithin_le_nhds |>.and (self_mem_nhdsWithin (s := Ioi w))).exists
    filter_upwards [(htail x).eventually (lt_mem_nhds hx), hm.eventually (gt_mem_nhds hxl)] with n h1 h2
    have := hP n
    exact h1.trans_le (measureReal_mono (Ici_subset_Ici.2 h2.le))
  · intro l hl
    obtain ⟨x, hx, hxl⟩ := ((hcont.eventually (gt_mem_nhds hl)).filter_mono nhdsWithin_le_nhds |>.and (self_mem_nhdsWithin (s := Iio w))).exists
    filter_upwards [(htail x).eventually (gt_mem_nhds hx), hm.eventually (lt_mem_nhds hxl)] with n h1 h2
    have := hP n
    exact (measureReal_mono (Ici_subset_Ici.2 h2.le)).trans_lt h1

end Phik.BetaCF
