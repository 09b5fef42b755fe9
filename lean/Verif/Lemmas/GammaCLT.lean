import Verif.Lemmas.NegBinCLT
import Verif.Props.OutlierCI

/-! # The normal approximation of the chi2 distribution, of its quantiles and of the exact Poisson uncertainty -/

namespace Phik.Props
open Phik.Spec Phik.Out Phik.BetaCF MeasureTheory ProbabilityTheory Set Topology
open Filter (Tendsto atTop)

/-- The standardised chi2 distribution with `2 a` degrees of freedom. -/
noncomputable def scaledChi2 (a : ℝ) : Measure ℝ := (chi2Law (2 * a)).map fun y => (y - 2 * a) / (2 * √a)

theorem scaledChi2_charFun {a : ℝ} (ha : 0 < a) (t : ℝ) :
    charFun (scaledChi2 a) t = Complex.exp (-(a : ℂ) * Complex.log (1 + -((t / √a : ℝ) * Complex.I)) - a * ((t / √a : ℝ) * Complex.I)) := by
  have hl : chi2Law (2 * a) = gammaMeasure a (1 / 2) := by unfold chi2Law; congr 1; ring
  set s := t / (2 * √a) with hs
  have hu : t / √a = 2 * s := by rw [hs]; field_simp
  have h : charFun (gammaMeasure a (1 / 2)) s = (1 - s * Complex.I / ((1 / 2 : ℝ) : ℂ)) ^ (-(a : ℂ)) := by
    rw [← complexMGF_id_mul_I, gamma_complexMGF ha (by norm_num) (by simp)]
  have hm : Measurable fun y : ℝ => (y - 2 * a) / (2 * √a) := by fun_prop
  unfold scaledChi2
  rw [hl, charFun_apply, integral_map hm.aemeasurable (by fun_prop)]
  rw [charFun_apply] at h
  have e : ∀ y : ℝ, Complex.exp (inner ℝ ((y - 2 * a) / (2 * √a)) t * Complex.I) =
      Complex.exp (inner ℝ y s * Complex.I) * Complex.exp (-(a * ((2 * s : ℝ) : ℂ) * Complex.I)) := by
    intro y
    rw [← Complex.exp_add]
    congr 1
    simp only [Real.inner_apply, hs]
    push_cast
    ring
  simp only [e]
  have h1 : (1 : ℂ) - s * Complex.I / ((1 / 2 : ℝ) : ℂ) = 1 + -((2 * s : ℝ) * Complex.I) := by push_cast; ring
  rw [integral_mul_const, h, hu, h1, sub_eq_add_neg (_ * _) (_ * (_ * Complex.I)), Complex.exp_add, Complex.cpow_def_of_ne_zero]
  · congr 2 <;> ring
  · intro h0
    have := congrArg Complex.re h0
    simp at this

theorem scaledChi2_prob {a : ℝ} (ha : 0 < a) : IsProbabilityMeasure (scaledChi2 a) := by
  have : IsProbabilityMeasure (chi2Law (2 * a)) := by
    unfold chi2Law
    exact isProbabilityMeasure_gammaMeasure (by positivity) (by norm_num)
  unfold scaledChi2
  exact Measure.isProbabilityMeasure_map (by fun_prop)

theorem scaledChi2_limit {a : ℕ → ℝ} (ha : ∀ n, 0 < a n) (hl : Tendsto a atTop atTop) (t : ℝ) :
    Tendsto (fun n => charFun (scaledChi2 (a n)) t) atTop (𝓝 (charFun (gaussianReal 0 1) t)) := by
  simp only [scaledChi2_charFun (ha _)]
  rw [charFun_gaussianReal]
  refine (Complex.continuous_exp.tendsto _).comp ?_
  have hu : Tendsto (fun n => t / √(a n)) atTop (𝓝 0) := Tendsto.const_div_atTop (Real.tendsto_sqrt_atTop.comp hl) t
  have hua : Tendsto (fun n => |t / √(a n)|) atTop (𝓝 0) := by have := hu.abs; rwa [abs_zero] at this
  have hsq : ∀ n, a n * |t / √(a n)| ^ 2 = t ^ 2 := by
    intro n
    have := ha n
    rw [sq_abs, div_pow, Real.sq_sqrt this.le]
    field_simp
  have hsmall : Tendsto (fun n => -(a n : ℂ) * Complex.log (1 + -((t / √(a n) : ℝ) * Complex.I)) - a n * ((t / √(a n) : ℝ) * Complex.I) + t ^ 2 / 2) atTop (𝓝 0) := by
    have hb : Tendsto (fun n => t ^ 2 * (|t / √(a n)| * (1 - |t / √(a n)|)⁻¹ / 3)) atTop (𝓝 0) := by
      have h1 : Tendsto (fun n => (1 - |t / √(a n)|)⁻¹) atTop (𝓝 (1 - 0)⁻¹) := (tendsto_const_nhds.sub hua).inv₀ (by norm_num)
      have := ((hua.mul h1).div_const 3).const_mul (t ^ 2)
      simpa using this
    refine squeeze_zero_norm' ?_ hb
    filter_upwards [hua.eventually (gt_mem_nhds one_pos)] with n hn
    set u := t / √(a n) with hud
    have hz : ‖-((u : ℂ) * Complex.I)‖ = |u| := by simp
    have h2 := log_second (z := -((u : ℂ) * Complex.I)) (by rw [hz]; exact hn)
    rw [hz] at h2
    have ht : (t : ℂ) ^ 2 = a n * u ^ 2 := by
      have := hsq n
      rw [sq_abs] at this
      exact_mod_cast this.symm
    have e : -(a n : ℂ) * Complex.log (1 + -((u : ℂ) * Complex.I)) - a n * ((u : ℂ) * Complex.I) + t ^ 2 / 2 =
        -(a n : ℂ) * (Complex.log (1 + -((u : ℂ) * Complex.I)) - (-((u : ℂ) * Complex.I) - (-((u : ℂ) * Complex.I)) ^ 2 / 2)) := by
      rw [ht]
      have hI : (-((u : ℂ) * Complex.I)) ^ 2 = -(u : ℂ) ^ 2 := by rw [neg_sq, mul_pow, Complex.I_sq]; ring
      rw [hI]
      ring
    rw [e, norm_mul, norm_neg, Complex.norm_real, Real.norm_of_nonneg (ha n).le]
    calc a n * _ ≤ a n * (|u| ^ 3 * (1 - |u|)⁻¹ / 3) := mul_le_mul_of_nonneg_left h2 (ha n).le
      _ = a n * |u| ^ 2 * (|u| * (1 - |u|)⁻¹ / 3) := by ring
      _ = _ := by rw [hsq n]
  have := hsmall.sub_const ((t : ℂ) ^ 2 / 2)
  simp only [add_sub_cancel_right, zero_sub] at this
  convert this using 2
  push_cast
  ring

/-- The chi2 distribution function at a fixed number of standard deviations. -/
theorem chi2Cdf_limit {a : ℕ → ℝ} (ha : ∀ n, 0 < a n) (hl : Tendsto a atTop atTop) (w : ℝ) :
    Tendsto (fun n => chi2Cdf (2 * a n) (2 * a n + 2 * √(a n) * w)) atTop (𝓝 (normCdf w)) := by
  have hP := fun n => scaledChi2_prob (ha n)
  let ν : ℕ → ProbabilityMeasure ℝ := fun n => ⟨scaledChi2 (a n), hP n⟩
  let g : ProbabilityMeasure ℝ := ⟨gaussianReal 0 1, inferInstance⟩
  have hweak : Tendsto ν atTop (𝓝 g) :=
    ProbabilityMeasure.tendsto_iff_tendsto_charFun.2 fun t => scaledChi2_limit ha hl t
  have h1 := ProbabilityMeasure.tendsto_measure_of_null_frontier_of_tendsto' hweak (E := Iic w) (by
    change gaussianReal 0 1 (frontier (Iic w)) = 0
    rw [frontier_Iic]
    have := nullSingletonClass_gaussianReal (μ := 0) (v := 1) one_ne_zero
    exact measure_singleton w)
  have h2 := (ENNReal.tendsto_toReal (measure_ne_top _ _)).comp h1
  refine h2.congr fun n => ?_
  have hs : 0 < √(a n) := Real.sqrt_pos.2 (ha n)
  change (scaledChi2 (a n)).real (Iic w) = (chi2Law (2 * a n)).real (Iic _)
  unfold scaledChi2
  rw [map_measureReal_apply (by fun_prop) measurableSet_Iic]
  congr 1
  ext y
  simp only [mem_preimage, mem_Iic]
  rw [div_le_iff₀ (by positivity)]
  constructor <;> intro h <;> linarith

/-- The quantiles of the chi2 distribution. -/
theorem chi2_quantile_limit {a y : ℕ → ℝ} (ha : ∀ n, 0 < a n) (hl : Tendsto a atTop atTop) {s : ℝ} (hy : ∀ n, chi2Cdf (2 * a n) (y n) = normCdf s) :
    Tendsto (fun n => (y n / 2 - a n) / √(a n)) atTop (𝓝 s) := by
  rw [tendsto_order]
  constructor
  · intro l hlt
    have hlt' : normCdf l < normCdf s := lt_of_not_ge fun h => absurd (normCdf_le_iff.1 h) (not_le.2 hlt)
    filter_upwards [(chi2Cdf_limit ha hl l).eventually (gt_mem_nhds hlt')] with n hn
    rw [← hy n] at hn
    have h1 := lt_of_not_ge fun h => absurd (chi2Cdf_mono (k := 2 * a n) (by have := ha n; positivity) h) (not_le.2 hn)
    rw [lt_div_iff₀ (Real.sqrt_pos.2 (ha n))]
    linarith
  · intro l hlt
    have hlt' : normCdf s < normCdf l := lt_of_not_ge fun h => absurd (normCdf_le_iff.1 h) (not_le.2 hlt)
    filter_upwards [(chi2Cdf_limit ha hl l).eventually (lt_mem_nhds hlt')] with n hn
    rw [← hy n] at hn
    have h1 := lt_of_not_ge fun h => absurd (chi2Cdf_mono (k := 2 * a n) (by have := ha n; positivity) h) (not_le.2 hn)
    rw [div_lt_iff₀ (Real.sqrt_pos.2 (ha n))]
    linarith

/-- What is assumed of the functions used for the exact Poisson uncertainty: the normal distribution function, and quantiles of the chi2 distribution. -/
structure ExactQuantiles (N : OutNum) : Prop where
  norm : N.normcdf = normCdf
  chi2_nonneg : ∀ p k, 0 < p → p < 1 → 0 < k → 0 ≤ N.chi2ppf p k
  chi2 : ∀ p k, 0 < p → p < 1 → 0 < k → chi2Cdf k (N.chi2ppf p k) = p

theorem trueOut_quantiles : ExactQuantiles trueOut :=
  ⟨rfl, fun _ _ h0 h1 hk => (chi2Cdf_ppf hk h0.le h1).1, fun _ _ h0 h1 hk => (chi2Cdf_ppf hk h0.le h1).2⟩

/-- An uncertainty of a count that is positive, and in the ratio 1 to the square root of large counts. -/
structure GoodUnc (σ : ℝ → ℝ) : Prop where
  pos : ∀ m : ℕ, 0 < σ m
  ratio : Tendsto (fun m : ℕ => σ m ^ 2 / m) atTop (𝓝 1)

theorem goodUnc_poisson : GoodUnc poissonUncertainty := by
  refine ⟨fun m => ?_, ?_⟩
  · unfold poissonUncertainty
    split
    · exact Real.sqrt_pos.2 (by linarith)
    · exact one_pos
  · refine tendsto_const_nhds.congr' ?_
    filter_upwards [Filter.eventually_ge_atTop 1] with m hm
    have h1 : (1 : ℝ) ≤ m := by exact_mod_cast hm
    unfold poissonUncertainty
    rw [if_pos h1, Real.sq_sqrt (by linarith), div_self (by linarith)]

/-- **C50.** The exact Poisson uncertainty is positive, and of the size of the square root for large counts. -/
theorem exact_uncertainty_limit {N : OutNum} (h : ExactQuantiles N) : (∀ m : ℕ, 0 < exactPoissonUncertainty N m 1) ∧
    Tendsto (fun m : ℕ => exactPoissonUncertainty N m 1 / √m) atTop (𝓝 1) := by
  set pl := normCdf (-1) with hpl
  set pu := normCdf 1 with hpu
  have hl0 : 0 < pl := normCdf_pos _
  have hl1 : pl < 1 := normCdf_lt_one _
  have hu0 : 0 < pu := normCdf_pos _
  have hu1 : pu < 1 := normCdf_lt_one _
  have hlu : pl < pu := lt_of_not_ge fun h => absurd (normCdf_le_iff.1 h) (by norm_num)
  have eu : ∀ m : ℕ, exactPoissonUncertainty N m 1 = (N.chi2ppf pu (2 * (m + 1)) / 2 - if (m : ℝ) ≠ 0 then N.chi2ppf pl (2 * m) / 2 else 0) / 2 := by
    intro m
    unfold exactPoissonUncertainty
    rw [h.norm]
    norm_num [hpl, hpu]
  constructor
  · intro m
    rw [eu]
    have hb := h.chi2 pu (2 * (m + 1)) hu0 hu1 (by positivity)
    by_cases hm : (m : ℝ) = 0
    · rw [if_neg (by simpa using hm), sub_zero]
      have : 0 < N.chi2ppf pu (2 * (m + 1)) := by
        by_contra hn
        rw [chi2Cdf_zero (not_lt.1 hn)] at hb
        linarith
      linarith
    · rw [if_pos hm]
      have hm' : (0 : ℝ) < m := lt_of_le_of_ne (Nat.cast_nonneg _) (Ne.symm hm)
      have ha := h.chi2 pl (2 * m) hl0 hl1 (by positivity)
      have hlt : N.chi2ppf pl (2 * m) < N.chi2ppf pu (2 * (m + 1)) := by
        by_contra hn
        have h1 := chi2Cdf_mono (k := 2 * m) (by positivity) (not_lt.1 hn)
        have h2 := chi2Cdf_dof (k := 2 * (m : ℝ)) (by positivity) (N.chi2ppf pu (2 * (m + 1)))
        rw [show 2 * (m : ℝ) + 2 = 2 * (m + 1) by ring, hb] at h2
        linarith
      linarith
  · rw [← Filter.tendsto_add_atTop_iff_nat 1]
    have hcast : Tendsto (fun n : ℕ => ((n + 1 : ℕ) : ℝ)) atTop atTop := tendsto_natCast_atTop_atTop.comp (Filter.tendsto_add_atTop_nat 1)
    have hcast2 : Tendsto (fun n : ℕ => ((n + 2 : ℕ) : ℝ)) atTop atTop := tendsto_natCast_atTop_atTop.comp (Filter.tendsto_add_atTop_nat 2)
    have ql := chi2_quantile_limit (a := fun n => ((n + 1 : ℕ) : ℝ)) (fun n => by positivity) hcast (s := -1)
      (y := fun n => N.chi2ppf pl (2 * ((n + 1 : ℕ) : ℝ))) fun n => h.chi2 _ _ hl0 hl1 (by positivity)
    have qu := chi2_quantile_limit (a := fun n => ((n + 2 : ℕ) : ℝ)) (fun n => by positivity) hcast2 (s := 1)
      (y := fun n => N.chi2ppf pu (2 * ((n + 2 : ℕ) : ℝ))) fun n => h.chi2 _ _ hu0 hu1 (by positivity)
    have hs : Tendsto (fun n : ℕ => √((n + 1 : ℕ) : ℝ)) atTop atTop := Real.tendsto_sqrt_atTop.comp hcast
    have hinv : Tendsto (fun n : ℕ => 1 / √((n + 1 : ℕ) : ℝ)) atTop (𝓝 0) := Tendsto.const_div_atTop hs 1
    have hr : Tendsto (fun n : ℕ => √((n + 2 : ℕ) : ℝ) / √((n + 1 : ℕ) : ℝ)) atTop (𝓝 1) := by
      have h1 : Tendsto (fun n : ℕ => ((n + 2 : ℕ) : ℝ) / ((n + 1 : ℕ) : ℝ)) atTop (𝓝 1) := by
        have := (Tendsto.const_div_atTop hcast (1 : ℝ)).const_add 1
        rw [add_zero] at this
        refine this.congr fun n => ?_
        push_cast
        have : (n : ℝ) + 1 ≠ 0 := by positivity
        field_simp
        ring
      have h2 := (Real.continuous_sqrt.tendsto 1).comp h1
      rw [Real.sqrt_one] at h2
      refine h2.congr fun n => ?_
      simp only [Function.comp]
      exact Real.sqrt_div (Nat.cast_nonneg _) _
    have := ((((qu.mul hr).add hinv).sub ql).div_const 2)
    norm_num at this
    refine this.congr fun n => ?_
    have e1 : √((n : ℝ) + 1) ≠ 0 := (Real.sqrt_pos.2 (by positivity)).ne'
    have e2 : √((n : ℝ) + 2) ≠ 0 := (Real.sqrt_pos.2 (by positivity)).ne'
    rw [eu (n + 1)]
    push_cast
    rw [if_pos (by positivity), show 2 * ((n : ℝ) + 1 + 1) = 2 * (n + 2) by ring]
    field_simp
    ring

theorem goodUnc_exact {N : OutNum} (h : ExactQuantiles N) : GoodUnc fun x => exactPoissonUncertainty N x 1 := by
  obtain ⟨h1, h2⟩ := exact_uncertainty_limit h
  refine ⟨h1, ?_⟩
  have := h2.pow 2
  rw [one_pow] at this
  refine this.congr fun m => ?_
  rw [div_pow, Real.sq_sqrt (Nat.cast_nonneg _)]

end Phik.Props
