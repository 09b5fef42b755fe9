import Verif.Spec.Significance
import Mathlib.Probability.Distributions.Gaussian.Real
import Mathlib.Probability.Distributions.Gamma
import Mathlib.Probability.CDF

/-!
# The true chi2 and normal distribution satisfy the contract `SigSpec`
-/

namespace Phik.Props

open Phik.Spec MeasureTheory ProbabilityTheory Set

/-- The chi2 distribution with `k` degrees of freedom is the gamma distribution with shape `k / 2` and
rate 1/2. -/
noncomputable def chi2Law (k : ℝ) : Measure ℝ := gammaMeasure (k / 2) (1 / 2)

/-- Distribution function of the standard normal distribution. -/
noncomputable def normCdf (x : ℝ) : ℝ := (gaussianReal 0 1).real (Iic x)

/-- Its quantile function. -/
noncomputable def normPpf (p : ℝ) : EReal := sInf ((fun x : ℝ => (x : EReal)) '' {x | p ≤ normCdf x})

open scoped Classical in
/-- The true distribution functions; the minimiser stays at its starting point. -/
noncomputable def trueSig : SigNum where
  chi2sf x k := if k ≤ 0 then none else some ((chi2Law k).real (Ioi x))
  normsf x m s := if s ≤ 0 then none else some ((gaussianReal m (s ^ 2).toNNReal).real (Ioi x))
  chi2pdf x k := if k ≤ 0 then none else some (gammaPDFReal (k / 2) (1 / 2) x)
  normpdf x m s := if s ≤ 0 then none else some (gaussianPDFReal m (s ^ 2).toNNReal x)
  ppf := normPpf
  lsq res := if none ∈ res 1 then .error .value else .ok 1

instance chi2Law_prob {k : ℝ} [hk : Fact (0 < k)] : IsProbabilityMeasure (chi2Law k) :=
  isProbabilityMeasure_gammaMeasure (half_pos hk.out) (by norm_num)

theorem gauss_pos_of_interval {m : ℝ} {v : NNReal} (hv : v ≠ 0) {a b : ℝ} (h : a < b) :
    0 < (gaussianReal m v) (Ioo a b) := by
  by_contra h0
  have h1 : gaussianReal m v (Ioo a b) = 0 := by simpa using h0
  have h2 := gaussianReal_absolutelyContinuous' m hv h1
  rw [Real.volume_Ioo, ENNReal.ofReal_eq_zero] at h2
  linarith

theorem normCdf_lt {x y : ℝ} (h : x < y) : normCdf x < normCdf y := by
  have h1 : Iic y = Iic x ∪ Ioc x y := (Iic_union_Ioc_eq_Iic h.le).symm
  have h2 : (gaussianReal 0 1).real (Iic y) =
      (gaussianReal 0 1).real (Iic x) + (gaussianReal 0 1).real (Ioc x y) := by
    rw [h1]
    exact measureReal_union (by
      rw [Set.disjoint_left]; intro z hz hz'; exact absurd hz'.1 (not_lt.2 hz)) measurableSet_Ioc
  unfold normCdf
  rw [h2]
  have h3 : 0 < (gaussianReal 0 1).real (Ioc x y) := by
    rw [measureReal_def]
    refine ENNReal.toReal_pos ?_ (measure_ne_top _ _)
    exact ((gauss_pos_of_interval (by norm_num) h).trans_le (measure_mono Ioo_subset_Ioc_self)).ne'
  linarith

theorem normCdf_zero : normCdf 0 = 1 / 2 := by
  have h1 : (gaussianReal 0 1).real (Iic 0) = (gaussianReal 0 1).real (Ici 0) := by
    have h := gaussianReal_map_neg (μ := 0) (v := 1)
    rw [neg_zero] at h
    conv_lhs => rw [← h]
    rw [measureReal_def, Measure.map_apply measurable_neg measurableSet_Iic, measureReal_def]
    congr 2
    ext x; simp
  have := nullSingletonClass_gaussianReal (μ := 0) (v := 1) one_ne_zero
  have h2 : (gaussianReal 0 1).real (Ici 0) = (gaussianReal 0 1).real (Ioi 0) := by
    rw [measureReal_def, measureReal_def, measure_congr Ioi_ae_eq_Ici]
  have h3 : (gaussianReal 0 1).real (Iic 0) + (gaussianReal 0 1).real (Ioi 0) = 1 := by
    rw [← measureReal_union (by rw [Set.disjoint_left]; intro z hz hz'; exact absurd (mem_Ioi.1 hz') (not_lt.2 hz))
      measurableSet_Ioi, Iic_union_Ioi]
    simp
  unfold normCdf
  linarith

theorem normCdf_nonneg (x : ℝ) : 0 ≤ normCdf x := measureReal_nonneg

theorem normCdf_pos (x : ℝ) : 0 < normCdf x :=
  lt_of_le_of_lt (normCdf_nonneg (x - 1)) (normCdf_lt (by linarith))

theorem normCdf_lt_one (x : ℝ) : normCdf x < 1 :=
  lt_of_lt_of_le (normCdf_lt (show x < x + 1 by linarith)) measureReal_le_one

theorem normPpf_mono : Monotone normPpf := fun _ _ h =>
  sInf_le_sInf (image_mono fun _ hx => h.trans hx)

theorem exists_normCdf_ge {p : ℝ} (h : p < 1) : ∃ x, p ≤ normCdf x := by
  have h1 := tendsto_cdf_atTop (gaussianReal 0 1)
  obtain ⟨x, hx⟩ := (h1.eventually (eventually_gt_nhds h)).exists
  exact ⟨x, by rw [normCdf, ← cdf_eq_real]; exact hx.le⟩

theorem exists_normCdf_lt {p : ℝ} (h : 0 < p) : ∃ x, normCdf x < p := by
  have h1 := tendsto_cdf_atBot (gaussianReal 0 1)
  obtain ⟨x, hx⟩ := (h1.eventually (eventually_lt_nhds h)).exists
  exact ⟨x, by rw [normCdf, ← cdf_eq_real]; exact hx⟩

theorem normCdf_le_iff {x y : ℝ} : normCdf x ≤ normCdf y ↔ x ≤ y :=
  ⟨fun h => by by_contra h'; exact absurd (normCdf_lt (not_le.1 h')) (not_lt.2 h), fun h => by
    rcases h.eq_or_lt with rfl | h
    · rfl
    · exact (normCdf_lt h).le⟩

/-- The quantile function inverts the distribution function. -/
theorem normPpf_cdf (x : ℝ) : normPpf (normCdf x) = x := by
  unfold normPpf
  apply le_antisymm
  · exact sInf_le ⟨x, le_refl (normCdf x), rfl⟩
  · refine le_sInf ?_
    rintro _ ⟨y, hy, rfl⟩
    exact EReal.coe_le_coe_iff.2 (normCdf_le_iff.1 hy)

theorem normCdf_cont : Continuous normCdf := by
  have := nullSingletonClass_gaussianReal (μ := 0) (v := 1) one_ne_zero
  have : normCdf = cdf (gaussianReal 0 1) := by funext x; rw [cdf_eq_real]; rfl
  rw [this, continuous_iff_continuousAt]
  intro x
  rw [(monotone_cdf _).continuousAt_iff_leftLim_eq_rightLim, (cdf (gaussianReal 0 1)).rightLim_eq]
  have h1 := (cdf (gaussianReal 0 1)).measure_singleton x
  rw [measure_cdf, measure_singleton, eq_comm, ENNReal.ofReal_eq_zero] at h1
  have h2 := (monotone_cdf (gaussianReal 0 1)).leftLim_le (le_refl x)
  linarith

theorem normCdf_surj {p : ℝ} (h0 : 0 < p) (h1 : p < 1) : ∃ x, normCdf x = p := by
  obtain ⟨a, ha⟩ := exists_normCdf_lt h0
  obtain ⟨b, hb⟩ := exists_normCdf_ge h1
  exact mem_range_of_exists_le_of_exists_ge normCdf_cont ⟨a, ha.le⟩ ⟨b, hb⟩

theorem normPpf_strictMono : StrictMonoOn normPpf (Icc 0 1) := by
  have hbot : normPpf 0 = ⊥ := by
    rw [eq_bot_iff]
    refine EReal.le_of_forall_lt_iff_le.1 ?_
    intro z hz
    exact sInf_le ⟨z, normCdf_nonneg z, rfl⟩
  have htop : normPpf 1 = ⊤ := by
    unfold normPpf
    have : {x | 1 ≤ normCdf x} = ∅ := by
      ext x; simp [normCdf_lt_one x]
    rw [this, image_empty, sInf_empty]
  intro p hp q hq hpq
  rcases hp.1.eq_or_lt with h0 | h0
  · rcases hq.2.eq_or_lt with h1 | h1
    · rw [← h0, h1, hbot, htop]; exact bot_lt_top
    · obtain ⟨y, rfl⟩ := normCdf_surj (h0 ▸ hpq) h1
      rw [← h0, hbot, normPpf_cdf]; exact EReal.bot_lt_coe y
  · obtain ⟨x, rfl⟩ := normCdf_surj h0 (hpq.trans_le hq.2)
    rcases hq.2.eq_or_lt with h1 | h1
    · rw [h1, htop, normPpf_cdf]; exact EReal.coe_lt_top x
    · obtain ⟨y, rfl⟩ := normCdf_surj (h0.trans hpq) h1
      rw [normPpf_cdf, normPpf_cdf, EReal.coe_lt_coe_iff]
      by_contra h
      exact absurd hpq (not_lt.2 (normCdf_le_iff.2 (not_lt.1 h)))


theorem normPpf_zero : normPpf 0 = ⊥ := by
  rw [eq_bot_iff]
  refine EReal.le_of_forall_lt_iff_le.1 ?_
  intro z _
  exact sInf_le ⟨z, normCdf_nonneg z, rfl⟩

theorem normPpf_one : normPpf 1 = ⊤ := by
  unfold normPpf
  have : {x | 1 ≤ normCdf x} = ∅ := by
    ext x; simp [normCdf_lt_one x]
  rw [this, image_empty, sInf_empty]

theorem normPpf_half : normPpf (1 / 2) = 0 := by
  rw [← normCdf_zero, normPpf_cdf]; rfl

theorem gamma_nonpos {a : ℝ} : gammaMeasure a (1 / 2) (Iio 0) = 0 := by
  rw [gammaMeasure, withDensity_apply _ measurableSet_Iio]
  exact lintegral_gammaPDF_of_nonpos le_rfl

/-- The true distribution functions satisfy the contract. -/
theorem trueSig_spec : SigSpec trueSig where
  chi2_nan x k h := by simp [trueSig, h]
  chi2_range x k h := by
    have : Fact (0 < k) := ⟨h⟩
    exact ⟨(chi2Law k).real (Ioi x), by simp [trueSig, not_le.2 h], measureReal_nonneg, measureReal_le_one⟩
  chi2_anti x y k p q hxy hp hq := by
    by_cases h : k ≤ 0
    · simp [trueSig, h] at hp
    · have : Fact (0 < k) := ⟨not_le.1 h⟩
      simp only [trueSig, h, if_false, Option.some.injEq] at hp hq
      rw [← hp, ← hq]
      exact measureReal_mono (Ioi_subset_Ioi hxy)
  chi2_start k h := by
    have : Fact (0 < k) := ⟨h⟩
    have h0 : chi2Law k (Iic 0) = 0 := by
      have h1 : chi2Law k ≪ volume := withDensity_absolutelyContinuous _ _
      have h2 : chi2Law k {0} = 0 := h1 (by simp)
      have h3 : (Iic 0 : Set ℝ) = Iio 0 ∪ {0} := by ext x; simp [le_iff_lt_or_eq]
      rw [h3]
      exact measure_union_null gamma_nonpos h2
    have h4 : chi2Law k (Ioi 0) = 1 := by
      rw [← compl_Iic, prob_compl_eq_one_iff measurableSet_Iic]; exact h0
    simp [trueSig, not_le.2 h, measureReal_def, h4]
  norm_nan x m s h := by simp [trueSig, h]
  norm_range x m s h := ⟨(gaussianReal m (s ^ 2).toNNReal).real (Ioi x), by simp [trueSig, not_le.2 h], measureReal_nonneg, measureReal_le_one⟩
  norm_anti x y m s p q hxy hp hq := by
    by_cases h : s ≤ 0
    · simp [trueSig, h] at hp
    · simp only [trueSig, h, if_false, Option.some.injEq] at hp hq
      rw [← hp, ← hq]
      exact measureReal_mono (Ioi_subset_Ioi hxy)
  chi2pdf_nonneg x k d h := by
    by_cases hk : k ≤ 0
    · simp [trueSig, hk] at h
    · simp only [trueSig, hk, if_false, Option.some.injEq] at h
      rw [← h]
      exact gammaPDFReal_nonneg (by linarith [not_le.1 hk]) (by norm_num) x
  normpdf_nonneg x m s d h := by
    by_cases hk : s ≤ 0
    · simp [trueSig, hk] at h
    · simp only [trueSig, hk, if_false, Option.some.injEq] at h
      rw [← h]
      exact gaussianPDFReal_nonneg _ _ _
  ppf_mono := normPpf_mono.monotoneOn _
  ppf_zero := normPpf_zero
  ppf_one := normPpf_one
  ppf_half := normPpf_half
  ppf_neg p h0 h1 := by
    have := normPpf_strictMono ⟨h0, by linarith⟩ ⟨by norm_num, by norm_num⟩ h1
    rwa [normPpf_half] at this
  ppf_pos p h0 h1 := by
    have := normPpf_strictMono ⟨by norm_num, by norm_num⟩ ⟨by linarith, h1⟩ h0
    rwa [normPpf_half] at this
  ppf_finite p h0 h1 := by
    obtain ⟨x, rfl⟩ := normCdf_surj h0 h1
    change normPpf _ ≠ _ ∧ normPpf _ ≠ _
    rw [normPpf_cdf]
    exact ⟨EReal.coe_ne_bot x, EReal.coe_ne_top x⟩
  lsq_bounds res f h := by
    simp only [trueSig] at h
    split at h
    · cases h
    · cases h; norm_num
  lsq_nan res h := by simp [trueSig, h]

end Phik.Props
