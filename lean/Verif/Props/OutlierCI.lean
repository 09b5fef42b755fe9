import Verif.Props.OutlierP
import Mathlib.MeasureTheory.Integral.IntervalIntegral.FundThmCalculus

/-!
# Property C50: the exact Poisson uncertainty
-/

namespace Phik.Props
open Phik.Spec Phik.Out Phik.BetaCF MeasureTheory ProbabilityTheory Set Filter Topology

/-- What is assumed of the quantiles of the chi2 distribution: not negative, and not smaller for a larger
probability and two more degrees of freedom. (`trueOut_quant` shows that the true functions satisfy this.) -/
structure QuantSpec (N : OutNum) : Prop where
  norm_mono : Monotone N.normcdf
  norm_range : ∀ x, 0 < N.normcdf x ∧ N.normcdf x < 1
  chi2_nonneg : ∀ p k, 0 < p → p < 1 → 0 < k → 0 ≤ N.chi2ppf p k
  chi2_mono : ∀ p q k, 0 < p → p ≤ q → q < 1 → 0 < k → N.chi2ppf p k ≤ N.chi2ppf q (k + 2)

/-- **C50.** The exact uncertainty is half the width of an interval with non-negative ends, and is not negative, for every
`x ≥ 0` and number of sigmas. -/
theorem exact_uncertainty {N : OutNum} (h : QuantSpec N) {x n : ℝ} (hx : 0 ≤ x) (hn : 0 ≤ n) :
    ∃ lb ub : ℝ, exactPoissonUncertainty N x n = (ub - lb) / 2 ∧ 0 ≤ lb ∧ lb ≤ ub ∧ (x = 0 → lb = 0) ∧
      (x ≠ 0 → lb = N.chi2ppf (N.normcdf (-n)) (2 * x) / 2) ∧ ub = N.chi2ppf (N.normcdf n) (2 * x + 2) / 2 := by
  have hp := h.norm_range (-n)
  have hq := h.norm_range n
  have hpq : N.normcdf (-n) ≤ N.normcdf n := h.norm_mono (by linarith)
  have e : 2 * (x + 1) = 2 * x + 2 := by ring
  by_cases h0 : x = 0
  · refine ⟨0, _, ?_, le_rfl, ?_, fun _ => rfl, fun hx => absurd h0 hx, rfl⟩
    · simp [exactPoissonUncertainty, h0]
    · have := h.chi2_nonneg (N.normcdf n) (2 * x + 2) hq.1 hq.2 (by linarith)
      linarith
  · have hx' : 0 < 2 * x := by positivity
    refine ⟨_, _, ?_, ?_, ?_, fun hx => absurd hx h0, fun _ => rfl, rfl⟩
    · simp [exactPoissonUncertainty, h0, e]
    · have := h.chi2_nonneg (N.normcdf (-n)) (2 * x) hp.1 hp.2 hx'
      linarith
    · have := h.chi2_mono _ _ (2 * x) hp.1 hpq hq.2 hx'
      linarith

/-! ### The true functions -/

/-- Distribution function of the chi2 distribution. -/
noncomputable def chi2Cdf (k x : ℝ) : ℝ := (chi2Law k).real (Iic x)

theorem chi2Law_eq (k : ℝ) {s : Set ℝ} (hs : MeasurableSet s) :
    chi2Law k s = ∫⁻ y in s, gammaPDF (k / 2) (1 / 2) y := by
  rw [chi2Law, gammaMeasure, withDensity_apply _ hs]

theorem pdf_ratio {k : ℝ} (hk : 0 < k) {y : ℝ} (hy : 0 ≤ y) :
    gammaPDFReal ((k + 2) / 2) (1 / 2) y = gammaPDFReal (k / 2) (1 / 2) y * (y / k) := by
  unfold gammaPDFReal
  rw [if_pos hy, if_pos hy]
  have e : (k + 2) / 2 = k / 2 + 1 := by ring
  have hg := Real.Gamma_pos_of_pos (half_pos hk)
  rw [e, Real.Gamma_add_one (half_pos hk).ne', Real.rpow_add_one (by norm_num), add_sub_cancel_right]
  have e2 : y ^ (k / 2 : ℝ) = y ^ (k / 2 - 1 : ℝ) * y := by
    rcases eq_or_lt_of_le hy with rfl | hy'
    · rw [mul_zero, Real.zero_rpow (half_pos hk).ne']
    · rw [← Real.rpow_add_one hy'.ne', sub_add_cancel]
  rw [e2]
  field_simp

/-- Two more degrees of freedom shift the chi2 distribution upwards. -/
theorem chi2Cdf_dof {k : ℝ} (hk : 0 < k) (x : ℝ) : chi2Cdf (k + 2) x ≤ chi2Cdf k x := by
  have f1 : Fact (0 < k) := ⟨hk⟩
  have f2 : Fact (0 < k + 2) := ⟨by linarith⟩
  unfold chi2Cdf
  by_cases hx : x ≤ k
  · refine ENNReal.toReal_mono (measure_ne_top _ _) ?_
    rw [chi2Law_eq _ measurableSet_Iic, chi2Law_eq _ measurableSet_Iic]
    refine setLIntegral_mono (by unfold gammaPDF; fun_prop) fun y hy => ?_
    unfold gammaPDF
    refine ENNReal.ofReal_le_ofReal ?_
    by_cases h0 : 0 ≤ y
    · rw [pdf_ratio hk h0]
      have h1 := gammaPDFReal_nonneg (half_pos hk) (by norm_num : (0 : ℝ) < 1 / 2) y
      have h2 : y / k ≤ 1 := by rw [div_le_one hk]; exact le_trans hy hx
      exact mul_le_of_le_one_right h1 h2
    · unfold gammaPDFReal; rw [if_neg h0, if_neg h0]
  · have e : ∀ k' [Fact (0 < k')], (chi2Law k').real (Iic x) = 1 - (chi2Law k').real (Ioi x) := by
      intro k' _
      rw [← compl_Ioi, probReal_compl_eq_one_sub measurableSet_Ioi]
    rw [e k, e (k + 2)]
    have : (chi2Law k).real (Ioi x) ≤ (chi2Law (k + 2)).real (Ioi x) := by
      refine ENNReal.toReal_mono (measure_ne_top _ _) ?_
      rw [chi2Law_eq _ measurableSet_Ioi, chi2Law_eq _ measurableSet_Ioi]
      refine setLIntegral_mono (by unfold gammaPDF; fun_prop) fun y hy => ?_
      unfold gammaPDF
      refine ENNReal.ofReal_le_ofReal ?_
      have hyk : k < y := lt_trans (not_le.1 hx) hy
      rw [pdf_ratio hk (by linarith)]
      have h1 := gammaPDFReal_nonneg (half_pos hk) (by norm_num : (0 : ℝ) < 1 / 2) y
      have h2 : 1 ≤ y / k := by rw [one_le_div hk]; exact hyk.le
      exact le_mul_of_one_le_right h1 h2
    linarith

theorem chi2Cdf_eq {k : ℝ} (hk : 0 < k) (x : ℝ) : chi2Cdf k x = cdf (chi2Law k) x := by
  have f1 : Fact (0 < k) := ⟨hk⟩
  rw [cdf_eq_real]; rfl

theorem chi2Cdf_mono {k : ℝ} (hk : 0 < k) : Monotone (chi2Cdf k) := by
  intro x y h
  rw [chi2Cdf_eq hk, chi2Cdf_eq hk]
  exact monotone_cdf _ h

theorem chi2Law_noAtom (k x : ℝ) : chi2Law k {x} = 0 := by
  have h1 : chi2Law k ≪ volume := withDensity_absolutelyContinuous _ _
  exact h1 (by simp)

theorem chi2Cdf_cont {k : ℝ} (hk : 0 < k) : Continuous (chi2Cdf k) := by
  have f1 : Fact (0 < k) := ⟨hk⟩
  have e : chi2Cdf k = cdf (chi2Law k) := funext (chi2Cdf_eq hk)
  rw [e, continuous_iff_continuousAt]
  intro x
  rw [(monotone_cdf (chi2Law k)).continuousAt_iff_leftLim_eq_rightLim]
  rw [(cdf (chi2Law k)).rightLim_eq]
  have h := (cdf (chi2Law k)).measure_singleton x
  rw [measure_cdf, chi2Law_noAtom] at h
  have h2 := ENNReal.ofReal_eq_zero.1 h.symm
  have h3 := (monotone_cdf (chi2Law k)).leftLim_le (le_refl x)
  linarith

theorem chi2Cdf_zero {k : ℝ} {x : ℝ} (hx : x ≤ 0) : chi2Cdf k x = 0 := by
  have h3 : (Iic 0 : Set ℝ) = Iio 0 ∪ {0} := by ext x; simp [le_iff_lt_or_eq]
  have h4 : chi2Law k (Iic 0) = 0 := by
    rw [h3]; exact measure_union_null gamma_nonpos (chi2Law_noAtom k 0)
  unfold chi2Cdf
  rw [measureReal_def, measure_mono_null (Iic_subset_Iic.2 hx) h4]
  rfl

theorem exists_chi2Cdf {k p : ℝ} (hk : 0 < k) (h0 : 0 ≤ p) (h1 : p < 1) : ∃ x, 0 ≤ x ∧ chi2Cdf k x = p := by
  have f1 : Fact (0 < k) := ⟨hk⟩
  have e : chi2Cdf k = cdf (chi2Law k) := funext (chi2Cdf_eq hk)
  have ht : Tendsto (chi2Cdf k) atTop (𝓝 1) := by rw [e]; exact tendsto_cdf_atTop _
  obtain ⟨y, hy⟩ := (ht.eventually (lt_mem_nhds h1)).exists
  have hy0 : 0 ≤ max y 0 := le_max_right _ _
  have hpy : p ≤ chi2Cdf k (max y 0) := hy.le.trans (chi2Cdf_mono hk (le_max_left _ _))
  obtain ⟨x, hx, hx2⟩ := intermediate_value_Icc hy0 (chi2Cdf_cont hk).continuousOn
    (show p ∈ Icc (chi2Cdf k 0) (chi2Cdf k (max y 0)) from ⟨by rw [chi2Cdf_zero le_rfl]; exact h0, hpy⟩)
  exact ⟨x, hx.1, hx2⟩

/-- The quantile function inverts the distribution function. -/
theorem chi2Cdf_ppf {k p : ℝ} (hk : 0 < k) (h0 : 0 ≤ p) (h1 : p < 1) :
    0 ≤ trueOut.chi2ppf p k ∧ chi2Cdf k (trueOut.chi2ppf p k) = p := by
  obtain ⟨x, hx, hxp⟩ := exists_chi2Cdf hk h0 h1
  set S : Set ℝ := {x | 0 ≤ x ∧ p ≤ chi2Cdf k x} with hS
  have hne : S.Nonempty := ⟨x, hx, hxp.ge⟩
  have hbdd : BddBelow S := ⟨0, fun y hy => hy.1⟩
  have hcl : IsClosed S := by
    have := (isClosed_Ici (a := (0 : ℝ))).inter (isClosed_le continuous_const (chi2Cdf_cont hk) (f := fun _ => p))
    exact this
  have hmem : sInf S ∈ S := hcl.csInf_mem hne hbdd
  have hle : sInf S ≤ x := csInf_le hbdd ⟨hx, hxp.ge⟩
  exact ⟨hmem.1, le_antisymm ((chi2Cdf_mono hk hle).trans hxp.le) hmem.2⟩

/-- The true functions satisfy the contract. -/
theorem trueOut_quant : QuantSpec trueOut where
  norm_mono x y h := normCdf_le_iff.2 h
  norm_range x := ⟨normCdf_pos x, normCdf_lt_one x⟩
  chi2_nonneg p k h0 h1 hk := (chi2Cdf_ppf hk h0.le h1).1
  chi2_mono p q k h0 hpq h1 hk := by
    obtain ⟨g1, g2⟩ := chi2Cdf_ppf (k := k + 2) (by linarith) (h0.trans_le hpq).le h1
    refine csInf_le ⟨0, fun y hy => hy.1⟩ ⟨g1, ?_⟩
    calc p ≤ q := hpq
      _ = chi2Cdf (k + 2) _ := g2.symm
      _ ≤ chi2Cdf k _ := chi2Cdf_dof hk _

/-- The chi2 distribution with `2 n` degrees of freedom and the Poisson distribution. -/
theorem chi2_poisson {n : ℕ} (hn : n ≠ 0) {m : ℝ} (hm : 0 ≤ m) :
    chi2Cdf (2 * n) (2 * m) = (poissonMeasure m.toNNReal).real {k | n ≤ k} := by
  obtain ⟨n, rfl⟩ := Nat.exists_eq_succ_of_ne_zero hn
  have hk : (0 : ℝ) < 2 * ((n + 1 : ℕ) : ℝ) := by positivity
  rw [poisson_tail, Real.coe_toNNReal m hm, chi2Cdf_eq hk]
  unfold chi2Law
  rw [cdf_gammaMeasure_eq_integral (by positivity) (by norm_num)]
  -- the density
  have hd : ∀ x : ℝ, HasDerivAt (fun x : ℝ => 1 - ∑ k ∈ Finset.range (n + 1), Real.exp (-(x / 2)) * (x / 2) ^ k / k.factorial)
      (1 / 2 * (Real.exp (-(x / 2)) * (x / 2) ^ n / n.factorial)) x := by
    intro x
    induction n with
    | zero =>
      have h := ((((hasDerivAt_id x).div_const 2).neg).exp).const_sub 1
      simpa [mul_comm] using h
    | succ n ih =>
      have ih := ih (by omega) (by positivity)
      have hp := ((((hasDerivAt_id x).div_const 2).neg).exp).mul (((hasDerivAt_id x).div_const 2).pow (n + 1))
      have h := ih.sub (hp.div_const ((n + 1).factorial : ℝ))
      refine (h.congr_deriv ?_).congr_of_eventuallyEq (Eventually.of_forall fun y => ?_)
      · have f1 : ((n + 1).factorial : ℝ) = (n + 1) * n.factorial := by rw [Nat.factorial_succ]; push_cast; ring
        have f2 : (n.factorial : ℝ) ≠ 0 := by positivity
        have f3 : ((n : ℝ) + 1) ≠ 0 := by positivity
        simp only [id, Nat.cast_add, Nat.cast_one, Nat.add_sub_cancel]
        rw [f1]
        field_simp
        simp
        ring
      · show 1 - ∑ k ∈ Finset.range (n + 1 + 1), Real.exp (-(y / 2)) * (y / 2) ^ k / (k.factorial : ℝ) =
          1 - ∑ k ∈ Finset.range (n + 1), Real.exp (-(y / 2)) * (y / 2) ^ k / (k.factorial : ℝ) -
            Real.exp (-(y / 2)) * (y / 2) ^ (n + 1) / ((n + 1).factorial : ℝ)
        rw [Finset.sum_range_succ _ (n + 1)]
        ring
  have hint : ∫ x in (0 : ℝ)..(2 * m), 1 / 2 * (Real.exp (-(x / 2)) * (x / 2) ^ n / n.factorial) =
      (1 - ∑ k ∈ Finset.range (n + 1), Real.exp (-(2 * m / 2)) * (2 * m / 2) ^ k / k.factorial) -
      (1 - ∑ k ∈ Finset.range (n + 1), Real.exp (-((0 : ℝ) / 2)) * (0 / 2) ^ k / k.factorial) :=
    intervalIntegral.integral_eq_sub_of_hasDerivAt (fun x _ => hd x) (by
      apply Continuous.intervalIntegrable; fun_prop)
  have h0 : ∑ k ∈ Finset.range (n + 1), Real.exp (-((0 : ℝ) / 2)) * (0 / 2) ^ k / (k.factorial : ℝ) = 1 := by
    rw [Finset.sum_range_succ']
    simp
  rw [h0, sub_self, sub_zero, mul_div_cancel_left₀ m two_ne_zero] at hint
  rw [← hint, intervalIntegral.integral_of_le (by linarith)]
  have hsplit : Iic (2 * m) = Iic 0 ∪ Ioc 0 (2 * m) := (Iic_union_Ioc_eq_Iic (by linarith)).symm
  have hz : ∫ x in Iic (0 : ℝ), gammaPDFReal (2 * ((n + 1 : ℕ) : ℝ) / 2) (1 / 2) x = 0 := by
    rw [integral_Iic_eq_integral_Iio]
    refine setIntegral_eq_zero_of_forall_eq_zero fun x hx => ?_
    unfold gammaPDFReal
    rw [if_neg (not_le.2 hx)]
  have hne : ∫ x in Ioc 0 (2 * m), gammaPDFReal (2 * ((n + 1 : ℕ) : ℝ) / 2) (1 / 2) x =
      ∫ x in Ioc 0 (2 * m), 1 / 2 * (Real.exp (-(x / 2)) * (x / 2) ^ n / n.factorial) := by
    refine setIntegral_congr_fun measurableSet_Ioc fun x hx => ?_
    unfold gammaPDFReal
    rw [if_pos hx.1.le, mul_div_cancel_left₀ _ (two_ne_zero), Nat.cast_add, Nat.cast_one, Real.Gamma_nat_eq_factorial,
      add_sub_cancel_right, Real.rpow_natCast, ← Nat.cast_one, ← Nat.cast_add, Real.rpow_natCast]
    have : -(1 / 2 * x) = -(x / 2) := by ring
    push_cast
    rw [this, div_pow x 2, div_pow 1 2, pow_succ 2, one_pow]
    field_simp
  have hi : IntegrableOn (gammaPDFReal (2 * ((n + 1 : ℕ) : ℝ) / 2) (1 / 2)) (Iic (2 * m)) := by
    have hI : Integrable (gammaPDFReal (2 * ((n + 1 : ℕ) : ℝ) / 2) (1 / 2)) := by
      refine ⟨(stronglyMeasurable_gammaPDFReal _ _).aestronglyMeasurable, ?_⟩
      rw [hasFiniteIntegral_iff_ofReal (ae_of_all _ fun x => gammaPDFReal_nonneg (by positivity) (by norm_num) x)]
      have := lintegral_gammaPDF_eq_one (a := 2 * ((n + 1 : ℕ) : ℝ) / 2) (r := 1 / 2) (by positivity) (by norm_num)
      unfold gammaPDF at this
      rw [this]
      exact ENNReal.one_lt_top
    exact hI.integrableOn
  rw [hsplit, setIntegral_union (by
    rw [Set.disjoint_left]; intro z hz hz'; exact absurd hz'.1 (not_lt.2 hz)) measurableSet_Ioc
    (hi.mono_set (Iic_subset_Iic.2 (by linarith))) (hi.mono_set fun x hx => hx.2), hz, zero_add, hne]

theorem normCdf_neg (x : ℝ) : normCdf (-x) = 1 - normCdf x := by
  have h1 : (gaussianReal 0 1).real (Iic (-x)) = (gaussianReal 0 1).real (Ici x) := by
    have h := gaussianReal_map_neg (μ := 0) (v := 1)
    rw [neg_zero] at h
    conv_lhs => rw [← h]
    rw [measureReal_def, Measure.map_apply measurable_neg measurableSet_Iic, measureReal_def]
    congr 2
    ext y; simp
  have := nullSingletonClass_gaussianReal (μ := 0) (v := 1) one_ne_zero
  have h2 : (gaussianReal 0 1).real (Ici x) = (gaussianReal 0 1).real (Ioi x) := by
    rw [measureReal_def, measureReal_def, measure_congr Ioi_ae_eq_Ici]
  unfold normCdf
  rw [h1, h2, ← compl_Iic, probReal_compl_eq_one_sub measurableSet_Iic]

/-- **C50.** With exact functions, the interval is the exact one for the mean of a Poisson distribution given
`x` counts: at its upper end, `x` counts or less have the probability of a normal deviation below `-n` sigma; at
its lower end (0 if there are no counts), the same holds for `x` counts or more. -/
theorem exact_interval (x : ℕ) {n : ℝ} (hn : 0 ≤ n) :
    ∃ lb ub : ℝ, exactPoissonUncertainty trueOut x n = (ub - lb) / 2 ∧ 0 ≤ lb ∧ lb ≤ ub ∧
      (poissonMeasure ub.toNNReal).real {k | k ≤ x} = normCdf (-n) ∧
      (x = 0 → lb = 0) ∧ (x ≠ 0 → (poissonMeasure lb.toNNReal).real {k | x ≤ k} = normCdf (-n)) := by
  obtain ⟨lb, ub, h1, h2, h3, h4, h5, h6⟩ := exact_uncertainty trueOut_quant (x := x) (Nat.cast_nonneg _) hn
  refine ⟨lb, ub, h1, h2, h3, ?_, fun h => h4 (by exact_mod_cast h), fun h => ?_⟩
  · have hub : 0 ≤ ub := h2.trans h3
    obtain ⟨g1, g2⟩ := chi2Cdf_ppf (k := 2 * ((x + 1 : ℕ) : ℝ)) (p := normCdf n) (by positivity) (normCdf_pos n).le
      (normCdf_lt_one n)
    have e : 2 * ((x + 1 : ℕ) : ℝ) = 2 * (x : ℝ) + 2 := by push_cast; ring
    have e2 : trueOut.chi2ppf (normCdf n) (2 * ((x + 1 : ℕ) : ℝ)) = 2 * ub := by
      rw [h6, e]
      show _ = 2 * (trueOut.chi2ppf (normCdf n) _ / 2)
      ring
    rw [e2, chi2_poisson (by omega) hub] at g2
    have e3 : {k : ℕ | k ≤ x} = {k | x + 1 ≤ k}ᶜ := by
      ext k
      show k ≤ x ↔ ¬ (x + 1 ≤ k)
      omega
    rw [e3, probReal_compl_eq_one_sub (MeasurableSet.of_discrete), g2, normCdf_neg]
  · have hx' : (x : ℝ) ≠ 0 := by exact_mod_cast h
    obtain ⟨g1, g2⟩ := chi2Cdf_ppf (k := 2 * (x : ℝ)) (p := normCdf (-n)) (by positivity) (normCdf_pos _).le
      (normCdf_lt_one _)
    have e2 : trueOut.chi2ppf (normCdf (-n)) (2 * (x : ℝ)) = 2 * lb := by
      rw [h5 hx']
      show _ = 2 * (trueOut.chi2ppf (normCdf (-n)) _ / 2)
      ring
    rw [e2, chi2_poisson h h2] at g2
    exact g2

/-- **C50.** The two uncertainties by name. -/
theorem uncertainty_names (N : OutNum) (x : ℝ) :
    getUncertainty N x "poisson" = .ok (poissonUncertainty x) ∧
    getUncertainty N x "exact_poisson" = .ok (exactPoissonUncertainty N x 1) := by
  constructor <;> simp [getUncertainty]

end Phik.Props
