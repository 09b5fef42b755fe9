import Verif.Lemmas.BinnedVariance
import Mathlib.Analysis.Calculus.Deriv.MeanValue

/-! # The normal distribution function: derivative, symmetry and inequalities -/

namespace Phik.Gauss
open MeasureTheory ProbabilityTheory Set Spec Props

theorem φ_pos (x : ℝ) : 0 < φ x := gaussianPDFReal_pos 0 1 x one_ne_zero

theorem φ_continuous : Continuous φ := by
  have : φ = fun x => (√(2 * Real.pi))⁻¹ * Real.exp (-x ^ 2 / 2) := funext φ_eq
  rw [this]; fun_prop

theorem Φ_sub (a b : ℝ) : Φ b - Φ a = ∫ x in a..b, φ x := by
  wlog h : a ≤ b generalizing a b
  · rw [intervalIntegral.integral_symm, ← this b a (le_of_not_ge h)]; ring
  rw [← γ_Icc h, intervalIntegral.integral_of_le h, ← integral_Icc_eq_integral_Ioc]
  have h1 := setIntegral_withDensity_eq_setIntegral_toReal_smul (μ := volume) (measurable_gaussianPDF 0 1)
      (s := Icc a b) (Filter.Eventually.of_forall fun x => gaussianPDF_lt_top) (fun _ => (1 : ℝ)) measurableSet_Icc
  rw [← γ_density] at h1
  simpa using h1

theorem Φ_deriv (x : ℝ) : HasDerivAt Φ (φ x) x := by
  have h : Φ = fun y => Φ 0 + ∫ u in (0 : ℝ)..y, φ u := by
    funext y; rw [← Φ_sub]; ring
  rw [h]
  exact (intervalIntegral.integral_hasDerivAt_right (φ_continuous.intervalIntegrable _ _)
    (φ_continuous.stronglyMeasurableAtFilter _ _) φ_continuous.continuousAt).const_add _

theorem Φ_strictMono : StrictMono Φ := strictMono_of_deriv_pos fun x => by rw [(Φ_deriv x).deriv]; exact φ_pos x

theorem Φ_mono : Monotone Φ := Φ_strictMono.monotone

theorem Φ_continuous : Continuous Φ := continuous_iff_continuousAt.2 fun x => (Φ_deriv x).continuousAt

/-- Symmetry. -/
theorem Φ_symm (x y : ℝ) : Φ (-x) - Φ (-y) = Φ y - Φ x := by
  rw [Φ_sub, Φ_sub, ← intervalIntegral.integral_comp_neg]
  simp only [φ_neg]

/-- An interval to the right of 0 loses probability when it is moved to the right. -/
theorem Φ_shift {a b d : ℝ} (ha : 0 ≤ a) (hab : a ≤ b) (hd : 0 ≤ d) : Φ (b + d) - Φ (a + d) ≤ Φ b - Φ a := by
  have h : AntitoneOn (fun x => Φ (x + d) - Φ x) (Ici 0) := by
    refine antitoneOn_of_deriv_nonpos (convex_Ici 0) ?_ ?_ ?_
    · exact ((Φ_continuous.comp (by fun_prop)).sub Φ_continuous).continuousOn
    · intro x _
      exact (((Φ_deriv (x + d)).comp_add_const x d).sub (Φ_deriv x)).differentiableAt.differentiableWithinAt
    · intro x hx
      rw [interior_Ici] at hx
      have hd : HasDerivAt (fun x => Φ (x + d) - Φ x) (φ (x + d) - φ x) x :=
        ((Φ_deriv (x + d)).comp_add_const x d).sub (Φ_deriv x)
      rw [hd.deriv]
      have := φ_anti (le_of_lt hx) (show x ≤ x + d by linarith)
      linarith
  have := h (mem_Ici.2 ha) (mem_Ici.2 (ha.trans hab)) hab
  simp only at this
  linarith

theorem φ_le_half (x : ℝ) : φ x ≤ 1 / 2 := by
  rw [φ_eq]
  have h1 := norm_const.2
  have h2 : Real.exp (-x ^ 2 / 2) ≤ 1 := Real.exp_le_one_iff.2 (by nlinarith [sq_nonneg x])
  have h3 := Real.exp_pos (-x ^ 2 / 2)
  have h4 : 0 ≤ (√(2 * Real.pi))⁻¹ := by positivity
  nlinarith

/-- The slope is at most 1/2. -/
theorem Φ_sub_le {a b : ℝ} (h : a ≤ b) : Φ b - Φ a ≤ (b - a) / 2 := by
  have h2 : AntitoneOn (fun x => Φ x - x / 2) univ := by
    refine antitoneOn_of_deriv_nonpos convex_univ ?_ ?_ ?_
    · exact (Φ_continuous.sub (by fun_prop)).continuousOn
    · intro x _
      exact ((Φ_deriv x).sub ((hasDerivAt_id x).div_const 2)).differentiableAt.differentiableWithinAt
    · intro x _
      have : HasDerivAt (fun x => Φ x - x / 2) (φ x - 1 / 2) x := (Φ_deriv x).sub ((hasDerivAt_id x).div_const 2)
      rw [this.deriv]
      linarith [φ_le_half x]
  have := h2 (mem_univ a) (mem_univ b) h
  simp only at this
  linarith

/-- To the right of 0 the slope is between the densities at the ends. -/
theorem Φ_sub_bounds {a b : ℝ} (ha : 0 ≤ a) (h : a ≤ b) : (b - a) * φ b ≤ Φ b - Φ a ∧ Φ b - Φ a ≤ (b - a) * φ a := by
  rw [Φ_sub]
  constructor
  · have h1 : ∫ _x in a..b, φ b = (b - a) * φ b := by simp
    rw [← h1]
    exact intervalIntegral.integral_mono_on h (by simp) (φ_continuous.intervalIntegrable _ _)
      fun x hx => φ_anti (ha.trans hx.1) hx.2
  · have h1 : ∫ _x in a..b, φ a = (b - a) * φ a := by simp
    rw [← h1]
    exact intervalIntegral.integral_mono_on h (φ_continuous.intervalIntegrable _ _) (by simp)
      fun x hx => φ_anti ha hx.1

theorem exp_25 : Real.exp (-(25 : ℝ) / 2) ≤ 1 / 100000 := by
  have h1 : (100000 : ℝ) ≤ Real.exp (25 / 2) := by
    have h2 : Real.exp 12 = Real.exp 1 ^ 12 := by rw [← Real.exp_nat_mul]; norm_num
    have h3 : Real.exp 12 ≤ Real.exp (25 / 2) := Real.exp_le_exp.2 (by norm_num)
    have h4 : (2.7 : ℝ) ^ 12 ≤ Real.exp 1 ^ 12 := pow_le_pow_left₀ (by norm_num) (by linarith [Real.exp_one_gt_d9]) 12
    have h5 : (100000 : ℝ) ≤ 2.7 ^ 12 := by norm_num
    linarith
  rw [show -(25 : ℝ) / 2 = -(25 / 2) by ring, Real.exp_neg, one_div]
  exact inv_anti₀ (by norm_num) h1

/-- The tail beyond 5, and the slope there. -/
theorem φ_five_small : φ 5 ≤ 1 / 200000 := by
  rw [φ_eq]
  have h1 := norm_const.2
  have h2 := exp_25
  have h3 := Real.exp_pos (-(25 : ℝ) / 2)
  have e : -(5 : ℝ) ^ 2 / 2 = -25 / 2 := by norm_num
  rw [e]
  have h4 : 0 ≤ (√(2 * Real.pi))⁻¹ := by positivity
  nlinarith

theorem Φ_tail {b : ℝ} (h : 5 ≤ b) : Φ b - Φ 5 ≤ 1 / 1000000 := by
  have h1 : Φ b - Φ 5 ≤ ∫ x in (5 : ℝ)..b, x * φ x / 5 := by
    rw [Φ_sub]
    refine intervalIntegral.integral_mono_on h (φ_continuous.intervalIntegrable _ _)
      (((continuous_id.mul φ_continuous).div_const 5).intervalIntegrable _ _) fun x hx => ?_
    have := φ_pos x
    have := hx.1
    have : 5 * φ x ≤ x * φ x := by nlinarith
    linarith
  have h2 : ∫ x in (5 : ℝ)..b, x * φ x / 5 = (φ 5 - φ b) / 5 := by
    rw [intervalIntegral.integral_div, intervalIntegral.integral_eq_sub_of_hasDerivAt (fun x _ => φ_deriv x)
      ((continuous_id.mul φ_continuous).intervalIntegrable _ _)]
    ring
  have := φ_five_small
  have := φ_pos b
  linarith

end Phik.Gauss
