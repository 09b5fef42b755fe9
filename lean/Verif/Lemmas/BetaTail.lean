import Verif.Spec.Outliers
import Verif.Lemmas.BetaInt

/-! # The incomplete beta function is the tail of a gamma-Poisson mixture -/

namespace Phik.BetaCF
open Phik.Spec MeasureTheory ProbabilityTheory Set

variable {a b x : ℝ}

theorem poisson_tail (r : NNReal) (n : ℕ) :
    (poissonMeasure r).real {m | n ≤ m} = 1 - ∑ k ∈ Finset.range n, Real.exp (-r) * r ^ k / k.factorial := by
  have e : {m : ℕ | n ≤ m} = (↑(Finset.range n) : Set ℕ)ᶜ := by ext m; simp
  rw [e, probReal_compl_eq_one_sub (Finset.measurableSet _), ← sum_measureReal_singleton]
  simp only [poissonMeasure_real_singleton]

theorem gamma_integral {s r : ℝ} (hs : 0 < s) (hr : 0 < r) (f : ℝ → ℝ) :
    ∫ y, f y ∂(gammaMeasure s r) = ∫ y in Ioi 0, f y * (r ^ s / Real.Gamma s * y ^ (s - 1) * Real.exp (-(r * y))) := by
  unfold gammaMeasure
  have hm : Measurable (gammaPDF s r) := by unfold gammaPDF; fun_prop
  rw [integral_withDensity_eq_integral_toReal_smul hm (ae_of_all _ fun y => by simp [gammaPDF])]
  rw [← integral_indicator measurableSet_Ioi, ← integral_indicator measurableSet_Ioi |>.symm]
  rw [← integral_indicator measurableSet_Ioi]
  refine integral_congr_ae ?_
  have h0 : ∀ᵐ y : ℝ, y ≠ 0 := by
    rw [ae_iff]; simp
  filter_upwards [h0] with y hy
  unfold gammaPDF
  rw [ENNReal.toReal_ofReal (gammaPDFReal_nonneg hs hr y), smul_eq_mul, mul_comm]
  unfold gammaPDFReal
  by_cases h : 0 < y
  · rw [if_pos h.le, indicator_of_mem (show y ∈ Ioi 0 from h)]
  · rw [if_neg (fun h2 => h (lt_of_le_of_ne h2 hy.symm)), mul_zero, indicator_of_notMem (show y ∉ Ioi 0 from h)]

theorem gamma_poisson_pmf {s r : ℝ} (hs : 0 < s) (hr : 0 < r) (k : ℕ) :
    ∫ y, Real.exp (-(y.toNNReal : ℝ)) * (y.toNNReal : ℝ) ^ k / k.factorial ∂(gammaMeasure s r) =
      Real.Gamma (s + k) / (Real.Gamma s * k.factorial) * (1 / (1 + r)) ^ k * (1 - 1 / (1 + r)) ^ s := by
  rw [gamma_integral hs hr]
  have hg := Real.Gamma_pos_of_pos hs
  have e : ∀ y ∈ Ioi (0 : ℝ), Real.exp (-(y.toNNReal : ℝ)) * (y.toNNReal : ℝ) ^ k / k.factorial *
      (r ^ s / Real.Gamma s * y ^ (s - 1) * Real.exp (-(r * y))) =
      r ^ s / (Real.Gamma s * k.factorial) * (y ^ (s + k - 1) * Real.exp (-((1 + r) * y))) := by
    intro y hy
    have hy : 0 < y := hy
    rw [Real.coe_toNNReal y hy.le]
    have e1 : y ^ (s + k - 1) = y ^ (s - 1) * y ^ k := by
      rw [← Real.rpow_natCast, ← Real.rpow_add hy]; ring_nf
    have e2 : Real.exp (-((1 + r) * y)) = Real.exp (-y) * Real.exp (-(r * y)) := by
      rw [← Real.exp_add]; ring_nf
    rw [e1, e2]
    field_simp
  rw [setIntegral_congr_fun measurableSet_Ioi e, integral_const_mul,
    Real.integral_rpow_mul_exp_neg_mul_Ioi (by positivity) (by linarith)]
  have h1 : 1 - 1 / (1 + r) = r * (1 / (1 + r)) := by field_simp; ring
  have h2 : 0 < 1 / (1 + r) := by positivity
  rw [h1, Real.mul_rpow hr.le h2.le, Real.rpow_add h2, Real.rpow_natCast]
  ring

theorem gammaPoissonTail_eq {s r : ℝ} (hs : 0 < s) (hr : 0 < r) (n : ℕ) :
    gammaPoissonTail n s r = 1 - ∑ k ∈ Finset.range n,
      Real.Gamma (s + k) / (Real.Gamma s * k.factorial) * (1 / (1 + r)) ^ k * (1 - 1 / (1 + r)) ^ s := by
  have : IsProbabilityMeasure (gammaMeasure s r) := isProbabilityMeasure_gammaMeasure hs hr
  unfold gammaPoissonTail
  simp only [poisson_tail]
  have hint : ∀ k : ℕ, Integrable (fun y : ℝ => Real.exp (-(y.toNNReal : ℝ)) * (y.toNNReal : ℝ) ^ k / k.factorial)
      (gammaMeasure s r) := by
    intro k
    refine Integrable.of_bound (C := 1) (Measurable.aestronglyMeasurable (by fun_prop)) (ae_of_all _ fun y => ?_)
    have h := measureReal_le_one (μ := poissonMeasure y.toNNReal) (s := {k})
    rw [poissonMeasure_real_singleton] at h
    rw [Real.norm_of_nonneg (by positivity)]
    exact h
  rw [integral_sub (integrable_const _) (integrable_finset_sum _ fun k _ => hint k), integral_finset_sum _ fun k _ => hint k]
  simp only [gamma_poisson_pmf hs hr, integral_const, probReal_univ, smul_eq_mul, mul_one]

theorem regBeta_one (hb : 0 < b) (hx : 0 ≤ x) (hx1 : x < 1) : regBeta 1 b x = 1 - (1 - x) ^ b := by
  have key : ∀ y : ℝ, 0 ≤ y → y ≤ 1 → betaInt 1 b y = (1 - (1 - y) ^ b) / b := by
    intro y hy hy1
    have h1 := betaInt_reflect one_pos hb hy hy1
    have h2 : ∀ z : ℝ, 0 ≤ z → betaInt b 1 z = z ^ b / b := by
      intro z hz
      unfold betaInt
      simp only [sub_self, Real.rpow_zero, mul_one]
      rw [integral_rpow (Or.inl (by linarith)), sub_add_cancel, Real.zero_rpow hb.ne', sub_zero]
    have h3 : betaInt 1 b 1 = 1 / b := by
      have h4 := betaInt_reflect one_pos hb le_rfl zero_le_one
      rw [sub_zero, h2 1 zero_le_one, Real.one_rpow] at h4
      have h5 : betaInt 1 b 0 = 0 := by unfold betaInt; simp
      rw [h5, zero_add] at h4
      exact h4.symm
    rw [h2 (1 - y) (by linarith), h3] at h1
    rw [sub_div]; linarith
  unfold regBeta
  rw [key x hx hx1.le, key 1 zero_le_one le_rfl, sub_self, Real.zero_rpow hb.ne', sub_zero]
  field_simp

theorem regBeta_succ (ha : 0 < a) (hb : 0 < b) (hx : 0 ≤ x) (hx1 : x ≤ 1) :
    regBeta (a + 1) b x = regBeta a b x - Real.Gamma (b + a) / (Real.Gamma b * Real.Gamma (a + 1)) * x ^ a * (1 - x) ^ b := by
  have h1 := betaInt_rec ha hb hx hx1
  have h2 := betaInt_rec ha hb zero_le_one le_rfl
  rw [sub_self, Real.zero_rpow hb.ne', mul_zero, zero_add] at h2
  have hp := betaInt_one_pos ha hb
  have hp1 := betaInt_one_pos (a := a + 1) (b := b) (by linarith) hb
  have g1 := Real.Gamma_pos_of_pos ha
  have g2 := Real.Gamma_pos_of_pos hb
  have g3 := Real.Gamma_pos_of_pos (add_pos ha hb)
  unfold regBeta
  have e1 : betaInt (a + 1) b 1 = a * betaInt a b 1 / (a + b) := by
    rw [eq_div_iff (by positivity)]; linarith
  have e2 : betaInt (a + 1) b x = (a * betaInt a b x - x ^ a * (1 - x) ^ b) / (a + b) := by
    rw [eq_div_iff (by positivity)]; linarith
  rw [e1, e2, betaInt_one ha hb, Real.Gamma_add_one ha.ne', add_comm b a]
  field_simp

/-- The incomplete beta function at a positive integer. -/
theorem regBeta_nat (hb : 0 < b) (hx : 0 ≤ x) (hx1 : x < 1) (n : ℕ) :
    regBeta ((n + 1 : ℕ) : ℝ) b x = 1 - ∑ k ∈ Finset.range (n + 1),
      Real.Gamma (b + k) / (Real.Gamma b * k.factorial) * x ^ k * (1 - x) ^ b := by
  induction n with
  | zero =>
    have g2 := Real.Gamma_pos_of_pos hb
    rw [zero_add, Nat.cast_one, regBeta_one hb hx hx1]
    simp [g2.ne']
  | succ n ih =>
    have hn : (0 : ℝ) < ((n + 1 : ℕ) : ℝ) := by positivity
    have e : ((n + 1 + 1 : ℕ) : ℝ) = ((n + 1 : ℕ) : ℝ) + 1 := by push_cast; ring
    rw [e, regBeta_succ hn hb hx hx1.le, ih, Finset.sum_range_succ _ (n + 1), Real.Gamma_nat_eq_factorial, Real.rpow_natCast]
    ring

/-- The p-value of the Linnemann method is the tail of the gamma-Poisson mixture. -/
theorem regBeta_eq_tail {s r : ℝ} (hs : 0 < s) (hr : 0 < r) {n : ℕ} (hn : n ≠ 0) :
    regBeta n s (1 / (1 + r)) = gammaPoissonTail n s r := by
  obtain ⟨m, rfl⟩ := Nat.exists_eq_succ_of_ne_zero hn
  rw [gammaPoissonTail_eq hs hr]
  exact regBeta_nat hs (by positivity) (by rw [div_lt_one (by linarith)]; linarith) m

theorem gammaPoissonTail_zero {s r : ℝ} (hs : 0 < s) (hr : 0 < r) : gammaPoissonTail 0 s r = 1 := by
  rw [gammaPoissonTail_eq hs hr]; simp

theorem gammaPoissonTail_anti {s r : ℝ} (hs : 0 < s) (hr : 0 < r) (n : ℕ) :
    gammaPoissonTail (n + 1) s r ≤ gammaPoissonTail n s r := by
  rw [gammaPoissonTail_eq hs hr, gammaPoissonTail_eq hs hr, Finset.sum_range_succ]
  have g1 := Real.Gamma_pos_of_pos hs
  have g2 := Real.Gamma_pos_of_pos (show 0 < s + n by positivity)
  have h1 : 0 ≤ 1 - 1 / (1 + r) := by rw [sub_nonneg, div_le_one (by linarith)]; linarith
  have : 0 ≤ Real.Gamma (s + n) / (Real.Gamma s * n.factorial) * (1 / (1 + r)) ^ n * (1 - 1 / (1 + r)) ^ s := by
    positivity
  linarith

theorem gammaPoissonTail_nonneg (n : ℕ) (s r : ℝ) : 0 ≤ gammaPoissonTail n s r :=
  integral_nonneg fun _ => measureReal_nonneg

end Phik.BetaCF
