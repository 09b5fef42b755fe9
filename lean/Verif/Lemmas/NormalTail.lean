import Verif.Lemmas.NormalCdf
import Verif.Props.OutlierCI

/-! # How the normal quantile depends on a small probability -/

namespace Phik.Gauss

open Phik.Props MeasureTheory ProbabilityTheory Set

theorem normCdf_sub (a b : ℝ) : normCdf b - normCdf a = ∫ x in a..b, φ x := Φ_sub a b

theorem upper_tail_le {z : ℝ} (hz : 0 ≤ z) : 1 - normCdf z ≤ 1257 / 1000 * φ z := by
  have hc := norm_const.1
  have hs : 0 < √(2 * Real.pi) := by positivity
  have hle : √(2 * Real.pi) ≤ 2514 / 1000 := by
    rw [le_inv_comm₀ (by norm_num) hs] at hc
    exact hc.trans (by norm_num)
  have main : ∀ b, z ≤ b → normCdf b - normCdf z ≤ 1257 / 1000 * φ z := by
    intro b hb
    rw [normCdf_sub]
    have e : ∫ x in z..b, φ x = ∫ s in (0 : ℝ)..(b - z), φ (s + z) := by
      rw [intervalIntegral.integral_comp_add_right (fun x => φ x) z]
      simp
    have pt : ∀ s ∈ Icc 0 (b - z), φ (s + z) ≤ √(2 * Real.pi) * φ z * φ s := by
      intro s h
      simp only [φ_eq]
      have : √(2 * Real.pi) * ((√(2 * Real.pi))⁻¹ * Real.exp (-z ^ 2 / 2)) * ((√(2 * Real.pi))⁻¹ * Real.exp (-s ^ 2 / 2)) =
          (√(2 * Real.pi))⁻¹ * Real.exp (-z ^ 2 / 2 + -s ^ 2 / 2) := by
        rw [Real.exp_add]; field_simp
      rw [this]
      refine mul_le_mul_of_nonneg_left (Real.exp_le_exp.2 ?_) (by positivity)
      nlinarith [mul_nonneg h.1 hz]
    have i2 : ∫ s in (0 : ℝ)..(b - z), φ (s + z) ≤ ∫ s in (0 : ℝ)..(b - z), √(2 * Real.pi) * φ z * φ s :=
      intervalIntegral.integral_mono_on (by linarith) ((φ_continuous.comp (by fun_prop)).intervalIntegrable _ _)
        ((continuous_const.mul φ_continuous).intervalIntegrable _ _) pt
    rw [intervalIntegral.integral_const_mul, ← normCdf_sub, normCdf_zero] at i2
    have h1 := normCdf_lt_one (b - z)
    have pz := φ_pos z
    rw [e]
    refine i2.trans ?_
    have : √(2 * Real.pi) * φ z * (normCdf (b - z) - 1 / 2) ≤ √(2 * Real.pi) * φ z * (1 / 2) :=
      mul_le_mul_of_nonneg_left (by linarith) (by positivity)
    nlinarith
  by_contra hno
  rw [not_le] at hno
  obtain ⟨b, hb⟩ := normCdf_surj (p := (1 + max (normCdf z) (normCdf z + 1257 / 1000 * φ z)) / 2)
    (by have := le_max_left (normCdf z) (normCdf z + 1257 / 1000 * φ z); linarith [normCdf_nonneg z])
    (by have : max (normCdf z) (normCdf z + 1257 / 1000 * φ z) < 1 := max_lt (normCdf_lt_one z) (by linarith)
        linarith)
  have hm : max (normCdf z) (normCdf z + 1257 / 1000 * φ z) < 1 := max_lt (normCdf_lt_one z) (by linarith)
  have l1 := le_max_left (normCdf z) (normCdf z + 1257 / 1000 * φ z)
  have l2 := le_max_right (normCdf z) (normCdf z + 1257 / 1000 * φ z)
  have hzb : z ≤ b := normCdf_le_iff.1 (by rw [hb]; linarith)
  have := main b hzb
  rw [hb] at this
  linarith

/-- Two upper tails. -/
theorem tail_ratio {z z' : ℝ} (hz : 0 ≤ z) (h : z ≤ z') : (z' - z) * (1 - normCdf z') ≤ 1257 / 1000 * ((1 - normCdf z) - (1 - normCdf z')) := by
  have h1 := upper_tail_le (hz.trans h)
  have h2 : (z' - z) * φ z' ≤ normCdf z' - normCdf z := (Φ_sub_bounds hz h).1
  have := mul_le_mul_of_nonneg_left h1 (sub_nonneg.2 h)
  nlinarith

/-- A small relative change of a probability of at most 1/2 changes its quantile by little. -/
theorem quantile_close {p p' z z' d : ℝ} (hz : normCdf (-z) = p) (hz' : normCdf (-z') = p') (hp : p ≤ 1 / 2) (hp' : p' ≤ 1 / 2)
    (hd : d ≤ 1 / 4) (h : |p' - p| ≤ d * p) : |z' - z| ≤ 2 * d := by
  have p0 : 0 < p := hz ▸ normCdf_pos _
  have p0' : 0 < p' := hz' ▸ normCdf_pos _
  have d0 : 0 ≤ d := by
    by_contra hneg
    have : d * p < 0 := mul_neg_of_neg_of_pos (not_le.1 hneg) p0
    linarith [abs_nonneg (p' - p)]
  have n1 : 0 ≤ z := by
    have : normCdf (-z) ≤ normCdf 0 := by rw [hz, normCdf_zero]; exact hp
    have := normCdf_le_iff.1 this
    linarith
  have n2 : 0 ≤ z' := by
    have : normCdf (-z') ≤ normCdf 0 := by rw [hz', normCdf_zero]; exact hp'
    have := normCdf_le_iff.1 this
    linarith
  rw [normCdf_neg] at hz hz'
  have a := abs_le.1 h
  rcases le_total z z' with hle | hle
  · have := tail_ratio n1 hle
    rw [hz, hz'] at this
    rw [abs_of_nonneg (by linarith)]
    have lb : 3 / 4 * p ≤ p' := by nlinarith
    have m1 : (z' - z) * (3 / 4 * p) ≤ (z' - z) * p' := mul_le_mul_of_nonneg_left lb (by linarith)
    have m2 : (z' - z) * (3 / 4 * p) ≤ (1257 / 1000 * d) * p := by nlinarith
    have m3 : (z' - z) * (3 / 4) ≤ 1257 / 1000 * d := le_of_mul_le_mul_right (by linarith) p0
    linarith
  · have := tail_ratio n2 hle
    rw [hz, hz'] at this
    rw [abs_of_nonpos (by linarith)]
    have m2 : (z - z') * p ≤ (1257 / 1000 * d) * p := by nlinarith
    have m3 : (z - z') ≤ 1257 / 1000 * d := le_of_mul_le_mul_right m2 p0
    linarith

end Phik.Gauss
