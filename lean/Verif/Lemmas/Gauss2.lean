import Mathlib.Probability.Distributions.Gaussian.Real
import Mathlib.MeasureTheory.Measure.Lebesgue.EqHaar
import Mathlib.MeasureTheory.Measure.WithDensity
import Mathlib.MeasureTheory.Measure.Haar.Basic
import Mathlib.LinearAlgebra.Matrix.ToLin
import Mathlib.LinearAlgebra.Determinant
import Mathlib.Tactic

/-! # Two independent standard normal variables: invariance under reflections -/

namespace Phik.Gauss
open MeasureTheory ProbabilityTheory Set

/-- The standard normal distribution. -/
noncomputable abbrev γ : Measure ℝ := gaussianReal 0 1

/-- Two independent standard normal variables. -/
noncomputable abbrev γ2 : Measure (ℝ × ℝ) := γ.prod γ

theorem γ_density : γ = volume.withDensity (gaussianPDF 0 1) := gaussianReal_of_var_ne_zero 0 one_ne_zero

theorem γ2_density : γ2 = volume.withDensity fun p : ℝ × ℝ => gaussianPDF 0 1 p.1 * gaussianPDF 0 1 p.2 := by
  unfold γ2
  rw [γ_density]
  exact prod_withDensity (measurable_gaussianPDF 0 1) (measurable_gaussianPDF 0 1)

/-- The linear map with matrix `[[a, b], [c, d]]`. -/
def lin (a b c d : ℝ) : (ℝ × ℝ) →ₗ[ℝ] (ℝ × ℝ) where
  toFun p := (a * p.1 + b * p.2, c * p.1 + d * p.2)
  map_add' p q := by ext <;> simp <;> ring
  map_smul' k p := by ext <;> simp <;> ring

theorem lin_det (a b c d : ℝ) : LinearMap.det (lin a b c d) = a * d - b * c := by
  rw [← LinearMap.det_toMatrix (Module.Basis.finTwoProd ℝ)]
  rw [Matrix.det_fin_two]
  simp [LinearMap.toMatrix_apply, lin]

theorem lin_volume {a b c d : ℝ} (h : |a * d - b * c| = 1) : MeasurePreserving (lin a b c d) volume volume := by
  have hd : LinearMap.det (lin a b c d) ≠ 0 := by
    rw [lin_det]; intro h0; rw [h0] at h; simp at h
  refine ⟨by unfold lin; simp only [LinearMap.coe_mk, AddHom.coe_mk]; fun_prop, ?_⟩
  rw [Measure.map_linearMap_addHaar_eq_smul_addHaar volume hd, lin_det, abs_inv, h]
  simp

/-- The reflection that exchanges the two variables of correlation `c`. -/
def refl (c s : ℝ) (p : ℝ × ℝ) : ℝ × ℝ := (c * p.1 + s * p.2, s * p.1 - c * p.2)

theorem refl_measurable (c s : ℝ) : Measurable (refl c s) := by unfold refl; fun_prop

theorem refl_preserves {c s : ℝ} (h : c ^ 2 + s ^ 2 = 1) : MeasurePreserving (refl c s) γ2 γ2 := by
  have hv : MeasurePreserving (refl c s) (volume : Measure (ℝ × ℝ)) volume := by
    have : refl c s = lin c s s (-c) := by
      funext p; simp [refl, lin]; ring
    rw [this]
    apply lin_volume
    rw [show c * -c - s * s = -1 by linarith]; simp
  refine ⟨refl_measurable c s, ?_⟩
  ext S hS
  rw [Measure.map_apply (refl_measurable c s) hS, γ2_density, withDensity_apply _ (refl_measurable c s hS),
    withDensity_apply _ hS]
  rw [← hv.setLIntegral_comp_preimage hS (by
    exact ((measurable_gaussianPDF 0 1).comp measurable_fst).mul ((measurable_gaussianPDF 0 1).comp measurable_snd))]
  refine lintegral_congr fun p => ?_
  unfold refl
  simp only [gaussianPDF, gaussianPDFReal]
  rw [← ENNReal.ofReal_mul (by positivity), ← ENNReal.ofReal_mul (by positivity)]
  congr 1
  have e : ∀ k x y : ℝ, k * Real.exp x * (k * Real.exp y) = k * k * Real.exp (x + y) := by
    intro k x y; rw [Real.exp_add]; ring
  rw [e, e]
  congr 2
  simp only [sub_zero, NNReal.coe_one, mul_one]
  linear_combination ((p.1 ^ 2 + p.2 ^ 2) / 2) * h

end Phik.Gauss
