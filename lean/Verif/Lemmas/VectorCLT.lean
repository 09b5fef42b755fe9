import Mathlib.Probability.CentralLimitTheorem
import Mathlib.Probability.Distributions.Gaussian.Multivariate

/-! # The central limit theorem for random vectors with uncorrelated coordinates of variance one -/

namespace Phik.Props

open MeasureTheory ProbabilityTheory Filter Topology
open scoped RealInnerProductSpace

variable {Ω : Type*} [MeasurableSpace Ω] {P : Measure Ω} [IsProbabilityMeasure P]
  {E : Type*} [NormedAddCommGroup E] [InnerProductSpace ℝ E] [FiniteDimensional ℝ E] [MeasurableSpace E] [BorelSpace E]

/-- Sums of independent, identically distributed vectors, divided by the square root of their number, tend to a standard Gaussian vector, if every
projection of the vectors on a line has mean 0 and variance 1. -/
theorem vector_clt {Y : ℕ → Ω → E} (hindep : iIndepFun Y P) (hident : ∀ i, IdentDistrib (Y i) (Y 0) P P)
    (hint : ∀ t : E, MemLp (fun ω => ⟪t, Y 0 ω⟫) 2 P) (h0 : ∀ t : E, ∫ ω, ⟪t, Y 0 ω⟫ ∂P = 0) (h1 : ∀ t : E, ∫ ω, ⟪t, Y 0 ω⟫ ^ 2 ∂P = ‖t‖ ^ 2) :
    TendstoInDistribution (fun (n : ℕ) ω => (√n)⁻¹ • ∑ k ∈ Finset.range n, Y k ω) atTop id (fun _ => P) (stdGaussian E) where
  forall_aemeasurable n := (Finset.aemeasurable_fun_sum _ fun k _ => (hident k).aemeasurable_fst).const_smul _
  tendsto := by
    refine ProbabilityMeasure.tendsto_iff_tendsto_charFun.2 fun t => ?_
    have hm : ∀ n : ℕ, AEMeasurable (fun ω => (√n)⁻¹ • ∑ k ∈ Finset.range n, Y k ω) P := fun n =>
      (Finset.aemeasurable_fun_sum _ fun k _ => (hident k).aemeasurable_fst).const_smul _
    have hg : Measurable (fun y : E => ⟪t, y⟫) := by fun_prop
    have hvar : Var[fun ω => ⟪t, Y 0 ω⟫; P] = ‖t‖ ^ 2 := by
      rw [variance_eq_integral (hint t).aemeasurable, h0]
      simpa using h1 t
    have hclt := tendstoInDistribution_inv_sqrt_mul_sum_sub (X := fun k ω => ⟪t, Y k ω⟫) (P := P)
      (Y := id) (P' := gaussianReal 0 (Var[fun ω => ⟪t, Y 0 ω⟫; P]).toNNReal) ⟨aemeasurable_id, by simp⟩ (hint t)
      (hindep.comp (fun _ y => ⟪t, y⟫) fun _ => hg) (fun i => (hident i).comp hg)
    have h2 := ProbabilityMeasure.tendsto_iff_tendsto_charFun.1 hclt.tendsto 1
    have e2 : ∀ n : ℕ, charFun (P.map fun ω => (√n)⁻¹ * (∑ k ∈ Finset.range n, ⟪t, Y k ω⟫ - n * ∫ ω, ⟪t, Y 0 ω⟫ ∂P)) 1 =
        charFun (P.map fun ω => (√n)⁻¹ • ∑ k ∈ Finset.range n, Y k ω) t := by
      intro n
      rw [charFun_apply, charFun_apply, integral_map (hm n) (by fun_prop), integral_map _ (by fun_prop)]
      · congr 1
        funext ω
        have e3 : ⟪(√n)⁻¹ • ∑ k ∈ Finset.range n, Y k ω, t⟫ = (√n)⁻¹ * ∑ k ∈ Finset.range n, ⟪t, Y k ω⟫ := by
          rw [real_inner_smul_left, sum_inner]
          simp_rw [real_inner_comm t]
        rw [h0, e3]
        simp
      · exact ((Finset.aemeasurable_fun_sum _ fun k _ => ((hident k).comp hg).aemeasurable_fst).sub_const _).const_mul _
    simp only [ProbabilityMeasure.coe_mk] at h2 ⊢
    simp_rw [e2, Measure.map_id] at h2
    rw [Measure.map_id, charFun_stdGaussian]
    rw [charFun_gaussianReal, hvar] at h2
    convert h2 using 2
    simp [Real.toNNReal_of_nonneg]
    ring_nf

end Phik.Props
