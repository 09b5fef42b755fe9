import Mathlib.Probability.CentralLimitTheorem
import Mathlib.Probability.Distributions.Gaussian.Multivariate

/-! # The central limit theorem for random vectors with any covariance -/

namespace Phik.Props

open MeasureTheory ProbabilityTheory Filter Topology
open scoped RealInnerProductSpace

variable {Ω : Type*} [MeasurableSpace Ω] {P : Measure Ω} [IsProbabilityMeasure P] {ι κ : Type*} [Fintype ι] [Fintype κ]

/-- The combinations of the coordinates of `g` with the rows of `M`. -/
noncomputable def combine (M : ι → κ → ℝ) (g : κ → ℝ) : EuclideanSpace ℝ ι := WithLp.toLp 2 fun i => ∑ k, M i k * g k

theorem combine_continuous (M : ι → κ → ℝ) : Continuous (combine M) := by
  unfold combine
  fun_prop

/-- The characteristic function of combinations of independent standard normal variables. -/
theorem charFun_combine (M : ι → κ → ℝ) (t : EuclideanSpace ℝ ι) :
    charFun ((Measure.pi fun _ : κ => gaussianReal 0 1).map (combine M)) t = Complex.exp (-(((∑ k, (∑ i, t i * M i k) ^ 2 : ℝ)) : ℂ) / 2) := by
  classical
  set s : EuclideanSpace ℝ κ := WithLp.toLp 2 fun k => ∑ i, t i * M i k with hs
  have h1 := charFun_stdGaussian (E := EuclideanSpace ℝ κ) s
  rw [← map_pi_eq_stdGaussian, charFun_apply, integral_map (by fun_prop) (by fun_prop)] at h1
  rw [charFun_apply, integral_map (combine_continuous M).aemeasurable (by fun_prop)]
  have e : ∀ g : κ → ℝ, ⟪combine M g, t⟫ = ⟪(WithLp.toLp 2 g : EuclideanSpace ℝ κ), s⟫ := by
    intro g
    simp only [combine, hs, PiLp.inner_apply, RCLike.inner_apply, conj_trivial]
    simp only [Finset.mul_sum, Finset.sum_mul]
    rw [Finset.sum_comm]
    refine Finset.sum_congr rfl fun k _ => Finset.sum_congr rfl fun i _ => ?_
    ring
  simp_rw [e]
  rw [h1]
  congr 2
  rw [← Complex.ofReal_pow, EuclideanSpace.real_norm_sq_eq]

/-- A combination of independent standard normal variables with coefficients of square sum 1 is standard normal. -/
theorem law_combination (m : κ → ℝ) (h : ∑ k, m k ^ 2 = 1) :
    (Measure.pi fun _ : κ => gaussianReal 0 1).map (fun g => ∑ k, m k * g k) = gaussianReal 0 1 := by
  have hc : Continuous fun g : κ → ℝ => ∑ k, m k * g k := by fun_prop
  have := Measure.isProbabilityMeasure_map (μ := Measure.pi fun _ : κ => gaussianReal 0 1) hc.aemeasurable
  refine Measure.ext_of_charFun ?_
  funext s
  have h1 := charFun_stdGaussian (E := EuclideanSpace ℝ κ) (WithLp.toLp 2 fun k => s * m k)
  rw [← map_pi_eq_stdGaussian, charFun_apply, integral_map (by fun_prop) (by fun_prop)] at h1
  rw [charFun_apply_real, integral_map hc.aemeasurable (by fun_prop), charFun_gaussianReal]
  have e : ∀ g : κ → ℝ, (s : ℂ) * ((∑ k, m k * g k : ℝ) : ℂ) = ((⟪(WithLp.toLp 2 g : EuclideanSpace ℝ κ), WithLp.toLp 2 fun k => s * m k⟫ : ℝ) : ℂ) := by
    intro g
    rw [← Complex.ofReal_mul]
    congr 1
    simp only [PiLp.inner_apply, RCLike.inner_apply, conj_trivial, Finset.mul_sum]
    refine Finset.sum_congr rfl fun k _ => ?_
    ring
  simp_rw [e]
  rw [h1, ← Complex.ofReal_pow, EuclideanSpace.real_norm_sq_eq]
  have e2 : ∑ i, (WithLp.toLp 2 (fun k => s * m k) : EuclideanSpace ℝ κ) i ^ 2 = s ^ 2 := by
    simp only [mul_pow, ← Finset.mul_sum, h, mul_one]
  rw [e2]
  congr 1
  push_cast
  simp
  ring

/-- Sums of independent, identically distributed vectors, divided by the square root of their number, tend to combinations of independent standard normal
variables with the same covariances. -/
theorem vector_clt_combine {Y : ℕ → Ω → EuclideanSpace ℝ ι} (hindep : iIndepFun Y P) (hident : ∀ i, IdentDistrib (Y i) (Y 0) P P)
    (hint : ∀ t : EuclideanSpace ℝ ι, MemLp (fun ω => ⟪t, Y 0 ω⟫) 2 P) (h0 : ∀ t : EuclideanSpace ℝ ι, ∫ ω, ⟪t, Y 0 ω⟫ ∂P = 0) (M : ι → κ → ℝ)
    (h1 : ∀ t : EuclideanSpace ℝ ι, ∫ ω, ⟪t, Y 0 ω⟫ ^ 2 ∂P = ∑ k, (∑ i, t i * M i k) ^ 2) :
    TendstoInDistribution (fun (n : ℕ) ω => (√n)⁻¹ • ∑ k ∈ Finset.range n, Y k ω) atTop (combine M) (fun _ => P) (Measure.pi fun _ => gaussianReal 0 1) where
  forall_aemeasurable n := AEMeasurable.const_smul (g := fun ω => ∑ k ∈ Finset.range n, Y k ω)
    (Finset.aemeasurable_fun_sum _ fun k _ => (hident k).aemeasurable_fst) ((√(n : ℝ))⁻¹)
  aemeasurable_limit := (combine_continuous M).aemeasurable
  tendsto := by
    refine ProbabilityMeasure.tendsto_iff_tendsto_charFun.2 fun t => ?_
    have hm : ∀ n : ℕ, AEMeasurable (fun ω => (√n)⁻¹ • ∑ k ∈ Finset.range n, Y k ω) P := fun n =>
      AEMeasurable.const_smul (g := fun ω => ∑ k ∈ Finset.range n, Y k ω) (Finset.aemeasurable_fun_sum _ fun k _ => (hident k).aemeasurable_fst) ((√(n : ℝ))⁻¹)
    have hg : Measurable (fun y : EuclideanSpace ℝ ι => ⟪t, y⟫) := by fun_prop
    have hvar : Var[fun ω => ⟪t, Y 0 ω⟫; P] = ∑ k, (∑ i, t i * M i k) ^ 2 := by
      rw [variance_eq_integral (hint t).aemeasurable, h0]
      simpa using h1 t
    have hclt := tendstoInDistribution_inv_sqrt_mul_sum_sub (X := fun k ω => ⟪t, Y k ω⟫) (P := P)
      (Y := id) (P' := gaussianReal 0 (Var[fun ω => ⟪t, Y 0 ω⟫; P]).toNNReal) ⟨aemeasurable_id, by simp⟩ (hint t)
      (hindep.comp (fun _ y => ⟪t, y⟫) fun _ => hg) (fun i => (hident i).comp hg)
    have h2 := ProbabilityMeasure.tendsto_iff_tendsto_charFun.1 hclt.tendsto 1
    have e2 : ∀ n : ℕ, charFun (P.map fun ω => (√n)⁻¹ * (∑ k ∈ Finset.range n, ⟪t, Y k ω⟫ - n * ∫ ω, ⟪t, Y 0 ω⟫ ∂P)) 1 =
        charFun (P.map fun ω => (√n)⁻¹ • ∑ k ∈ Finset.range n, Y k ω) t := by
      intro n
      rw [charFun_apply, charFun_apply, integral_map (hm n) (by fun_prop), integral_map _ (by fun_prop)]
      · congr 1
        funext ω
        have e3 : ⟪(√n)⁻¹ • ∑ k ∈ Finset.range n, Y k ω, t⟫ = (√n)⁻¹ * ∑ k ∈ Finset.range n, ⟪t, Y k ω⟫ := by
          rw [real_inner_smul_left, sum_inner]
          simp_rw [real_inner_comm t]
        rw [h0, e3]
        simp
      · exact ((Finset.aemeasurable_fun_sum _ fun k _ => ((hident k).comp hg).aemeasurable_fst).sub_const _).const_mul _
    simp only [ProbabilityMeasure.coe_mk] at h2 ⊢
    simp_rw [e2, Measure.map_id] at h2
    rw [charFun_combine]
    rw [charFun_gaussianReal, hvar] at h2
    have hnn : 0 ≤ ∑ k, (∑ i, t i * M i k) ^ 2 := Finset.sum_nonneg fun k _ => sq_nonneg _
    convert h2 using 2
    rw [Real.coe_toNNReal _ hnn]
    push_cast
    ring_nf

/-- Convergence in distribution gives the limit of the probability that all coordinates reach given bounds. -/
theorem orthant_limit {ι : Type*} [Finite ι] {Ω' : Type*} [MeasurableSpace Ω'] {ν : Measure Ω'} [IsProbabilityMeasure ν] {X : ℕ → Ω → ι → ℝ} {L : Ω' → ι → ℝ}
    (hconv : TendstoInDistribution X atTop L (fun _ => P) ν) (hX : ∀ n, Measurable (X n)) (hL : Measurable L) (z : ι → ℝ) (hz : ∀ i, ν {g | L g i = z i} = 0) :
    Tendsto (fun n => P {ω | ∀ i, z i ≤ X n ω i}) atTop (𝓝 (ν {g | ∀ i, z i ≤ L g i})) := by
  have hfr : frontier (Set.Ici z) ⊆ ⋃ i, {x | x i = z i} := by
    intro x hx
    rw [frontier, isClosed_Ici.closure_eq] at hx
    obtain ⟨hx1, hx2⟩ := hx
    by_contra hn
    simp only [Set.mem_iUnion, Set.mem_setOf_eq, not_exists] at hn
    refine hx2 (mem_interior.2 ⟨Set.pi Set.univ fun i => Set.Ioi (z i), fun y hy i => (hy i trivial).le,
      isOpen_set_pi Set.finite_univ fun _ _ => isOpen_Ioi, fun i _ => ?_⟩)
    exact lt_of_le_of_ne (hx1 i) (Ne.symm (hn i))
  have hm : MeasurableSet (Set.Ici z) := isClosed_Ici.measurableSet
  have h1 := ProbabilityMeasure.tendsto_measure_of_null_frontier_of_tendsto' hconv.tendsto (E := Set.Ici z) (by
    simp only [ProbabilityMeasure.coe_mk]
    refine measure_mono_null hfr (measure_iUnion_null fun i => ?_)
    rw [Measure.map_apply hL (measurableSet_eq_fun (measurable_pi_apply _) measurable_const)]
    exact hz i)
  simp only [ProbabilityMeasure.coe_mk] at h1
  rw [Measure.map_apply hL hm] at h1
  refine h1.congr fun n => ?_
  rw [Measure.map_apply (hX n) hm]
  rfl

end Phik.Props
