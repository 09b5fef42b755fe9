import Verif.Lemmas.Gauss2
import Verif.Spec.Gaussian
import Mathlib.MeasureTheory.Integral.DominatedConvergence
import Mathlib.MeasureTheory.Integral.Prod

/-! # The bivariate normal distribution meets the contract -/

namespace Phik.Gauss
open MeasureTheory ProbabilityTheory Set Spec

theorem sq_sqrt_rho {rho : ℝ} (h : rho ^ 2 ≤ 1) : rho ^ 2 + Real.sqrt (1 - rho ^ 2) ^ 2 = 1 := by
  rw [Real.sq_sqrt (by linarith)]; ring

theorem corrPair_measurable (rho : ℝ) : Measurable (corrPair rho) := by unfold corrPair; fun_prop

/-- Vertical lines have probability 0. -/
theorem line_null (b : ℝ) : γ2 {p | p.1 = b} = 0 := by
  have : {p : ℝ × ℝ | p.1 = b} = {b} ×ˢ univ := by ext p; simp
  rw [this, Measure.prod_prod]
  have := nullSingletonClass_gaussianReal (μ := 0) (v := 1) one_ne_zero
  simp

theorem oblique_null {c s : ℝ} (h : c ^ 2 + s ^ 2 = 1) (b : ℝ) : γ2 {p | c * p.1 + s * p.2 = b} = 0 := by
  have := (refl_preserves h).measure_preimage (s := {p | p.1 = b})
    (by exact (measurableSet_eq_fun measurable_fst measurable_const).nullMeasurableSet)
  rw [line_null] at this
  exact this

theorem neg_preserves : MeasurePreserving (fun p : ℝ × ℝ => (-p.1, -p.2)) γ2 γ2 := by
  have h : MeasurePreserving (fun x : ℝ => -x) γ γ := ⟨measurable_neg, by simpa using gaussianReal_map_neg (μ := 0) (v := 1)⟩
  exact h.prod h

theorem rect_measurable (R : Rect) : MeasurableSet (Icc R.1.1 R.2.1 ×ˢ Icc R.1.2 R.2.2) :=
  measurableSet_Icc.prod measurableSet_Icc

theorem corrPair_refl {rho : ℝ} (h : rho ^ 2 ≤ 1) (p : ℝ × ℝ) :
    corrPair rho (refl rho (Real.sqrt (1 - rho ^ 2)) p) = (corrPair rho p).swap := by
  have e := sq_sqrt_rho h
  unfold corrPair refl
  ext
  · simp
  · simp only [Prod.swap]
    linear_combination p.1 * e

/-- For every interval, the indicators converge almost everywhere when the correlation does. -/
theorem gaussMvn_cont (R : Rect) : ContinuousOn (fun rho => gaussMvn rho R) (Icc 0 1) := by
  have e : EqOn (fun rho => gaussMvn rho R) (fun rho => ∫ p, (Icc R.1.1 R.2.1 ×ˢ Icc R.1.2 R.2.2).indicator (fun _ => (1 : ℝ))
      (corrPair rho p) ∂γ2) (Icc 0 1) := by
    intro rho hr
    have h1 : rho ^ 2 ≤ 1 := by nlinarith [hr.1, hr.2]
    simp only [gaussMvn, if_pos h1]
    have := integral_indicator_one (μ := γ2) (corrPair_measurable rho (rect_measurable R))
    exact this.symm
  rw [continuousOn_congr e]
  intro rho hr
  refine ContinuousWithinAt.mono (t := univ) ?_ (subset_univ _) 
  rw [continuousWithinAt_univ]
  have h1 : rho ^ 2 ≤ 1 := by nlinarith [hr.1, hr.2]
  refine continuousAt_of_dominated (bound := fun _ => 1) ?_ ?_ (integrable_const _) ?_
  · refine Filter.Eventually.of_forall fun x => ?_
    exact ((measurable_const.indicator (rect_measurable R)).comp (corrPair_measurable x)).aestronglyMeasurable
  · refine Filter.Eventually.of_forall fun x => Filter.Eventually.of_forall fun p => ?_
    unfold indicator
    split <;> simp
  · have hn : γ2 ({p | p.1 = R.1.1} ∪ {p | p.1 = R.2.1} ∪ ({p | rho * p.1 + Real.sqrt (1 - rho ^ 2) * p.2 = R.1.2} ∪
        {p | rho * p.1 + Real.sqrt (1 - rho ^ 2) * p.2 = R.2.2})) = 0 := by
      have e := sq_sqrt_rho h1
      refine measure_union_null (measure_union_null (line_null _) (line_null _))
        (measure_union_null (oblique_null e _) (oblique_null e _))
    filter_upwards [compl_mem_ae_iff.2 hn] with p hp
    simp only [mem_compl_iff, mem_union, not_or] at hp
    obtain ⟨⟨n1, n2⟩, n3, n4⟩ := hp
    have hc : Continuous fun x : ℝ => corrPair x p := by unfold corrPair; fun_prop
    refine ContinuousAt.comp (g := fun q : ℝ × ℝ => (Icc R.1.1 R.2.1 ×ˢ Icc R.1.2 R.2.2).indicator (fun _ => (1 : ℝ)) q)
      (f := fun x : ℝ => corrPair x p) ?_ hc.continuousAt
    set q := corrPair rho p with hq
    have n1' : q.1 ≠ R.1.1 := n1
    have n2' : q.1 ≠ R.2.1 := n2
    have n3' : q.2 ≠ R.1.2 := n3
    have n4' : q.2 ≠ R.2.2 := n4
    by_cases hin : q ∈ Icc R.1.1 R.2.1 ×ˢ Icc R.1.2 R.2.2
    · have ho : Ioo R.1.1 R.2.1 ×ˢ Ioo R.1.2 R.2.2 ∈ nhds q := by
        refine (isOpen_Ioo.prod isOpen_Ioo).mem_nhds ?_
        obtain ⟨⟨g1, g2⟩, g3, g4⟩ := hin
        exact ⟨⟨lt_of_le_of_ne g1 n1'.symm, lt_of_le_of_ne g2 n2'⟩, lt_of_le_of_ne g3 n3'.symm, lt_of_le_of_ne g4 n4'⟩
      refine (continuousAt_const (y := (1 : ℝ))).congr ?_
      filter_upwards [ho] with z hz
      rw [indicator_of_mem (prod_mono Ioo_subset_Icc_self Ioo_subset_Icc_self hz)]
    · have ho : (Icc R.1.1 R.2.1 ×ˢ Icc R.1.2 R.2.2)ᶜ ∈ nhds q :=
        (isClosed_Icc.prod isClosed_Icc).isOpen_compl.mem_nhds hin
      refine (continuousAt_const (y := (0 : ℝ))).congr ?_
      filter_upwards [ho] with z hz
      rw [indicator_of_notMem hz]

/-- The true integrals of the bivariate normal density meet the contract. -/
theorem gaussian_mvn_spec : MvnSpec gaussMvn := by
  constructor
  · intro rho a b c d
    unfold gaussMvn
    split
    swap
    · rfl
    have := neg_preserves.measureReal_preimage
      (s := {p | corrPair rho p ∈ Icc a c ×ˢ Icc b d})
      ((corrPair_measurable rho (rect_measurable ((a, b), (c, d)))).nullMeasurableSet)
    rw [← this]
    congr 1
    ext p
    simp only [mem_ofPred_eq, mem_preimage, corrPair, mem_prod, mem_Icc]
    constructor <;> rintro ⟨⟨h1, h2⟩, h3, h4⟩ <;> refine ⟨⟨?_, ?_⟩, ?_, ?_⟩ <;> nlinarith
  · intro rho a b c d
    unfold gaussMvn
    split
    swap
    · rfl
    next h =>
    have := (refl_preserves (sq_sqrt_rho h)).measureReal_preimage
      (s := {p | corrPair rho p ∈ Icc a c ×ˢ Icc b d})
      ((corrPair_measurable rho (rect_measurable ((a, b), (c, d)))).nullMeasurableSet)
    rw [← this]
    congr 1
    ext p
    simp only [mem_ofPred_eq, mem_preimage, corrPair_refl h, mem_prod, Prod.fst_swap, Prod.snd_swap]
    exact and_comm
  · exact gaussMvn_cont
  · intro a b c d h1 h2
    unfold gaussMvn
    rw [if_pos (by norm_num)]
    have : {p : ℝ × ℝ | corrPair 0 p ∈ Icc a c ×ˢ Icc b d} = Icc a c ×ˢ Icc b d := by
      ext p; simp [corrPair]
    simp only [this, measureReal_prod_prod]
    have key : ∀ a c : ℝ, a < c → 0 < γ.real (Icc a c) := by
      intro a c h
      rw [measureReal_def]
      refine ENNReal.toReal_pos ?_ (measure_ne_top _ _)
      intro h0
      have := gaussianReal_absolutelyContinuous' 0 (v := 1) one_ne_zero h0
      rw [Real.volume_Icc] at this
      simp at this
      linarith
    exact mul_pos (key _ _ h1) (key _ _ h2)
  · intro a b c d h1 h2 h3
    unfold gaussMvn
    rw [if_pos (by norm_num), measureReal_def, measure_mono_null _ (line_null b)]
    · rfl
    · intro p hp
      simp only [mem_ofPred_eq, corrPair, mem_prod, mem_Icc] at hp ⊢
      simp at hp
      linarith

/-- The probability of a rectangle is the integral of the bivariate normal density. -/
theorem gaussMvn_density {rho : ℝ} (h : rho ^ 2 < 1) (a b c d : ℝ) :
    gaussMvn rho ((a, b), (c, d)) = ∫ p in Icc a c ×ˢ Icc b d,
      (2 * Real.pi * Real.sqrt (1 - rho ^ 2))⁻¹ *
        Real.exp (-(p.1 ^ 2 - 2 * rho * p.1 * p.2 + p.2 ^ 2) / (2 * (1 - rho ^ 2))) := by
  set s := Real.sqrt (1 - rho ^ 2) with hs
  have hs0 : 0 < s := Real.sqrt_pos.2 (by linarith)
  have hs2 : s ^ 2 = 1 - rho ^ 2 := Real.sq_sqrt (by linarith)
  have hS : MeasurableSet (Icc a c ×ˢ Icc b d) := rect_measurable ((a, b), (c, d))
  set g : ℝ × ℝ → ℝ := fun p => (2 * Real.pi * s)⁻¹ *
        Real.exp (-(p.1 ^ 2 - 2 * rho * p.1 * p.2 + p.2 ^ 2) / (2 * (1 - rho ^ 2))) with hg
  have hgm : Measurable g := by fun_prop
  have hg0 : ∀ p, 0 ≤ g p := fun p => by positivity
  have hdet : LinearMap.det (lin 1 0 rho s) ≠ 0 := by rw [lin_det]; simpa using hs0.ne'
  have hL : ∀ p, lin 1 0 rho s p = corrPair rho p := by
    intro p; simp [lin, corrPair, hs]
  have hLm : Measurable (lin 1 0 rho s) := by
    have : (lin 1 0 rho s : ℝ × ℝ → ℝ × ℝ) = corrPair rho := funext hL
    rw [this]; exact corrPair_measurable rho
  unfold gaussMvn
  rw [if_pos h.le, measureReal_def]
  rw [integral_eq_lintegral_of_nonneg_ae (Filter.Eventually.of_forall hg0) hgm.aestronglyMeasurable]
  congr 1
  have hpre : MeasurableSet {p | corrPair rho p ∈ Icc a c ×ˢ Icc b d} := corrPair_measurable rho hS
  change γ2 {p | corrPair rho p ∈ Icc a c ×ˢ Icc b d} = _
  rw [γ2_density, withDensity_apply _ hpre]
  have hmap := Measure.map_linearMap_addHaar_eq_smul_addHaar (volume : Measure (ℝ × ℝ)) hdet
  have hback : (volume : Measure (ℝ × ℝ)) = ENNReal.ofReal s • Measure.map (lin 1 0 rho s) volume := by
    rw [hmap, lin_det, smul_smul, ← ENNReal.ofReal_mul hs0.le]
    simp only [one_mul, zero_mul, sub_zero, abs_inv, abs_of_pos hs0, mul_inv_cancel₀ hs0.ne']
    simp
  conv_rhs => rw [hback]
  rw [Measure.restrict_smul, lintegral_smul_measure, setLIntegral_map hS (hgm.ennreal_ofReal) hLm, smul_eq_mul,
    ← lintegral_const_mul _ (by exact (hgm.comp hLm).ennreal_ofReal)]
  have hset : {p | corrPair rho p ∈ Icc a c ×ˢ Icc b d} = (lin 1 0 rho s) ⁻¹' (Icc a c ×ˢ Icc b d) := by
    ext p; simp only [mem_ofPred_eq, mem_preimage, hL]
  rw [hset]
  refine lintegral_congr fun p => ?_
  rw [hL, ← ENNReal.ofReal_mul hs0.le]
  simp only [gaussianPDF, gaussianPDFReal]
  rw [← ENNReal.ofReal_mul (by positivity)]
  congr 1
  simp only [hg, corrPair, sub_zero, NNReal.coe_one, mul_one]
  rw [← hs]
  have e : ∀ k x y : ℝ, k * Real.exp x * (k * Real.exp y) = k * k * Real.exp (x + y) := by
    intro k x y; rw [Real.exp_add]; ring
  have e2 : (Real.sqrt (2 * Real.pi))⁻¹ * (Real.sqrt (2 * Real.pi))⁻¹ = (2 * Real.pi)⁻¹ := by
    rw [← mul_inv, Real.mul_self_sqrt (by positivity)]
  rw [e, e2, ← hs2]
  have e3 : s * ((2 * Real.pi * s)⁻¹ * Real.exp (-(p.1 ^ 2 - 2 * rho * p.1 * (rho * p.1 + s * p.2) + (rho * p.1 + s * p.2) ^ 2) /
      (2 * s ^ 2))) = (2 * Real.pi)⁻¹ * Real.exp (-(p.1 ^ 2 - 2 * rho * p.1 * (rho * p.1 + s * p.2) +
      (rho * p.1 + s * p.2) ^ 2) / (2 * s ^ 2)) := by
    field_simp
  rw [e3]
  congr 2
  field_simp
  linear_combination (-p.1 ^ 2) * hs2

end Phik.Gauss
