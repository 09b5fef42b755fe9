import Verif.Props.SigTrue

/-! # Property C79: the chi2 tail probability grows with the number of degrees of freedom -/

namespace Phik.Props

open Phik.Spec MeasureTheory ProbabilityTheory Set

theorem gamma_ratio {a b r t : ℝ} (ha : 0 < a) (hr : 0 < r) (ht : 0 < t) :
    gammaPDFReal b r t = (r ^ (b - a) * Real.Gamma a / Real.Gamma b * t ^ (b - a)) * gammaPDFReal a r t := by
  unfold gammaPDFReal
  rw [if_pos ht.le, if_pos ht.le]
  have e1 : r ^ b = r ^ (b - a) * r ^ a := by rw [← Real.rpow_add hr]; congr 1; ring
  have e2 : t ^ (b - 1) = t ^ (b - a) * t ^ (a - 1) := by rw [← Real.rpow_add ht]; congr 1; ring
  have := (Real.Gamma_pos_of_pos ha).ne'
  rw [e1, e2]
  field_simp

theorem gamma_le_scaled {a b r c : ℝ} (hc : 0 ≤ c) {S : Set ℝ} (hS : MeasurableSet S)
    (h : ∀ t ∈ S, t ≠ 0 → gammaPDFReal b r t ≤ c * gammaPDFReal a r t) :
    gammaMeasure b r S ≤ ENNReal.ofReal c * gammaMeasure a r S := by
  unfold gammaMeasure
  rw [withDensity_apply _ hS, withDensity_apply _ hS, ← lintegral_const_mul' _ _ ENNReal.ofReal_ne_top]
  refine setLIntegral_mono_ae' hS ?_
  have h0 : ∀ᵐ t : ℝ ∂volume, t ≠ 0 := by
    rw [ae_iff]; simp
  filter_upwards [h0] with t ht hts
  unfold gammaPDF
  rw [← ENNReal.ofReal_mul hc]
  exact ENNReal.ofReal_le_ofReal (h t hts ht)

theorem scaled_le_gamma {a b r c : ℝ} (hc : 0 ≤ c) {S : Set ℝ} (hS : MeasurableSet S)
    (h : ∀ t ∈ S, t ≠ 0 → c * gammaPDFReal a r t ≤ gammaPDFReal b r t) :
    ENNReal.ofReal c * gammaMeasure a r S ≤ gammaMeasure b r S := by
  unfold gammaMeasure
  rw [withDensity_apply _ hS, withDensity_apply _ hS, ← lintegral_const_mul' _ _ ENNReal.ofReal_ne_top]
  refine setLIntegral_mono_ae' hS ?_
  have h0 : ∀ᵐ t : ℝ ∂volume, t ≠ 0 := by
    rw [ae_iff]; simp
  filter_upwards [h0] with t ht hts
  unfold gammaPDF
  rw [← ENNReal.ofReal_mul hc]
  exact ENNReal.ofReal_le_ofReal (h t hts ht)

theorem gamma_pos_interval {a r u v : ℝ} (ha : 0 < a) (hr : 0 < r) (hu : 0 ≤ u) (huv : u < v) {S : Set ℝ}
    (hS : Ioo u v ⊆ S) (hm : MeasurableSet S) : 0 < gammaMeasure a r S := by
  unfold gammaMeasure
  rw [withDensity_apply _ hm, setLIntegral_pos_iff (show Measurable (gammaPDF a r) from (measurable_gammaPDFReal a r).ennreal_ofReal)]
  refine lt_of_lt_of_le ?_ (measure_mono (show Ioo u v ⊆ _ from fun t ht => ⟨?_, hS ht⟩))
  · rw [Real.volume_Ioo]; simpa using huv
  · simp only [Function.mem_support, gammaPDF]
    rw [ne_eq, ENNReal.ofReal_eq_zero, not_le]
    exact gammaPDFReal_pos ha hr (lt_of_le_of_lt hu ht.1)

theorem gamma_tail_strict {a b r x : ℝ} (ha : 0 < a) (hab : a < b) (hr : 0 < r) (hx : 0 < x) :
    (gammaMeasure a r).real (Ioi x) < (gammaMeasure b r).real (Ioi x) := by
  have hb : 0 < b := ha.trans hab
  have := isProbabilityMeasure_gammaMeasure ha hr
  have := isProbabilityMeasure_gammaMeasure hb hr
  set C := r ^ (b - a) * Real.Gamma a / Real.Gamma b with hC
  have hCpos : 0 < C := by
    have := Real.Gamma_pos_of_pos ha
    have := Real.Gamma_pos_of_pos hb
    positivity
  set F := gammaMeasure a r with hF
  set G := gammaMeasure b r with hG
  have hh : ∀ {y : ℝ}, 0 < y → 0 ≤ C * y ^ (b - a) := fun h => by positivity
  have up : ∀ {y : ℝ} {S : Set ℝ}, 0 < y → MeasurableSet S → S ⊆ Iic y → G.real S ≤ (C * y ^ (b - a)) * F.real S := by
    intro y S hy hS hsub
    have h1 := gamma_le_scaled (a := a) (b := b) (r := r) (c := C * y ^ (b - a)) (hh hy) hS (by
      intro t ht h0
      rcases lt_or_gt_of_ne h0 with hneg | hpos
      · simp [gammaPDFReal, not_le.2 hneg]
      · rw [gamma_ratio (b := b) ha hr hpos]
        refine mul_le_mul_of_nonneg_right (mul_le_mul_of_nonneg_left ?_ hCpos.le) (gammaPDFReal_nonneg ha hr t)
        exact Real.rpow_le_rpow hpos.le (hsub ht) (by linarith))
    have h2 := ENNReal.toReal_mono (ENNReal.mul_ne_top ENNReal.ofReal_ne_top (measure_ne_top F S)) h1
    rwa [ENNReal.toReal_mul, ENNReal.toReal_ofReal (hh hy)] at h2
  have low : (C * x ^ (b - a)) * F.real (Ioi x) ≤ G.real (Ioi x) := by
    have h1 := scaled_le_gamma (a := a) (b := b) (r := r) (c := C * x ^ (b - a)) (hh hx) (measurableSet_Ioi (a := x)) (by
      intro t ht h0
      have hpos : 0 < t := hx.trans ht
      rw [gamma_ratio (b := b) ha hr hpos]
      refine mul_le_mul_of_nonneg_right (mul_le_mul_of_nonneg_left ?_ hCpos.le) (gammaPDFReal_nonneg ha hr t)
      exact Real.rpow_le_rpow hx.le (le_of_lt ht) (by linarith))
    have h2 := ENNReal.toReal_mono (measure_ne_top G _) h1
    rwa [ENNReal.toReal_mul, ENNReal.toReal_ofReal (hh hx)] at h2
  have hy : 0 < x / 2 := by linarith
  have hlt : C * (x / 2) ^ (b - a) < C * x ^ (b - a) :=
    mul_lt_mul_of_pos_left (Real.rpow_lt_rpow hy.le (by linarith) (by linarith)) hCpos
  have split : ∀ (μ : Measure ℝ) [IsProbabilityMeasure μ], μ.real (Iic x) = μ.real (Iic (x / 2)) + μ.real (Ioc (x / 2) x) := by
    intro μ _
    rw [← Iic_union_Ioc_eq_Iic (show x / 2 ≤ x by linarith), measureReal_union _ measurableSet_Ioc]
    rw [Set.disjoint_left]; intro z hz hz'; exact absurd hz'.1 (not_lt.2 hz)
  have compl : ∀ (μ : Measure ℝ) [IsProbabilityMeasure μ], μ.real (Iic x) + μ.real (Ioi x) = 1 := by
    intro μ _
    rw [← measureReal_union (by rw [Set.disjoint_left]; intro z hz hz'; exact absurd (mem_Ioi.1 hz') (not_lt.2 hz))
      measurableSet_Ioi, Iic_union_Ioi]
    simp
  have pos1 : 0 < F.real (Iic (x / 2)) := by
    rw [measureReal_def]
    exact ENNReal.toReal_pos (gamma_pos_interval ha hr le_rfl hy (fun t ht => ht.2.le) measurableSet_Iic).ne'
      (measure_ne_top _ _)
  have pos2 : 0 < F.real (Ioi x) := by
    rw [measureReal_def]
    exact ENNReal.toReal_pos (gamma_pos_interval ha hr hx.le (show x < x + 1 by linarith) (fun t ht => ht.1)
      measurableSet_Ioi).ne' (measure_ne_top _ _)
  have hP : G.real (Iic x) < (C * x ^ (b - a)) * F.real (Iic x) := by
    rw [split G, split F]
    have h1 := up hy measurableSet_Iic (Subset.refl (Iic (x / 2)))
    have h2 := up hx (measurableSet_Ioc (a := x / 2) (b := x)) (fun t ht => ht.2)
    have h3 := mul_lt_mul_of_pos_right hlt pos1
    linarith
  have c1 := compl F
  have c2 := compl G
  set p := F.real (Iic x)
  set q := F.real (Ioi x)
  set P := G.real (Iic x)
  set Q := G.real (Ioi x)
  set m := C * x ^ (b - a)
  have hp0 : 0 ≤ p := measureReal_nonneg
  have h4 : P * q < p * Q := by
    calc P * q < (m * p) * q := mul_lt_mul_of_pos_right hP pos2
      _ = p * (m * q) := by ring
      _ ≤ p * Q := mul_le_mul_of_nonneg_left low hp0
  nlinarith

/-- **C79 (chi2 distribution).** The probability of a chi2 value above `x > 0` grows strictly with the number of degrees
of freedom. -/
theorem chi2_tail_strict {x k k' p q : ℝ} (hx : 0 < x) (hk : 0 < k) (hkk : k < k') (hp : trueSig.chi2sf x k = some p)
    (hq : trueSig.chi2sf x k' = some q) : p < q := by
  simp only [trueSig, not_le.2 hk, not_le.2 (hk.trans hkk), if_false, Option.some.injEq] at hp hq
  rw [← hp, ← hq]
  exact gamma_tail_strict (half_pos hk) (by linarith) (by norm_num) hx

end Phik.Props
