import Verif.Lemmas.Gebelein
import Verif.Spec.CramerV

/-! # Bounds on the distance of a binned normal distribution from the uncorrelated one, on square grids -/

namespace Phik.Gauss
open MeasureTheory ProbabilityTheory Set Spec Props

theorem id_integrable : Integrable (fun x : ℝ => x) γ := by
  have h : MemLp id 1 γ := memLp_id_gaussianReal 1
  exact h.integrable le_rfl

theorem sq_integrable : Integrable (fun x : ℝ => x * x) γ := by
  have h : MemLp id 2 γ := memLp_id_gaussianReal 2
  simpa [sq] using h.integrable_sq

theorem integral_id_γ : ∫ x, x ∂γ = 0 := integral_id_gaussianReal

theorem integral_sq_γ : ∫ x, x * x ∂γ = 1 := by
  have h := variance_fun_id_gaussianReal (μ := 0) (v := 1)
  rw [variance_eq_integral measurable_id'.aemeasurable] at h
  simp only [integral_id_γ, sub_zero] at h
  simpa [sq] using h

theorem BM.mul_id {f : ℝ → ℝ} (hf : BM f) : Integrable (fun x => f x * x) γ := by
  obtain ⟨h1, C, h2⟩ := hf
  refine (id_integrable.bdd_mul h1.aestronglyMeasurable (c := C) (Filter.Eventually.of_forall fun x => ?_))
  simpa using h2 x

/-- Smoothing and multiplying with the variable. -/
theorem integral_T_id {r : ℝ} (hr : r ∈ Icc (0 : ℝ) 1) {f : ℝ → ℝ} (hf : BM f) :
    ∫ x, T r f x * x ∂γ = r * ∫ x, f x * x ∂γ := by
  have hr2 : r ^ 2 ≤ 1 := by nlinarith [hr.1, hr.2]
  set s := Real.sqrt (1 - r ^ 2) with hs
  have e : r ^ 2 + s ^ 2 = 1 := by rw [hs, Real.sq_sqrt (by linarith)]; ring
  have h := (refl_preserves e).map_eq
  obtain ⟨h1, C, h2⟩ := id hf
  have i1 : Integrable (fun p : ℝ × ℝ => f (r * p.1 + s * p.2) * p.1) γ2 := by
    refine (id_integrable.comp_fst γ).bdd_mul (h1.comp (by fun_prop)).aestronglyMeasurable (c := C)
      (Filter.Eventually.of_forall fun x => ?_)
    simpa using h2 _
  have i2 : Integrable (fun p : ℝ × ℝ => f p.1 * p.1) γ2 := hf.mul_id.comp_fst γ
  have i3 : Integrable (fun p : ℝ × ℝ => f p.1 * p.2) γ2 := by
    refine (id_integrable.comp_snd γ).bdd_mul (h1.comp (by fun_prop)).aestronglyMeasurable (c := C)
      (Filter.Eventually.of_forall fun x => ?_)
    simpa using h2 _
  have a1 : ∫ x, T r f x * x ∂γ = ∫ p, f (r * p.1 + s * p.2) * p.1 ∂γ2 := by
    rw [integral_prod _ i1]
    refine integral_congr_ae (Filter.Eventually.of_forall fun z => ?_)
    simp only [T]
    rw [integral_mul_const]
  have a2 : ∫ p, f (r * p.1 + s * p.2) * p.1 ∂γ2 = ∫ p, f p.1 * (r * p.1 + s * p.2) ∂γ2 := by
    conv_lhs => rw [← h]
    rw [integral_map (refl_measurable _ _).aemeasurable]
    · refine integral_congr_ae (Filter.Eventually.of_forall fun p => ?_)
      simp only [refl]
      congr 2
      linear_combination p.1 * e
    · rw [h]; exact i1.aestronglyMeasurable
  have a3 : ∀ p : ℝ × ℝ, f p.1 * (r * p.1 + s * p.2) = r * (f p.1 * p.1) + s * (f p.1 * p.2) := by intro p; ring
  rw [a1, a2]
  simp only [a3]
  rw [integral_add (i2.const_mul _) (i3.const_mul _), integral_const_mul, integral_const_mul, integral_prod _ i2, integral_prod _ i3]
  have e4 : ∀ x, ∫ y, f x * y ∂γ = 0 := fun x => by
    have := integral_const_mul (μ := γ) (f x) fun y : ℝ => y
    rw [this, integral_id_γ, mul_zero]
  simp [e4]

/-- The covariance of a function of two normal variables is at least their correlation times the square of its linear part. -/
theorem cov_ge_linear {c : ℝ} (hc : c ∈ Icc (0 : ℝ) 1) {f : ℝ → ℝ} (hf : BM f) :
    c * (∫ x, f x * x ∂γ) ^ 2 ≤ K c f f - K 0 f f := by
  set α := ∫ x, f x * x ∂γ with hα
  set m := ∫ x, f x ∂γ with hm
  set s := Real.sqrt c with hs
  have hs2 : s * s = c := Real.mul_self_sqrt hc.1
  have hsm : s ∈ Icc (0 : ℝ) 1 := ⟨Real.sqrt_nonneg _, Real.sqrt_le_one.2 hc.2⟩
  have hb := T_BM s hf
  have i1 : Integrable (fun x => T s f x * T s f x) γ := (hb.mul hb).integrable (μ := γ) measurable_id
  have i2 : Integrable (fun x => T s f x) γ := hb.integrable measurable_id
  have i3 : Integrable (fun x => T s f x * x) γ := hb.mul_id
  have e : ∫ x, (T s f x - m - α * s * x) ^ 2 ∂γ = K c f f - K 0 f f - c * α ^ 2 := by
    have h : ∀ x, (T s f x - m - α * s * x) ^ 2 = T s f x * T s f x - (2 * m) * T s f x - (2 * α * s) * (T s f x * x) +
        m ^ 2 + (2 * m * α * s) * x + (α * s) ^ 2 * (x * x) := by intro x; ring
    simp only [h]
    rw [integral_add, integral_add, integral_add, integral_sub, integral_sub, integral_const_mul, integral_const_mul,
      integral_const_mul, integral_const_mul, integral_T_id hsm hf, integral_T_T hsm hsm hf, hs2,
      integral_T (by nlinarith [hsm.1, hsm.2]) hf, K_zero hf hf, integral_id_γ, integral_sq_γ, ← hα, ← hm]
    · simp only [integral_const, probReal_univ, one_smul]
      linear_combination (-α ^ 2) * hs2
    · exact i1
    · exact i2.const_mul _
    · exact i1.sub (i2.const_mul _)
    · exact i3.const_mul _
    · exact (i1.sub (i2.const_mul _)).sub (i3.const_mul _)
    · exact integrable_const _
    · exact ((i1.sub (i2.const_mul _)).sub (i3.const_mul _)).add (integrable_const _)
    · exact id_integrable.const_mul _
    · exact (((i1.sub (i2.const_mul _)).sub (i3.const_mul _)).add (integrable_const _)).add (id_integrable.const_mul _)
    · exact sq_integrable.const_mul _
  have : 0 ≤ ∫ x, (T s f x - m - α * s * x) ^ 2 ∂γ := integral_nonneg fun x => sq_nonneg _
  rw [e] at this
  linarith

/-- The covariances of the cells are at least the correlation times the products of the first moments of the cells. -/
theorem linear_psd {c : ℝ} (hc : c ∈ Icc (0 : ℝ) 1) {n : ℕ} (lo hi : Fin n → ℝ) :
    (Matrix.of fun i j => (K c (ind (lo i) (hi i)) (ind (lo j) (hi j)) - K 0 (ind (lo i) (hi i)) (ind (lo j) (hi j))) -
      c * ((∫ x, ind (lo i) (hi i) x * x ∂γ) * ∫ x, ind (lo j) (hi j) x * x ∂γ)).PosSemidef := by
  refine Matrix.PosSemidef.of_dotProduct_mulVec_nonneg ?_ fun x => ?_
  · ext i j
    simp only [Matrix.conjTranspose_apply, Matrix.of_apply, star_trivial]
    rw [K_symm (by nlinarith [hc.1, hc.2]) _ _ (ind_BM _ _) (ind_BM _ _), K_symm (c := 0) (by norm_num) _ _ (ind_BM _ _) (ind_BM _ _),
      mul_comm (∫ x, ind (lo j) (hi j) x * x ∂γ)]
  · simp only [dotProduct, Matrix.mulVec, Matrix.of_apply, star_trivial]
    have h := cov_ge_linear hc (sum_ind_BM lo hi x)
    have e : ∫ y, (∑ i, x i * ind (lo i) (hi i) y) * y ∂γ = ∑ i, x i * ∫ y, ind (lo i) (hi i) y * y ∂γ := by
      have : ∀ y, (∑ i, x i * ind (lo i) (hi i) y) * y = ∑ i, x i * (ind (lo i) (hi i) y * y) := by
        intro y
        rw [Finset.sum_mul]
        exact Finset.sum_congr rfl fun i _ => by ring
      simp only [this]
      rw [integral_finsetSum _ fun i _ => (ind_BM _ _).mul_id.const_mul _]
      exact Finset.sum_congr rfl fun i _ => integral_const_mul _ _
    rw [← quad_K, ← quad_K, e, sq, Finset.sum_mul_sum, ← Finset.sum_sub_distrib, Finset.mul_sum,
      ← sub_nonneg, ← Finset.sum_sub_distrib] at h
    refine h.trans_eq (Finset.sum_congr rfl fun i _ => ?_)
    rw [Finset.mul_sum, ← Finset.sum_sub_distrib, ← Finset.sum_sub_distrib, Finset.mul_sum]
    refine Finset.sum_congr rfl fun j _ => ?_
    ring

theorem rankOne_psd {n : ℕ} (a : Fin n → ℝ) {c : ℝ} (hc : 0 ≤ c) : (Matrix.of fun i j => c * (a i * a j)).PosSemidef := by
  refine Matrix.PosSemidef.of_dotProduct_mulVec_nonneg ?_ fun x => ?_
  · ext i j
    simp only [Matrix.conjTranspose_apply, Matrix.of_apply, star_trivial]
    ring
  · simp only [dotProduct, Matrix.mulVec, Matrix.of_apply, star_trivial]
    have : ∑ i, x i * ∑ j, c * (a i * a j) * x j = c * ((∑ i, a i * x i) * ∑ j, a j * x j) := by
      rw [Finset.sum_mul_sum, Finset.mul_sum]
      refine Finset.sum_congr rfl fun i _ => ?_
      rw [Finset.mul_sum, Finset.mul_sum]
      exact Finset.sum_congr rfl fun j _ => by ring
    rw [this]
    exact mul_nonneg hc (mul_self_nonneg _)

/-- If a matrix dominates another one (both positive semidefinite) then so does its weighted sum of squares. -/
theorem psd_sq_le {n : ℕ} {A B : Matrix (Fin n) (Fin n) ℝ} (hA : A.PosSemidef) (hBA : (B - A).PosSemidef) (w : Fin n → ℝ) :
    ∑ i, ∑ j, A i j ^ 2 * (w i * w j) ≤ ∑ i, ∑ j, B i j ^ 2 * (w i * w j) := by
  have hB : (B + A).PosSemidef := by
    have := (hBA.add hA).add hA
    rwa [sub_add_cancel] at this
  have h := psd_sum_nonneg hBA hB w
  rw [← sub_nonneg, ← Finset.sum_sub_distrib]
  refine h.trans_eq (Finset.sum_congr rfl fun i _ => ?_)
  rw [← Finset.sum_sub_distrib]
  refine Finset.sum_congr rfl fun j _ => ?_
  simp only [Matrix.sub_apply, Matrix.add_apply]
  ring

/-- The lower and the upper edge of a bin. -/
noncomputable def edgeLo (k : ℕ) (i : Fin k) : ℝ := (uniformEdges k).getD i 0
noncomputable def edgeHi (k : ℕ) (i : Fin k) : ℝ := (uniformEdges k).getD (i + 1) 0

/-- Covariance of the indicators of two bins. -/
noncomputable def cov (k : ℕ) (c : ℝ) (i j : Fin k) : ℝ :=
  K c (ind (edgeLo k i) (edgeHi k i)) (ind (edgeLo k j) (edgeHi k j)) - K 0 (ind (edgeLo k i) (edgeHi k i)) (ind (edgeLo k j) (edgeHi k j))

noncomputable def binP (k : ℕ) (i : Fin k) : ℝ := γ.real (Icc (edgeLo k i) (edgeHi k i))

theorem binP_pos (k : ℕ) (i : Fin k) : 0 < binP k i := γ_Icc_pos (uniform_lt i.2)

theorem distance_cov {k : ℕ} {r : ℝ} (hr : r ∈ Icc (0 : ℝ) 1) :
    distance gaussMvn k k r = ∑ i, ∑ j, cov k r i j ^ 2 * ((binP k i)⁻¹ * (binP k j)⁻¹) := by
  rw [distance_sum, Finset.sum_range]
  refine Finset.sum_congr rfl fun i _ => ?_
  rw [Finset.sum_range]
  exact Finset.sum_congr rfl fun j _ => cell_term hr _ _ _ _

theorem cov_psd (k : ℕ) {c : ℝ} (hc : c ∈ Icc (0 : ℝ) 1) : (Matrix.of (cov k c)).PosSemidef :=
  incr_psd le_rfl hc.1 hc.2 (edgeLo k) (edgeHi k)

/-- On a square grid the distance decreases at least in proportion to the square of the correlation. -/
theorem square_distance_scaled (k : ℕ) {c d : ℝ} (hc : 0 ≤ c) (hcd : c ≤ d) (hd : d ≤ 1) :
    d ^ 2 * distance gaussMvn k k c ≤ c ^ 2 * distance gaussMvn k k d := by
  have hcm : c ∈ Icc (0 : ℝ) 1 := ⟨hc, hcd.trans hd⟩
  have hdm : d ∈ Icc (0 : ℝ) 1 := ⟨hc.trans hcd, hd⟩
  rw [distance_cov hcm, distance_cov hdm]
  have h := psd_sq_le (A := d • Matrix.of (cov k c)) (B := c • Matrix.of (cov k d)) ((cov_psd k hcm).smul hdm.1)
    (gebelein_psd hc hcd hd (edgeLo k) (edgeHi k)) fun i => (binP k i)⁻¹
  simp only [Matrix.smul_apply, Matrix.of_apply, smul_eq_mul, mul_pow, mul_assoc, ← Finset.mul_sum] at h
  exact h

theorem integral_ind_id (a b : ℝ) : ∫ x, ind a b x * x ∂γ = ∫ x in Icc a b, x ∂γ := by
  rw [← integral_indicator measurableSet_Icc]
  refine integral_congr_ae (Filter.Eventually.of_forall fun x => ?_)
  by_cases h : x ∈ Icc a b <;> simp [ind, h]

/-- On a square grid the distance is at least that of the linear part. -/
theorem square_distance_ge (k : ℕ) {c : ℝ} (hc : c ∈ Icc (0 : ℝ) 1) :
    c ^ 2 * binnedVariance k ^ 2 ≤ distance gaussMvn k k c := by
  rw [distance_cov hc]
  have h := psd_sq_le (A := Matrix.of fun i j => c * ((∫ x, ind (edgeLo k i) (edgeHi k i) x * x ∂γ) *
    ∫ x, ind (edgeLo k j) (edgeHi k j) x * x ∂γ)) (B := Matrix.of (cov k c)) (rankOne_psd _ hc.1)
    (linear_psd hc (edgeLo k) (edgeHi k)) fun i => (binP k i)⁻¹
  refine le_trans (le_of_eq ?_) h
  unfold binnedVariance
  rw [Finset.sum_range, sq (∑ i, _), Finset.sum_mul_sum, Finset.mul_sum]
  refine Finset.sum_congr rfl fun i _ => ?_
  rw [Finset.mul_sum]
  refine Finset.sum_congr rfl fun j _ => ?_
  simp only [Matrix.of_apply, integral_ind_id, binP, edgeLo, edgeHi]
  rw [div_eq_mul_inv, div_eq_mul_inv]
  ring

end Phik.Gauss
