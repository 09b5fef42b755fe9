import Verif.Lemmas.CramerV
import Mathlib.Analysis.Complex.ExponentialBounds
import Mathlib.Analysis.Real.Pi.Bounds
import Mathlib.MeasureTheory.Integral.IntervalIntegral.FundThmCalculus

/-! # How much of a normal variable is left after binning: numbers -/

namespace Phik.Gauss
open MeasureTheory ProbabilityTheory Set Spec Props

/-- The density of the standard normal distribution. -/
noncomputable abbrev φ (x : ℝ) : ℝ := gaussianPDFReal 0 1 x

theorem φ_eq (x : ℝ) : φ x = (√(2 * Real.pi))⁻¹ * Real.exp (-x ^ 2 / 2) := by
  simp [φ, gaussianPDFReal]

theorem φ_deriv (x : ℝ) : HasDerivAt (fun x => -φ x) (x * φ x) x := by
  have h : HasDerivAt (fun x : ℝ => -((√(2 * Real.pi))⁻¹ * Real.exp (-x ^ 2 / 2)))
      (-((√(2 * Real.pi))⁻¹ * (Real.exp (-x ^ 2 / 2) * (-(2 * x) / 2)))) x := by
    have h1 : HasDerivAt (fun x : ℝ => -x ^ 2 / 2) (-(2 * x) / 2) x := by
      have := ((hasDerivAt_pow 2 x).neg).div_const 2
      simpa using this
    exact (h1.exp.const_mul _).neg
  have e : (fun x => -φ x) = fun x : ℝ => -((√(2 * Real.pi))⁻¹ * Real.exp (-x ^ 2 / 2)) := by
    funext x; rw [φ_eq]
  rw [e, φ_eq]
  convert h using 1
  ring

/-- The first moment of an interval. -/
theorem integral_Icc_id {a b : ℝ} (h : a ≤ b) : ∫ x in Icc a b, x ∂γ = φ a - φ b := by
  have hm : ∫ x in Icc a b, x ∂γ = ∫ x in Icc a b, x * φ x := by
    rw [γ_density, setIntegral_withDensity_eq_setIntegral_toReal_smul (measurable_gaussianPDF 0 1)
      (Filter.Eventually.of_forall fun x => gaussianPDF_lt_top) _ measurableSet_Icc]
    refine integral_congr_ae (Filter.Eventually.of_forall fun x => ?_)
    simp only [toReal_gaussianPDF, smul_eq_mul]
    ring
  have hc : Continuous fun x : ℝ => x * φ x := by
    have : (fun x : ℝ => x * φ x) = fun x => x * ((√(2 * Real.pi))⁻¹ * Real.exp (-x ^ 2 / 2)) := by
      funext x; rw [φ_eq]
    rw [this]
    fun_prop
  rw [hm, integral_Icc_eq_integral_Ioc, ← intervalIntegral.integral_of_le h,
    intervalIntegral.integral_eq_sub_of_hasDerivAt (fun x _ => φ_deriv x) (hc.intervalIntegrable _ _)]
  ring

/-- The distribution function. -/
noncomputable def Φ (x : ℝ) : ℝ := γ.real (Iic x)

theorem γ_Icc {a b : ℝ} (h : a ≤ b) : γ.real (Icc a b) = Φ b - Φ a := by
  have h0 : γ.real (Icc a b) = γ.real (Ioc a b) := by
    have : NullSingletonClass γ := nullSingletonClass_gaussianReal one_ne_zero
    exact measureReal_congr Ioc_ae_eq_Icc.symm
  have h1 : Iic b = Iic a ∪ Ioc a b := (Iic_union_Ioc_eq_Iic h).symm
  have h2 : γ.real (Iic b) = γ.real (Iic a) + γ.real (Ioc a b) := by
    rw [h1]
    exact measureReal_union (Iic_disjoint_Ioc le_rfl) measurableSet_Ioc
  rw [h0]
  unfold Φ
  linarith

/-- The probability of [-5, 5]. -/
noncomputable def inside : ℝ := Φ 5 - Φ (-5)

theorem inside_range : 24 / 25 ≤ inside ∧ inside ≤ 1 := by
  have h : inside = γ.real (Icc (-5) 5) := (γ_Icc (by norm_num)).symm
  rw [h]
  refine ⟨?_, measureReal_le_one⟩
  have h2 : (25 : ℝ) * γ.real (Icc (-5) 5)ᶜ ≤ 1 := by
    rw [← integral_sq_γ, ← integral_indicator_one (measurableSet_Icc.compl), ← integral_const_mul]
    refine integral_mono (((integrable_const 1).indicator measurableSet_Icc.compl).const_mul _) sq_integrable fun x => ?_
    by_cases hx : x ∈ Icc (-5 : ℝ) 5
    · simp [hx, mul_self_nonneg]
    · simp only [mem_compl_iff, hx, not_false_eq_true, indicator_of_mem, Pi.one_apply]
      simp only [mem_Icc, not_and_or, not_le] at hx
      rcases hx with hx | hx <;> nlinarith
  rw [measureReal_compl measurableSet_Icc, probReal_univ] at h2
  linarith

theorem edge_value {k i : ℕ} (h : i ≤ k) : (uniformEdges k).getD i 0 = -5 + 10 * (i : ℝ) / k := uniform_getD h

theorem sum_binP {k : ℕ} (hk : 1 ≤ k) : ∑ i, binP k i = inside := by
  have h : ∀ i : Fin k, binP k i = (fun j : ℕ => Φ (-5 + 10 * (j : ℝ) / k)) (i + 1) -
      (fun j : ℕ => Φ (-5 + 10 * (j : ℝ) / k)) i := by
    intro i
    unfold binP edgeLo edgeHi
    rw [γ_Icc (uniform_lt i.2).le, edge_value (by omega), edge_value (by omega)]
  have hk0 : (0 : ℝ) < k := by exact_mod_cast hk
  rw [Finset.sum_congr rfl fun i _ => h i,
    Fin.sum_univ_eq_sum_range fun i => (fun j : ℕ => Φ (-5 + 10 * (j : ℝ) / k)) (i + 1) - (fun j : ℕ => Φ (-5 + 10 * (j : ℝ) / k)) i,
    Finset.sum_range_sub (fun j : ℕ => Φ (-5 + 10 * (j : ℝ) / k)) k]
  unfold inside
  congr 2
  · rw [mul_div_assoc, div_self hk0.ne']; norm_num
  · simp

/-- The distance of the fully correlated distribution on a square grid. -/
theorem square_distance_one {k : ℕ} (hk : 1 ≤ k) : distance gaussMvn k k 1 = k - 1 + (1 - inside) ^ 2 := by
  rw [distance_cov ⟨zero_le_one, le_rfl⟩]
  have hcov : ∀ i j : Fin k, cov k 1 i j = (if i = j then binP k i else 0) - binP k i * binP k j := by
    intro i j
    unfold cov
    rw [K_one (ind_BM _ _) (ind_BM _ _), K_zero (ind_BM _ _) (ind_BM _ _), integral_ind, integral_ind]
    congr 1
    have hmul : ∀ x, ind (edgeLo k i) (edgeHi k i) x * ind (edgeLo k j) (edgeHi k j) x =
        (Icc (edgeLo k i) (edgeHi k i) ∩ Icc (edgeLo k j) (edgeHi k j)).indicator (fun _ => 1) x := by
      intro x
      by_cases h1 : x ∈ Icc (edgeLo k i) (edgeHi k i) <;> by_cases h2 : x ∈ Icc (edgeLo k j) (edgeHi k j) <;> simp [ind, h1, h2]
    simp only [hmul]
    have hint := integral_indicator_one (μ := γ) ((measurableSet_Icc (a := edgeLo k i) (b := edgeHi k i)).inter
      (measurableSet_Icc (a := edgeLo k j) (b := edgeHi k j)))
    refine hint.trans ?_
    split
    · next h => subst h; rw [inter_self]; rfl
    · next h =>
      have key : ∀ i j : Fin k, i < j → γ.real (Icc (edgeLo k i) (edgeHi k i) ∩ Icc (edgeLo k j) (edgeHi k j)) = 0 := by
        intro i j hij
        have hle : edgeHi k i ≤ edgeLo k j := by
          unfold edgeHi edgeLo
          rw [edge_value (by omega), edge_value (by omega)]
          have h1 : ((i + 1 : ℕ) : ℝ) ≤ (j : ℕ) := by exact_mod_cast hij
          have hk0 : (0 : ℝ) < k := by exact_mod_cast hk
          gcongr
        have : NullSingletonClass γ := nullSingletonClass_gaussianReal one_ne_zero
        have hsub : Icc (edgeLo k i) (edgeHi k i) ∩ Icc (edgeLo k j) (edgeHi k j) ⊆ {edgeLo k j} := by
          rintro x ⟨h1, h2⟩
          exact le_antisymm (h1.2.trans hle) h2.1
        rw [measureReal_def, measure_mono_null hsub (measure_singleton _)]
        rfl
      rcases lt_or_gt_of_ne h with h | h
      · exact key i j h
      · rw [inter_comm]; exact key j i h
  have hterm : ∀ i j : Fin k, cov k 1 i j ^ 2 * ((binP k i)⁻¹ * (binP k j)⁻¹) =
      (if i = j then 1 - 2 * binP k i else 0) + binP k i * binP k j := by
    intro i j
    rw [hcov]
    have hi := (binP_pos k i).ne'
    have hj := (binP_pos k j).ne'
    split
    · next h => subst h; field_simp; ring
    · field_simp; ring
  simp only [hterm, Finset.sum_add_distrib, Finset.sum_ite_eq, Finset.mem_univ, if_true, Finset.sum_sub_distrib]
  rw [← Finset.sum_mul_sum, ← Finset.mul_sum, sum_binP hk]
  simp
  ring

theorem φ_anti {a b : ℝ} (ha : 0 ≤ a) (hab : a ≤ b) : φ b ≤ φ a := by
  rw [φ_eq, φ_eq]
  have : Real.exp (-b ^ 2 / 2) ≤ Real.exp (-a ^ 2 / 2) := Real.exp_le_exp.2 (by nlinarith)
  gcongr

theorem φ_neg (a : ℝ) : φ (-a) = φ a := by rw [φ_eq, φ_eq]; simp

theorem norm_const : 398 / 1000 ≤ (√(2 * Real.pi))⁻¹ ∧ (√(2 * Real.pi))⁻¹ ≤ 1 / 2 := by
  have h1 := Real.pi_lt_d2
  have h2 := Real.pi_gt_three
  have h3 : √(2 * Real.pi) ≤ 1000 / 398 := by
    rw [Real.sqrt_le_left (by norm_num)]
    norm_num
    linarith
  have h4 : 2 ≤ √(2 * Real.pi) := by
    rw [Real.le_sqrt' (by norm_num)]
    linarith
  constructor
  · rw [le_inv_comm₀ (by norm_num) (by linarith)]
    linarith
  · rw [inv_le_comm₀ (by linarith) (by norm_num)]
    linarith

theorem exp_half : 6 / 10 ≤ Real.exp (-(1 : ℝ) / 2) := by
  have h := Real.exp_one_lt_d9
  have h1 : Real.exp (-(1 : ℝ) / 2) ^ 2 = (Real.exp 1)⁻¹ := by
    rw [← Real.exp_nat_mul, ← Real.exp_neg]; congr 1; norm_num
  have h2 : (36 : ℝ) / 100 ≤ (Real.exp 1)⁻¹ := by
    rw [le_inv_comm₀ (by norm_num) (Real.exp_pos _)]
    linarith
  nlinarith [Real.exp_pos (-(1 : ℝ) / 2)]

theorem φ_five : φ 5 ≤ 1 / 100 := by
  rw [φ_eq]
  have h1 : Real.exp (-(5 : ℝ) ^ 2 / 2) ≤ Real.exp (-1) ^ 4 := by
    rw [← Real.exp_nat_mul]
    exact Real.exp_le_exp.2 (by norm_num)
  have h2 : Real.exp (-1) ≤ 37 / 100 := by
    rw [Real.exp_neg, inv_le_comm₀ (Real.exp_pos _) (by norm_num)]
    have := Real.exp_one_gt_d9
    norm_num at this ⊢
    linarith
  have h3 : Real.exp (-1) ^ 4 ≤ (37 / 100) ^ 4 := pow_le_pow_left₀ (Real.exp_pos _).le h2 4
  have h4 := norm_const
  calc _ ≤ (1 / 2 : ℝ) * (37 / 100) ^ 4 := mul_le_mul h4.2 (h1.trans h3) (Real.exp_pos _).le (by norm_num)
    _ ≤ 1 / 100 := by norm_num

theorem φ_one : 238 / 1000 ≤ φ 1 := by
  rw [φ_eq]
  have h4 := norm_const.1
  have h5 := exp_half
  have e : -(1 : ℝ) ^ 2 / 2 = -1 / 2 := by norm_num
  rw [e]
  calc (238 / 1000 : ℝ) ≤ 398 / 1000 * (6 / 10) := by norm_num
    _ ≤ _ := mul_le_mul h4 h5 (by norm_num) (by positivity)

theorem φ_third : 85 / 1000 ≤ φ (5 / 3) := by
  rw [φ_eq]
  have h4 := norm_const.1
  have h5 := exp_half
  have e : Real.exp (-(1 : ℝ) / 2) ^ 3 ≤ Real.exp (-(5 / 3 : ℝ) ^ 2 / 2) := by
    rw [← Real.exp_nat_mul]
    exact Real.exp_le_exp.2 (by norm_num)
  have h6 : (6 / 10 : ℝ) ^ 3 ≤ _ := (pow_le_pow_left₀ (by norm_num) h5 3).trans e
  calc (85 / 1000 : ℝ) ≤ 398 / 1000 * (6 / 10) ^ 3 := by norm_num
    _ ≤ _ := mul_le_mul h4 h6 (by norm_num) (by positivity)

/-- Edges of the bins. -/
noncomputable def edge (k i : ℕ) : ℝ := -5 + 10 * (i : ℝ) / k

theorem binnedVariance_eq (k : ℕ) : binnedVariance k =
    ∑ i ∈ Finset.range k, (φ (edge k i) - φ (edge k (i + 1))) ^ 2 / (Φ (edge k (i + 1)) - Φ (edge k i)) := by
  unfold binnedVariance
  refine Finset.sum_congr rfl fun i hi => ?_
  have hi := Finset.mem_range.1 hi
  rw [integral_Icc_id (uniform_lt hi).le, γ_Icc (uniform_lt hi).le, edge_value (by omega), edge_value (by omega)]
  rfl

theorem bin_pos {k i : ℕ} (hi : i < k) : 0 < Φ (edge k (i + 1)) - Φ (edge k i) := by
  have := γ_Icc_pos (uniform_lt hi)
  rwa [γ_Icc (uniform_lt hi).le, edge_value (by omega), edge_value (by omega)] at this

theorem binnedVariance_ge_sq {k m : ℕ} (hk : 1 ≤ k) (h1 : k ≤ 2 * m) (h2 : m ≤ k) (h5 : φ 5 ≤ φ (edge k m)) :
    4 * (φ (edge k m) - φ 5) ^ 2 ≤ binnedVariance k := by
  have hk0 : (0 : ℝ) < k := by exact_mod_cast hk
  set a : ℕ → ℝ := fun i => φ (edge k i) - φ (edge k (i + 1)) with ha
  set p : ℕ → ℝ := fun i => Φ (edge k (i + 1)) - Φ (edge k i) with hp
  have hcs := Finset.sq_sum_div_le_sum_sq_div (Finset.range k) (fun i => |a i|) (g := p) fun i hi => bin_pos (Finset.mem_range.1 hi)
  have hps : ∑ i ∈ Finset.range k, p i = inside := by
    rw [hp, Finset.sum_range_sub fun j => Φ (edge k j)]
    unfold inside edge
    rw [mul_div_assoc, div_self hk0.ne']
    norm_num
  have hlast : edge k k = 5 := by unfold edge; rw [mul_div_assoc, div_self hk0.ne']; norm_num
  have hsplit : 2 * (φ (edge k m) - φ 5) ≤ ∑ i ∈ Finset.range k, |a i| := by
    have e1 : ∑ i ∈ Finset.Ico m k, a i = φ (edge k m) - φ (edge k k) := by
      have := Finset.sum_Ico_sub (fun j => φ (edge k j)) h2
      rw [← neg_inj, ← Finset.sum_neg_distrib]
      simp only [ha, neg_sub]
      rw [this]
    have e2 : ∑ i ∈ Finset.range (k - m), a i = φ (edge k 0) - φ (edge k (k - m)) := by
      have := Finset.sum_range_sub (fun j => φ (edge k j)) (k - m)
      rw [← neg_inj, ← Finset.sum_neg_distrib]
      simp only [ha, neg_sub]
      rw [this]
    have e3 : edge k (k - m) = -edge k m := by
      unfold edge
      rw [Nat.cast_sub h2]
      field_simp
      ring
    have e4 : edge k 0 = -5 := by simp [edge]
    rw [e3, e4, φ_neg, φ_neg] at e2
    rw [hlast] at e1
    have hdis : Disjoint (Finset.range (k - m)) (Finset.Ico m k) := by
      rw [Finset.disjoint_left]
      intro i hi hj
      rw [Finset.mem_range] at hi
      rw [Finset.mem_Ico] at hj
      omega
    have hsub : Finset.range (k - m) ∪ Finset.Ico m k ⊆ Finset.range k := by
      intro i hi
      rw [Finset.mem_union, Finset.mem_range, Finset.mem_Ico] at hi
      rw [Finset.mem_range]
      omega
    have h3 := Finset.sum_le_sum_of_subset_of_nonneg (f := fun i => |a i|) hsub fun i _ _ => abs_nonneg _
    rw [Finset.sum_union hdis] at h3
    have h4 : ∑ i ∈ Finset.Ico m k, a i ≤ ∑ i ∈ Finset.Ico m k, |a i| := Finset.sum_le_sum fun i _ => le_abs_self _
    have h6 : -∑ i ∈ Finset.range (k - m), a i ≤ ∑ i ∈ Finset.range (k - m), |a i| := by
      rw [← Finset.sum_neg_distrib]
      exact Finset.sum_le_sum fun i _ => neg_le_abs _
    linarith
  rw [binnedVariance_eq]
  simp only [sq_abs] at hcs
  refine le_trans ?_ hcs
  rw [hps]
  have hin := inside_range
  rw [le_div_iff₀ (by linarith)]
  have h7 := pow_le_pow_left₀ (by linarith) hsplit 2
  nlinarith [sq_nonneg (φ (edge k m) - φ 5)]

/-- At least a fifth of the variance is left, whatever the number of bins. -/
theorem binnedVariance_ge {k : ℕ} (hk : 2 ≤ k) : 1 / 5 ≤ binnedVariance k := by
  have hk0 : (0 : ℝ) < k := by exact_mod_cast (by omega : 0 < k)
  have f5 := φ_five
  by_cases h3 : k = 3
  · subst h3
    rw [binnedVariance_eq, Finset.sum_range_succ, Finset.sum_range_succ, Finset.sum_range_one]
    have e : ∀ i : ℕ, edge 3 i = -5 + 10 * (i : ℝ) / 3 := fun i => rfl
    have p0 := bin_pos (k := 3) (i := 0) (by norm_num)
    have p1 := bin_pos (k := 3) (i := 1) (by norm_num)
    have p2 := bin_pos (k := 3) (i := 2) (by norm_num)
    have e0 : edge 3 0 = -5 := by rw [e]; norm_num
    have e1 : edge 3 1 = -(5 / 3) := by rw [e]; norm_num
    have e2 : edge 3 2 = 5 / 3 := by rw [e]; norm_num
    have e3 : edge 3 3 = 5 := by rw [e]; norm_num
    norm_num only at p0 p1 p2 ⊢
    rw [e0, e1] at p0
    rw [e2, e3] at p2
    rw [e1, e2] at p1
    rw [e0, e1, e2, e3, φ_neg, φ_neg]
    have ft := φ_third
    -- the mean over a bin is at least its lower edge
    have hmean : 5 / 3 * (Φ 5 - Φ (5 / 3)) ≤ φ (5 / 3) - φ 5 := by
      rw [← γ_Icc (by norm_num), ← integral_Icc_id (by norm_num)]
      have : 5 / 3 * γ.real (Icc (5 / 3) 5) = ∫ _ in Icc (5 / 3 : ℝ) 5, (5 / 3 : ℝ) ∂γ := by
        rw [setIntegral_const, smul_eq_mul, mul_comm]
      rw [this]
      exact setIntegral_mono_on (integrable_const _).integrableOn id_integrable.integrableOn measurableSet_Icc fun x hx => hx.1
    have hmean' : 5 / 3 * (Φ (-(5 / 3)) - Φ (-5)) ≤ φ (5 / 3) - φ 5 := by
      rw [← γ_Icc (by norm_num), ← φ_neg (5 / 3), ← φ_neg 5]
      have h := integral_Icc_id (a := -5) (b := -(5 / 3)) (by norm_num)
      have : 5 / 3 * γ.real (Icc (-5) (-(5 / 3))) = ∫ _ in Icc (-5 : ℝ) (-(5 / 3)), (5 / 3 : ℝ) ∂γ := by
        rw [setIntegral_const, smul_eq_mul, mul_comm]
      rw [this]
      have h2 : ∫ _ in Icc (-5 : ℝ) (-(5 / 3)), (5 / 3 : ℝ) ∂γ ≤ ∫ x in Icc (-5 : ℝ) (-(5 / 3)), -x ∂γ :=
        setIntegral_mono_on (integrable_const _).integrableOn id_integrable.neg.integrableOn measurableSet_Icc fun x hx => by
          linarith [hx.2]
      rw [integral_neg, h] at h2
      linarith
    have t0 : 5 / 3 * (φ (5 / 3) - φ 5) ≤ (φ 5 - φ (5 / 3)) ^ 2 / (Φ (-(5 / 3)) - Φ (-5)) := by
      rw [le_div_iff₀ p0]
      nlinarith
    have t2 : 5 / 3 * (φ (5 / 3) - φ 5) ≤ (φ (5 / 3) - φ 5) ^ 2 / (Φ 5 - Φ (5 / 3)) := by
      rw [le_div_iff₀ p2]
      nlinarith
    have t1 : 0 ≤ (φ (5 / 3) - φ (5 / 3)) ^ 2 / (Φ (5 / 3) - Φ (-(5 / 3))) := by positivity
    linarith
  · set m := (k + 1) / 2 with hm
    have hm1 : k ≤ 2 * m := by omega
    have hm2 : m ≤ k := by omega
    have he0 : 0 ≤ edge k m := by
      unfold edge
      have : (k : ℝ) ≤ 2 * m := by exact_mod_cast hm1
      have h2 : 5 ≤ 10 * (m : ℝ) / k := by rw [le_div_iff₀ hk0]; linarith
      linarith
    have he1 : edge k m ≤ 1 := by
      unfold edge
      have h2 : 10 * (m : ℝ) / k ≤ 6 := by
        rw [div_le_iff₀ hk0]
        have : 10 * m ≤ 6 * k := by omega
        exact_mod_cast this
      linarith
    have h1 := φ_anti he0 he1
    have f1 := φ_one
    have h := binnedVariance_ge_sq (by omega) hm1 hm2 (by linarith)
    nlinarith

end Phik.Gauss
