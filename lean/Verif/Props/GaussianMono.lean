import Verif.Props.Gaussian
import Verif.Lemmas.OU
import Verif.Props.PhikMore
import Verif.Props.PhikWitness
import Verif.Spec.Matrix
import Mathlib.LinearAlgebra.Matrix.PosDef
import Mathlib.Analysis.Matrix.Order

/-! # Property C22 for the true bivariate normal distribution and square tables -/

namespace Phik.Gauss
open MeasureTheory ProbabilityTheory Set Spec Props

/-- The probability of a rectangle as an expectation. -/
theorem gaussMvn_K {rho : ℝ} (h : rho ^ 2 ≤ 1) (a b c d : ℝ) :
    gaussMvn rho ((a, b), (c, d)) = K rho (ind a c) (ind b d) := by
  unfold gaussMvn K
  rw [if_pos h]
  have hm : MeasurableSet {p | corrPair rho p ∈ Icc a c ×ˢ Icc b d} :=
    corrPair_measurable rho (rect_measurable ((a, b), (c, d)))
  have := integral_indicator_one (μ := γ2) hm
  refine this.symm.trans (integral_congr_ae (Filter.Eventually.of_forall fun p => ?_))
  simp only [ind, indicator, mem_ofPred_eq, corrPair, mem_prod, Pi.one_apply]
  by_cases h1 : p.1 ∈ Icc a c <;> by_cases h2 : rho * p.1 + Real.sqrt (1 - rho ^ 2) * p.2 ∈ Icc b d <;> simp [h1, h2]

/-- Quadratic forms of the probabilities of cells with the same edges are expectations. -/
theorem quad_K (rho : ℝ) {n : ℕ} (lo hi w : Fin n → ℝ) :
    ∑ i, ∑ j, w i * w j * K rho (ind (lo i) (hi i)) (ind (lo j) (hi j)) =
      K rho (fun x => ∑ i, w i * ind (lo i) (hi i) x) (fun x => ∑ i, w i * ind (lo i) (hi i) x) := by
  unfold K
  have hi' : ∀ i j, Integrable (fun p : ℝ × ℝ => w i * w j * (ind (lo i) (hi i) p.1 *
      ind (lo j) (hi j) (rho * p.1 + Real.sqrt (1 - rho ^ 2) * p.2))) γ2 := fun i j =>
    ((ind_BM _ _).integrable_mul (ind_BM _ _) measurable_fst (by fun_prop)).const_mul _
  have e : ∀ p : ℝ × ℝ, (∑ i, w i * ind (lo i) (hi i) p.1) *
      (∑ i, w i * ind (lo i) (hi i) (rho * p.1 + Real.sqrt (1 - rho ^ 2) * p.2)) =
      ∑ i, ∑ j, w i * w j * (ind (lo i) (hi i) p.1 * ind (lo j) (hi j) (rho * p.1 + Real.sqrt (1 - rho ^ 2) * p.2)) := by
    intro p
    rw [Finset.sum_mul_sum]
    refine Finset.sum_congr rfl fun i _ => Finset.sum_congr rfl fun j _ => ?_
    ring
  simp only [e]
  rw [integral_finsetSum _ fun i _ => integrable_finsetSum _ fun j _ => hi' i j]
  refine Finset.sum_congr rfl fun i _ => ?_
  rw [integral_finsetSum _ fun j _ => hi' i j]
  refine Finset.sum_congr rfl fun j _ => ?_
  rw [integral_const_mul]

theorem sum_ind_BM {n : ℕ} (lo hi w : Fin n → ℝ) : BM fun x => ∑ i, w i * ind (lo i) (hi i) x := by
  refine ⟨Finset.measurable_sum _ fun i _ => (ind_BM _ _).1.const_mul _, ∑ i, |w i|, fun x => ?_⟩
  refine (Finset.abs_sum_le_sum_abs _ _).trans (Finset.sum_le_sum fun i _ => ?_)
  rw [abs_mul]
  have : |ind (lo i) (hi i) x| ≤ 1 := by
    unfold ind indicator
    split <;> simp
  nlinarith [abs_nonneg (w i)]

/-- The matrix of increments of cell probabilities between two correlations is positive semidefinite. -/
theorem incr_psd {c d : ℝ} (hc : 0 ≤ c) (hcd : c ≤ d) (hd : d ≤ 1) {n : ℕ} (lo hi : Fin n → ℝ) :
    (Matrix.of fun i j => K d (ind (lo i) (hi i)) (ind (lo j) (hi j)) - K c (ind (lo i) (hi i)) (ind (lo j) (hi j))).PosSemidef := by
  have h2 : ∀ r : ℝ, 0 ≤ r → r ≤ 1 → r ^ 2 ≤ 1 := fun r h1 h2 => by nlinarith
  refine Matrix.PosSemidef.of_dotProduct_mulVec_nonneg ?_ fun x => ?_
  · ext i j
    simp only [Matrix.conjTranspose_apply, Matrix.of_apply, star_trivial]
    rw [K_symm (h2 d (hc.trans hcd) hd) _ _ (ind_BM _ _) (ind_BM _ _), K_symm (h2 c hc (hcd.trans hd)) _ _ (ind_BM _ _) (ind_BM _ _)]
  · simp only [dotProduct, Matrix.mulVec, Matrix.of_apply, star_trivial]
    have : ∑ i, x i * ∑ j, (K d (ind (lo i) (hi i)) (ind (lo j) (hi j)) - K c (ind (lo i) (hi i)) (ind (lo j) (hi j))) * x j =
        K d (fun y => ∑ i, x i * ind (lo i) (hi i) y) (fun y => ∑ i, x i * ind (lo i) (hi i) y) -
        K c (fun y => ∑ i, x i * ind (lo i) (hi i) y) (fun y => ∑ i, x i * ind (lo i) (hi i) y) := by
      rw [← quad_K, ← quad_K, ← Finset.sum_sub_distrib]
      refine Finset.sum_congr rfl fun i _ => ?_
      rw [Finset.mul_sum, ← Finset.sum_sub_distrib]
      refine Finset.sum_congr rfl fun j _ => ?_
      ring
    rw [this, sub_nonneg]
    exact K_mono hc hcd hd (sum_ind_BM lo hi x)

/-- The entrywise scalar product of two positive semidefinite matrices with positive weights is not negative. -/
theorem psd_sum_nonneg {n : ℕ} {A B : Matrix (Fin n) (Fin n) ℝ} (hA : A.PosSemidef) (hB : B.PosSemidef) (w : Fin n → ℝ) :
    0 ≤ ∑ i, ∑ j, A i j * B i j * (w i * w j) := by
  have h := (hA.hadamard hB).dotProduct_mulVec_nonneg w
  simp only [dotProduct, Matrix.mulVec, Pi.star_apply, star_trivial, Matrix.hadamard_apply] at h
  refine h.trans_eq (Finset.sum_congr rfl fun i _ => ?_)
  rw [Finset.mul_sum]
  refine Finset.sum_congr rfl fun j _ => ?_
  ring

theorem K_zero {f g : ℝ → ℝ} (hf : BM f) (hg : BM g) : K 0 f g = (∫ x, f x ∂γ) * ∫ x, g x ∂γ := by
  rw [K_eq 0 hf hg]
  simp only [T]
  simp [integral_mul_const]

/-- The distance of the binned distribution with the same cells for both variables from the uncorrelated one increases
strictly with the correlation. -/
theorem cells_distance_strict {n : ℕ} (hn : 1 ≤ n) {lo hi : Fin n → ℝ} (hlt : ∀ i, lo i < hi i) :
    StrictMonoOn (fun r => ∑ i, ∑ j, (K r (ind (lo i) (hi i)) (ind (lo j) (hi j)) -
      K 0 (ind (lo i) (hi i)) (ind (lo j) (hi j))) ^ 2 * ((γ.real (Icc (lo i) (hi i)))⁻¹ * (γ.real (Icc (lo j) (hi j)))⁻¹))
      (Icc 0 1) := by
  intro c hc d hd hcd
  beta_reduce
  set p : Fin n → ℝ := fun i => γ.real (Icc (lo i) (hi i)) with hp
  have hp0 : ∀ i, 0 < p i := fun i => γ_Icc_pos (hlt i)
  change ∑ i, ∑ j, _ * ((p i)⁻¹ * (p j)⁻¹) < ∑ i, ∑ j, _ * ((p i)⁻¹ * (p j)⁻¹)
  rw [← sub_pos, ← Finset.sum_sub_distrib]
  have hA := incr_psd le_rfl hc.1 hc.2 lo hi
  have hB := incr_psd hc.1 hcd.le hd.2 lo hi
  have hAB := psd_sum_nonneg hA hB fun i => (p i)⁻¹
  simp only [Matrix.of_apply] at hAB
  have hBB : 0 < ∑ i, ∑ j, (K d (ind (lo i) (hi i)) (ind (lo j) (hi j)) -
      K c (ind (lo i) (hi i)) (ind (lo j) (hi j))) ^ 2 * ((p i)⁻¹ * (p j)⁻¹) := by
    have hnn : ∀ i j, 0 ≤ (K d (ind (lo i) (hi i)) (ind (lo j) (hi j)) -
        K c (ind (lo i) (hi i)) (ind (lo j) (hi j))) ^ 2 * ((p i)⁻¹ * (p j)⁻¹) := fun i j =>
      mul_nonneg (sq_nonneg _) (mul_nonneg (inv_nonneg.2 (hp0 i).le) (inv_nonneg.2 (hp0 j).le))
    let z : Fin n := ⟨0, hn⟩
    refine Finset.sum_pos' (fun i _ => Finset.sum_nonneg fun j _ => hnn i j) ⟨z, Finset.mem_univ _,
      Finset.sum_pos' (fun j _ => hnn z j) ⟨z, Finset.mem_univ _, ?_⟩⟩
    have := K_strict hc.1 hcd hd.2 (hlt z)
    have h1 : 0 < K d (ind (lo z) (hi z)) (ind (lo z) (hi z)) - K c (ind (lo z) (hi z)) (ind (lo z) (hi z)) := by linarith
    exact mul_pos (pow_pos h1 2) (mul_pos (inv_pos.2 (hp0 z)) (inv_pos.2 (hp0 z)))
  have key : ∑ i, (∑ j, (K d (ind (lo i) (hi i)) (ind (lo j) (hi j)) - K 0 (ind (lo i) (hi i)) (ind (lo j) (hi j))) ^ 2 *
      ((p i)⁻¹ * (p j)⁻¹) - ∑ j, (K c (ind (lo i) (hi i)) (ind (lo j) (hi j)) -
      K 0 (ind (lo i) (hi i)) (ind (lo j) (hi j))) ^ 2 * ((p i)⁻¹ * (p j)⁻¹)) =
      2 * ∑ i, ∑ j, (K c (ind (lo i) (hi i)) (ind (lo j) (hi j)) - K 0 (ind (lo i) (hi i)) (ind (lo j) (hi j))) *
        (K d (ind (lo i) (hi i)) (ind (lo j) (hi j)) - K c (ind (lo i) (hi i)) (ind (lo j) (hi j))) * ((p i)⁻¹ * (p j)⁻¹) +
      ∑ i, ∑ j, (K d (ind (lo i) (hi i)) (ind (lo j) (hi j)) - K c (ind (lo i) (hi i)) (ind (lo j) (hi j))) ^ 2 *
        ((p i)⁻¹ * (p j)⁻¹) := by
    rw [Finset.mul_sum, ← Finset.sum_add_distrib]
    refine Finset.sum_congr rfl fun i _ => ?_
    rw [Finset.mul_sum, ← Finset.sum_add_distrib, ← Finset.sum_sub_distrib]
    refine Finset.sum_congr rfl fun j _ => ?_
    ring
  rw [key]
  linarith

/-- A term of the distance, for a cell of the true distribution. -/
theorem cell_term {r : ℝ} (hr : r ∈ Icc (0 : ℝ) 1) (a b c d : ℝ) :
    (gaussMvn r ((a, b), (c, d)) - gaussMvn 0 ((a, b), (c, d))) ^ 2 / gaussMvn 0 ((a, b), (c, d)) =
      (K r (ind a c) (ind b d) - K 0 (ind a c) (ind b d)) ^ 2 * ((γ.real (Icc a c))⁻¹ * (γ.real (Icc b d))⁻¹) := by
  rw [gaussMvn_K (by nlinarith [hr.1, hr.2]), gaussMvn_K (by norm_num), div_eq_mul_inv, ← mul_inv]
  congr 2
  rw [K_zero (ind_BM _ _) (ind_BM _ _), integral_ind, integral_ind]

/-- **C22.** With the true bivariate normal integrals and the same number of bins for both variables, the distance of the
binned distribution from the uncorrelated one increases strictly with the correlation. -/
theorem square_distance_strict {n : ℕ} (hn : 1 ≤ n) : StrictMonoOn (distance gaussMvn n n) (Icc 0 1) := by
  refine (cells_distance_strict hn (lo := fun i => (uniformEdges n).getD i 0) (hi := fun i => (uniformEdges n).getD (i + 1) 0)
    fun i => uniform_lt i.2).congr fun r hr => ?_
  rw [distance_sum, Finset.sum_range]
  refine Finset.sum_congr rfl fun i _ => ?_
  rw [Finset.sum_range]
  exact Finset.sum_congr rfl fun j _ => (cell_term hr _ _ _ _).symm

/-- **C22.** For square tables the theoretical curve is strictly increasing. -/
theorem square_theory_strict {k : ℕ} (hk : 2 ≤ k) {n ped : ℝ} (hmax : ped < n * (k - 1 : ℕ)) :
    StrictMonoOn (theoryChi2 gaussMvn k k n ped) (Icc 0 1) := by
  intro x hx y hy hxy
  have h := square_distance_strict (show 1 ≤ k by omega) hx hy hxy
  have h1 := distance_one_pos gaussian_mvn_spec hk hk
  unfold theoryChi2
  rw [min_self]
  have h2 : 0 < n * (k - 1 : ℕ) - ped := by linarith
  have h3 := div_lt_div_of_pos_right h h1
  have := mul_lt_mul_of_pos_left h3 h2
  linarith

/-- **C22.** With the true bivariate normal integrals and a square table, converting a correlation to chi2 and back returns
it up to the tolerance of the root finder, for every correlation in [0, 1]. -/
theorem square_round_trip {brentq : (ℝ → ℝ) → ℝ → ℝ → ℝ → Except Err ℝ} (hb : BrentqSpec brentq) {k : ℕ} (hk : 2 ≤ k)
    {n ped rho : ℝ} (hn : 0 < n) (hp : 0 ≤ ped) (hmax : ped < n * (k - 1 : ℕ)) (h0 : 0 ≤ rho) (h1 : rho ≤ 1) :
    ∃ chi2 x : ℝ, chi2FromPhik gaussMvn rho n 0 none none none none ped k k = .ok chi2 ∧
      phikFromChi2 gaussMvn brentq chi2 n k k none none ped = .ok x ∧
      |x - rho| ≤ 1 / 10 ^ 5 + 4 * 2 ^ (-52 : ℤ) * |rho| :=
  phik_round_trip gaussian_mvn_spec hb hk hk hn hp (by rwa [min_self]) (square_theory_strict hk hmax) h0 h1

/-- The true bivariate normal integrals and an exact root finder meet every contract on the numerics of phik. -/
theorem gaussian_numerics : GoodNumerics ⟨gaussMvn, idealBrentq⟩ := ⟨gaussian_mvn_spec, idealBrentq_spec⟩

/-- The round trip for a three by three table of 100 records with pedestal 4. -/
example : ∃ chi2 x : ℝ, chi2FromPhik gaussMvn (1 / 2) 100 0 none none none none 4 (3 : ℕ) (3 : ℕ) = .ok chi2 ∧
    phikFromChi2 gaussMvn idealBrentq chi2 100 (3 : ℕ) (3 : ℕ) none none 4 = .ok x ∧
    |x - 1 / 2| ≤ 1 / 10 ^ 5 + 4 * 2 ^ (-52 : ℤ) * |(1 / 2 : ℝ)| :=
  square_round_trip idealBrentq_spec (by norm_num) (by norm_num) (by norm_num) (by norm_num) (by norm_num) (by norm_num)

/-- Two identical columns with three categories have phik 1, two identical binary columns less than 1, with the true
integrals. -/
example (noise : Bool) : phikFromHist2d gaussMvn idealBrentq exDiag noise = .ok 1 :=
  phik_determined gaussian_mvn_spec idealBrentq_spec exDiag_data.1 (by simp [exDiag]) (by simp [exDiag])
    (by simp [exDiag]) (.inl exDiag_data.2) noise

example (noise : Bool) := phik_binary_below gaussian_mvn_spec idealBrentq_spec exBinary_data.1 rfl rfl noise

end Phik.Gauss
