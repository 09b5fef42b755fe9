import Verif.Props.GaussianMono
import Mathlib.Analysis.SpecificLimits.Basic

/-! # Correlated normal variables: functions of them are correlated by at most the correlation (Gebelein) -/

namespace Phik.Gauss
open MeasureTheory ProbabilityTheory Set

/-- The normal distribution of an interval is at most its length. -/
theorem γ_le_volume (S : Set ℝ) : γ S ≤ volume S := by
  rw [γ_density, withDensity_apply' _ S]
  calc ∫⁻ x in S, gaussianPDF 0 1 x ≤ ∫⁻ _ in S, 1 := by
        refine lintegral_mono fun x => ?_
        rw [gaussianPDF, ENNReal.ofReal_le_one, gaussianPDFReal]
        have h1 : (Real.sqrt (2 * Real.pi * (1 : NNReal)))⁻¹ ≤ 1 := by
          refine inv_le_one_of_one_le₀ ?_
          rw [Real.one_le_sqrt]
          have := Real.two_le_pi
          simp only [NNReal.coe_one]; linarith
        have h2 : Real.exp (-(x - 0) ^ 2 / (2 * (1 : NNReal))) ≤ 1 := by
          rw [Real.exp_le_one_iff]
          simp only [NNReal.coe_one]
          have := sq_nonneg (x - 0)
          apply div_nonpos_of_nonpos_of_nonneg <;> linarith
        calc _ ≤ (1 : ℝ) * 1 := mul_le_mul h1 h2 (Real.exp_pos _).le zero_le_one
          _ = 1 := one_mul 1
    _ = volume S := by simp

theorem γ_uIcc_le (u v : ℝ) : γ.real (uIcc u v) ≤ |v - u| := by
  rw [measureReal_def]
  have h := γ_le_volume (uIcc u v)
  rw [uIcc, Real.volume_Icc, max_sub_min_eq_abs] at h
  have := ENNReal.toReal_mono ENNReal.ofReal_ne_top h
  rwa [ENNReal.toReal_ofReal (abs_nonneg _)] at this

theorem γ_Icc_close (a b u v : ℝ) : |γ.real (Icc u v) - γ.real (Icc a b)| ≤ |u - a| + |v - b| := by
  have key : ∀ a b u v : ℝ, γ.real (Icc u v) ≤ γ.real (Icc a b) + |u - a| + |v - b| := by
    intro a b u v
    have hs : Icc u v ⊆ (Icc a b ∪ uIcc a u) ∪ uIcc b v := by
      intro x hx
      rcases lt_or_ge x a with h | h
      · exact .inl (.inr ⟨(min_le_right _ _).trans hx.1, h.le.trans (le_max_left _ _)⟩)
      · rcases lt_or_ge b x with h' | h'
        · exact .inr ⟨(min_le_left _ _).trans h'.le, hx.2.trans (le_max_right _ _)⟩
        · exact .inl (.inl ⟨h, h'⟩)
    have h1 := measureReal_mono (μ := γ) hs
    have h2 := measureReal_union_le (μ := γ) (Icc a b ∪ uIcc a u) (uIcc b v)
    have h3 := measureReal_union_le (μ := γ) (Icc a b) (uIcc a u)
    have h4 := γ_uIcc_le a u
    have h5 := γ_uIcc_le b v
    linarith
  have h1 := key a b u v
  have h2 := key u v a b
  rw [abs_sub_comm a u, abs_sub_comm b v] at h2
  rw [abs_le]
  constructor <;> linarith

/-- The conditional probability of an interval. -/
theorem T_ind {c : ℝ} (hc : c ^ 2 < 1) (a b x : ℝ) :
    T c (ind a b) x = γ.real (Icc ((a - c * x) / Real.sqrt (1 - c ^ 2)) ((b - c * x) / Real.sqrt (1 - c ^ 2))) := by
  have hs : 0 < Real.sqrt (1 - c ^ 2) := Real.sqrt_pos.2 (by linarith)
  rw [← integral_ind]
  unfold T
  refine integral_congr_ae (Filter.Eventually.of_forall fun e => ?_)
  simp only [ind, indicator, mem_Icc]
  have : (a ≤ c * x + Real.sqrt (1 - c ^ 2) * e ∧ c * x + Real.sqrt (1 - c ^ 2) * e ≤ b) ↔
      ((a - c * x) / Real.sqrt (1 - c ^ 2) ≤ e ∧ e ≤ (b - c * x) / Real.sqrt (1 - c ^ 2)) := by
    rw [div_le_iff₀ hs, le_div_iff₀ hs]
    constructor <;> rintro ⟨h1, h2⟩ <;> constructor <;> linarith
  simp only [this]

theorem scaled_close {c : ℝ} (hc : c ∈ Icc (0 : ℝ) (1 / 2)) (b x : ℝ) :
    |(b - c * x) / Real.sqrt (1 - c ^ 2) - b| ≤ 2 * c * (|b| + |x|) := by
  obtain ⟨h0, h1⟩ := hc
  set s := Real.sqrt (1 - c ^ 2) with hs
  have hs2 : s ^ 2 = 1 - c ^ 2 := Real.sq_sqrt (by nlinarith)
  have hs0 : 0 ≤ s := Real.sqrt_nonneg _
  have hs1 : s ≤ 1 := by nlinarith
  have hsh : 1 / 2 ≤ s := by nlinarith
  have hsp : 0 < s := by linarith
  have h1s : 1 - s ≤ c := by nlinarith
  have e : (b - c * x) / s - b = (b * (1 - s) - c * x) / s := by field_simp; ring
  rw [e, abs_div, abs_of_pos hsp, div_le_iff₀ hsp]
  have h2 : |b * (1 - s) - c * x| ≤ c * (|b| + |x|) := by
    have := abs_sub (b * (1 - s)) (c * x)
    rw [abs_mul, abs_mul, abs_of_nonneg h0, abs_of_nonneg (by linarith : 0 ≤ 1 - s)] at this
    have := mul_le_mul_of_nonneg_left h1s (abs_nonneg b)
    linarith
  have h3 : 0 ≤ c * (|b| + |x|) := by positivity
  nlinarith

theorem abs_integrable : Integrable (fun x : ℝ => |x|) γ := by
  have h : MemLp id 1 γ := memLp_id_gaussianReal 1
  have := h.integrable le_rfl
  exact this.abs

/-- The covariance of the indicators of two intervals vanishes at least linearly with the correlation. -/
theorem cov_ind_le (a b a' b' : ℝ) : ∃ M, ∀ c ∈ Icc (0 : ℝ) (1 / 2),
    |K c (ind a b) (ind a' b') - K 0 (ind a b) (ind a' b')| ≤ M * c := by
  refine ⟨∫ x, 2 * (|a'| + |b'| + 2 * |x|) ∂γ, fun c hc => ?_⟩
  have hI : Integrable (fun x : ℝ => 2 * (|a'| + |b'| + 2 * |x|)) γ :=
    ((integrable_const _).add (abs_integrable.const_mul _)).const_mul _
  have hJ : ∀ c : ℝ, Integrable (fun z => ind a b z * T c (ind a' b') z) γ := fun c =>
    ((ind_BM a b).mul (T_BM c (ind_BM a' b'))).integrable (μ := γ) measurable_id
  rw [K_eq c (ind_BM _ _) (ind_BM _ _), K_eq 0 (ind_BM _ _) (ind_BM _ _), ← integral_sub (hJ c) (hJ 0),
    ← integral_mul_const]
  refine abs_integral_le_integral_abs.trans (integral_mono_of_nonneg (Filter.Eventually.of_forall fun _ => abs_nonneg _)
    (hI.mul_const _) (Filter.Eventually.of_forall fun x => ?_))
  change |ind a b x * T c (ind a' b') x - ind a b x * T 0 (ind a' b') x| ≤ _
  rw [← mul_sub, abs_mul]
  have h1 : |ind a b x| ≤ 1 := by
    unfold ind indicator
    split <;> simp
  have h2 : |T c (ind a' b') x - T 0 (ind a' b') x| ≤ 2 * (|a'| + |b'| + 2 * |x|) * c := by
    rw [T_ind (by nlinarith [hc.1, hc.2]), T_ind (by norm_num)]
    simp only [zero_mul, sub_zero, ne_eq, OfNat.ofNat_ne_zero, not_false_eq_true, zero_pow, Real.sqrt_one, div_one]
    refine (γ_Icc_close _ _ _ _).trans ?_
    have h3 := scaled_close hc a' x
    have h4 := scaled_close hc b' x
    linarith
  nlinarith [abs_nonneg (ind a b x), abs_nonneg (T c (ind a' b') x - T 0 (ind a' b') x)]

/-- The covariance of a step function with itself vanishes at least linearly with the correlation. -/
theorem cov_step_le {n : ℕ} (lo hi w : Fin n → ℝ) : ∃ M, ∀ c ∈ Icc (0 : ℝ) (1 / 2),
    K c (fun x => ∑ i, w i * ind (lo i) (hi i) x) (fun x => ∑ i, w i * ind (lo i) (hi i) x) -
      K 0 (fun x => ∑ i, w i * ind (lo i) (hi i) x) (fun x => ∑ i, w i * ind (lo i) (hi i) x) ≤ M * c := by
  choose M hM using fun i j => cov_ind_le (lo i) (hi i) (lo j) (hi j)
  refine ⟨∑ i, ∑ j, |w i * w j| * M i j, fun c hc => ?_⟩
  rw [← quad_K, ← quad_K, ← Finset.sum_sub_distrib, Finset.sum_mul]
  refine Finset.sum_le_sum fun i _ => ?_
  rw [← Finset.sum_sub_distrib, Finset.sum_mul]
  refine Finset.sum_le_sum fun j _ => ?_
  rw [← mul_sub, mul_assoc |w i * w j|]
  refine (le_abs_self _).trans ?_
  rw [abs_mul (w i * w j)]
  exact mul_le_mul_of_nonneg_left (hM i j c hc) (abs_nonneg _)

/-- Cauchy–Schwarz for bounded functions. -/
theorem integral_cs {u v : ℝ → ℝ} (hu : BM u) (hv : BM v) :
    (∫ x, u x * v x ∂γ) ^ 2 ≤ (∫ x, u x ^ 2 ∂γ) * ∫ x, v x ^ 2 ∂γ := by
  have iu : Integrable (fun x => u x ^ 2) γ := by simpa only [sq, id] using (hu.mul hu).integrable (μ := γ) measurable_id
  have iv : Integrable (fun x => v x ^ 2) γ := by simpa only [sq, id] using (hv.mul hv).integrable (μ := γ) measurable_id
  have iuv : Integrable (fun x => u x * v x) γ := (hu.mul hv).integrable (μ := γ) measurable_id
  have h : ∀ t : ℝ, 0 ≤ (∫ x, v x ^ 2 ∂γ) * (t * t) + (2 * ∫ x, u x * v x ∂γ) * t + ∫ x, u x ^ 2 ∂γ := by
    intro t
    have e : (∫ x, (u x + t * v x) ^ 2 ∂γ) =
        (∫ x, v x ^ 2 ∂γ) * (t * t) + (2 * ∫ x, u x * v x ∂γ) * t + ∫ x, u x ^ 2 ∂γ := by
      have e1 : ∀ x, (u x + t * v x) ^ 2 = (t * t) * v x ^ 2 + (2 * t) * (u x * v x) + u x ^ 2 := by intro x; ring
      simp only [e1]
      rw [integral_add (by exact (iv.const_mul _).add (iuv.const_mul _)) iu, integral_add (iv.const_mul _) (iuv.const_mul _),
        integral_const_mul, integral_const_mul]
      ring
    rw [← e]
    exact integral_nonneg fun x => sq_nonneg _
  have := discrim_le_zero h
  unfold discrim at this
  nlinarith

theorem K_one {f g : ℝ → ℝ} (hf : BM f) (hg : BM g) : K 1 f g = ∫ x, f x * g x ∂γ := by
  rw [K_eq 1 hf hg, T_one]

/-- The semigroup acting on both sides. -/
theorem integral_T_T {a b : ℝ} (ha : a ∈ Icc (0 : ℝ) 1) (hb : b ∈ Icc (0 : ℝ) 1) {f : ℝ → ℝ} (hf : BM f) :
    ∫ x, T a f x * T b f x ∂γ = K (a * b) f f := by
  have h2 : b ^ 2 ≤ 1 := by nlinarith [hb.1, hb.2]
  rw [← K_eq b (T_BM a hf) hf, K_symm h2 _ _ (T_BM a hf) hf, K_eq b hf (T_BM a hf), T_mul hb ha hf, mul_comm b a,
    ← K_eq _ hf hf]

/-- The covariance is logarithmically convex in the logarithm of the correlation. -/
theorem cov_sq_le {a b : ℝ} (ha : a ∈ Icc (0 : ℝ) 1) (hb : b ∈ Icc (0 : ℝ) 1) {f : ℝ → ℝ} (hf : BM f) :
    (K (a * b) f f - K 0 f f) ^ 2 ≤ (K (a * a) f f - K 0 f f) * (K (b * b) f f - K 0 f f) := by
  set m := ∫ x, f x ∂γ with hm
  have hI : ∀ c, Integrable (fun x => T c f x) γ := fun c => (T_BM c hf).integrable measurable_id
  have hII : ∀ c d, Integrable (fun x => T c f x * T d f x) γ := fun c d =>
    ((T_BM c hf).mul (T_BM d hf)).integrable (μ := γ) measurable_id
  have hv : ∀ c, BM fun x => T c f x - m := by
    intro c
    obtain ⟨h1, C, h2⟩ := T_BM c hf
    exact ⟨h1.sub_const _, C + |m|, fun x => (abs_sub _ _).trans (add_le_add (h2 x) le_rfl)⟩
  have e : ∀ c ∈ Icc (0 : ℝ) 1, ∀ d ∈ Icc (0 : ℝ) 1,
      ∫ x, (T c f x - m) * (T d f x - m) ∂γ = K (c * d) f f - K 0 f f := by
    intro c hc d hd
    have hTc : ∫ x, T c f x ∂γ = m := integral_T (by nlinarith [hc.1, hc.2]) hf
    have hTd : ∫ x, T d f x ∂γ = m := integral_T (by nlinarith [hd.1, hd.2]) hf
    rw [← integral_T_T hc hd hf, K_zero hf hf, ← hm]
    have : ∀ x, (T c f x - m) * (T d f x - m) = T c f x * T d f x - m * T c f x - m * T d f x + m * m := by intro x; ring
    simp only [this]
    rw [integral_add (by exact ((hII c d).sub ((hI c).const_mul _)).sub ((hI d).const_mul _)) (integrable_const _),
      integral_sub (by exact (hII c d).sub ((hI c).const_mul _)) ((hI d).const_mul _),
      integral_sub (hII c d) ((hI c).const_mul _), integral_const_mul, integral_const_mul, hTc, hTd]
    simp
  have h := integral_cs (hv a) (hv b)
  simp only [sq (T _ f _ - m)] at h
  rwa [e a ha b hb, e a ha a ha, e b hb b hb] at h

theorem pow_bounded_le_one {x M : ℝ} (h : ∀ᶠ n : ℕ in Filter.atTop, x ^ n ≤ M) : x ≤ 1 := by
  by_contra hx
  push Not at hx
  obtain ⟨n, hn1, hn2⟩ := (h.and ((tendsto_pow_atTop_atTop_of_one_lt hx).eventually_gt_atTop M)).exists
  linarith

/-- **Gebelein's inequality** for step functions, with a second correlation: the covariance of a function of two normal
variables decreases at least in proportion to their correlation. -/
theorem gebelein_step {n : ℕ} (lo hi w : Fin n → ℝ) {c d : ℝ} (hc : 0 ≤ c) (hcd : c ≤ d) (hd : d ≤ 1) :
    d * (K c (fun x => ∑ i, w i * ind (lo i) (hi i) x) (fun x => ∑ i, w i * ind (lo i) (hi i) x) -
      K 0 (fun x => ∑ i, w i * ind (lo i) (hi i) x) (fun x => ∑ i, w i * ind (lo i) (hi i) x)) ≤
    c * (K d (fun x => ∑ i, w i * ind (lo i) (hi i) x) (fun x => ∑ i, w i * ind (lo i) (hi i) x) -
      K 0 (fun x => ∑ i, w i * ind (lo i) (hi i) x) (fun x => ∑ i, w i * ind (lo i) (hi i) x)) := by
  obtain ⟨M, hM⟩ := cov_step_le lo hi w
  have hf := sum_ind_BM lo hi w
  set f : ℝ → ℝ := fun x => ∑ i, w i * ind (lo i) (hi i) x with hfdef
  set g : ℝ → ℝ := fun c => K c f f - K 0 f f with hg
  have hg0 : ∀ c ∈ Icc (0 : ℝ) 1, 0 ≤ g c := fun c hc => sub_nonneg.2 (K_mono le_rfl hc.1 hc.2 hf)
  have hM' : ∀ c ∈ Icc (0 : ℝ) (1 / 2), g c ≤ M * c := hM
  have hz : g 0 = 0 := sub_self _
  change d * g c ≤ c * g d
  rcases hcd.eq_or_lt with rfl | hlt
  · exact le_rfl
  rcases hc.eq_or_lt with rfl | hc0
  · rw [hz]; simp
  have hd0 : 0 < d := hc0.trans hlt
  set q := c / d with hq
  have hq0 : 0 < q := div_pos hc0 hd0
  have hq1 : q < 1 := (div_lt_one hd0).2 hlt
  have hcq : c = d * q := by rw [hq, mul_div_cancel₀ _ hd0.ne']
  have hmem : ∀ n : ℕ, d * q ^ n ∈ Icc (0 : ℝ) 1 := fun n => ⟨by positivity, by
    have := pow_le_one₀ hq0.le hq1.le (n := n)
    nlinarith [pow_pos hq0 n]⟩
  have hconv : ∀ n : ℕ, g (d * q ^ (n + 1)) ^ 2 ≤ g (d * q ^ n) * g (d * q ^ (n + 2)) := by
    intro n
    have hs : ∀ n : ℕ, Real.sqrt (d * q ^ n) ∈ Icc (0 : ℝ) 1 := fun n =>
      ⟨Real.sqrt_nonneg _, Real.sqrt_le_one.2 (hmem n).2⟩
    have h := cov_sq_le (hs n) (hs (n + 2)) hf
    rw [Real.mul_self_sqrt (hmem n).1, Real.mul_self_sqrt (hmem (n + 2)).1, ← Real.sqrt_mul (hmem n).1,
      show d * q ^ n * (d * q ^ (n + 2)) = (d * q ^ (n + 1)) ^ 2 by ring, Real.sqrt_sq (hmem _).1] at h
    exact h
  by_cases hall : ∀ n : ℕ, 0 < g (d * q ^ n)
  swap
  · -- a covariance of 0 at one correlation is a covariance of 0 at all smaller positive ones, and by convexity at `c`
    push Not at hall
    obtain ⟨n, hn⟩ := hall
    have key : ∀ n : ℕ, g (d * q ^ n) ≤ 0 → g (d * q ^ (n + 1)) ≤ 0 := by
      intro n hn
      have h1 := hconv n
      have h2 := hg0 _ (hmem n)
      have h3 : g (d * q ^ n) = 0 := le_antisymm hn h2
      rw [h3, zero_mul] at h1
      nlinarith [sq_nonneg (g (d * q ^ (n + 1)))]
    have back : ∀ n : ℕ, g (d * q ^ (n + 2)) ≤ 0 → g (d * q ^ (n + 1)) ≤ 0 := by
      intro n hn
      have h1 := hconv n
      have h3 : g (d * q ^ (n + 2)) = 0 := le_antisymm hn (hg0 _ (hmem _))
      rw [h3, mul_zero] at h1
      nlinarith [sq_nonneg (g (d * q ^ (n + 1)))]
    have h1 : ∀ n : ℕ, g (d * q ^ (n + 1)) ≤ 0 → g (d * q ^ 1) ≤ 0 := by
      intro n
      induction n with
      | zero => exact id
      | succ n ih => exact fun h => ih (back n h)
    have h2 := h1 n (key n hn)
    rw [pow_one, ← hcq] at h2
    have h3 := hg0 d ⟨hd0.le, hd⟩
    nlinarith
  have hratio : ∀ n : ℕ, g (d * q ^ 1) / g (d * q ^ 0) ≤ g (d * q ^ (n + 1)) / g (d * q ^ n) := by
    intro n
    induction n with
    | zero => exact le_rfl
    | succ n ih =>
      refine ih.trans ?_
      rw [div_le_div_iff₀ (hall _) (hall _)]
      have := hconv n
      nlinarith
  set R := g (d * q ^ 1) / g (d * q ^ 0) with hR
  have hR0 : 0 < R := div_pos (hall _) (hall _)
  have hpow : ∀ n : ℕ, R ^ n * g d ≤ g (d * q ^ n) := by
    intro n
    induction n with
    | zero => simp
    | succ n ih =>
      have h1 := hratio n
      rw [le_div_iff₀ (hall n)] at h1
      rw [pow_succ]
      nlinarith
  have hgd : 0 < g d := by simpa using hall 0
  have hlim : Filter.Tendsto (fun n : ℕ => d * q ^ n) Filter.atTop (nhds 0) := by
    simpa using (tendsto_pow_atTop_nhds_zero_of_lt_one hq0.le hq1).const_mul d
  have hev : ∀ᶠ n : ℕ in Filter.atTop, (R / q) ^ n ≤ M * d / g d := by
    filter_upwards [hlim.eventually (Iio_mem_nhds (by norm_num : (0 : ℝ) < 1 / 2))] with n hn
    have h3 := hM' _ ⟨(hmem n).1, le_of_lt hn⟩
    rw [div_pow, div_le_div_iff₀ (by positivity) hgd]
    have := hpow n
    linarith
  have := pow_bounded_le_one hev
  rw [div_le_one hq0, hR, pow_one, pow_zero, mul_one, ← hcq, div_le_iff₀ hgd, hq, div_mul_eq_mul_div, le_div_iff₀ hd0] at this
  linarith

/-- The matrix of covariances of the cells decreases at least in proportion to the correlation. -/
theorem gebelein_psd {c d : ℝ} (hc : 0 ≤ c) (hcd : c ≤ d) (hd : d ≤ 1) {n : ℕ} (lo hi : Fin n → ℝ) :
    (Matrix.of fun i j => c * (K d (ind (lo i) (hi i)) (ind (lo j) (hi j)) - K 0 (ind (lo i) (hi i)) (ind (lo j) (hi j))) -
      d * (K c (ind (lo i) (hi i)) (ind (lo j) (hi j)) - K 0 (ind (lo i) (hi i)) (ind (lo j) (hi j)))).PosSemidef := by
  have h2 : ∀ r : ℝ, 0 ≤ r → r ≤ 1 → r ^ 2 ≤ 1 := fun r h1 h2 => by nlinarith
  refine Matrix.PosSemidef.of_dotProduct_mulVec_nonneg ?_ fun x => ?_
  · ext i j
    simp only [Matrix.conjTranspose_apply, Matrix.of_apply, star_trivial]
    rw [K_symm (h2 d (hc.trans hcd) hd) _ _ (ind_BM _ _) (ind_BM _ _), K_symm (h2 c hc (hcd.trans hd)) _ _ (ind_BM _ _) (ind_BM _ _),
      K_symm (h2 0 le_rfl zero_le_one) _ _ (ind_BM _ _) (ind_BM _ _)]
  · simp only [dotProduct, Matrix.mulVec, Matrix.of_apply, star_trivial]
    have h := gebelein_step lo hi x hc hcd hd
    rw [← quad_K, ← quad_K, ← quad_K, ← Finset.sum_sub_distrib, ← Finset.sum_sub_distrib, Finset.mul_sum, Finset.mul_sum,
      ← sub_nonneg, ← Finset.sum_sub_distrib] at h
    refine h.trans_eq (Finset.sum_congr rfl fun i _ => ?_)
    rw [← Finset.sum_sub_distrib, ← Finset.sum_sub_distrib, Finset.mul_sum, Finset.mul_sum, Finset.mul_sum,
      ← Finset.sum_sub_distrib]
    refine Finset.sum_congr rfl fun j _ => ?_
    ring

end Phik.Gauss
