import Verif.Lemmas.BinaryGrid
import Verif.Lemmas.BinaryGridSum

/-! # The theoretical chi2 of tables with two rows increases strictly with the correlation -/

namespace Phik.Gauss
open MeasureTheory ProbabilityTheory Set Spec Props

/-- Probability of [0, 5]. -/
noncomputable def halfP : ℝ := Φ 5 - Φ 0

theorem halfP_pos : 0 < halfP := sub_pos.2 (Φ_strictMono (by norm_num))

section
variable {ρ : ℝ}

/-! ### The conditional probability -/

theorem exc_eq (ρ y : ℝ) : cond ρ y - halfP =
    (Φ (ρ * y / sd ρ) - Φ 0) + (Φ ((5 - ρ * y) / sd ρ) - Φ 5) := by
  have := Φ_symm 0 (ρ * y / sd ρ)
  unfold cond halfP
  rw [neg_zero] at this
  rw [neg_div]
  linarith

theorem def_eq (ρ y : ℝ) : halfP - cond ρ (-y) =
    (Φ (ρ * y / sd ρ) - Φ 0) - (Φ (5 / sd ρ + ρ * y / sd ρ) - Φ (5 / sd ρ)) - (Φ (5 / sd ρ) - Φ 5) := by
  have e1 : (5 - ρ * -y) / sd ρ = 5 / sd ρ + ρ * y / sd ρ := by ring
  have e2 : -(ρ * -y) / sd ρ = ρ * y / sd ρ := by ring
  unfold cond halfP
  rw [e1, e2]
  ring

theorem sd_le_one (h : ρ ∈ Ioo (0 : ℝ) 1) : sd ρ ≤ 1 := Real.sqrt_le_one.2 (by nlinarith [h.1])

theorem mem_of (h : ρ ∈ Ioo (0 : ℝ) 1) : ρ ∈ Ioo (-1 : ℝ) 1 := ⟨by linarith [h.1], h.2⟩

theorem one_sub_le_sd (h : ρ ∈ Ioo (0 : ℝ) 1) : 1 - ρ ^ 2 ≤ sd ρ := by
  have h1 := sd_le_one h
  have h2 := sd_pos (mem_of h)
  rw [← sd_sq (mem_of h)]
  nlinarith

theorem five_le (h : ρ ∈ Ioo (0 : ℝ) 1) : 5 ≤ 5 / sd ρ := by
  rw [le_div_iff₀ (sd_pos (mem_of h))]
  linarith [sd_le_one h]

/-- More than half of the probability is between 0 and 5 when the first variable is. -/
theorem exc_nonneg (h : ρ ∈ Ioo (0 : ℝ) 1) {y : ℝ} (h0 : 0 ≤ y) (h5 : y ≤ 5) : 0 ≤ cond ρ y - halfP := by
  have hs := sd_pos (mem_of h)
  rw [exc_eq]
  set x := ρ * y / sd ρ with hx
  have hx0 : 0 ≤ x := div_nonneg (mul_nonneg h.1.le h0) hs.le
  have e : (5 - ρ * y) / sd ρ = 5 / sd ρ - x := by rw [hx]; ring
  set d := (5 - ρ * y) / sd ρ with hd
  have hd0 : 0 ≤ d := div_nonneg (by nlinarith [h.1, h.2]) hs.le
  have h6 := five_le h
  rcases le_total 5 d with hc | hc
  · have := Φ_mono hc
    have := Φ_mono hx0
    linarith
  · have h1 := Φ_shift (a := 0) (b := 5 - d) le_rfl (by linarith) hd0
    rw [sub_add_cancel, zero_add] at h1
    have h2 := Φ_mono (show 5 - d ≤ x by linarith)
    linarith

theorem exc_le (h : ρ ∈ Ioo (0 : ℝ) 1) {y : ℝ} (h0 : 0 ≤ y) (h5 : y ≤ 5) : cond ρ y - halfP ≤ 3 * ρ := by
  have hs := sd_pos (mem_of h)
  have h6 := five_le h
  rcases le_total (1 / 2) ρ with hc | hc
  · have h1 : cond ρ y ≤ 1 := by
      rw [← T_cond (mem_of h)]
      have h2 : T ρ (ind 0 5) y ≤ ∫ _e, (1 : ℝ) ∂γ := by
        refine integral_mono ((ind_BM 0 5).integrable (by fun_prop)) (integrable_const _) fun e => ?_
        simp only [ind, indicator]
        split <;> norm_num
      simpa using h2
    linarith [halfP_pos]
  · rw [exc_eq]
    set x := ρ * y / sd ρ with hx
    have hx0 : 0 ≤ x := div_nonneg (mul_nonneg h.1.le h0) hs.le
    have e : (5 - ρ * y) / sd ρ = 5 / sd ρ - x := by rw [hx]; ring
    have h1 := Φ_sub_le hx0
    have hs3 : 5 / 6 ≤ sd ρ := by
      have h2 : √((5 / 6) ^ 2) ≤ √(1 - ρ ^ 2) := Real.sqrt_le_sqrt (by nlinarith [h.1])
      rwa [Real.sqrt_sq (by norm_num)] at h2
    rcases le_total 5 ((5 - ρ * y) / sd ρ) with hd | hd
    · have h2 := Φ_sub_le hd
      have h3 : 5 / sd ρ - 5 ≤ 6 * ρ := by
        rw [sub_le_iff_le_add, div_le_iff₀ hs]
        nlinarith [one_sub_le_sd h, h.1]
      rw [e] at h2 ⊢
      linarith
    · have h2 := Φ_mono hd
      have h3 : x ≤ 6 * ρ := by
        rw [hx, div_le_iff₀ hs]
        nlinarith [h.1]
      linarith

/-- The difference between the bins that end at 5 and the half line. -/
theorem delta_le (h : ρ ∈ Ioo (0 : ℝ) 1) : Φ (5 / sd ρ) - Φ 5 ≤ ρ / 50000 := by
  have hs := sd_pos (mem_of h)
  have h6 := five_le h
  rcases le_total (1 / 2) ρ with hc | hc
  · have := Φ_tail h6
    linarith
  · have h1 := (Φ_sub_bounds (by norm_num) h6).2
    have h2 := φ_five_small
    have h3 : 5 / sd ρ - 5 ≤ 4 * ρ := by
      rw [sub_le_iff_le_add, div_le_iff₀ hs]
      have h4 := one_sub_le_sd h
      have h5 : (4 * ρ + 5) * (1 - ρ ^ 2) ≤ (4 * ρ + 5) * sd ρ := mul_le_mul_of_nonneg_left h4 (by linarith [h.1])
      nlinarith [h.1, mul_nonneg h.1.le (sub_nonneg.2 hc), mul_nonneg (mul_nonneg h.1.le h.1.le) (sub_nonneg.2 hc)]
    have h4 : (5 / sd ρ - 5) * φ 5 ≤ (4 * ρ) * (1 / 200000) :=
      mul_le_mul h3 h2 (φ_pos 5).le (by linarith [h.1])
    linarith

/-- Far out hardly any probability is gained. -/
theorem far_le {d x : ℝ} (hd : 5 ≤ d) (hx : 0 ≤ x) : Φ (d + x) - Φ d ≤ (Φ x - Φ 0) / 100 := by
  have h : AntitoneOn (fun x => Φ (x + d) - Φ x / 100) (Ici 0) := by
    have hder : ∀ x, HasDerivAt (fun x => Φ (x + d) - Φ x / 100) (φ (x + d) - φ x / 100) x := fun x =>
      ((Φ_deriv (x + d)).comp_add_const x d).sub ((Φ_deriv x).div_const 100)
    refine antitoneOn_of_deriv_nonpos (convex_Ici 0) ?_ (fun x _ => (hder x).differentiableAt.differentiableWithinAt) ?_
    · exact fun x _ => (hder x).continuousAt.continuousWithinAt
    · intro x hx
      rw [interior_Ici] at hx
      have hx : 0 < x := hx
      rw [(hder x).deriv, φ_eq, φ_eq]
      have h1 : Real.exp (-(x + d) ^ 2 / 2) ≤ Real.exp (-25 / 2) * Real.exp (-x ^ 2 / 2) := by
        rw [← Real.exp_add, Real.exp_le_exp]
        nlinarith
      have h2 := exp_25
      have h3 : Real.exp (-25 / 2) * Real.exp (-x ^ 2 / 2) ≤ 1 / 100 * Real.exp (-x ^ 2 / 2) :=
        mul_le_mul_of_nonneg_right (by linarith) (Real.exp_pos _).le
      have h4 : 0 ≤ (√(2 * Real.pi))⁻¹ := by positivity
      have := mul_le_mul_of_nonneg_left (h1.trans h3) h4
      linarith
  have := h (mem_Ici.2 le_rfl) (mem_Ici.2 hx) hx
  simp only [zero_add] at this
  rw [add_comm x d] at this
  linarith

theorem def_ge (h : ρ ∈ Ioo (0 : ℝ) 1) {y : ℝ} (h0 : 0 ≤ y) : -(ρ / 50000) ≤ halfP - cond ρ (-y) := by
  have hs := sd_pos (mem_of h)
  rw [def_eq]
  have hx0 : 0 ≤ ρ * y / sd ρ := div_nonneg (mul_nonneg h.1.le h0) hs.le
  have h1 := far_le (five_le h) hx0
  have h2 := delta_le h
  have h3 := Φ_mono hx0
  linarith

theorem def_big (h : ρ ∈ Ioo (0 : ℝ) 1) {y : ℝ} (h0 : sd ρ / 2 ≤ y) : ρ / 10 ≤ halfP - cond ρ (-y) := by
  have hs := sd_pos (mem_of h)
  rw [def_eq]
  have hx0 : ρ / 2 ≤ ρ * y / sd ρ := by
    rw [le_div_iff₀ hs]
    nlinarith [h.1]
  have h1 := far_le (five_le h) (show 0 ≤ ρ * y / sd ρ by linarith [h.1])
  have h2 := delta_le h
  have h3 := Φ_mono hx0
  have h4 := (Φ_sub_bounds le_rfl (show 0 ≤ ρ / 2 by linarith [h.1])).1
  have h5 : φ 1 ≤ φ (ρ / 2) := φ_anti (by linarith [h.1]) (by linarith [h.2])
  have h6 := φ_one
  have h7 : (ρ / 2 - 0) * (238 / 1000) ≤ (ρ / 2 - 0) * φ (ρ / 2) :=
    mul_le_mul_of_nonneg_left (by linarith) (by linarith [h.1])
  linarith [h.1]

theorem def_mono (h : ρ ∈ Ioo (0 : ℝ) 1) {y z : ℝ} (h0 : 0 ≤ y) (hyz : y ≤ z) :
    halfP - cond ρ (-y) ≤ halfP - cond ρ (-z) := by
  have hs := sd_pos (mem_of h)
  rw [def_eq, def_eq]
  have h1 : ρ * y / sd ρ ≤ ρ * z / sd ρ := by
    rw [div_le_div_iff_of_pos_right hs]; nlinarith [h.1]
  have h2 : 0 ≤ ρ * y / sd ρ := div_nonneg (mul_nonneg h.1.le h0) hs.le
  have := Φ_shift h2 h1 (show 0 ≤ 5 / sd ρ by positivity)
  rw [add_comm (ρ * z / sd ρ), add_comm (ρ * y / sd ρ)] at this
  linarith

/-! ### Averages over bins -/

/-- The probability of a strip minus its value without correlation. -/
noncomputable def dev (ρ l u : ℝ) : ℝ := strip ρ l u - halfP * (Φ u - Φ l)

theorem cond_continuous (ρ : ℝ) : Continuous (cond ρ) := by
  unfold cond
  exact (Φ_continuous.comp (by fun_prop)).sub (Φ_continuous.comp (by fun_prop))

theorem dev_eq (h : ρ ∈ Ioo (0 : ℝ) 1) {l u : ℝ} (hlu : l ≤ u) : dev ρ l u = ∫ y in l..u, φ y * (cond ρ y - halfP) := by
  unfold dev
  have h1 : Continuous fun y => φ y * cond ρ y := φ_continuous.mul (cond_continuous ρ)
  have h2 : Continuous fun y => halfP * φ y := continuous_const.mul φ_continuous
  rw [strip_eq (mem_of h) hlu, Φ_sub, ← intervalIntegral.integral_const_mul, ← intervalIntegral.integral_sub
    (h1.intervalIntegrable _ _) (h2.intervalIntegrable _ _)]
  refine intervalIntegral.integral_congr fun y _ => ?_
  ring

theorem dev_ge (h : ρ ∈ Ioo (0 : ℝ) 1) {l u lo : ℝ} (hlu : l ≤ u) (hb : ∀ y, l ≤ y → y ≤ u → lo ≤ cond ρ y - halfP) :
    lo * (Φ u - Φ l) ≤ dev ρ l u := by
  rw [dev_eq h hlu, Φ_sub, ← intervalIntegral.integral_const_mul]
  refine intervalIntegral.integral_mono_on hlu ((continuous_const.mul φ_continuous).intervalIntegrable _ _)
    ((φ_continuous.mul ((cond_continuous ρ).sub continuous_const)).intervalIntegrable _ _) fun y hy => ?_
  have := mul_le_mul_of_nonneg_left (hb y hy.1 hy.2) (φ_pos y).le
  linarith

theorem dev_le (h : ρ ∈ Ioo (0 : ℝ) 1) {l u hi : ℝ} (hlu : l ≤ u) (hb : ∀ y, l ≤ y → y ≤ u → cond ρ y - halfP ≤ hi) :
    dev ρ l u ≤ hi * (Φ u - Φ l) := by
  rw [dev_eq h hlu, Φ_sub, ← intervalIntegral.integral_const_mul]
  refine intervalIntegral.integral_mono_on hlu
    ((φ_continuous.mul ((cond_continuous ρ).sub continuous_const)).intervalIntegrable _ _)
    ((continuous_const.mul φ_continuous).intervalIntegrable _ _) fun y hy => ?_
  have := mul_le_mul_of_nonneg_left (hb y hy.1 hy.2) (φ_pos y).le
  linarith

theorem dev_add (h : ρ ∈ Ioo (0 : ℝ) 1) {l m u : ℝ} (hlm : l ≤ m) (hmu : m ≤ u) : dev ρ l u = dev ρ l m + dev ρ m u := by
  have hc : Continuous fun y => φ y * (cond ρ y - halfP) := φ_continuous.mul ((cond_continuous ρ).sub continuous_const)
  rw [dev_eq h (hlm.trans hmu), dev_eq h hlm, dev_eq h hmu]
  exact (intervalIntegral.integral_add_adjacent_intervals (hc.intervalIntegrable _ _) (hc.intervalIntegrable _ _)).symm

/-- Average deficit of the mirrored bin. -/
theorem mirror_bounds (h : ρ ∈ Ioo (0 : ℝ) 1) {a b lo hi : ℝ} (hab : a < b)
    (hlo : ∀ y, a ≤ y → y ≤ b → lo ≤ halfP - cond ρ (-y)) (hhi : ∀ y, a ≤ y → y ≤ b → halfP - cond ρ (-y) ≤ hi) :
    lo ≤ -dev ρ (-b) (-a) / (Φ b - Φ a) ∧ -dev ρ (-b) (-a) / (Φ b - Φ a) ≤ hi := by
  have hq : 0 < Φ b - Φ a := sub_pos.2 (Φ_strictMono hab)
  have e := Φ_symm a b
  have h1 := dev_le h (l := -b) (u := -a) (hi := -lo) (by linarith) fun y h1 h2 => by
    have := hlo (-y) (by linarith) (by linarith)
    rw [neg_neg] at this; linarith
  have h2 := dev_ge h (l := -b) (u := -a) (lo := -hi) (by linarith) fun y h1 h2 => by
    have := hhi (-y) (by linarith) (by linarith)
    rw [neg_neg] at this; linarith
  rw [e] at h1 h2
  rw [le_div_iff₀ hq, div_le_iff₀ hq]
  constructor <;> linarith

theorem φ_wide : 1 / 100 ≤ φ (5 / 2) := by
  rw [φ_eq]
  have h1 := norm_const.1
  have h2 : (1 : ℝ) / 32 ≤ Real.exp (-(5 / 2) ^ 2 / 2) := by
    have h3 : Real.exp (-(4 : ℝ)) ≤ 1 := Real.exp_le_one_iff.2 (by norm_num)
    have h4 : Real.exp (-(5 / 2) ^ 2 / 2 : ℝ) = (Real.exp (25 / 8))⁻¹ := by rw [← Real.exp_neg]; norm_num
    have h5 : Real.exp (25 / 8 : ℝ) = Real.exp 1 ^ 3 * Real.exp (1 / 8) := by
      rw [← Real.exp_nat_mul, ← Real.exp_add]; norm_num
    have h6 : Real.exp (1 / 8 : ℝ) ≤ 8 / 7 := by
      have := Real.exp_bound_div_one_sub_of_interval (x := 1 / 8) (by norm_num) (by norm_num)
      norm_num at this ⊢; linarith
    have h7 : Real.exp 1 ^ 3 ≤ (2.72 : ℝ) ^ 3 := pow_le_pow_left₀ (Real.exp_pos _).le (by linarith [Real.exp_one_lt_d9]) 3
    rw [h4, one_div]
    refine inv_anti₀ (Real.exp_pos _) ?_
    rw [h5]
    calc Real.exp 1 ^ 3 * Real.exp (1 / 8) ≤ (2.72 : ℝ) ^ 3 * (8 / 7) :=
          mul_le_mul h7 h6 (Real.exp_pos _).le (by norm_num)
      _ ≤ 32 := by norm_num
  calc (1 : ℝ) / 100 ≤ 398 / 1000 * (1 / 32) := by norm_num
    _ ≤ _ := mul_le_mul h1 h2 (by norm_num) (by linarith)

/-- A wide first bin. -/
theorem first_bin (h : ρ ∈ Ioo (0 : ℝ) 1) {w : ℝ} (hw : sd ρ ≤ w) (hw2 : w ≤ 5 / 2) : dev ρ (-w) 0 ≤ 0 := by
  have hs := sd_pos (mem_of h)
  have hw0 : 0 < w := by linarith
  rw [dev_add h (l := -w) (m := -(w / 2)) (u := 0) (by linarith) (by linarith)]
  have h1 := dev_le h (l := -w) (u := -(w / 2)) (hi := -(ρ / 10)) (by linarith) fun y h1 h2 => by
    have := def_big h (y := -y) (by linarith)
    rw [neg_neg] at this; linarith
  have h2 := dev_le h (l := -(w / 2)) (u := 0) (hi := ρ / 50000) (by linarith) fun y h1 h2 => by
    have := def_ge h (y := -y) (by linarith)
    rw [neg_neg] at this; linarith
  rw [Φ_symm (w / 2) w] at h1
  have e := Φ_symm 0 (w / 2)
  rw [neg_zero] at e
  rw [e] at h2
  have h3 := (Φ_sub_bounds (show 0 ≤ w / 2 by linarith) (show w / 2 ≤ w by linarith)).1
  have h4 := Φ_sub_le (show 0 ≤ w / 2 by linarith)
  have h5 : 1 / 100 ≤ φ w := φ_wide.trans (φ_anti hw0.le hw2)
  have h6 : w / 2 * (1 / 100) ≤ (w - w / 2) * φ w := by nlinarith
  have h7 : ρ / 10 * (w / 2 * (1 / 100)) ≤ ρ / 10 * (Φ w - Φ (w / 2)) :=
    mul_le_mul_of_nonneg_left (by linarith) (by linarith [h.1])
  have h8 : ρ / 50000 * (Φ (w / 2) - Φ 0) ≤ ρ / 50000 * ((w / 2 - 0) / 2) :=
    mul_le_mul_of_nonneg_left h4 (by linarith [h.1])
  nlinarith [mul_pos h.1 hw0]

/-! ### The derivative of the sum over all bins -/

/-- Derivative of the probability of a strip. -/
noncomputable def dstrip (ρ l u : ℝ) : ℝ := (dens0 ρ l - dens0 ρ u) + (dens5 ρ u - dens5 ρ l)

theorem dens0_e (ρ y : ℝ) : dens0 ρ y = (2 * Real.pi * sd ρ)⁻¹ * e0 (sd ρ) y := rfl
theorem dens5_e (ρ y : ℝ) : dens5 ρ y = (2 * Real.pi * sd ρ)⁻¹ * e5 ρ (sd ρ) y := rfl

theorem e0_neg (s y : ℝ) : e0 s (-y) = e0 s y := by unfold e0; rw [neg_sq]

/-- The positive and negative bins together. -/
theorem paired_pos (h : ρ ∈ Ioo (0 : ℝ) 1) {w t0 : ℝ} {m : ℕ} (hw : 0 < w) (hm : t0 + m * w = 5)
    (ht : t0 = 0 ∧ w ≤ 5 / 2 ∨ t0 = w / 2 ∧ w ≤ 10 / 3) :
    0 < ∑ i ∈ Finset.range m,
      (dev ρ (t0 + i * w) (t0 + (i + 1 : ℕ) * w) * dstrip ρ (t0 + i * w) (t0 + (i + 1 : ℕ) * w) /
          (Φ (t0 + (i + 1 : ℕ) * w) - Φ (t0 + i * w)) +
        dev ρ (-(t0 + (i + 1 : ℕ) * w)) (-(t0 + i * w)) * dstrip ρ (-(t0 + (i + 1 : ℕ) * w)) (-(t0 + i * w)) /
          (Φ (t0 + (i + 1 : ℕ) * w) - Φ (t0 + i * w))) := by
  have hs := sd_pos (mem_of h)
  have ht0 : 0 ≤ t0 := by rcases ht with ⟨h, -⟩ | ⟨h, -⟩ <;> rw [h] <;> linarith
  have tnn : ∀ i : ℕ, 0 ≤ t0 + i * w := fun i => by positivity
  have tlt : ∀ i : ℕ, t0 + i * w < t0 + (i + 1 : ℕ) * w := fun i => by push_cast; linarith
  have hq : ∀ i : ℕ, 0 < Φ (t0 + (i + 1 : ℕ) * w) - Φ (t0 + i * w) := fun i => sub_pos.2 (Φ_strictMono (tlt i))
  set A : ℕ → ℝ := fun i => dev ρ (t0 + i * w) (t0 + (i + 1 : ℕ) * w) / (Φ (t0 + (i + 1 : ℕ) * w) - Φ (t0 + i * w)) with hA
  set M : ℕ → ℝ := fun i => -dev ρ (-(t0 + (i + 1 : ℕ) * w)) (-(t0 + i * w)) /
    (Φ (t0 + (i + 1 : ℕ) * w) - Φ (t0 + i * w)) with hM
  have hMb : ∀ i : ℕ, halfP - cond ρ (-(t0 + i * w)) ≤ M i ∧ M i ≤ halfP - cond ρ (-(t0 + (i + 1 : ℕ) * w)) := fun i =>
    mirror_bounds h (tlt i) (fun y h1 h2 => def_mono h (tnn i) h1) (fun y h1 h2 => def_mono h ((tnn i).trans h1) h2)
  have key := grid_sum_pos h.1 h.2 hs (sd_sq (mem_of h)) hw hm ht (A := A) (M := M)
    (fun i hi => by
      have h5 : t0 + (i + 1 : ℕ) * w ≤ 5 := by
        rw [← hm]
        have : ((i + 1 : ℕ) : ℝ) ≤ m := by exact_mod_cast hi
        nlinarith
      have h1 := dev_ge h (lo := 0) (tlt i).le fun y h1 h2 => exc_nonneg h ((tnn i).trans h1) (h2.trans h5)
      have h2 := dev_le h (hi := 3 * ρ) (tlt i).le fun y h1 h2 => exc_le h ((tnn i).trans h1) (h2.trans h5)
      rw [zero_mul] at h1
      exact ⟨div_nonneg h1 (hq i).le, (div_le_iff₀ (hq i)).2 h2⟩)
    (monotone_nat_of_le_succ fun i => (hMb i).2.trans (hMb (i + 1)).1)
    ((def_ge h (tnn 0)).trans (hMb 0).1)
    (fun k hk => (def_big h hk).trans (hMb k).1)
    (fun hsw => by
      rcases ht with ⟨h0, h1⟩ | ⟨h0, -⟩
      · have := first_bin h hsw h1
        simp only [hM]
        refine div_nonneg ?_ (hq 0).le
        rw [h0]
        simpa using this
      · refine le_trans ?_ (hMb 0).1
        have := def_big h (y := t0 + (0 : ℕ) * w) (by rw [h0]; simp; linarith)
        have h1 := h.1
        have h2 : 0 ≤ ρ / 10 := by linarith
        exact h2.trans this)
  have hC : 0 < (2 * Real.pi * sd ρ)⁻¹ := by positivity
  have := mul_pos hC key
  rw [Finset.mul_sum] at this
  refine lt_of_lt_of_eq this (Finset.sum_congr rfl fun i _ => ?_)
  simp only [hA, hM, dstrip, dens0_e, dens5_e, e0_neg]
  have := (hq i).ne'
  field_simp
  ring

/-- The bin in the middle. -/
theorem middle_bin {b : ℝ} (hb : 0 ≤ b) {r : ℝ} (h : r ∈ Ioo (0 : ℝ) 1) : 0 ≤ dstrip r (-b) b ∧ 0 ≤ dev r (-b) b := by
  have hd : ∀ x ∈ Ioo (0 : ℝ) 1, 0 ≤ dstrip x (-b) b := by
    intro x hx
    have hs := sd_pos (mem_of hx)
    have hC : 0 < (2 * Real.pi * sd x)⁻¹ := by positivity
    simp only [dstrip, dens0_e, dens5_e, e0_neg, sub_self, zero_add]
    have := e5_le (ρ := x) hs (a := -b) (b := b) (by nlinarith [mul_nonneg hx.1.le hb])
    nlinarith [mul_le_mul_of_nonneg_left this hC.le]
  refine ⟨hd r h, ?_⟩
  have hmono : MonotoneOn (fun x => strip x (-b) b) (Icc 0 1) := by
    refine monotoneOn_of_deriv_nonneg (convex_Icc 0 1) (strip_cont _ _) ?_ ?_
    · intro x hx
      rw [interior_Icc] at hx
      exact (strip_deriv (mem_of hx) (by linarith)).differentiableAt.differentiableWithinAt
    · intro x hx
      rw [interior_Icc] at hx
      rw [(strip_deriv (mem_of hx) (by linarith)).deriv]
      exact hd x hx
  have := hmono ⟨le_rfl, zero_le_one⟩ ⟨h.1.le, h.2.le⟩ h.1.le
  simp only at this
  rw [strip_zero (by linarith)] at this
  unfold dev halfP
  linarith

/-- All bins of the grid. -/
theorem all_bins_pos (h : ρ ∈ Ioo (0 : ℝ) 1) {c : ℕ} (hc : 3 ≤ c) {w : ℝ} (hw : c * w = 10) :
    0 < ∑ j ∈ Finset.range c, dev ρ (-5 + j * w) (-5 + (j + 1 : ℕ) * w) * dstrip ρ (-5 + j * w) (-5 + (j + 1 : ℕ) * w) /
      (Φ (-5 + (j + 1 : ℕ) * w) - Φ (-5 + j * w)) := by
  have hc0 : (3 : ℝ) ≤ c := by exact_mod_cast hc
  have hw0 : 0 < w := by
    by_contra hcon
    nlinarith
  set f : ℕ → ℝ := fun j => dev ρ (-5 + j * w) (-5 + (j + 1 : ℕ) * w) * dstrip ρ (-5 + j * w) (-5 + (j + 1 : ℕ) * w) /
      (Φ (-5 + (j + 1 : ℕ) * w) - Φ (-5 + j * w)) with hf
  have hmir : ∀ a b : ℝ, Φ (-a) - Φ (-b) = Φ b - Φ a := Φ_symm
  rcases Nat.even_or_odd' c with ⟨m, hm | hm⟩
  · have hmw : (m : ℝ) * w = 5 := by
      have : (c : ℝ) = 2 * m := by exact_mod_cast hm
      rw [this] at hw; linarith
    have hm2 : (2 : ℝ) ≤ m := by exact_mod_cast (by omega : 2 ≤ m)
    have hp := paired_pos h (t0 := 0) (m := m) hw0 (by linarith) (.inl ⟨rfl, by nlinarith⟩)
    have hsplit : ∑ j ∈ Finset.range c, f j = ∑ i ∈ Finset.range m, (f (m + i) + f (m - 1 - i)) := by
      rw [show c = m + m by omega, Finset.sum_range_add, Finset.sum_add_distrib, Finset.sum_range_reflect, add_comm]
    rw [hsplit]
    refine lt_of_lt_of_eq hp (Finset.sum_congr rfl fun i hi => ?_)
    have him : i < m := Finset.mem_range.1 hi
    have e1 : -5 + ((m + i : ℕ) : ℝ) * w = 0 + i * w := by push_cast; linarith
    have e2 : -5 + ((m + i + 1 : ℕ) : ℝ) * w = 0 + (i + 1 : ℕ) * w := by push_cast; linarith
    have hsub : ((m - 1 - i : ℕ) : ℝ) = m - 1 - i := by
      have : m - 1 - i + (1 + i) = m := by omega
      have h2 : ((m - 1 - i : ℕ) : ℝ) + (1 + i) = m := by exact_mod_cast this
      linarith
    have e3 : -5 + ((m - 1 - i : ℕ) : ℝ) * w = -(0 + (i + 1 : ℕ) * w) := by rw [hsub]; push_cast; linarith
    have e4 : -5 + ((m - 1 - i + 1 : ℕ) : ℝ) * w = -(0 + i * w) := by
      push_cast; rw [hsub]; linarith
    simp only [hf]
    rw [e1, e2, e3, e4, hmir]
  · have hmw : (m : ℝ) * w + w / 2 = 5 := by
      have : (c : ℝ) = 2 * m + 1 := by exact_mod_cast hm
      rw [this] at hw; linarith
    have hm1 : (1 : ℝ) ≤ m := by exact_mod_cast (by omega : 1 ≤ m)
    have hp := paired_pos h (t0 := w / 2) (m := m) hw0 (by linarith) (.inr ⟨rfl, by nlinarith⟩)
    have hsplit : ∑ j ∈ Finset.range c, f j = f m + ∑ i ∈ Finset.range m, (f (m + 1 + i) + f (m - 1 - i)) := by
      rw [show c = m + 1 + m by omega, Finset.sum_range_add, Finset.sum_add_distrib, Finset.sum_range_reflect,
        Finset.sum_range_succ]
      ring
    have hmid : 0 ≤ f m := by
      have e1 : -5 + (m : ℝ) * w = -(w / 2) := by linarith
      have e2 : -5 + ((m + 1 : ℕ) : ℝ) * w = w / 2 := by push_cast; linarith
      simp only [hf]
      rw [e1, e2]
      have := middle_bin (b := w / 2) (by linarith) h
      exact div_nonneg (mul_nonneg this.2 this.1) (sub_nonneg.2 (Φ_mono (by linarith)))
    rw [hsplit]
    refine lt_of_lt_of_le hp ?_
    refine le_trans (le_of_eq (Finset.sum_congr rfl fun i hi => ?_)) (le_add_of_nonneg_left hmid)
    have him : i < m := Finset.mem_range.1 hi
    have e1 : -5 + ((m + 1 + i : ℕ) : ℝ) * w = w / 2 + i * w := by push_cast; linarith
    have e2 : -5 + ((m + 1 + i + 1 : ℕ) : ℝ) * w = w / 2 + (i + 1 : ℕ) * w := by push_cast; linarith
    have hsub : ((m - 1 - i : ℕ) : ℝ) = m - 1 - i := by
      have : m - 1 - i + (1 + i) = m := by omega
      have h2 : ((m - 1 - i : ℕ) : ℝ) + (1 + i) = m := by exact_mod_cast this
      linarith
    have e3 : -5 + ((m - 1 - i : ℕ) : ℝ) * w = -(w / 2 + (i + 1 : ℕ) * w) := by rw [hsub]; push_cast; linarith
    have e4 : -5 + ((m - 1 - i + 1 : ℕ) : ℝ) * w = -(w / 2 + i * w) := by
      push_cast; rw [hsub]; linarith
    simp only [hf]
    rw [e1, e2, e3, e4, hmir]

end

end Phik.Gauss
