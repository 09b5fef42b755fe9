import Verif.Lemmas.BetaCheb
import Verif.Lemmas.BetaTail

/-! # How the regularised incomplete beta function depends on its arguments -/

namespace Phik.BetaCF
open Phik.Spec MeasureTheory Set Filter Topology intervalIntegral

variable {a b b' x y : ℝ}

theorem betaInt_mono (ha : 0 < a) (hb : 0 < b) (hx : 0 ≤ x) (hxy : x ≤ y) (hy : y ≤ 1) : betaInt a b x ≤ betaInt a b y := by
  unfold betaInt
  rw [← integral_add_adjacent_intervals (betaInt_integrable ha hb le_rfl zero_le_one hx (hxy.trans hy))
    (betaInt_integrable ha hb hx (hxy.trans hy) (hx.trans hxy) hy)]
  have : 0 ≤ ∫ t in x..y, t ^ (a - 1) * (1 - t) ^ (b - 1) := integral_nonneg hxy fun t ht =>
    mul_nonneg (Real.rpow_nonneg (hx.trans ht.1) _) (Real.rpow_nonneg (by linarith [ht.2]) _)
  linarith

theorem regBeta_mono_x (ha : 0 < a) (hb : 0 < b) (hx : 0 ≤ x) (hxy : x ≤ y) (hy : y ≤ 1) : regBeta a b x ≤ regBeta a b y :=
  div_le_div_of_nonneg_right (betaInt_mono ha hb hx hxy hy) (betaInt_one_pos ha hb).le

theorem regBeta_nonneg (ha : 0 < a) (hb : 0 < b) (hx : 0 ≤ x) (hx1 : x ≤ 1) : 0 ≤ regBeta a b x :=
  div_nonneg (betaInt_nonneg hx hx1) (betaInt_one_pos ha hb).le

theorem betaInt_scale (ha : 0 < a) (hb : 1 ≤ b) (hx : 0 < x) {l : ℝ} (hl : 1 ≤ l) (hlx : l * x ≤ 1) :
    betaInt a b (l * x) ≤ l ^ a * betaInt a b x := by
  have hl0 : 0 < l := by linarith
  have hx1 : x ≤ 1 := by nlinarith
  have e : betaInt a b (l * x) = l * ∫ t in (0 : ℝ)..x, (l * t) ^ (a - 1) * (1 - l * t) ^ (b - 1) := by
    unfold betaInt
    have := intervalIntegral.mul_integral_comp_mul_left (f := fun t : ℝ => t ^ (a - 1) * (1 - t) ^ (b - 1)) (a := 0) (b := x) l
    rw [mul_zero] at this
    exact this.symm
  rw [e, show l ^ a = l * l ^ (a - 1) by
    rw [← Real.rpow_one_add' hl0.le (by linarith)]; congr 1; ring, mul_assoc]
  refine mul_le_mul_of_nonneg_left ?_ hl0.le
  unfold betaInt
  rw [← intervalIntegral.integral_const_mul]
  have hi := betaInt_integrable ha (by linarith : 0 < b) le_rfl zero_le_one (by positivity : 0 ≤ l * x) hlx
  refine integral_mono_on hx.le ?_ ((betaInt_integrable ha (by linarith : 0 < b) le_rfl zero_le_one hx.le hx1).const_mul _) fun t ht => ?_
  · have := hi.comp_mul_left (c := l)
    simpa [hl0.ne'] using this
  · have t1 : l * t ≤ 1 := (mul_le_mul_of_nonneg_left ht.2 hl0.le).trans hlx
    rw [Real.mul_rpow hl0.le ht.1, mul_assoc]
    refine mul_le_mul_of_nonneg_left (mul_le_mul_of_nonneg_left ?_ (Real.rpow_nonneg ht.1 _)) (Real.rpow_nonneg hl0.le _)
    exact Real.rpow_le_rpow (by linarith) (by nlinarith [ht.1]) (by linarith)

/-- Dependence on `x`. -/
theorem regBeta_scale_x {n : ℕ} (hn : n ≠ 0) (hb : 1 ≤ b) (hx : 0 < x) (hxy : x ≤ y) (hy : y ≤ 1) :
    regBeta n b x ≤ regBeta n b y ∧ regBeta n b y ≤ (y / x) ^ n * regBeta n b x := by
  have n0 : (0 : ℝ) < n := by positivity
  refine ⟨regBeta_mono_x n0 (by linarith) hx.le hxy hy, ?_⟩
  have hl : 1 ≤ y / x := by rw [le_div_iff₀ hx]; linarith
  have e : y / x * x = y := div_mul_cancel₀ _ hx.ne'
  have := betaInt_scale (a := n) n0 hb hx hl (by rw [e]; exact hy)
  rw [e, Real.rpow_natCast] at this
  unfold regBeta
  rw [← mul_div_assoc]
  exact div_le_div_of_nonneg_right this (betaInt_one_pos n0 (by linarith)).le

theorem regBeta_mono_b (ha : 0 < a) (hb : 0 < b) (hbb : b ≤ b') (hx : 0 ≤ x) (hx1 : x ≤ 1) : regBeta a b x ≤ regBeta a b' x := by
  have hb' : 0 < b' := by linarith
  rcases hx1.eq_or_lt with rfl | hlt
  · unfold regBeta
    rw [div_self (betaInt_one_pos ha hb).ne', div_self (betaInt_one_pos ha hb').ne']
  unfold regBeta
  rw [div_le_div_iff₀ (betaInt_one_pos ha hb) (betaInt_one_pos ha hb')]
  have i1 := betaInt_integrable ha hb le_rfl zero_le_one hx hx1
  have i2 := betaInt_integrable ha hb hx hx1 zero_le_one le_rfl
  have j1 := betaInt_integrable ha hb' le_rfl zero_le_one hx hx1
  have j2 := betaInt_integrable ha hb' hx hx1 zero_le_one le_rfl
  have s1 : betaInt a b 1 = betaInt a b x + ∫ t in x..1, t ^ (a - 1) * (1 - t) ^ (b - 1) := (integral_add_adjacent_intervals i1 i2).symm
  have s2 : betaInt a b' 1 = betaInt a b' x + ∫ t in x..1, t ^ (a - 1) * (1 - t) ^ (b' - 1) := (integral_add_adjacent_intervals j1 j2).symm
  have key : ∀ t : ℝ, t < 1 → (1 - t) ^ (b' - 1) = (1 - t) ^ (b' - b) * (1 - t) ^ (b - 1) := by
    intro t ht
    rw [← Real.rpow_add (by linarith)]
    congr 1; ring
  have l1 : (1 - x) ^ (b' - b) * betaInt a b x ≤ betaInt a b' x := by
    unfold betaInt
    rw [← intervalIntegral.integral_const_mul]
    refine integral_mono_on hx (i1.const_mul _) j1 fun t ht => ?_
    rw [key t (by linarith [ht.2]), mul_left_comm]
    refine mul_le_mul_of_nonneg_left (mul_le_mul_of_nonneg_right ?_ (Real.rpow_nonneg (by linarith [ht.2]) _)) (Real.rpow_nonneg ht.1 _)
    exact Real.rpow_le_rpow (by linarith) (by linarith [ht.2]) (by linarith)
  have l2 : (∫ t in x..1, t ^ (a - 1) * (1 - t) ^ (b' - 1)) ≤ (1 - x) ^ (b' - b) * ∫ t in x..1, t ^ (a - 1) * (1 - t) ^ (b - 1) := by
    rw [← intervalIntegral.integral_const_mul]
    refine integral_mono_on_of_le_Ioo hx1 j2 (i2.const_mul _) fun t ht => ?_
    rw [key t ht.2, mul_left_comm]
    refine mul_le_mul_of_nonneg_right ?_ (mul_nonneg (Real.rpow_nonneg (by linarith [ht.1]) _) (Real.rpow_nonneg (by linarith [ht.2]) _))
    exact Real.rpow_le_rpow (by linarith [ht.2]) (by linarith [ht.1]) (by linarith)
  have p1 := betaInt_nonneg (a := a) (b := b) hx hx1
  have p2 : 0 ≤ ∫ t in x..1, t ^ (a - 1) * (1 - t) ^ (b - 1) := integral_nonneg hx1 fun t ht =>
    mul_nonneg (Real.rpow_nonneg (hx.trans ht.1) _) (Real.rpow_nonneg (by linarith [ht.2]) _)
  have m1 := mul_le_mul_of_nonneg_right l1 p2
  have m2 := mul_le_mul_of_nonneg_left l2 p1
  rw [s1, s2]
  nlinarith

theorem betaInt_one_scale (n : ℕ) (hb : 0 < b) (hbb : b ≤ b') :
    betaInt ((n + 1 : ℕ) : ℝ) b 1 ≤ (b' / b) ^ (n + 1) * betaInt ((n + 1 : ℕ) : ℝ) b' 1 := by
  have hb' : 0 < b' := by linarith
  have hl : 1 ≤ b' / b := by rw [le_div_iff₀ hb]; linarith
  induction n with
  | zero =>
    have e : ∀ c : ℝ, 0 < c → betaInt 1 c 1 = 1 / c := by
      intro c hc
      rw [betaInt_one one_pos hc, Real.Gamma_one, add_comm, Real.Gamma_add_one hc.ne']
      have := Real.Gamma_pos_of_pos hc
      field_simp
    simp only [zero_add, Nat.cast_one, pow_one]
    rw [e b hb, e b' hb']
    apply le_of_eq; field_simp
  | succ n ih =>
    have e : ((n + 1 + 1 : ℕ) : ℝ) = ((n + 1 : ℕ) : ℝ) + 1 := by push_cast; ring
    have n0 : (0 : ℝ) < ((n + 1 : ℕ) : ℝ) := by positivity
    rw [e, betaInt_mean n0 hb, betaInt_mean n0 hb', pow_succ]
    set A : ℝ := ((n + 1 : ℕ) : ℝ)
    have f : A / (A + b) ≤ b' / b * (A / (A + b')) := by
      rw [div_mul_div_comm, div_le_div_iff₀ (by positivity) (by positivity)]
      nlinarith [mul_pos n0 n0, mul_nonneg (mul_pos n0 n0).le (sub_nonneg.2 hbb)]
    calc A / (A + b) * betaInt A b 1 ≤ (b' / b * (A / (A + b'))) * ((b' / b) ^ (n + 1) * betaInt A b' 1) :=
          mul_le_mul f ih (betaInt_one_pos n0 hb).le (by positivity)
      _ = _ := by ring

/-- Dependence on `b`. -/
theorem regBeta_scale_b {n : ℕ} (hn : n ≠ 0) (hb : 0 < b) (hbb : b ≤ b') (hx : 0 ≤ x) (hx1 : x ≤ 1) :
    regBeta n b x ≤ regBeta n b' x ∧ regBeta n b' x ≤ (b' / b) ^ n * regBeta n b x := by
  have n0 : (0 : ℝ) < n := by positivity
  have hb' : 0 < b' := by linarith
  refine ⟨regBeta_mono_b n0 hb hbb hx hx1, ?_⟩
  obtain ⟨m, rfl⟩ := Nat.exists_eq_succ_of_ne_zero hn
  have h1 := betaInt_one_scale m hb hbb
  have h2 : betaInt ((m + 1 : ℕ) : ℝ) b' x ≤ betaInt ((m + 1 : ℕ) : ℝ) b x := by
    unfold betaInt
    refine integral_mono_on_of_le_Ioo hx (betaInt_integrable n0 hb' le_rfl zero_le_one hx hx1) (betaInt_integrable n0 hb le_rfl zero_le_one hx hx1) fun t ht => ?_
    refine mul_le_mul_of_nonneg_left ?_ (Real.rpow_nonneg ht.1.le _)
    exact Real.rpow_le_rpow_of_exponent_ge (by linarith [ht.2]) (by linarith [ht.1]) (by linarith)
  have p1 := betaInt_one_pos (a := ((m + 1 : ℕ) : ℝ)) n0 hb
  have p2 := betaInt_one_pos (a := ((m + 1 : ℕ) : ℝ)) n0 hb'
  unfold regBeta
  rw [← mul_div_assoc, div_le_div_iff₀ p2 p1]
  calc betaInt ((m + 1 : ℕ) : ℝ) b' x * betaInt ((m + 1 : ℕ) : ℝ) b 1
      ≤ betaInt ((m + 1 : ℕ) : ℝ) b x * ((b' / b) ^ (m + 1) * betaInt ((m + 1 : ℕ) : ℝ) b' 1) :=
        mul_le_mul h2 h1 p1.le (betaInt_nonneg hx hx1)
    _ = _ := by simp only [Nat.succ_eq_add_one]; ring

end Phik.BetaCF
