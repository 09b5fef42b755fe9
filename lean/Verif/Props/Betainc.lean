import Verif.Lemmas.BetaLoop
import Verif.Lemmas.BetaInt

/-!
# The incomplete beta function (C48, C49, C60)

`Spec.betaConv a b x n` is the `n`-th convergent of the continued fraction (a Mathlib `GenContFract`),
`Spec.betaInt` the incomplete beta integral and `Spec.regBeta` the regularised incomplete beta function.
-/

namespace Phik
open Phik.Spec Phik.BetaCF Filter Topology

variable {a b x : ℝ}

/-! ## C49: evaluation of the continued fraction -/

/-- **C49.** Inside the domain in which `incompbeta` calls it, `contfractbeta` returns `v` if and only if `v` is
the convergent of the first of its `ITMAX + 1` iterations that meets the stopping criterion. -/
theorem contfractbeta_ok_iff (ha : 0 < a) (hb : 0 < b) (hx : 0 < x) (hx1 : x ≤ (a + 1) / (a + b + 2))
    (itmax : ℤ) (eps v : ℝ) :
    contfractbeta a b x itmax eps = .ok v ↔
      ∃ i : ℕ, (i : ℤ) ≤ itmax ∧ BetaStop a b x eps i ∧ (∀ k < i, ¬ BetaStop a b x eps k) ∧
        v = betaConv a b x (2 * i + 4) := by
  have h : Dom a b x := ⟨ha, hb, hx, hx1⟩
  rcases contfract_cases h itmax eps with ⟨i, g1, g2, g3, g4⟩ | ⟨g1, g2⟩
  · rw [g4]
    constructor
    · intro h; cases h; exact ⟨i, g1, g2, g3, rfl⟩
    · rintro ⟨j, k1, k2, k3, rfl⟩
      have : i = j := by
        rcases lt_trichotomy i j with hij | hij | hij
        · exact absurd g2 (k3 i hij)
        · exact hij
        · exact absurd k2 (g3 j hij)
      rw [this]
  · rw [g2]
    constructor
    · intro h; cases h
    · rintro ⟨j, k1, k2, -, -⟩; exact absurd k2 (g1 j k1)

/-- **C49.** Otherwise, and only then, it raises `ValueError`; no division by zero can happen. -/
theorem contfractbeta_error_iff (ha : 0 < a) (hb : 0 < b) (hx : 0 < x) (hx1 : x ≤ (a + 1) / (a + b + 2))
    (itmax : ℤ) (eps : ℝ) (e : Err) :
    contfractbeta a b x itmax eps = .error e ↔
      e = .value ∧ ∀ i : ℕ, (i : ℤ) ≤ itmax → ¬ BetaStop a b x eps i := by
  have h : Dom a b x := ⟨ha, hb, hx, hx1⟩
  rcases contfract_cases h itmax eps with ⟨i, g1, g2, g3, g4⟩ | ⟨g1, g2⟩
  · rw [g4]
    constructor
    · intro h; cases h
    · rintro ⟨-, k⟩; exact absurd g2 (k i g1)
  · rw [g2]
    constructor
    · intro h; cases h; exact ⟨rfl, g1⟩
    · rintro ⟨rfl, -⟩; rfl

/-- **C49.** For all `b` and `x`, even where the fraction does not converge: whatever is returned is a convergent
that meets the criterion. -/
theorem contfractbeta_convergent (ha : 0 < a) (itmax : ℤ) (eps v : ℝ)
    (hv : contfractbeta a b x itmax eps = .ok v) :
    ∃ i : ℕ, (i : ℤ) ≤ itmax ∧ BetaStop a b x eps i ∧ (∀ k < i, ¬ BetaStop a b x eps k) ∧
      v = betaConv a b x (2 * i + 4) := by
  unfold contfractbeta at hv
  rw [if_neg (by linarith)] at hv
  obtain ⟨j, g1, g2, g3, g4⟩ := loop_gen ha eps _ 0 _ (inv_start ha) v hv
  simp only [zero_add] at g2 g3 g4
  exact ⟨j, by omega, g2, g3, g4⟩

/-- **C49.** For every precision there is a number of iterations that is enough. -/
theorem contfractbeta_terminates (ha : 0 < a) (hb : 0 < b) (hx : 0 < x) (hx1 : x ≤ (a + 1) / (a + b + 2))
    {eps : ℝ} (he : 0 < eps) :
    ∃ v, ∃ N : ℤ, ∀ itmax, contfractbeta a b x itmax eps = .ok v ↔ N ≤ itmax := by
  have h : Dom a b x := ⟨ha, hb, hx, hx1⟩
  classical
  obtain ⟨i, hi⟩ := exists_stop h he
  let n := Nat.find ⟨i, hi⟩
  have hn : BetaStop a b x eps n := Nat.find_spec ⟨i, hi⟩
  refine ⟨betaConv a b x (2 * n + 4), n, fun itmax => ?_⟩
  rw [contfractbeta_ok_iff ha hb hx hx1]
  constructor
  · rintro ⟨j, k1, k2, -, -⟩
    exact le_trans (by exact_mod_cast Nat.find_min' ⟨i, hi⟩ k2) k1
  · intro hle
    exact ⟨n, hle, hn, fun k hk => Nat.find_min ⟨i, hi⟩ hk, rfl⟩

theorem gauss_eq_betaInt (h : Dom a b x) : gaussFn a b x 1 = a * betaInt a b x / (x ^ a * (1 - x) ^ b) := by
  have hx1 := h.x_lt_one
  have h1 : 0 < x ^ a := Real.rpow_pos_of_pos h.x_pos _
  have h2 : 0 < (1 - x) ^ b := Real.rpow_pos_of_pos (by linarith) _
  have := h.a_pos
  rw [betaInt_eq h.a_pos h.b_pos h.x_pos hx1]
  field_simp

/-- **C49.** The convergents are positive and tend to the incomplete beta integral divided by `x^a (1-x)^b / a`. -/
theorem betaConv_tendsto (ha : 0 < a) (hb : 0 < b) (hx : 0 < x) (hx1 : x ≤ (a + 1) / (a + b + 2)) :
    (∀ n, 0 < betaConv a b x (n + 1)) ∧
    Tendsto (betaConv a b x) atTop (𝓝 (a * betaInt a b x / (x ^ a * (1 - x) ^ b))) := by
  have h : Dom a b x := ⟨ha, hb, hx, hx1⟩
  exact ⟨conv_pos h, gauss_eq_betaInt h ▸ conv_tendsto h⟩

/-- **C60.** The stopping criterion bounds the error of the result. -/
theorem contfractbeta_accuracy (ha : 0 < a) (hb : 0 < b) (hx : 0 < x) (hx1 : x ≤ (a + 1) / (a + b + 2))
    {itmax : ℤ} {eps v : ℝ} (he : eps ≤ 1 / 8) (hv : contfractbeta a b x itmax eps = .ok v) :
    0 < v ∧ |v - a * betaInt a b x / (x ^ a * (1 - x) ^ b)| ≤ 3 * (max 1 (1 / (a + b)) / (1 - x)) * eps * v := by
  have h : Dom a b x := ⟨ha, hb, hx, hx1⟩
  obtain ⟨i, -, hs, -, rfl⟩ := (contfractbeta_ok_iff ha hb hx hx1 itmax eps v).1 hv
  refine ⟨conv_pos h _, ?_⟩
  rw [← gauss_eq_betaInt h]
  exact stop_acc h he hs

/-- A case that meets the hypotheses: `a = b = 1`, `x = 1/2`; the first convergents are exact and the second
iteration stops. -/
example : contfractbeta 1 1 (1 / 2) 5000 (1 / 10 ^ 7) = .ok 2 := by
  rw [contfractbeta_ok_iff one_pos one_pos (by norm_num) (by norm_num)]
  have e : ∀ n, num 1 1 (1/2) (n + 2) = num 1 1 (1/2) (n + 1) + betaCoef 1 1 (1/2) (n + 1) * num 1 1 (1/2) n := num_rec
  have e' : ∀ n, den 1 1 (1/2) (n + 2) = den 1 1 (1/2) (n + 1) + betaCoef 1 1 (1/2) (n + 1) * den 1 1 (1/2) n := den_rec
  have n2 : num 1 1 (1/2) 2 = 1 := num_two
  have d2 : den 1 1 (1/2) 2 = 1 / 2 := by
    have := e' 0; rw [zero_add, den_one, den_zero] at this; rw [this]; norm_num [betaCoef]
  have n3 : num 1 1 (1/2) 3 = 1 := by rw [e 1, n2, num_one]; norm_num [betaCoef]
  have d3 : den 1 1 (1/2) 3 = 1 / 2 := by rw [e' 1, d2, den_one]; norm_num [betaCoef]
  have n4 : num 1 1 (1/2) 4 = 3 / 4 := by rw [e 2, n3, n2]; norm_num [betaCoef]
  have d4 : den 1 1 (1/2) 4 = 3 / 8 := by rw [e' 2, d3, d2]; norm_num [betaCoef]
  have n5 : num 1 1 (1/2) 5 = 7 / 10 := by rw [e 3, n4, n3]; norm_num [betaCoef]
  have d5 : den 1 1 (1/2) 5 = 7 / 20 := by rw [e' 3, d4, d3]; norm_num [betaCoef]
  have n6 : num 1 1 (1/2) 6 = 11 / 20 := by rw [e 4, n5, n4]; norm_num [betaCoef]
  have d6 : den 1 1 (1/2) 6 = 11 / 40 := by rw [e' 4, d5, d4]; norm_num [betaCoef]
  refine ⟨1, by norm_num, ?_, ?_, ?_⟩
  · unfold BetaStop betaPrev
    norm_num [conv_eq, n4, d4, n6, d6]
  · intro k hk
    interval_cases k
    unfold BetaStop betaPrev
    norm_num [conv_eq, n4, d4]
  · norm_num [conv_eq, n6, d6]

/-! ## C48: complement and logarithms -/

/-- **C48.** The values at the ends. -/
theorem incompbeta_ends (fexp : ℝ → ℝ) (a b : ℝ) :
    incompbeta fexp a b 0 = .ok 0 ∧ incompbeta fexp a b 1 = .ok 1 := by
  constructor
  · unfold incompbeta; rw [if_pos rfl]; rfl
  · unfold incompbeta; rw [if_neg one_ne_zero, if_pos rfl]; rfl

theorem incompbeta_lo (fexp : ℝ → ℝ) (ha : 0 < a) (hb : 0 < b) (hx : 0 < x) (hlt : x < (a + 1) / (a + b + 2)) :
    incompbeta fexp a b x = (contfract0 a b x).map fun c => fexp (lbeta a b x) * c / a := by
  have hx1 : x < 1 := lt_of_lt_of_le hlt (by rw [div_le_one (by linarith)]; linarith)
  unfold incompbeta
  rw [if_neg hx.ne', if_neg hx1.ne]
  simp only [Bind.bind, Except.bind, pure, Except.pure]
  rw [if_neg (by push Not; exact ⟨ha, hb, hx.le, hx1.le⟩)]
  rw [if_pos hlt]
  cases contfract0 a b x <;> rfl

theorem incompbeta_hi (fexp : ℝ → ℝ) (ha : 0 < a) (hb : 0 < b) (hx1 : x < 1) (hle : (a + 1) / (a + b + 2) ≤ x) :
    incompbeta fexp a b x = (contfract0 b a (1 - x)).map fun c => 1 - fexp (lbeta a b x) * c / b := by
  have hx : 0 < x := lt_of_lt_of_le (by positivity) hle
  unfold incompbeta
  rw [if_neg hx.ne', if_neg hx1.ne]
  simp only [Bind.bind, Except.bind, pure, Except.pure]
  rw [if_neg (by push Not; exact ⟨ha, hb, hx.le, hx1.le⟩)]
  rw [if_neg (not_lt.2 hle)]
  cases contfract0 b a (1 - x) <;> rfl

theorem lbeta_symm (a b x : ℝ) : lbeta b a (1 - x) = lbeta a b x := by
  unfold lbeta
  rw [sub_sub_cancel, add_comm b a]
  ring

theorem branch_flip (ha : 0 < a) (hb : 0 < b) :
    (a + 1) / (a + b + 2) = 1 - (b + 1) / (b + a + 2) := by
  have h1 : a + b + 2 ≠ 0 := by positivity
  have h2 : b + a + 2 ≠ 0 := by positivity
  field_simp; ring

/-- **C48.** Away from the branch point, the two tails add up to exactly 1, and fail together. -/
theorem incompbeta_complement (fexp : ℝ → ℝ) (ha : 0 < a) (hb : 0 < b) (hx : 0 < x) (hx1 : x < 1)
    (hne : x ≠ (a + 1) / (a + b + 2)) :
    incompbeta fexp b a (1 - x) = (incompbeta fexp a b x).map fun v => 1 - v := by
  have hbr := branch_flip ha hb
  rcases lt_or_gt_of_ne hne with h | h
  · rw [incompbeta_lo fexp ha hb hx h, incompbeta_hi fexp hb ha (by linarith) (by linarith), lbeta_symm, sub_sub_cancel]
    cases contfract0 a b x <;> rfl
  · rw [incompbeta_hi fexp ha hb hx1 h.le, incompbeta_lo fexp hb ha (by linarith) (by linarith), lbeta_symm]
    cases contfract0 b a (1 - x) with
    | error e => rfl
    | ok c => simp [Except.map]

/-- **C48.** `log_incompbeta` returns the logarithms (minus infinity at 0) of `incompbeta` and of its complement,
and fails exactly when `incompbeta` does, if the exponential function is exact. -/
theorem logIncompbeta_eq (fexp : ℝ → ℝ) (ha : 0 < a) (hb : 0 < b) (hx : 0 ≤ x) (hx1 : x ≤ 1)
    (hf : fexp (lbeta a b x) = Real.exp (lbeta a b x)) :
    logIncompbeta fexp a b x = (incompbeta fexp a b x).map fun p => (FVal.log p, FVal.log (1 - p)) := by
  rcases eq_or_lt_of_le hx with rfl | hx0
  · rw [(incompbeta_ends fexp a b).1]
    unfold logIncompbeta
    rw [if_pos rfl]
    simp [Except.map, FVal.log, FVal.ofReal, pure, Except.pure]
  rcases eq_or_lt_of_le hx1 with rfl | hx1
  · rw [(incompbeta_ends fexp a b).2]
    unfold logIncompbeta
    rw [if_neg one_ne_zero, if_pos rfl]
    simp [Except.map, FVal.log, FVal.ofReal, pure, Except.pure]
  have key : ∀ {c d : ℝ}, 0 < c → 0 < d →
      FVal.sub (FVal.add (FVal.ofReal (lbeta a b x)) (FVal.log c)) (FVal.log d) =
        FVal.log (Real.exp (lbeta a b x) * c / d) := by
    intro c d hc hd
    have hp : 0 < Real.exp (lbeta a b x) * c / d := by positivity
    unfold FVal.log FVal.sub FVal.add FVal.ofReal FVal.neg
    rw [if_neg hc.not_gt, if_neg hc.ne', if_neg hd.not_gt, if_neg hd.ne', if_neg hp.not_gt, if_neg hp.ne']
    simp only [EReal.coe_ne_top, EReal.coe_ne_bot, and_false, or_self, if_false, Option.map]
    rw [← EReal.coe_add, ← EReal.coe_neg]
    simp only [EReal.coe_ne_top, EReal.coe_ne_bot, and_false, or_self, if_false]
    rw [← EReal.coe_add, Real.log_div (by positivity) hd.ne', Real.log_mul (Real.exp_pos _).ne' hc.ne', Real.log_exp]
    rfl
  have dom : ¬ (a ≤ 0 ∨ b ≤ 0 ∨ x < 0 ∨ 1 < x) := by push Not; exact ⟨ha, hb, hx, hx1.le⟩
  unfold logIncompbeta
  rw [if_neg hx0.ne', if_neg hx1.ne]
  simp only [Bind.bind, Except.bind, pure, Except.pure]
  rw [if_neg dom]
  by_cases h : x < (a + 1) / (a + b + 2)
  · rw [if_pos h, incompbeta_lo fexp ha hb hx0 h]
    cases hc : contfract0 a b x with
    | error e => rfl
    | ok c =>
      have hcp := (contfractbeta_accuracy ha hb hx0 h.le (by norm_num) hc).1
      simp only [Except.map]
      rw [hf, key hcp ha]
  · rw [if_neg h, incompbeta_hi fexp ha hb hx1 (not_lt.1 h)]
    have hbr := branch_flip ha hb
    cases hc : contfract0 b a (1 - x) with
    | error e => rfl
    | ok c =>
      have hcp := (contfractbeta_accuracy hb ha (by linarith) (by linarith [not_lt.1 h]) (by norm_num) hc).1
      simp only [Except.map]
      rw [hf, key hcp hb, mul_div_assoc, sub_sub_cancel]

/-- **C48.** The logarithm of the smaller tail does not depend on the exponential function, so that it is still
right where `exp` underflows to 0: it is the logarithm of the value with the exact exponential. -/
theorem logIncompbeta_no_underflow (fexp : ℝ → ℝ) (ha : 0 < a) (hb : 0 < b) (hx : 0 < x) (hx1 : x < 1)
    {lp lq : FVal} (h : logIncompbeta fexp a b x = .ok (lp, lq)) :
    ∃ p, incompbeta Real.exp a b x = .ok p ∧
      (x < (a + 1) / (a + b + 2) → 0 < p ∧ lp = FVal.ofReal (Real.log p)) ∧
      ((a + 1) / (a + b + 2) ≤ x → p < 1 ∧ lq = FVal.ofReal (Real.log (1 - p))) := by
  have hex := logIncompbeta_eq Real.exp ha hb hx.le hx1.le (x := x) rfl
  have dom : ¬ (a ≤ 0 ∨ b ≤ 0 ∨ x < 0 ∨ 1 < x) := by push Not; exact ⟨ha, hb, hx.le, hx1.le⟩
  unfold logIncompbeta at h hex
  rw [if_neg hx.ne', if_neg hx1.ne] at h hex
  simp only [Bind.bind, Except.bind, pure, Except.pure] at h hex
  rw [if_neg dom] at h hex
  by_cases hlt : x < (a + 1) / (a + b + 2)
  · rw [if_pos hlt] at h hex
    rw [incompbeta_lo Real.exp ha hb hx hlt] at hex ⊢
    cases hc : contfract0 a b x with
    | error e => rw [hc] at h; cases h
    | ok c =>
      rw [hc] at h hex
      simp only [Except.map, Except.ok.injEq, Prod.mk.injEq] at h hex
      have hcp := (contfractbeta_accuracy ha hb hx hlt.le (by norm_num) hc).1
      have hp : 0 < Real.exp (lbeta a b x) * c / a := by positivity
      refine ⟨_, rfl, fun _ => ⟨hp, ?_⟩, fun h => absurd hlt (not_lt.2 h)⟩
      rw [← h.1, hex.1]
      unfold FVal.log
      rw [if_neg hp.not_gt, if_neg hp.ne']; rfl
  · rw [if_neg hlt] at h hex
    have hle := not_lt.1 hlt
    have hbr := branch_flip ha hb
    rw [incompbeta_hi Real.exp ha hb hx1 hle] at hex ⊢
    cases hc : contfract0 b a (1 - x) with
    | error e => rw [hc] at h; cases h
    | ok c =>
      rw [hc] at h hex
      simp only [Except.map, Except.ok.injEq, Prod.mk.injEq] at h hex
      have hcp := (contfractbeta_accuracy hb ha (by linarith) (by linarith) (by norm_num) hc).1
      have hp : 0 < Real.exp (lbeta a b x) * c / b := by positivity
      refine ⟨_, rfl, fun h => absurd h hlt, fun _ => ⟨by linarith, ?_⟩⟩
      rw [← h.2, hex.2, sub_sub_cancel]
      unfold FVal.log
      rw [if_neg hp.not_gt, if_neg hp.ne']; rfl

/-! ## C60: accuracy -/

theorem exp_lbeta (ha : 0 < a) (hb : 0 < b) (hx : 0 < x) (hx1 : x < 1) :
    Real.exp (lbeta a b x) = x ^ a * (1 - x) ^ b / betaInt a b 1 := by
  have g1 := Real.Gamma_pos_of_pos ha
  have g2 := Real.Gamma_pos_of_pos hb
  have g3 := Real.Gamma_pos_of_pos (add_pos ha hb)
  have h1x : 0 < 1 - x := by linarith
  unfold lbeta
  rw [Real.exp_add, Real.exp_add, Real.exp_sub, Real.exp_sub, Real.exp_log g1, Real.exp_log g2, Real.exp_log g3,
    mul_comm a, mul_comm b, Real.exp_mul, Real.exp_mul, Real.exp_log hx, Real.exp_log h1x, betaInt_one ha hb]
  field_simp

theorem regBeta_reflect (ha : 0 < a) (hb : 0 < b) (hx : 0 ≤ x) (hx1 : x ≤ 1) :
    regBeta a b x + regBeta b a (1 - x) = 1 := by
  have h := betaInt_reflect ha hb hx hx1
  have h1 := betaInt_reflect ha hb zero_le_one le_rfl
  have h0 : betaInt b a (1 - 1) = 0 := by unfold betaInt; simp
  have hs : betaInt b a 1 = betaInt a b 1 := by
    rw [betaInt_one ha hb, betaInt_one hb ha, add_comm a b, mul_comm]
  have hp := (betaInt_one_pos ha hb).ne'
  unfold regBeta
  rw [hs, ← add_div, h, div_self hp]

theorem lo_acc (ha : 0 < a) (hb : 0 < b) (hx : 0 < x) (hle : x ≤ (a + 1) / (a + b + 2)) {c : ℝ}
    (hc : contfract0 a b x = .ok c) :
    0 < Real.exp (lbeta a b x) * c / a ∧
    |Real.exp (lbeta a b x) * c / a - regBeta a b x| ≤
      3 * (max 1 (1 / (a + b)) / (1 - x)) / 10 ^ 7 * (Real.exp (lbeta a b x) * c / a) := by
  have hx1 : x < 1 := lt_of_le_of_lt hle (by rw [div_lt_one (by linarith)]; linarith)
  obtain ⟨h1, h2⟩ := contfractbeta_accuracy ha hb hx hle (by norm_num) hc
  have hE := Real.exp_pos (lbeta a b x)
  have hp : 0 < Real.exp (lbeta a b x) * c / a := by positivity
  refine ⟨hp, ?_⟩
  have q1 : 0 < x ^ a := Real.rpow_pos_of_pos hx _
  have q2 : 0 < (1 - x) ^ b := Real.rpow_pos_of_pos (by linarith) _
  have q3 := betaInt_one_pos ha hb
  have e : regBeta a b x = Real.exp (lbeta a b x) / a * (a * betaInt a b x / (x ^ a * (1 - x) ^ b)) := by
    rw [exp_lbeta ha hb hx hx1]; unfold regBeta; field_simp
  have e2 : Real.exp (lbeta a b x) * c / a - regBeta a b x =
      Real.exp (lbeta a b x) / a * (c - a * betaInt a b x / (x ^ a * (1 - x) ^ b)) := by
    rw [e]; ring
  rw [e2, abs_mul, abs_of_pos (by positivity : 0 < Real.exp (lbeta a b x) / a)]
  calc _ ≤ Real.exp (lbeta a b x) / a * (3 * (max 1 (1 / (a + b)) / (1 - x)) * (1 / 10 ^ 7) * c) :=
        mul_le_mul_of_nonneg_left h2 (by positivity)
    _ = _ := by ring

/-- **C60.** Whatever `incompbeta` returns is close to the regularised incomplete beta function: the tail that it
evaluates (the lower one below the branch point, the upper one above) has a relative error of at most
`3e-7` times the larger of 1 and `1/(a+b)`, over `1 - x` respectively `x`. -/
theorem incompbeta_accuracy (ha : 0 < a) (hb : 0 < b) (hx : 0 < x) (hx1 : x < 1) {v : ℝ}
    (hv : incompbeta Real.exp a b x = .ok v) :
    (x < (a + 1) / (a + b + 2) →
      0 < v ∧ |v - regBeta a b x| ≤ 3 * (max 1 (1 / (a + b)) / (1 - x)) / 10 ^ 7 * v) ∧
    ((a + 1) / (a + b + 2) ≤ x →
      v < 1 ∧ |v - regBeta a b x| ≤ 3 * (max 1 (1 / (a + b)) / x) / 10 ^ 7 * (1 - v)) := by
  constructor
  · intro h
    rw [incompbeta_lo Real.exp ha hb hx h] at hv
    cases hc : contfract0 a b x with
    | error e => rw [hc] at hv; cases hv
    | ok c =>
      rw [hc] at hv
      simp only [Except.map, Except.ok.injEq] at hv
      rw [← hv]
      exact lo_acc ha hb hx h.le hc
  · intro h
    rw [incompbeta_hi Real.exp ha hb hx1 h] at hv
    have hbr := branch_flip ha hb
    cases hc : contfract0 b a (1 - x) with
    | error e => rw [hc] at hv; cases hv
    | ok c =>
      rw [hc] at hv
      simp only [Except.map, Except.ok.injEq] at hv
      obtain ⟨h1, h2⟩ := lo_acc hb ha (by linarith : 0 < 1 - x) (by linarith) hc
      rw [lbeta_symm] at h1 h2
      have hr := regBeta_reflect ha hb hx.le hx1.le
      rw [sub_sub_cancel, add_comm b a] at h2
      have e : v - regBeta a b x = -(Real.exp (lbeta a b x) * c / b - regBeta b a (1 - x)) := by
        rw [← hv]; linarith
      have e2 : 1 - v = Real.exp (lbeta a b x) * c / b := by rw [← hv]; ring
      rw [e, abs_neg, e2]
      exact ⟨by linarith, h2⟩

end Phik
