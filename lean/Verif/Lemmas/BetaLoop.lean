import Verif.Lemmas.BetaAcc
import Verif.Model.Betainc

/-! # The loop of `contfractbeta` computes the even convergents -/

namespace Phik.BetaCF
open Phik.Spec

variable {a b x : ℝ}

/-- The state before iteration `i`. -/
structure Inv (a b x : ℝ) (i : ℕ) (s : CFState) : Prop where
  scaled : ∃ c, c ≠ 0 ∧ s.am = num a b x (2 * i + 1) / c ∧ s.bm = den a b x (2 * i + 1) / c ∧
    s.az = num a b x (2 * i + 2) / c ∧ s.bz = den a b x (2 * i + 2) / c
  prev : s.az = betaPrev a b x i

theorem inv_start (ha : 0 < a) : Inv a b x 0 ⟨1, 1, 1, 1 - (a + b) * x / (a + 1)⟩ := by
  refine ⟨⟨1, one_ne_zero, ?_, ?_, ?_, ?_⟩, by simp [betaPrev]⟩
  · simp [num_one]
  · simp [den_one]
  · simp [num_two]
  · rcases den_two (a := a) (b := b) (x := x) with h1 | h1
    · simp [h1]
    · exact absurd h1 ha.ne'

theorem step_gen (ha : 0 < a) {i : ℕ} {s : CFState} (hs : Inv a b x i s) :
    (den a b x (2 * i + 4) = 0 ∧ cfStep a b x i s = .error .nonfinite) ∨
    ∃ t, cfStep a b x i s = .ok t ∧ Inv a b x (i + 1) t ∧ t.az = betaConv a b x (2 * i + 4) := by
  have hi : (0 : ℝ) ≤ i := Nat.cast_nonneg i
  obtain ⟨⟨c, hc, e1, e2, e3, e4⟩, -⟩ := hs
  have c1 : betaCoef a b x (2 * i + 2) =
      ((i : ℝ) + 1) * (b - (i + 1)) * x / ((a - 1 + (i + 1 + (i + 1))) * (a + (i + 1 + (i + 1)))) := by
    have := coef_even (a := a) (b := b) (x := x) (i + 1)
    rw [show 2 * (i + 1) = 2 * i + 2 by ring] at this
    rw [this]; push_cast; ring_nf
  have c2 : betaCoef a b x (2 * i + 3) =
      -(a + ((i : ℝ) + 1)) * (a + b + (i + 1)) * x / ((a + 1 + (i + 1 + (i + 1))) * (a + (i + 1 + (i + 1)))) := by
    have := coef_odd (a := a) (b := b) (x := x) (i + 1)
    rw [show 2 * (i + 1) + 1 = 2 * i + 3 by ring] at this
    rw [this]; push_cast
    rw [neg_mul, neg_mul, neg_div, mul_comm (a + 2 * ((i : ℝ) + 1))]
    ring_nf
  have n3 : num a b x (2 * i + 3) = num a b x (2 * i + 2) + betaCoef a b x (2 * i + 2) * num a b x (2 * i + 1) :=
    num_rec (2 * i + 1)
  have n4 : num a b x (2 * i + 4) = num a b x (2 * i + 3) + betaCoef a b x (2 * i + 3) * num a b x (2 * i + 2) :=
    num_rec (2 * i + 2)
  have d3 : den a b x (2 * i + 3) = den a b x (2 * i + 2) + betaCoef a b x (2 * i + 2) * den a b x (2 * i + 1) :=
    den_rec (2 * i + 1)
  have d4 : den a b x (2 * i + 4) = den a b x (2 * i + 3) + betaCoef a b x (2 * i + 3) * den a b x (2 * i + 2) :=
    den_rec (2 * i + 2)
  have z : ¬ ((a - 1 + ((i : ℝ) + 1 + (i + 1))) * (a + (i + 1 + (i + 1))) = 0 ∨
      (a + 1 + ((i : ℝ) + 1 + (i + 1))) * (a + (i + 1 + (i + 1))) = 0) := by
    have h1 : 0 < a - 1 + ((i : ℝ) + 1 + (i + 1)) := by linarith
    have h2 : 0 < a + ((i : ℝ) + 1 + (i + 1)) := by linarith
    have h3 : 0 < a + 1 + ((i : ℝ) + 1 + (i + 1)) := by linarith
    rintro (h4 | h4)
    · exact (mul_pos h1 h2).ne' h4
    · exact (mul_pos h3 h2).ne' h4
  have ap : s.az + betaCoef a b x (2 * i + 2) * s.am = num a b x (2 * i + 3) / c := by
    rw [e3, e1, n3]; field_simp
  have bp : s.bz + betaCoef a b x (2 * i + 2) * s.bm = den a b x (2 * i + 3) / c := by
    rw [e4, e2, d3]; field_simp
  have app : num a b x (2 * i + 3) / c + betaCoef a b x (2 * i + 3) * s.az = num a b x (2 * i + 4) / c := by
    rw [e3, n4]; field_simp
  have bpp : den a b x (2 * i + 3) / c + betaCoef a b x (2 * i + 3) * s.bz = den a b x (2 * i + 4) / c := by
    rw [e4, d4]; field_simp
  by_cases p4 : den a b x (2 * i + 4) = 0
  · left
    refine ⟨p4, ?_⟩
    unfold cfStep
    rw [if_neg z]
    simp only [← c1, ← c2]
    rw [ap, bp, app, bpp, if_pos (by rw [p4, zero_div])]
  right
  have nz : den a b x (2 * i + 4) / c ≠ 0 := div_ne_zero p4 hc
  refine ⟨⟨num a b x (2 * i + 3) / c / (den a b x (2 * i + 4) / c), den a b x (2 * i + 3) / c / (den a b x (2 * i + 4) / c),
    num a b x (2 * i + 4) / c / (den a b x (2 * i + 4) / c), 1⟩, ?_, ⟨⟨den a b x (2 * i + 4), p4, ?_, ?_, ?_, ?_⟩, ?_⟩, ?_⟩
  · unfold cfStep
    rw [if_neg z]
    simp only [← c1, ← c2]
    rw [ap, bp, app, bpp, if_neg nz]
  · show _ = num a b x (2 * (i + 1) + 1) / _
    rw [show 2 * (i + 1) + 1 = 2 * i + 3 by ring]; field_simp
  · show _ = den a b x (2 * (i + 1) + 1) / _
    rw [show 2 * (i + 1) + 1 = 2 * i + 3 by ring]; field_simp
  · show _ = num a b x (2 * (i + 1) + 2) / _
    rw [show 2 * (i + 1) + 2 = 2 * i + 4 by ring]; field_simp
  · show (1 : ℝ) = den a b x (2 * (i + 1) + 2) / _
    rw [show 2 * (i + 1) + 2 = 2 * i + 4 by ring, div_self p4]
  · unfold betaPrev
    rw [if_neg (Nat.succ_ne_zero i), conv_eq, show 2 * (i + 1) + 2 = 2 * i + 4 by ring]; field_simp
  · rw [conv_eq]; field_simp

theorem step_ok (h : Dom a b x) {i : ℕ} {s : CFState} (hs : Inv a b x i s) :
    ∃ t, cfStep a b x i s = .ok t ∧ Inv a b x (i + 1) t ∧ t.az = betaConv a b x (2 * i + 4) := by
  rcases step_gen h.a_pos hs with ⟨h1, -⟩ | h1
  · exact absurd h1 (den_pos h _).ne'
  · exact h1

/-- Whatever the loop returns is a convergent, without any condition on `b` and `x`. -/
theorem loop_gen (ha : 0 < a) (eps : ℝ) (n : ℕ) : ∀ (i : ℕ) (s : CFState), Inv a b x i s → ∀ v,
    cfLoop a b x eps n i s = .ok v →
    ∃ j, j < n ∧ BetaStop a b x eps (i + j) ∧ (∀ k < j, ¬ BetaStop a b x eps (i + k)) ∧
      v = betaConv a b x (2 * (i + j) + 4) := by
  induction n with
  | zero => intro i s _ v hv; cases hv
  | succ n ih =>
    intro i s hs v hv
    rcases step_gen ha hs with ⟨-, h1⟩ | ⟨t, h1, h2, h3⟩
    · simp only [cfLoop, h1, bind, Except.bind] at hv; cases hv
    have hstop : BetaStop a b x eps i ↔ |t.az - s.az| < eps * |t.az| := by
      unfold BetaStop; rw [h3, hs.prev]
    simp only [cfLoop, h1, bind, Except.bind] at hv
    by_cases hc : BetaStop a b x eps i
    · rw [if_pos (hstop.1 hc)] at hv
      cases hv
      exact ⟨0, Nat.succ_pos n, hc, by simp, h3⟩
    · rw [if_neg (fun h => hc (hstop.2 h))] at hv
      obtain ⟨j, g1, g2, g3, g4⟩ := ih (i + 1) t h2 v hv
      refine ⟨j + 1, by omega, by rw [show i + (j + 1) = i + 1 + j by ring]; exact g2, ?_, ?_⟩
      · intro k hk
        rcases k with _ | k
        · exact hc
        · rw [show i + (k + 1) = i + 1 + k by ring]; exact g3 k (by omega)
      · rw [g4, show i + (j + 1) = i + 1 + j by ring]

/-- The loop: the first iteration that meets the criterion, or the error. -/
theorem loop_spec (h : Dom a b x) (eps : ℝ) (n : ℕ) : ∀ (i : ℕ) (s : CFState), Inv a b x i s →
    (∃ j, j < n ∧ BetaStop a b x eps (i + j) ∧ (∀ k < j, ¬ BetaStop a b x eps (i + k)) ∧
      cfLoop a b x eps n i s = .ok (betaConv a b x (2 * (i + j) + 4))) ∨
    ((∀ j < n, ¬ BetaStop a b x eps (i + j)) ∧ cfLoop a b x eps n i s = .error .value) := by
  induction n with
  | zero => intro i s _; right; exact ⟨by simp, rfl⟩
  | succ n ih =>
    intro i s hs
    obtain ⟨t, h1, h2, h3⟩ := step_ok h hs
    have hstop : BetaStop a b x eps i ↔ |t.az - s.az| < eps * |t.az| := by
      unfold BetaStop; rw [h3, hs.prev]
    by_cases hc : BetaStop a b x eps i
    · left
      refine ⟨0, Nat.succ_pos n, hc, by simp, ?_⟩
      simp only [cfLoop, h1, bind, Except.bind]
      rw [if_pos (hstop.1 hc), h3]; rfl
    · have e : cfLoop a b x eps (n + 1) i s = cfLoop a b x eps n (i + 1) t := by
        simp only [cfLoop, h1, bind, Except.bind]
        rw [if_neg (fun h => hc (hstop.2 h))]
      rcases ih (i + 1) t h2 with ⟨j, g1, g2, g3, g4⟩ | ⟨g1, g2⟩
      · left
        refine ⟨j + 1, by omega, by rw [show i + (j + 1) = i + 1 + j by ring]; exact g2, ?_, ?_⟩
        · intro k hk
          rcases k with _ | k
          · exact hc
          · rw [show i + (k + 1) = i + 1 + k by ring]; exact g3 k (by omega)
        · rw [e, g4, show i + (j + 1) = i + 1 + j by ring]
      · right
        refine ⟨fun k hk => ?_, by rw [e, g2]⟩
        rcases k with _ | k
        · exact hc
        · rw [show i + (k + 1) = i + 1 + k by ring]; exact g1 k (by omega)

theorem contfract_cases (h : Dom a b x) (itmax : ℤ) (eps : ℝ) :
    (∃ i : ℕ, (i : ℤ) ≤ itmax ∧ BetaStop a b x eps i ∧ (∀ k < i, ¬ BetaStop a b x eps k) ∧
      contfractbeta a b x itmax eps = .ok (betaConv a b x (2 * i + 4))) ∨
    ((∀ i : ℕ, (i : ℤ) ≤ itmax → ¬ BetaStop a b x eps i) ∧ contfractbeta a b x itmax eps = .error .value) := by
  have h0 : a + 1 ≠ 0 := by have := h.a_pos; linarith
  unfold contfractbeta
  rw [if_neg h0]
  rcases loop_spec h eps (itmax + 1).toNat 0 _ (inv_start h.a_pos) with ⟨j, g1, g2, g3, g4⟩ | ⟨g1, g2⟩
  · left
    simp only [zero_add] at g2 g3 g4
    exact ⟨j, by omega, g2, g3, g4⟩
  · right
    simp only [zero_add] at g1
    exact ⟨fun i hi => g1 i (by omega), g2⟩

/-- Some iteration meets the criterion. -/
theorem exists_stop (h : Dom a b x) {eps : ℝ} (he : 0 < eps) : ∃ i, BetaStop a b x eps i := by
  have hF := gauss_pos h.a_pos h.b_pos h.x_pos.le h.x_lt_one 1
  have t1 := conv_even_tendsto h
  have t2 := (Filter.tendsto_add_atTop_iff_nat (f := fun m : ℕ => betaConv a b x (2 * m + 2)) 1).2 t1
  have t3 : Filter.Tendsto (fun m : ℕ => |betaConv a b x (2 * (m + 1) + 2) - betaConv a b x (2 * m + 2)| -
      eps * |betaConv a b x (2 * (m + 1) + 2)|) Filter.atTop (nhds (|gaussFn a b x 1 - gaussFn a b x 1| - eps * |gaussFn a b x 1|)) :=
    ((t2.sub t1).abs).sub ((t2.abs).const_mul eps)
  have neg : |gaussFn a b x 1 - gaussFn a b x 1| - eps * |gaussFn a b x 1| < 0 := by
    rw [sub_self, abs_zero, abs_of_pos hF]; nlinarith
  obtain ⟨m, hm, hm1⟩ := ((t3.eventually (gt_mem_nhds neg)).and (Filter.eventually_ge_atTop 1)).exists
  refine ⟨m, ?_⟩
  unfold BetaStop betaPrev
  rw [if_neg (by omega)]
  have : 2 * (m + 1) + 2 = 2 * m + 4 := by ring
  rw [this] at hm
  linarith

/-- Criterion at the first iteration, where the comparison is with 1. -/
theorem first_step (h : Dom a b x) {eps : ℝ} (he : eps ≤ 1 / 8) (hs : BetaStop a b x eps 0) :
    |betaConv a b x 4 - betaConv a b x 2| ≤ 3 * eps * betaConv a b x 4 := by
  have ha := h.a_pos; have hb := h.b_pos; have hx := h.x_pos; have hx1 := h.x_lt_one
  have hab : 0 < a + b + 2 := by linarith
  obtain ⟨d1, hd1⟩ : ∃ d, d = betaCoef a b x 1 := ⟨_, rfl⟩
  obtain ⟨d2, hd2⟩ : ∃ d, d = betaCoef a b x 2 := ⟨_, rfl⟩
  obtain ⟨d3, hd3⟩ : ∃ d, d = betaCoef a b x 3 := ⟨_, rfl⟩
  have c1 : d1 = -((a + b) * x / (a + 1)) := by
    rw [hd1]; simp only [betaCoef]; norm_num; field_simp
  have c2 : d2 = (b - 1) * x / ((a + 1) * (a + 2)) := by
    rw [hd2]; simp only [betaCoef]; norm_num; ring_nf
  have c3 : d3 = -((a + 1) * (a + b + 1) * x / ((a + 2) * (a + 3))) := by
    rw [hd3]; simp only [betaCoef]; norm_num; ring_nf
  have n2 : num a b x 2 = 1 := num_two
  have e2 : den a b x 2 = 1 + d1 := by have := den_rec (a := a) (b := b) (x := x) 0; simpa [den_one, den_zero, ← hd1] using this
  have n3 : num a b x 3 = 1 + d2 := by have := num_rec (a := a) (b := b) (x := x) 1; simpa [n2, num_one, ← hd2] using this
  have e3 : den a b x 3 = 1 + d1 + d2 := by have := den_rec (a := a) (b := b) (x := x) 1; simpa [e2, den_one, ← hd2] using this
  have n4 : num a b x 4 = 1 + d2 + d3 := by have := num_rec (a := a) (b := b) (x := x) 2; simpa [n2, n3, ← hd3] using this
  have e4 : den a b x 4 = 1 + d1 + d2 + d3 * (1 + d1) := by
    have := den_rec (a := a) (b := b) (x := x) 2; simpa [e2, e3, ← hd3] using this
  have p2 := den_pos h 2; have p4 := den_pos h 4; have q4 := num_pos h 3
  have k4 := conv_pos h 3
  norm_num at q4 k4
  have hd1' : d1 ≤ 0 := by rw [c1, neg_nonpos]; positivity
  have hxab := h.mul_lt
  have b3 : (3 * a + 5) / ((a + 2) * (a + 3)) ≤ 1 + d3 := by
    rw [c3, div_le_iff₀ (by positivity), add_mul, neg_mul, div_mul_cancel₀ _ (by positivity)]
    have : (a + 1) * ((a + b + 1) * x) ≤ (a + 1) * (a + 1) :=
      mul_le_mul_of_nonneg_left (by nlinarith) (by linarith)
    nlinarith
  have b2 : d2 ≤ 1 / (a + 2) := by
    rw [c2, div_le_div_iff₀ (by positivity) (by positivity)]
    have : (b - 1) * x * (a + 2) ≤ (a + 1) * (a + 2) :=
      mul_le_mul_of_nonneg_right (by nlinarith) (by linarith)
    linarith
  have b3p : 0 < 1 + d3 := lt_of_lt_of_le (by positivity) b3
  have ratio : d2 ≤ 3 / 5 * (1 + d3) := by
    have : 1 / (a + 2) ≤ 3 / 5 * ((3 * a + 5) / ((a + 2) * (a + 3))) := by
      rw [← mul_div_assoc, div_le_div_iff₀ (by positivity) (by positivity)]
      nlinarith [mul_pos ha ha]
    linarith
  have hs' : -d1 * (1 + d3) < eps * (1 + d2 + d3) := by
    unfold BetaStop betaPrev at hs
    simp only [mul_zero, zero_add, if_true] at hs
    rw [abs_of_pos k4] at hs
    have h5 := lt_of_le_of_lt (le_abs_self _) hs
    rw [conv_eq, n4, e4] at h5
    rw [e4] at p4
    rw [div_sub_one p4.ne', ← mul_div_assoc, div_lt_div_iff_of_pos_right p4] at h5
    linarith
  have eps_pos : 0 < eps := by
    rw [n4] at q4
    by_contra hne
    have : eps * (1 + d2 + d3) ≤ 0 := mul_nonpos_of_nonpos_of_nonneg (not_lt.1 hne) q4.le
    have h6 : 0 ≤ -d1 * (1 + d3) := mul_nonneg (by linarith) b3p.le
    linarith
  have hdel : -d1 ≤ 8 / 5 * eps := by
    have : eps * (1 + d2 + d3) ≤ 8 / 5 * eps * (1 + d3) := by nlinarith
    exact le_of_mul_le_mul_right (by linarith) b3p
  have k4ge : 1 ≤ betaConv a b x 4 := by
    rw [conv_eq, n4, e4, le_div_iff₀ (by rw [e4] at p4; exact p4)]
    nlinarith
  have k2 : betaConv a b x 2 = 1 / (1 + d1) := by rw [conv_eq, n2, e2]
  have k2ge : 1 ≤ betaConv a b x 2 := by
    rw [k2, le_div_iff₀ (by rw [e2] at p2; exact p2)]; linarith
  have k2le : betaConv a b x 2 - 1 ≤ 2 * eps := by
    rw [e2] at p2
    rw [k2, div_sub_one p2.ne', div_le_iff₀ p2]
    nlinarith
  have k4le : betaConv a b x 4 - 1 ≤ eps * betaConv a b x 4 := by
    unfold BetaStop betaPrev at hs
    simp only [mul_zero, zero_add, if_true] at hs
    rw [abs_of_pos k4] at hs
    exact (lt_of_le_of_lt (le_abs_self _) hs).le
  have h7 : 0 ≤ eps * (betaConv a b x 4 - 1) := mul_nonneg eps_pos.le (by linarith)
  generalize betaConv a b x 4 = K4 at *
  generalize betaConv a b x 2 = K2 at *
  rw [abs_le]
  constructor <;> linarith

/-- The criterion bounds the relative error. -/
theorem stop_acc (h : Dom a b x) {eps : ℝ} (he : eps ≤ 1 / 8) {i : ℕ} (hs : BetaStop a b x eps i) :
    |betaConv a b x (2 * i + 4) - gaussFn a b x 1| ≤ 3 * accC a b x * eps * betaConv a b x (2 * i + 4) := by
  have hC := accC_pos h
  have k := conv_pos h (2 * i + 3)
  have hp : 0 ≤ eps := by
    by_contra hn
    have h0 : |betaConv a b x (2 * i + 4) - betaPrev a b x i| < eps * |betaConv a b x (2 * i + 4)| := hs
    have h1 := lt_of_le_of_lt (abs_nonneg _) h0
    rw [abs_of_pos k] at h1
    nlinarith
  have h1 : |betaConv a b x (2 * i + 4) - betaConv a b x (2 * i + 2)| ≤ 3 * eps * betaConv a b x (2 * i + 4) := by
    rcases Nat.eq_zero_or_pos i with rfl | hi
    · exact first_step h he hs
    · unfold BetaStop betaPrev at hs
      rw [if_neg (by omega), abs_of_pos k] at hs
      have : 0 ≤ eps * betaConv a b x (2 * i + 4) := mul_nonneg hp k.le
      linarith
  have h2 := err_le h i
  unfold err at h2
  calc _ ≤ _ := h2
    _ ≤ accC a b x * (3 * eps * betaConv a b x (2 * i + 4)) := mul_le_mul_of_nonneg_left h1 (by linarith)
    _ = _ := by ring

end Phik.BetaCF
