import Verif.Lemmas.BetaHyp

/-! # Convergence and accuracy of the continued fraction of the incomplete beta function -/

namespace Phik.BetaCF

open Phik.Spec Filter Topology

variable {a b x : ℝ}

/-- Factor between the errors of successive convergents. -/
noncomputable def fac (a b x : ℝ) (n : ℕ) : ℝ :=
  (1 - gaussFn a b x n / gaussFn a b x (n + 1)) * (den a b x n / den a b x (n + 1))

theorem err_fac (h : Dom a b x) (n : ℕ) : err a b x (n + 1) = fac a b x n * err a b x n := by
  have h1 := err_succ h n
  have d1 := (den_pos h (n + 1)).ne'
  have g1 := (gauss_pos h.a_pos h.b_pos h.x_pos.le h.x_lt_one (n + 1)).ne'
  unfold fac
  field_simp
  linarith

theorem fac_even (h : Dom a b x) (m : ℕ) :
    0 ≤ fac a b x (2 * (m + 1)) ∧ fac a b x (2 * (m + 1)) ≤ 1 := by
  have ha := h.a_pos; have hb := h.b_pos; have hx := h.x_pos; have hx1 := h.x_lt_one
  have hm : (0 : ℝ) ≤ m := Nat.cast_nonneg m
  have g0 := gauss_pos ha hb hx.le hx1 (2 * (m + 1))
  have g1 := gauss_pos ha hb hx.le hx1 (2 * (m + 1) + 1)
  have g2 := gauss_pos ha hb hx.le hx1 (2 * (m + 1) + 2)
  have r := gauss_rec ha hb hx.le hx1 (2 * (m + 1))
  have d0 := den_pos h (2 * (m + 1))
  have d1 := den_pos h (2 * (m + 1) + 1)
  have hneg : betaCoef a b x (2 * (m + 1) + 1) ≤ 0 := by
    rw [coef_odd]
    push_cast
    have : 0 ≤ (a + (m + 1)) * (a + b + (m + 1)) * x / ((a + 2 * (m + 1)) * (a + 2 * (m + 1) + 1)) := by positivity
    linarith
  have hle : gaussFn a b x (2 * (m + 1)) ≤ gaussFn a b x (2 * (m + 1) + 1) := by
    nlinarith
  have hr : ((m : ℝ) + 1) / (a + 2 * (m + 1)) * gaussFn a b x (2 * (m + 1) + 1) ≤ gaussFn a b x (2 * (m + 1)) := by
    rw [gauss_odd, gauss_even]
    push_cast
    exact hyp_ratio (by positivity) (by positivity) (by positivity) (by linarith) hx.le hx1
  have hd := (den_bounds h m).2.2.2
  rw [show 2 * m + 2 = 2 * (m + 1) by ring, show 2 * m + 3 = 2 * (m + 1) + 1 by ring] at hd
  have h1 : 0 ≤ 1 - gaussFn a b x (2 * (m + 1)) / gaussFn a b x (2 * (m + 1) + 1) := by
    rw [sub_nonneg, div_le_one g1]; exact hle
  have h2 : 1 - gaussFn a b x (2 * (m + 1)) / gaussFn a b x (2 * (m + 1) + 1) ≤
      (a + (m + 1)) / (a + 2 * (m + 1)) := by
    have : ((m : ℝ) + 1) / (a + 2 * (m + 1)) ≤ gaussFn a b x (2 * (m + 1)) / gaussFn a b x (2 * (m + 1) + 1) := by
      rw [le_div_iff₀ g1]; exact hr
    have e : (a + ((m : ℝ) + 1)) / (a + 2 * (m + 1)) = 1 - ((m : ℝ) + 1) / (a + 2 * (m + 1)) := by
      have : a + 2 * ((m : ℝ) + 1) ≠ 0 := by positivity
      field_simp; ring
    linarith
  have ht : 0 < a + 2 * ((m : ℝ) + 1) - x * (m + 1) := by nlinarith
  have h3 : den a b x (2 * (m + 1)) / den a b x (2 * (m + 1) + 1) ≤
      (a + 2 * (m + 1)) / (a + 2 * (m + 1) - x * (m + 1)) := by
    rw [div_le_div_iff₀ d1 ht]
    rw [div_mul_eq_mul_div, div_le_iff₀ (by positivity)] at hd
    linarith
  refine ⟨mul_nonneg h1 (div_nonneg d0.le d1.le), ?_⟩
  calc fac a b x (2 * (m + 1)) ≤ (a + (m + 1)) / (a + 2 * (m + 1)) *
        ((a + 2 * (m + 1)) / (a + 2 * (m + 1) - x * (m + 1))) :=
        mul_le_mul h2 h3 (div_nonneg d0.le d1.le) (by positivity)
    _ = (a + (m + 1)) / (a + 2 * (m + 1) - x * (m + 1)) := by
        have : a + 2 * ((m : ℝ) + 1) ≠ 0 := by positivity
        field_simp
    _ ≤ 1 := by rw [div_le_one ht]; nlinarith

theorem fac_odd (h : Dom a b x) (m : ℕ) :
    (m + 1 ≤ b → fac a b x (2 * m + 1) ≤ 0) ∧
    (b ≤ m + 1 → 0 ≤ fac a b x (2 * m + 1) ∧
      fac a b x (2 * m + 1) ≤ (m + 1 - b) / ((m + 1 - b) + (1 - x) * (a + b + m))) := by
  have ha := h.a_pos; have hb := h.b_pos; have hx := h.x_pos; have hx1 := h.x_lt_one
  have hm : (0 : ℝ) ≤ m := Nat.cast_nonneg m
  have g0 := gauss_pos ha hb hx.le hx1 (2 * m + 1)
  have g1 := gauss_pos ha hb hx.le hx1 (2 * m + 2)
  have g2 := gauss_pos ha hb hx.le hx1 (2 * m + 3)
  have r : gaussFn a b x (2 * m + 1) - gaussFn a b x (2 * m + 2) =
      betaCoef a b x (2 * m + 2) * gaussFn a b x (2 * m + 3) := gauss_rec ha hb hx.le hx1 (2 * m + 1)
  have d0 := den_pos h (2 * m + 1)
  have d1 := den_pos h (2 * m + 2)
  have c : betaCoef a b x (2 * m + 2) = (m + 1) * (b - (m + 1)) * x / ((a + 2 * m + 1) * (a + 2 * (m + 1))) := by
    have := coef_even (a := a) (b := b) (x := x) (m + 1)
    rw [show 2 * (m + 1) = 2 * m + 2 by ring] at this
    rw [this]; push_cast; ring_nf
  have f : fac a b x (2 * m + 1) = (1 - gaussFn a b x (2 * m + 1) / gaussFn a b x (2 * m + 2)) *
      (den a b x (2 * m + 1) / den a b x (2 * m + 2)) := rfl
  constructor
  · intro hmb
    have hpos : 0 ≤ betaCoef a b x (2 * m + 2) := by
      rw [c]; have : 0 ≤ b - (m + 1) := by linarith
      positivity
    have : gaussFn a b x (2 * m + 2) ≤ gaussFn a b x (2 * m + 1) := by nlinarith
    rw [f]
    refine mul_nonpos_of_nonpos_of_nonneg ?_ (div_nonneg d0.le d1.le)
    rw [sub_nonpos, one_le_div g1]; exact this
  · intro hmb
    have hneg : betaCoef a b x (2 * m + 2) ≤ 0 := by
      rw [c]; have : b - (m + 1) ≤ 0 := by linarith
      refine div_nonpos_of_nonpos_of_nonneg ?_ (by positivity)
      exact mul_nonpos_of_nonpos_of_nonneg (mul_nonpos_of_nonneg_of_nonpos (by positivity) this) hx.le
    have hle : gaussFn a b x (2 * m + 1) ≤ gaussFn a b x (2 * m + 2) := by nlinarith
    have hr : (a + b + m) / (a + 2 * m + 1) * gaussFn a b x (2 * m + 2) ≤ gaussFn a b x (2 * m + 1) := by
      rw [gauss_odd, show 2 * m + 2 = 2 * (m + 1) by ring, gauss_even]
      push_cast
      have := hyp_ratio (α := m + 1) (β := a + b + m) (γ := a + 2 * m + 1) (x := x) (by positivity)
        (by positivity) (by positivity) (by linarith) hx.le hx1
      rw [hyp_symm (m + 1) (a + b + m), hyp_symm (m + 1) (a + b + m + 1)] at this
      rw [show a + b + ((m : ℝ) + 1) = a + b + m + 1 by ring,
        show a + 2 * ((m : ℝ) + 1) = a + 2 * m + 1 + 1 by ring]
      exact this
    have hs := h.s_pos m
    have hd := (den_bounds h m).2.2.1
    have hd1 : 0 < a + 2 * m + 1 := by positivity
    have h1 : 0 ≤ 1 - gaussFn a b x (2 * m + 1) / gaussFn a b x (2 * m + 2) := by
      rw [sub_nonneg, div_le_one g1]; exact hle
    have h2 : 1 - gaussFn a b x (2 * m + 1) / gaussFn a b x (2 * m + 2) ≤ (m + 1 - b) / (a + 2 * m + 1) := by
      have : (a + b + m) / (a + 2 * m + 1) ≤ gaussFn a b x (2 * m + 1) / gaussFn a b x (2 * m + 2) := by
        rw [le_div_iff₀ g1]; exact hr
      have e : ((m : ℝ) + 1 - b) / (a + 2 * m + 1) = 1 - (a + b + m) / (a + 2 * m + 1) := by
        field_simp; ring
      linarith
    have h3 : den a b x (2 * m + 1) / den a b x (2 * m + 2) ≤ (a + 2 * m + 1) / (a + 2 * m + 1 - x * (a + b + m)) := by
      rw [div_le_div_iff₀ d1 hs]
      rw [div_mul_eq_mul_div, div_le_iff₀ hd1] at hd
      linarith
    rw [f]
    refine ⟨mul_nonneg h1 (div_nonneg d0.le d1.le), ?_⟩
    calc _ ≤ (m + 1 - b) / (a + 2 * m + 1) * ((a + 2 * m + 1) / (a + 2 * m + 1 - x * (a + b + m))) :=
          mul_le_mul h2 h3 (div_nonneg d0.le d1.le) (div_nonneg (by linarith) hd1.le)
      _ = (m + 1 - b) / (a + 2 * m + 1 - x * (a + b + m)) := by
          field_simp
      _ = _ := by congr 1; ring

/-- The constant of the error estimate. -/
noncomputable def accC (a b x : ℝ) : ℝ := max 1 (1 / (a + b)) / (1 - x)

theorem accC_pos (h : Dom a b x) : 1 ≤ accC a b x := by
  have hx := h.x_pos; have hx1 := h.x_lt_one
  unfold accC
  rw [le_div_iff₀ (by linarith)]
  exact le_trans (by linarith) (le_max_left _ _)

theorem two_step (h : Dom a b x) (m : ℕ) :
    err a b x (2 * m + 4) = fac a b x (2 * m + 3) * fac a b x (2 * m + 2) * err a b x (2 * m + 2) := by
  rw [show 2 * m + 4 = 2 * m + 3 + 1 from rfl, err_fac h, show 2 * m + 3 = 2 * m + 2 + 1 from rfl, err_fac h,
    mul_assoc]

theorem two_fac (h : Dom a b x) (m : ℕ) :
    (m + 2 ≤ b ∧ fac a b x (2 * m + 3) * fac a b x (2 * m + 2) ≤ 0) ∨
    (b ≤ m + 2 ∧ 0 ≤ fac a b x (2 * m + 3) * fac a b x (2 * m + 2) ∧
      fac a b x (2 * m + 3) * fac a b x (2 * m + 2) * (1 + accC a b x) ≤ accC a b x) := by
  have ha := h.a_pos; have hb := h.b_pos; have hx := h.x_pos; have hx1 := h.x_lt_one
  have hm : (0 : ℝ) ≤ m := Nat.cast_nonneg m
  obtain ⟨e1, e2⟩ := fac_even h m
  rw [show 2 * (m + 1) = 2 * m + 2 by ring] at e1 e2
  obtain ⟨o1, o2⟩ := fac_odd h (m + 1)
  rw [show 2 * (m + 1) + 1 = 2 * m + 3 by ring] at o1 o2
  push_cast at o1 o2
  rcases le_total ((m : ℝ) + 2) b with hmb | hmb
  · left
    exact ⟨hmb, mul_nonpos_of_nonpos_of_nonneg (o1 (by linarith)) e1⟩
  · right
    obtain ⟨o3, o4⟩ := o2 (by linarith)
    refine ⟨hmb, mul_nonneg o3 e1, ?_⟩
    have hle : fac a b x (2 * m + 3) * fac a b x (2 * m + 2) ≤ fac a b x (2 * m + 3) := by
      simpa using mul_le_mul_of_nonneg_left e2 o3
    have hC := accC_pos h
    have h1x : 0 < 1 - x := by linarith
    have hu : 0 ≤ (m : ℝ) + 1 + 1 - b := by linarith
    have hv : 0 < (1 - x) * (a + b + (m + 1)) := by positivity
    have h5 : (m : ℝ) + 1 + 1 - b ≤ accC a b x * ((1 - x) * (a + b + (m + 1))) := by
      unfold accC
      rw [div_mul_eq_mul_div, le_div_iff₀ h1x]
      have : (m : ℝ) + 1 + 1 - b ≤ max 1 (1 / (a + b)) * (a + b + (m + 1)) := by
        rcases le_total 1 (a + b) with h1 | h1
        · have := le_max_left (1 : ℝ) (1 / (a + b))
          nlinarith
        · have h6 := le_max_right (1 : ℝ) (1 / (a + b))
          have h7 : 1 / (a + b) * (a + b + (m + 1)) ≤ max 1 (1 / (a + b)) * (a + b + (m + 1)) :=
            mul_le_mul_of_nonneg_right h6 (by positivity)
          have h8 : (m : ℝ) + 1 + 1 - b ≤ 1 / (a + b) * (a + b + (m + 1)) := by
            rw [one_div, inv_mul_eq_div, le_div_iff₀ (by linarith)]
            nlinarith
          linarith
      nlinarith
    have h6 : fac a b x (2 * m + 3) * (1 + accC a b x) ≤ accC a b x := by
      have h7 : ((m : ℝ) + 1 + 1 - b) / ((m + 1 + 1 - b) + (1 - x) * (a + b + (m + 1))) * (1 + accC a b x) ≤ accC a b x := by
        rw [div_mul_eq_mul_div, div_le_iff₀ (by linarith)]
        nlinarith
      exact le_trans (mul_le_mul_of_nonneg_right o4 (by linarith)) h7
    exact le_trans (mul_le_mul_of_nonneg_right hle (by linarith)) h6

/-- The difference of successive even convergents bounds the error. -/
theorem err_le (h : Dom a b x) (m : ℕ) :
    |err a b x (2 * m + 4)| ≤ accC a b x * |betaConv a b x (2 * m + 4) - betaConv a b x (2 * m + 2)| := by
  have hC := accC_pos h
  have e : betaConv a b x (2 * m + 4) - betaConv a b x (2 * m + 2) = err a b x (2 * m + 4) - err a b x (2 * m + 2) := by
    unfold err; ring
  rw [e, two_step h]
  have htf := two_fac h m
  generalize fac a b x (2 * m + 3) * fac a b x (2 * m + 2) = C at htf ⊢
  generalize err a b x (2 * m + 2) = r
  have e2 : C * r - r = (C - 1) * r := by ring
  rw [e2, abs_mul, abs_mul, ← mul_assoc]
  refine mul_le_mul_of_nonneg_right ?_ (abs_nonneg r)
  rcases htf with ⟨-, h1⟩ | ⟨-, h1, h2⟩
  · rw [abs_of_nonpos h1, abs_of_nonpos (by linarith)]
    nlinarith
  · have h3 : C < 1 := by nlinarith
    rw [abs_of_nonneg h1, abs_of_nonpos (by linarith)]
    nlinarith

/-- The convergents with even index converge geometrically. -/
theorem err_even_tendsto (h : Dom a b x) : Tendsto (fun m : ℕ => err a b x (2 * m + 2)) atTop (𝓝 0) := by
  have hC := accC_pos h
  set q := accC a b x / (1 + accC a b x) with hq
  have hq0 : 0 ≤ q := by positivity
  have hq1 : q < 1 := by rw [hq, div_lt_one (by linarith)]; linarith
  set N := ⌈b⌉₊
  have hstep : ∀ m, N ≤ m → |err a b x (2 * (m + 1) + 2)| ≤ q * |err a b x (2 * m + 2)| := by
    intro m hm
    rw [show 2 * (m + 1) + 2 = 2 * m + 4 by ring, two_step h, abs_mul]
    refine mul_le_mul_of_nonneg_right ?_ (abs_nonneg _)
    have hbm : b ≤ m := le_trans (Nat.le_ceil b) (by exact_mod_cast hm)
    rcases two_fac h m with ⟨h0, -⟩ | ⟨-, h1, h2⟩
    · linarith
    · rw [abs_of_nonneg h1, hq, le_div_iff₀ (by linarith)]; exact h2
  have hgeo : ∀ k, |err a b x (2 * (k + N) + 2)| ≤ q ^ k * |err a b x (2 * N + 2)| := by
    intro k
    induction k with
    | zero => simp
    | succ k ih =>
      rw [show k + 1 + N = (k + N) + 1 by ring, pow_succ']
      refine le_trans (hstep _ (by omega)) ?_
      rw [mul_assoc]
      exact mul_le_mul_of_nonneg_left ih hq0
  have h1 : Tendsto (fun k => q ^ k * |err a b x (2 * N + 2)|) atTop (𝓝 0) := by
    simpa using (tendsto_pow_atTop_nhds_zero_of_lt_one hq0 hq1).mul_const (|err a b x (2 * N + 2)|)
  have h2 : Tendsto (fun k => err a b x (2 * (k + N) + 2)) atTop (𝓝 0) :=
    squeeze_zero_norm (fun k => by rw [Real.norm_eq_abs]; exact hgeo k) h1
  exact (tendsto_add_atTop_iff_nat (f := fun m => err a b x (2 * m + 2)) N).1 h2

theorem conv_even_tendsto (h : Dom a b x) :
    Tendsto (fun m : ℕ => betaConv a b x (2 * m + 2)) atTop (𝓝 (gaussFn a b x 1)) := by
  have := (err_even_tendsto h).add_const (gaussFn a b x 1)
  simpa [err] using this

/-- All convergents converge. -/
theorem conv_tendsto (h : Dom a b x) : Tendsto (betaConv a b x) atTop (𝓝 (gaussFn a b x 1)) := by
  have h1 := err_even_tendsto h
  have h2 : Tendsto (fun m : ℕ => err a b x (2 * m + 3)) atTop (𝓝 0) := by
    refine squeeze_zero_norm (fun m => ?_) (tendsto_zero_iff_norm_tendsto_zero.1 h1)
    rw [show 2 * m + 3 = 2 * m + 2 + 1 from rfl, err_fac h, norm_mul]
    obtain ⟨e1, e2⟩ := fac_even h m
    rw [show 2 * (m + 1) = 2 * m + 2 by ring] at e1 e2
    rw [Real.norm_of_nonneg e1]
    exact mul_le_of_le_one_left (norm_nonneg _) e2
  have h3 : Tendsto (err a b x) atTop (𝓝 0) := by
    rw [Metric.tendsto_atTop] at h1 h2 ⊢
    intro ε hε
    obtain ⟨N1, hN1⟩ := h1 ε hε
    obtain ⟨N2, hN2⟩ := h2 ε hε
    refine ⟨2 * (N1 + N2) + 3, fun n hn => ?_⟩
    obtain ⟨m, rfl | rfl⟩ : ∃ m, n = 2 * m + 2 ∨ n = 2 * m + 3 := ⟨(n - 2) / 2, by omega⟩
    · exact hN1 m (by omega)
    · exact hN2 m (by omega)
  have := h3.add_const (gaussFn a b x 1)
  simpa [err] using this

end Phik.BetaCF
