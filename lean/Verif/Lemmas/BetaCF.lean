import Verif.Spec.Betainc
import Mathlib.Algebra.ContinuedFractions.ContinuantsRecurrence
import Mathlib.Algebra.ContinuedFractions.Translations
import Mathlib.Tactic.Linarith
import Mathlib.Tactic.FieldSimp
import Mathlib.Tactic.Positivity
import Mathlib.Tactic.NormNum

/-! # Numerators and denominators of the continued fraction of the incomplete beta function -/

namespace Phik.BetaCF

open Phik.Spec

/-- Numerators and denominators of the convergents. -/
noncomputable def num (a b x : ℝ) (n : ℕ) : ℝ := (betaCF a b x).nums n
noncomputable def den (a b x : ℝ) (n : ℕ) : ℝ := (betaCF a b x).dens n

variable {a b x : ℝ}

theorem num_zero : num a b x 0 = 0 := by simp [num, betaCF]
theorem den_zero : den a b x 0 = 1 := by simp [den]
theorem num_one : num a b x 1 = 1 := by
  have : (betaCF a b x).s.get? 0 = some ⟨1, 1⟩ := rfl
  have h := GenContFract.first_num_eq this
  simpa [num, betaCF] using h
theorem den_one : den a b x 1 = 1 := by
  have : (betaCF a b x).s.get? 0 = some ⟨1, 1⟩ := rfl
  have h := GenContFract.first_den_eq this
  simpa [den] using h

theorem get_succ (n : ℕ) : (betaCF a b x).s.get? (n + 1) = some ⟨betaCoef a b x (n + 1), 1⟩ := rfl

theorem num_rec (n : ℕ) : num a b x (n + 2) = num a b x (n + 1) + betaCoef a b x (n + 1) * num a b x n := by
  have := GenContFract.nums_recurrence (get_succ (a := a) (b := b) (x := x) n) rfl rfl
  simpa [num] using this

theorem den_rec (n : ℕ) : den a b x (n + 2) = den a b x (n + 1) + betaCoef a b x (n + 1) * den a b x n := by
  have := GenContFract.dens_recurrence (get_succ (a := a) (b := b) (x := x) n) rfl rfl
  simpa [den] using this

theorem conv_eq (n : ℕ) : betaConv a b x n = num a b x n / den a b x n := rfl

theorem coef_odd (m : ℕ) :
    betaCoef a b x (2 * m + 1) = -((a + m) * (a + b + m) * x / ((a + 2 * m) * (a + 2 * m + 1))) := by
  have h1 : (2 * m + 1) / 2 = m := by omega
  have h2 : (2 * m + 1) % 2 = 1 := by omega
  simp [betaCoef, h1, h2]

theorem coef_even (m : ℕ) :
    betaCoef a b x (2 * m) = m * (b - m) * x / ((a + 2 * m - 1) * (a + 2 * m)) := by
  have h1 : (2 * m) / 2 = m := by omega
  have h2 : (2 * m) % 2 = 0 := by omega
  simp [betaCoef, h1, h2]

/-- The domain in which the continued fraction is evaluated. -/
structure Dom (a b x : ℝ) : Prop where
  a_pos : 0 < a
  b_pos : 0 < b
  x_pos : 0 < x
  x_le : x ≤ (a + 1) / (a + b + 2)

theorem Dom.x_lt_one (h : Dom a b x) : x < 1 := by
  have := h.a_pos; have := h.b_pos
  exact lt_of_le_of_lt h.x_le (by rw [div_lt_one (by linarith)]; linarith)

theorem Dom.mul_lt (h : Dom a b x) : x * (a + b + 2) ≤ a + 1 := by
  have := h.a_pos; have := h.b_pos
  exact (le_div_iff₀ (by linarith)).1 h.x_le

/-- `s m > 0`. -/
theorem Dom.s_pos (h : Dom a b x) (m : ℕ) : 0 < a + 2 * m + 1 - x * (a + b + m) := by
  have ha := h.a_pos; have hb := h.b_pos; have hx := h.x_pos; have h1 := h.x_lt_one
  have h2 := h.mul_lt
  have hm : (0 : ℝ) ≤ m := Nat.cast_nonneg m
  nlinarith [mul_nonneg hm (sub_nonneg.2 h1.le)]

/-- A solution of the recurrence whose ratios satisfy the lower bounds
`1 - x m / (a + 2 m)` and `1 - x (a + b + m) / (a + 2 m + 1)`. -/
theorem ratio_bounds (h : Dom a b x) (y : ℕ → ℝ)
    (hrec : ∀ n, y (n + 2) = y (n + 1) + betaCoef a b x (n + 1) * y n)
    (h1 : 0 < y 1) (h2 : (a + 1 - x * (a + b)) / (a + 1) * y 1 ≤ y 2) (m : ℕ) :
    0 < y (2 * m + 1) ∧ 0 < y (2 * m + 2) ∧
    (a + 2 * m + 1 - x * (a + b + m)) / (a + 2 * m + 1) * y (2 * m + 1) ≤ y (2 * m + 2) ∧
    (a + 2 * (m + 1) - x * (m + 1)) / (a + 2 * (m + 1)) * y (2 * m + 2) ≤ y (2 * m + 3) := by
  have ha := h.a_pos; have hb := h.b_pos; have hx := h.x_pos; have hx1 := h.x_lt_one
  -- from an odd to the next even and odd index
  have step : ∀ k : ℕ, 0 < y (2 * k + 1) →
      (a + 2 * k + 1 - x * (a + b + k)) / (a + 2 * k + 1) * y (2 * k + 1) ≤ y (2 * k + 2) →
      0 < y (2 * k + 2) ∧
      (a + 2 * (k + 1) - x * (k + 1)) / (a + 2 * (k + 1)) * y (2 * k + 2) ≤ y (2 * k + 3) := by
    intro k hk1 hk2
    have hk : (0 : ℝ) ≤ k := Nat.cast_nonneg k
    have hs := h.s_pos k
    have hd : 0 < a + 2 * k + 1 := by linarith
    have hpos : 0 < y (2 * k + 2) := lt_of_lt_of_le (mul_pos (div_pos hs hd) hk1) hk2
    refine ⟨hpos, ?_⟩
    have e : y (2 * k + 3) = y (2 * k + 2) + betaCoef a b x (2 * k + 2) * y (2 * k + 1) := hrec (2 * k + 1)
    have c : betaCoef a b x (2 * k + 2) =
        (k + 1) * (b - (k + 1)) * x / ((a + 2 * k + 1) * (a + 2 * (k + 1))) := by
      have := coef_even (a := a) (b := b) (x := x) (k + 1)
      rw [show 2 * (k + 1) = 2 * k + 2 by ring] at this
      rw [this]; push_cast; ring_nf
    rw [e, c]
    have hd2 : 0 < a + 2 * (k + 1) := by linarith
    have lhs : (a + 2 * (k + 1) - x * (k + 1)) / (a + 2 * (k + 1)) * y (2 * k + 2) =
        y (2 * k + 2) - x * (k + 1) / (a + 2 * (k + 1)) * y (2 * k + 2) := by
      field_simp
    rw [lhs]
    have key : (k + 1 - b) * y (2 * k + 1) ≤ (a + 2 * k + 1) * y (2 * k + 2) := by
      rw [div_mul_eq_mul_div, div_le_iff₀ hd] at hk2
      have : (k + 1 - b) * y (2 * k + 1) ≤ (a + 2 * k + 1 - x * (a + b + k)) * y (2 * k + 1) := by
        refine mul_le_mul_of_nonneg_right ?_ hk1.le
        nlinarith
      linarith [mul_comm (y (2 * k + 2)) (a + 2 * k + 1)]
    have : (k + 1) * (b - (k + 1)) * x / ((a + 2 * k + 1) * (a + 2 * (k + 1))) * y (2 * k + 1) =
        - (x * (k + 1) / ((a + 2 * k + 1) * (a + 2 * (k + 1))) * ((k + 1 - b) * y (2 * k + 1))) := by
      field_simp; ring
    rw [this]
    have h3 : x * (k + 1) / ((a + 2 * k + 1) * (a + 2 * (k + 1))) * ((k + 1 - b) * y (2 * k + 1)) ≤
        x * (k + 1) / ((a + 2 * k + 1) * (a + 2 * (k + 1))) * ((a + 2 * k + 1) * y (2 * k + 2)) :=
      mul_le_mul_of_nonneg_left key (by positivity)
    have h4 : x * (k + 1) / ((a + 2 * k + 1) * (a + 2 * (k + 1))) * ((a + 2 * k + 1) * y (2 * k + 2)) =
        x * (k + 1) / (a + 2 * (k + 1)) * y (2 * k + 2) := by
      field_simp
    linarith
  induction m with
  | zero =>
    have h0 : (a + 2 * (0 : ℕ) + 1 - x * (a + b + (0 : ℕ))) / (a + 2 * (0 : ℕ) + 1) * y (2 * 0 + 1) ≤ y (2 * 0 + 2) := by
      simpa using h2
    obtain ⟨h3, h4⟩ := step 0 (by simpa using h1) h0
    exact ⟨by simpa using h1, h3, h0, h4⟩
  | succ m ih =>
    obtain ⟨-, i2, -, i4⟩ := ih
    have hm : (0 : ℝ) ≤ m := Nat.cast_nonneg m
    have hd : 0 < a + 2 * ((m : ℝ) + 1) := by linarith
    have ht : 0 < a + 2 * ((m : ℝ) + 1) - x * (m + 1) := by nlinarith
    have p3 : 0 < y (2 * m + 3) := lt_of_lt_of_le (mul_pos (div_pos ht hd) i2) i4
    have e : y (2 * m + 4) = y (2 * m + 3) + betaCoef a b x (2 * m + 3) * y (2 * m + 2) := hrec (2 * m + 2)
    have c : betaCoef a b x (2 * m + 3) = -((a + (m + 1)) * (a + b + (m + 1)) * x /
        ((a + 2 * (m + 1)) * (a + 2 * (m + 1) + 1))) := by
      have := coef_odd (a := a) (b := b) (x := x) (m + 1)
      rw [show 2 * (m + 1) + 1 = 2 * m + 3 by ring] at this
      rw [this]; push_cast; ring_nf
    have i5 : (a + 2 * (m + 1 : ℕ) + 1 - x * (a + b + (m + 1 : ℕ))) / (a + 2 * (m + 1 : ℕ) + 1) *
        y (2 * (m + 1) + 1) ≤ y (2 * (m + 1) + 2) := by
      have e1 : 2 * (m + 1) + 1 = 2 * m + 3 := by ring
      have e2 : 2 * (m + 1) + 2 = 2 * m + 4 := by ring
      rw [e1, e2, e, c]
      push_cast
      have hd1 : 0 < a + 2 * ((m : ℝ) + 1) + 1 := by linarith
      have lhs : (a + 2 * ((m : ℝ) + 1) + 1 - x * (a + b + (m + 1))) / (a + 2 * (m + 1) + 1) * y (2 * m + 3) =
          y (2 * m + 3) - x * (a + b + (m + 1)) / (a + 2 * (m + 1) + 1) * y (2 * m + 3) := by
        field_simp
      rw [lhs]
      have key : (a + (m + 1)) * y (2 * m + 2) ≤ (a + 2 * (m + 1)) * y (2 * m + 3) := by
        rw [div_mul_eq_mul_div, div_le_iff₀ hd] at i4
        have : (a + (m + 1)) * y (2 * m + 2) ≤ (a + 2 * (m + 1) - x * (m + 1)) * y (2 * m + 2) := by
          refine mul_le_mul_of_nonneg_right ?_ i2.le
          nlinarith
        linarith [mul_comm (y (2 * m + 3)) (a + 2 * ((m : ℝ) + 1))]
      have h3 : (a + (m + 1)) * (a + b + (m + 1)) * x / ((a + 2 * (m + 1)) * (a + 2 * (m + 1) + 1)) * y (2 * m + 2) =
          (a + b + (m + 1)) * x / ((a + 2 * (m + 1)) * (a + 2 * (m + 1) + 1)) * ((a + (m + 1)) * y (2 * m + 2)) := by
        field_simp
      have h4 : (a + b + (m + 1)) * x / ((a + 2 * (m + 1)) * (a + 2 * (m + 1) + 1)) * ((a + (m + 1)) * y (2 * m + 2)) ≤
          (a + b + (m + 1)) * x / ((a + 2 * (m + 1)) * (a + 2 * (m + 1) + 1)) * ((a + 2 * (m + 1)) * y (2 * m + 3)) :=
        mul_le_mul_of_nonneg_left key (by positivity)
      have h5 : (a + b + (m + 1)) * x / ((a + 2 * (m + 1)) * (a + 2 * (m + 1) + 1)) * ((a + 2 * (m + 1)) * y (2 * m + 3)) =
          x * (a + b + (m + 1)) / (a + 2 * (m + 1) + 1) * y (2 * m + 3) := by
        field_simp
      rw [neg_mul]
      linarith
    have p3' : 0 < y (2 * (m + 1) + 1) := by
      have e1 : 2 * (m + 1) + 1 = 2 * m + 3 := by ring
      rw [e1]; exact p3
    obtain ⟨h6, h7⟩ := step (m + 1) p3' i5
    exact ⟨p3', h6, i5, h7⟩

theorem den_two : den a b x 2 = 1 - (a + b) * x / (a + 1) ∨ a = 0 := by
  by_cases ha : a = 0
  · exact .inr ha
  · left
    have := den_rec (a := a) (b := b) (x := x) 0
    rw [show (0 : ℕ) + 2 = 2 from rfl, den_one, den_zero] at this
    have c := coef_odd (a := a) (b := b) (x := x) 0
    simp only [mul_zero, zero_add, Nat.cast_zero, add_zero] at c
    rw [this, zero_add, c]
    field_simp
    ring

theorem num_two : num a b x 2 = 1 := by
  have := num_rec (a := a) (b := b) (x := x) 0
  rw [show (0 : ℕ) + 2 = 2 from rfl, num_one, num_zero] at this
  simpa using this

/-- Bounds for the denominators. -/
theorem den_bounds (h : Dom a b x) (m : ℕ) :
    0 < den a b x (2 * m + 1) ∧ 0 < den a b x (2 * m + 2) ∧
    (a + 2 * m + 1 - x * (a + b + m)) / (a + 2 * m + 1) * den a b x (2 * m + 1) ≤ den a b x (2 * m + 2) ∧
    (a + 2 * (m + 1) - x * (m + 1)) / (a + 2 * (m + 1)) * den a b x (2 * m + 2) ≤ den a b x (2 * m + 3) := by
  have ha := h.a_pos
  refine ratio_bounds h (den a b x) den_rec (by rw [den_one]; norm_num) ?_ m
  rcases den_two (a := a) (b := b) (x := x) with e | e
  · rw [e, den_one]
    apply le_of_eq
    field_simp
  · exact absurd e ha.ne'

theorem num_bounds (h : Dom a b x) (m : ℕ) :
    0 < num a b x (2 * m + 1) ∧ 0 < num a b x (2 * m + 2) := by
  have ha := h.a_pos; have hb := h.b_pos; have hx := h.x_pos
  obtain ⟨h1, h2, -⟩ := ratio_bounds h (num a b x) num_rec (by rw [num_one]; norm_num)
    (by rw [num_one, num_two, mul_one, div_le_one (by linarith)]; nlinarith) m
  exact ⟨h1, h2⟩

theorem den_pos (h : Dom a b x) (n : ℕ) : 0 < den a b x n := by
  rcases n with _ | n
  · rw [den_zero]; norm_num
  · obtain ⟨m, rfl | rfl⟩ : ∃ m, n = 2 * m ∨ n = 2 * m + 1 := ⟨n / 2, by omega⟩
    · exact (den_bounds h m).1
    · exact (den_bounds h m).2.1

theorem num_pos (h : Dom a b x) (n : ℕ) : 0 < num a b x (n + 1) := by
  obtain ⟨m, rfl | rfl⟩ : ∃ m, n = 2 * m ∨ n = 2 * m + 1 := ⟨n / 2, by omega⟩
  · exact (num_bounds h m).1
  · exact (num_bounds h m).2

theorem conv_pos (h : Dom a b x) (n : ℕ) : 0 < betaConv a b x (n + 1) := div_pos (num_pos h n) (den_pos h _)

end Phik.BetaCF
