import Verif.Model.Stats
import Mathlib.Analysis.SpecialFunctions.Log.Deriv
import Mathlib.Analysis.Complex.ExponentialBounds
import Mathlib.Analysis.Real.Pi.Bounds
import Mathlib.Tactic.Linarith

/-!
# Property C51: `z_from_logp`
-/

namespace Phik.Props

/-- The function `u ↦ u - log u` is strictly increasing from 1 on. -/
theorem sub_log_lt {u v : ℝ} (h1 : 1 ≤ u) (h : u < v) : u - Real.log u < v - Real.log v := by
  have hu : 0 < u := by linarith
  have e : Real.log v - Real.log u = Real.log (v / u) := (Real.log_div (by linarith) hu.ne').symm
  have h2 : Real.log (v / u) < v / u - 1 :=
    Real.log_lt_sub_one_of_pos (div_pos (by linarith) hu) (by
      intro h3; rw [div_eq_one_iff_eq hu.ne'] at h3; linarith)
  have h3 : v / u - 1 ≤ v - u := by
    rw [div_sub_one hu.ne', div_le_iff₀ hu]
    nlinarith
  linarith

theorem one_le_sub_log {u : ℝ} (h : 0 < u) : 1 ≤ u - Real.log u := by
  have := Real.log_le_sub_one_of_pos h; linarith

/-- **C51 (p = 0).** Minus infinity gives plus infinity. -/
theorem z_from_logp_bot (fexp : ℝ → ℝ) (ppf : ℝ → EReal) :
    zFromLogp fexp ppf ⊥ false = ⊤ := rfl

/-- **C51 (sign).** `flip_sign` negates the result. -/
theorem z_from_logp_flip (fexp : ℝ → ℝ) (ppf : ℝ → EReal) (l : WithBot ℝ) :
    zFromLogp fexp ppf l true = - zFromLogp fexp ppf l false := by
  cases l <;> simp [zFromLogp]

/-- **C51 (normal range).** Where the p-value does not underflow, Z is the negated normal quantile of the
p-value and strictly decreases with it. -/
theorem z_from_logp_normal {fexp : ℝ → ℝ} {ppf : ℝ → EReal} (hppf : StrictMonoOn ppf (Set.Icc 0 1))
    {l m : ℝ} (h0 : 0 < fexp l) (hlm : fexp l < fexp m) (h1 : fexp m ≤ 1) :
    zFromLogp fexp ppf l false = - ppf (fexp l) ∧
    zFromLogp fexp ppf m false < zFromLogp fexp ppf l false := by
  have hm : fexp m ≠ 0 := by linarith
  have el : zFromLogp fexp ppf l false = - ppf (fexp l) := by simp [zFromLogp, h0.ne']
  have em : zFromLogp fexp ppf m false = - ppf (fexp m) := by simp [zFromLogp, hm]
  refine ⟨el, ?_⟩
  rw [el, em, EReal.neg_lt_neg_iff]
  exact hppf ⟨h0.le, by linarith⟩ ⟨by linarith, h1⟩ hlm

/-- The documented approximation for small p-values. -/
noncomputable def approxZ (l : ℝ) : ℝ :=
  Real.sqrt ((-2 * Real.log (2 * Real.pi) - 2 * l) - Real.log (-2 * Real.log (2 * Real.pi) - 2 * l))

/-- **C51 (underflow range).** Where the p-value underflows to zero, Z is the real number
`sqrt(u - log u)` with `u = -2 log 2π - 2 log p`; it is at least 1 and strictly decreases with the log
p-value (for log p-values up to -1/2 - log 2π, which is about -2.34; underflow starts below -708). -/
theorem z_from_logp_underflow {fexp : ℝ → ℝ} {ppf : ℝ → EReal} {l m : ℝ} (hl : fexp l = 0)
    (hm : fexp m = 0) (hlm : l < m) (hm1 : m ≤ -1 / 2 - Real.log (2 * Real.pi)) :
    zFromLogp fexp ppf l false = (approxZ l : EReal) ∧ zFromLogp fexp ppf m false = (approxZ m : EReal) ∧
      1 ≤ approxZ m ∧ approxZ m < approxZ l := by
  refine ⟨by simp [zFromLogp, hl, approxZ], by simp [zFromLogp, hm, approxZ], ?_, ?_⟩
  · unfold approxZ
    rw [Real.one_le_sqrt]
    apply one_le_sub_log
    linarith
  · apply Real.sqrt_lt_sqrt
    · have := one_le_sub_log (u := -2 * Real.log (2 * Real.pi) - 2 * m) (by linarith)
      linarith
    · apply sub_log_lt <;> linarith

example : 1 ≤ approxZ (-800) ∧ approxZ (-800) < approxZ (-900) := by
  refine (z_from_logp_underflow (fexp := fun _ => 0) (ppf := fun _ => 0) (l := -900) (m := -800) rfl rfl
    (by norm_num) ?_).2.2
  have h1 : Real.log (2 * Real.pi) ≤ 2 * Real.pi := Real.log_le_self (by positivity)
  have h2 := Real.pi_lt_four
  linarith

end Phik.Props
