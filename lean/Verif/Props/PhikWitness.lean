import Verif.Props.PhikMore
import Mathlib.Topology.Order.IntermediateValue
import Mathlib.Topology.Algebra.Order.Field

/-!
# The contracts of the numerical libraries can be met, and the hypotheses of the phik theorems too
-/

namespace Phik.Props

open Spec

open scoped Classical in
/-- An ideal root finder. -/
noncomputable def idealBrentq (f : ℝ → ℝ) (a b _xtol : ℝ) : Except Err ℝ :=
  if 0 < f a * f b then .error .value
  else if h : ∃ x ∈ Set.Icc a b, f x = 0 then .ok h.choose else 
    .error .runtime

theorem idealBrentq_spec : BrentqSpec idealBrentq := by
  constructor
  · intro f a b xtol hab htol hf h0 h1
    have hr : ∃ x ∈ Set.Icc a b, f x = 0 := by
      obtain ⟨x, hx, hx0⟩ := intermediate_value_Icc hab hf ⟨h0.le, h1.le⟩
      exact ⟨x, hx, hx0⟩
    refine ⟨hr.choose, ?_, hr.choose_spec.1, hr.choose, hr.choose_spec.1, hr.choose_spec.2, ?_⟩
    · unfold idealBrentq
      rw [if_neg (not_lt.2 (mul_neg_of_neg_of_pos h0 h1).le), dif_pos hr]
    · rw [sub_self, abs_zero]; positivity
  · intro f a b xtol x hab h
    unfold idealBrentq at h
    split at h
    · simp at h
    · split at h
      · next hr => simp only [Except.ok.injEq] at h; subst h; exact hr.choose_spec.1
      · simp at h
  · intro f a b xtol h
    unfold idealBrentq
    rw [if_pos h]

/-- Mixture of the uniform distribution on the plane and the uniform distribution on the diagonal. -/
noncomputable def toyMvn (rho : ℝ) (R : Rect) : ℝ :=
  (1 - rho) * ((R.2.1 - R.1.1) * (R.2.2 - R.1.2)) + rho * max 0 (min R.2.1 R.2.2 - max R.1.1 R.1.2)

theorem toyMvn_spec : MvnSpec toyMvn := by
  constructor
  · intro rho a b c d
    unfold toyMvn
    simp only
    have : min (-a) (-b) - max (-c) (-d) = min c d - max a b := by
      rw [min_neg_neg, max_neg_neg]; ring
    rw [this]; ring
  · intro rho a b c d
    unfold toyMvn
    simp only
    rw [min_comm d c, max_comm b a]; ring
  · intro R
    unfold toyMvn
    fun_prop
  · intro a b c d h1 h2
    unfold toyMvn
    simp only [sub_zero, one_mul, zero_mul, add_zero]
    exact mul_pos (by linarith) (by linarith)
  · intro a b c d h1 h2 h3
    unfold toyMvn
    simp only [sub_self, zero_mul, one_mul, zero_add]
    apply max_eq_left
    have e1 : min c d ≤ c := min_le_left _ _
    have e2 : b ≤ max a b := le_max_right _ _
    linarith

theorem toy_distance (r c : ℕ) (rho : ℝ) : distance toyMvn r c rho = rho ^ 2 * distance toyMvn r c 1 := by
  unfold distance
  rw [← List.sum_map_mul_left]
  congr 1
  apply List.map_congr_left
  intro R _
  unfold toyMvn
  ring

/-- The curve is strictly increasing for the mixture. -/
theorem toy_mono {r c : ℕ} (hr : 2 ≤ r) (hc : 2 ≤ c) {n ped : ℝ}
    (hmax : ped < n * (min (r - 1) (c - 1) : ℕ)) :
    StrictMonoOn (theoryChi2 toyMvn r c n ped) (Set.Icc 0 1) := by
  intro x hx y hy hxy
  unfold theoryChi2
  rw [toy_distance r c x, toy_distance r c y, mul_div_assoc, mul_div_assoc,
    div_self (distance_one_pos toyMvn_spec hr hc).ne', mul_one, mul_one]
  have h1 : x ^ 2 < y ^ 2 := by nlinarith [hx.1, hy.1]
  have h2 : 0 < n * (min (r - 1) (c - 1) : ℕ) - ped := by linarith
  have := mul_lt_mul_of_pos_left h1 h2
  linarith

/-- The round trip theorem applies, for example to a three by four grid, 100 records and pedestal 6. -/
example : ∃ chi2 x : ℝ, chi2FromPhik toyMvn (1 / 2) 100 0 none none none none 6 (3 : ℕ) (4 : ℕ) = .ok chi2 ∧
    phikFromChi2 toyMvn idealBrentq chi2 100 (3 : ℕ) (4 : ℕ) none none 6 = .ok x ∧
    |x - 1 / 2| ≤ 1 / 10 ^ 5 + 4 * 2 ^ (-52 : ℤ) * |(1 / 2 : ℝ)| :=
  phik_round_trip toyMvn_spec idealBrentq_spec (by norm_num) (by norm_num) (by norm_num) (by norm_num)
    (by norm_num) (toy_mono (by norm_num) (by norm_num) (by norm_num)) (by norm_num) (by norm_num)

/-- Two identical columns with three categories have phik 1. -/
example (noise : Bool) : phikFromHist2d toyMvn idealBrentq exDiag noise = .ok 1 :=
  phik_determined toyMvn_spec idealBrentq_spec exDiag_data.1 (by simp [exDiag]) (by simp [exDiag])
    (by simp [exDiag]) (.inl exDiag_data.2) noise

/-- Two identical binary columns: the root is below 1. -/
example (noise : Bool) := phik_binary_below toyMvn_spec idealBrentq_spec exBinary_data.1 rfl rfl noise

end Phik.Props
