import Verif.Lemmas.BetaCF
import Mathlib.Analysis.SpecificLimits.Normed
import Mathlib.Analysis.PSeries
import Mathlib.Topology.Algebra.InfiniteSum.Order
import Mathlib.Topology.Algebra.InfiniteSum.NatInt

/-! # Gauss' continued fraction: hypergeometric series and the remainder of the convergents -/

namespace Phik.BetaCF

open Phik.Spec Filter Topology

/-- Rising factorial. -/
noncomputable def poch (α : ℝ) (k : ℕ) : ℝ := ∏ i ∈ Finset.range k, (α + i)

theorem poch_zero (α : ℝ) : poch α 0 = 1 := by simp [poch]
theorem poch_succ (α : ℝ) (k : ℕ) : poch α (k + 1) = poch α k * (α + k) := by
  simp [poch, Finset.prod_range_succ]
theorem poch_succ' (α : ℝ) (k : ℕ) : poch α (k + 1) = α * poch (α + 1) k := by
  simp only [poch, Finset.prod_range_succ', Nat.cast_zero, add_zero]
  rw [mul_comm]
  congr 1
  apply Finset.prod_congr rfl
  intro i _
  push_cast; ring
theorem poch_pos {α : ℝ} (h : 0 < α) (k : ℕ) : 0 < poch α k :=
  Finset.prod_pos fun i _ => by positivity
theorem poch_nonneg {α : ℝ} (h : 0 ≤ α) (k : ℕ) : 0 ≤ poch α k :=
  Finset.prod_nonneg fun i _ => by positivity

/-- Coefficient of the hypergeometric series. -/
noncomputable def hc (α β γ : ℝ) (k : ℕ) : ℝ := poch α k * poch β k / (poch γ k * poch 1 k)

/-- The hypergeometric series. -/
noncomputable def hyp (α β γ x : ℝ) : ℝ := ∑' k, hc α β γ k * x ^ k

theorem hc_symm (α β γ : ℝ) : hc α β γ = hc β α γ := by
  funext k; unfold hc; rw [mul_comm (poch α k)]

theorem hyp_symm (α β γ x : ℝ) : hyp α β γ x = hyp β α γ x := by unfold hyp; rw [hc_symm]

theorem hc_nonneg {α β γ : ℝ} (ha : 0 ≤ α) (hb : 0 ≤ β) (hg : 0 < γ) (k : ℕ) : 0 ≤ hc α β γ k :=
  div_nonneg (mul_nonneg (poch_nonneg ha k) (poch_nonneg hb k))
    (mul_nonneg (poch_pos hg k).le (poch_pos one_pos k).le)

theorem hc_zero (α β γ : ℝ) : hc α β γ 0 = 1 := by simp [hc, poch_zero]

theorem hc_succ {α β γ : ℝ} (hg : 0 < γ) (k : ℕ) :
    hc α β γ (k + 1) = hc α β γ k * ((α + k) * (β + k) / ((γ + k) * (1 + k))) := by
  have h1 := (poch_pos hg k).ne'
  have h2 := (poch_pos one_pos k).ne'
  have h3 : γ + k ≠ 0 := by positivity
  have h4 : (1 : ℝ) + k ≠ 0 := by positivity
  simp only [hc, poch_succ]
  field_simp

theorem ratio_tendsto (α γ : ℝ) : Tendsto (fun k : ℕ => (α + k) / (γ + k)) atTop (𝓝 1) := by
  have h : ∀ c : ℝ, Tendsto (fun k : ℕ => c / (k : ℝ)) atTop (𝓝 0) := fun c => by
    simpa using tendsto_const_div_atTop_nhds_zero_nat c
  have h1 : Tendsto (fun k : ℕ => (α / k + 1) / (γ / k + 1)) atTop (𝓝 ((0 + 1) / (0 + 1))) :=
    ((h α).add tendsto_const_nhds).div ((h γ).add tendsto_const_nhds) (by norm_num)
  have h2 : ((0 : ℝ) + 1) / (0 + 1) = 1 := by norm_num
  rw [h2] at h1
  refine h1.congr' ?_
  filter_upwards [eventually_gt_atTop 0] with k hk
  have : (k : ℝ) ≠ 0 := by positivity
  rw [div_add_one this, div_add_one this, div_div_div_cancel_right₀ this]

theorem hyp_summable {α β γ x : ℝ} (ha : 0 ≤ α) (hb : 0 ≤ β) (hg : 0 < γ) (hx : 0 ≤ x) (hx1 : x < 1) :
    Summable fun k => hc α β γ k * x ^ k := by
  by_cases hz : α = 0 ∨ β = 0 ∨ x = 0
  · refine summable_of_ne_finset_zero (s := {0}) ?_
    intro k hk
    have hk0 : k ≠ 0 := by simpa using hk
    obtain ⟨m, rfl⟩ := Nat.exists_eq_succ_of_ne_zero hk0
    rcases hz with h | h | h
    · have : poch α (m + 1) = 0 := by rw [poch_succ', h, zero_mul]
      simp [hc, this]
    · have : poch β (m + 1) = 0 := by rw [poch_succ', h, zero_mul]
      simp [hc, this]
    · simp [h]
  · push Not at hz
    obtain ⟨h1, h2, h3⟩ := hz
    have ha' : 0 < α := lt_of_le_of_ne ha h1.symm
    have hb' : 0 < β := lt_of_le_of_ne hb h2.symm
    have hx' : 0 < x := lt_of_le_of_ne hx h3.symm
    have hpos : ∀ k, 0 < hc α β γ k := fun k =>
      div_pos (mul_pos (poch_pos ha' k) (poch_pos hb' k)) (mul_pos (poch_pos hg k) (poch_pos one_pos k))
    refine summable_of_ratio_test_tendsto_lt_one hx1 (Eventually.of_forall fun k => ?_) (l := x) ?_
    · have := hpos k; positivity
    · have key : ∀ k : ℕ, ‖hc α β γ (k + 1) * x ^ (k + 1)‖ / ‖hc α β γ k * x ^ k‖ =
          ((α + k) / (γ + k)) * ((β + k) / (1 + k)) * x := by
        intro k
        have := hpos k
        have := hpos (k + 1)
        rw [Real.norm_of_nonneg (by positivity), Real.norm_of_nonneg (by positivity), hc_succ hg]
        have h4 : γ + k ≠ 0 := by positivity
        have h5 : (1 : ℝ) + k ≠ 0 := by positivity
        rw [pow_succ]
        field_simp
      simp only [key]
      simpa using ((ratio_tendsto α γ).mul (ratio_tendsto β 1)).mul_const x

theorem hyp_pos {α β γ x : ℝ} (ha : 0 ≤ α) (hb : 0 ≤ β) (hg : 0 < γ) (hx : 0 ≤ x) (hx1 : x < 1) :
    0 < hyp α β γ x := by
  refine (hyp_summable ha hb hg hx hx1).tsum_pos
    (fun k => mul_nonneg (hc_nonneg ha hb hg k) (pow_nonneg hx k)) 0 ?_
  simp [hc_zero]

theorem hc_contig {α β γ : ℝ} (hg : 0 < γ) (k : ℕ) :
    hc α β γ (k + 1) - hc α (β + 1) (γ + 1) (k + 1) =
      -(α * (γ - β) / (γ * (γ + 1))) * hc (α + 1) (β + 1) (γ + 2) k := by
  have h1 := (poch_pos (show 0 < γ + 1 by linarith) k).ne'
  have h2 := (poch_pos one_pos k).ne'
  have h3 : γ + 1 + k ≠ 0 := by positivity
  have h4 : (1 : ℝ) + k ≠ 0 := by positivity
  have e : poch (γ + 2) k = poch (γ + 1) k * (γ + 1 + k) / (γ + 1) := by
    have e1 := poch_succ (γ + 1) k
    have e2 := poch_succ' (γ + 1) k
    rw [show γ + 1 + 1 = γ + 2 by ring] at e2
    rw [eq_div_iff (by linarith)]
    rw [← e1, e2]; ring
  have hg1 : γ + 1 ≠ 0 := by linarith
  unfold hc
  rw [e, poch_succ' α, poch_succ' β, poch_succ' γ, poch_succ (β + 1), poch_succ (γ + 1), poch_succ 1]
  field_simp
  ring

theorem hyp_contig {α β γ x : ℝ} (ha : 0 ≤ α) (hb : 0 ≤ β) (hg : 0 < γ) (hx : 0 ≤ x) (hx1 : x < 1) :
    hyp α β γ x - hyp α (β + 1) (γ + 1) x =
      -(α * (γ - β) * x / (γ * (γ + 1))) * hyp (α + 1) (β + 1) (γ + 2) x := by
  have s1 := hyp_summable ha hb hg hx hx1
  have s2 := hyp_summable ha (show 0 ≤ β + 1 by linarith) (show 0 < γ + 1 by linarith) hx hx1
  unfold hyp
  rw [← s1.tsum_sub s2, (s1.sub s2).tsum_eq_zero_add, ← tsum_mul_left]
  simp only [hc_zero, pow_zero, mul_one, sub_self, zero_add]
  refine tsum_congr fun k => ?_
  rw [← sub_mul, hc_contig hg, pow_succ]
  ring

/-- Lower bound for a ratio of contiguous functions. -/
theorem hyp_ratio {α β γ x : ℝ} (ha : 0 ≤ α) (hb : 0 ≤ β) (hg : 0 < γ) (hbg : β ≤ γ) (hx : 0 ≤ x)
    (hx1 : x < 1) : β / γ * hyp α (β + 1) (γ + 1) x ≤ hyp α β γ x := by
  have s1 := hyp_summable ha hb hg hx hx1
  have s2 := hyp_summable ha (show 0 ≤ β + 1 by linarith) (show 0 < γ + 1 by linarith) hx hx1
  unfold hyp
  rw [← tsum_mul_left]
  refine (s2.mul_left _).tsum_le_tsum (fun k => ?_) s1
  rw [← mul_assoc]
  refine mul_le_mul_of_nonneg_right ?_ (pow_nonneg hx k)
  have e1 : β * poch (β + 1) k = poch β k * (β + k) := by rw [← poch_succ', poch_succ]
  have e2 : γ * poch (γ + 1) k = poch γ k * (γ + k) := by rw [← poch_succ', poch_succ]
  have h1 := poch_pos hg k
  have h2 := poch_pos one_pos k
  have h3 := poch_pos (show 0 < γ + 1 by linarith) k
  have hk : (0 : ℝ) ≤ k := Nat.cast_nonneg k
  have lhs : β / γ * hc α (β + 1) (γ + 1) k = poch α k * (poch β k * (β + k)) / (poch γ k * (γ + k) * poch 1 k) := by
    unfold hc
    rw [← e1, ← e2]
    field_simp
  rw [lhs]
  unfold hc
  rw [div_le_div_iff₀ (by positivity) (by positivity)]
  have h4 := poch_nonneg ha k
  have h5 := poch_nonneg hb k
  have : 0 ≤ poch α k * poch β k * (poch γ k * poch 1 k) := by positivity
  nlinarith

/-- The functions of Gauss' continued fraction. -/
noncomputable def gaussFn (a b x : ℝ) (n : ℕ) : ℝ :=
  let m : ℝ := ((n / 2 : ℕ) : ℝ)
  if n % 2 = 1 then hyp (a + b + m) (m + 1) (a + 2 * m + 1) x else hyp (a + b + m) m (a + 2 * m) x

variable {a b x : ℝ}

theorem gauss_odd (m : ℕ) : gaussFn a b x (2 * m + 1) = hyp (a + b + m) (m + 1) (a + 2 * m + 1) x := by
  have h1 : (2 * m + 1) / 2 = m := by omega
  have h2 : (2 * m + 1) % 2 = 1 := by omega
  simp [gaussFn, h1, h2]

theorem gauss_even (m : ℕ) : gaussFn a b x (2 * m) = hyp (a + b + m) m (a + 2 * m) x := by
  have h1 : (2 * m) / 2 = m := by omega
  have h2 : (2 * m) % 2 = 0 := by omega
  simp [gaussFn, h1, h2]

theorem gauss_pos (ha : 0 < a) (hb : 0 < b) (hx : 0 ≤ x) (hx1 : x < 1) (n : ℕ) : 0 < gaussFn a b x n := by
  obtain ⟨m, rfl | rfl⟩ : ∃ m, n = 2 * m ∨ n = 2 * m + 1 := ⟨n / 2, by omega⟩
  · rw [gauss_even]; exact hyp_pos (by positivity) (by positivity) (by positivity) hx hx1
  · rw [gauss_odd]; exact hyp_pos (by positivity) (by positivity) (by positivity) hx hx1

theorem gauss_zero : gaussFn a b x 0 = 1 := by
  have := gauss_even (a := a) (b := b) (x := x) 0
  rw [mul_zero] at this
  rw [this]
  unfold hyp
  rw [tsum_eq_single 0]
  · simp [hc_zero]
  · intro k hk
    obtain ⟨m, rfl⟩ := Nat.exists_eq_succ_of_ne_zero hk
    have : poch ((0 : ℕ) : ℝ) (m + 1) = 0 := by rw [poch_succ']; simp
    simp only [Nat.succ_eq_add_one, hc, this, mul_zero, zero_div, zero_mul]

/-- Gauss' three-term relation. -/
theorem gauss_rec (ha : 0 < a) (hb : 0 < b) (hx : 0 ≤ x) (hx1 : x < 1) (n : ℕ) :
    gaussFn a b x n - gaussFn a b x (n + 1) = betaCoef a b x (n + 1) * gaussFn a b x (n + 2) := by
  obtain ⟨m, rfl | rfl⟩ : ∃ m, n = 2 * m ∨ n = 2 * m + 1 := ⟨n / 2, by omega⟩
  · have hm : (0 : ℝ) ≤ m := Nat.cast_nonneg m
    rw [gauss_even, gauss_odd, coef_odd, show 2 * m + 2 = 2 * (m + 1) by ring, gauss_even]
    have := hyp_contig (α := a + b + m) (β := m) (γ := a + 2 * m) (x := x) (by positivity) hm (by positivity) hx hx1
    rw [this]
    push_cast
    rw [show a + b + (m : ℝ) + 1 = a + b + (m + 1) by ring, show a + 2 * (m : ℝ) + 2 = a + 2 * (m + 1) by ring]
    ring
  · have hm : (0 : ℝ) ≤ m := Nat.cast_nonneg m
    rw [gauss_odd, show 2 * m + 1 + 1 = 2 * (m + 1) by ring, gauss_even, coef_even,
      show 2 * m + 1 + 2 = 2 * (m + 1) + 1 by ring, gauss_odd]
    have := hyp_contig (α := m + 1) (β := a + b + m) (γ := a + 2 * m + 1) (x := x) (by positivity)
      (by positivity) (by positivity) hx hx1
    rw [hyp_symm (m + 1) (a + b + m), hyp_symm (m + 1) (a + b + m + 1), hyp_symm (m + 1 + 1)] at this
    push_cast
    rw [show a + b + ((m : ℝ) + 1) = a + b + m + 1 by ring, show a + 2 * ((m : ℝ) + 1) = a + 2 * m + 1 + 1 by ring,
      this, show a + 2 * (m : ℝ) + 1 + 1 + 1 = a + 2 * m + 1 + 2 by ring]
    ring

/-- The remainder of the convergents. -/
theorem remainder (ha : 0 < a) (hb : 0 < b) (hx : 0 ≤ x) (hx1 : x < 1) (n : ℕ) :
    num a b x n - gaussFn a b x 1 * den a b x n =
      -((∏ k ∈ Finset.range n, -betaCoef a b x (k + 1)) * gaussFn a b x (n + 1)) := by
  have key : ∀ n, (num a b x n - gaussFn a b x 1 * den a b x n =
      -((∏ k ∈ Finset.range n, -betaCoef a b x (k + 1)) * gaussFn a b x (n + 1))) ∧
      (num a b x (n + 1) - gaussFn a b x 1 * den a b x (n + 1) =
      -((∏ k ∈ Finset.range (n + 1), -betaCoef a b x (k + 1)) * gaussFn a b x (n + 2))) := by
    intro n
    induction n with
    | zero =>
      refine ⟨by rw [num_zero, den_zero]; simp, ?_⟩
      have := gauss_rec (a := a) (b := b) (x := x) ha hb hx hx1 0
      rw [gauss_zero] at this
      simp only [zero_add] at this
      rw [zero_add, num_one, den_one, mul_one, this]
      simp
    | succ n ih =>
      refine ⟨ih.2, ?_⟩
      have h1 := gauss_rec (a := a) (b := b) (x := x) ha hb hx hx1 (n + 1)
      rw [show n + 1 + 1 = n + 2 from rfl, num_rec, den_rec]
      have : num a b x (n + 1) + betaCoef a b x (n + 1) * num a b x n -
          gaussFn a b x 1 * (den a b x (n + 1) + betaCoef a b x (n + 1) * den a b x n) =
          (num a b x (n + 1) - gaussFn a b x 1 * den a b x (n + 1)) +
          betaCoef a b x (n + 1) * (num a b x n - gaussFn a b x 1 * den a b x n) := by ring
      rw [this, ih.1, ih.2]
      simp only [Finset.prod_range_succ]
      have h2 : gaussFn a b x (n + 1) = gaussFn a b x (n + 2) + betaCoef a b x (n + 2) * gaussFn a b x (n + 3) := by
        linarith [h1]
      rw [h2]
      ring
  exact (key n).1

/-- Error of the convergents. -/
noncomputable def err (a b x : ℝ) (n : ℕ) : ℝ := betaConv a b x n - gaussFn a b x 1

theorem err_succ (h : Dom a b x) (n : ℕ) :
    err a b x (n + 1) * (den a b x (n + 1) * gaussFn a b x (n + 1)) =
      err a b x n * (den a b x n * (gaussFn a b x (n + 1) - gaussFn a b x n)) := by
  have hx := h.x_pos.le; have hx1 := h.x_lt_one
  have h1 := remainder h.a_pos h.b_pos hx hx1 n
  have h2 := remainder h.a_pos h.b_pos hx hx1 (n + 1)
  have h3 := gauss_rec h.a_pos h.b_pos hx hx1 n
  have d1 := (den_pos h n).ne'
  have d2 := (den_pos h (n + 1)).ne'
  have e : ∀ n, den a b x n ≠ 0 → err a b x n * den a b x n = num a b x n - gaussFn a b x 1 * den a b x n := by
    intro n hn
    unfold err
    rw [conv_eq, sub_mul, div_mul_cancel₀ _ hn]
  rw [← mul_assoc, ← mul_assoc, e _ d1, e _ d2, h1, h2, Finset.prod_range_succ]
  have : gaussFn a b x (n + 1) - gaussFn a b x n = -(betaCoef a b x (n + 1) * gaussFn a b x (n + 2)) := by linarith
  rw [this]
  ring

end Phik.BetaCF
