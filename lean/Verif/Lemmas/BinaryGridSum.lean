import Mathlib.Analysis.SpecialFunctions.Exp
import Mathlib.Analysis.Complex.ExponentialBounds
import Mathlib.Algebra.BigOperators.Intervals
import Mathlib.Data.Real.Archimedean
import Verif.Lemmas.NormalCdf

/-! # An inequality for sums over the bins of a symmetric grid

Used in `Lemmas/BinaryMono.lean` for the sign of the derivative of the theoretical chi2 of tables with two rows. -/

namespace Phik.Gauss
open Finset

/-- Summation by parts: an increasing sequence of weights. -/
theorem abel_ge {M E : ℕ → ℝ} (hM : Monotone M) (h0 : 0 ≤ M 0) {m k : ℕ} (hk : k < m) {L : ℝ}
    (hL : ∀ i ≤ k, L ≤ E i) (hE : ∀ i ≤ m, E m ≤ E i) :
    M k * (L - E m) ≤ ∑ i ∈ range m, M i * (E i - E (i + 1)) := by
  have key : ∀ n ≤ m, M (min n k) * (L - E m) ≤ ∑ i ∈ range n, M i * (E i - E (i + 1)) + M n * (E n - E m) := by
    intro n
    induction n with
    | zero =>
      intro _
      simp only [Nat.zero_min, range_zero, sum_empty, zero_add]
      exact mul_le_mul_of_nonneg_left (by linarith [hL 0 (Nat.zero_le k)]) h0
    | succ n ih =>
      intro hn
      have ih := ih (by omega)
      rw [sum_range_succ]
      have h1 : M n ≤ M (n + 1) := hM (Nat.le_succ n)
      have h2 := hE (n + 1) hn
      by_cases hnk : n + 1 ≤ k
      · rw [min_eq_left hnk]
        rw [min_eq_left (by omega : n ≤ k)] at ih
        have h3 := hL (n + 1) hnk
        nlinarith [mul_nonneg (sub_nonneg.2 h1) (sub_nonneg.2 h3)]
      · rw [min_eq_right (by omega)]
        rw [min_eq_right (by omega : k ≤ n)] at ih
        nlinarith [mul_nonneg (sub_nonneg.2 h1) (sub_nonneg.2 h2)]
  have := key m le_rfl
  rw [min_eq_right hk.le] at this
  simpa using this

section
variable (ρ s : ℝ)

/-- The densities on the lines through 0 and through 5, up to a common factor. -/
noncomputable def e0 (y : ℝ) : ℝ := Real.exp (-y ^ 2 / (2 * s ^ 2))
noncomputable def e5 (y : ℝ) : ℝ := Real.exp (-25 / 2) * Real.exp (-(y - 5 * ρ) ^ 2 / (2 * s ^ 2))

variable {ρ s}

theorem e0_anti (hs : 0 < s) {a b : ℝ} (ha : 0 ≤ a) (hab : a ≤ b) : e0 s b ≤ e0 s a := by
  unfold e0
  rw [Real.exp_le_exp, div_le_div_iff_of_pos_right (by positivity)]
  nlinarith

theorem e0_le_one (hs : 0 < s) (a : ℝ) : e0 s a ≤ 1 := by
  unfold e0
  rw [Real.exp_le_one_iff]
  exact div_nonpos_of_nonpos_of_nonneg (by nlinarith [sq_nonneg a]) (by positivity)

theorem e5_le (hs : 0 < s) {a b : ℝ} (h : (b - 5 * ρ) ^ 2 ≤ (a - 5 * ρ) ^ 2) : e5 ρ s a ≤ e5 ρ s b := by
  unfold e5
  refine mul_le_mul_of_nonneg_left ?_ (Real.exp_pos _).le
  rw [Real.exp_le_exp, div_le_div_iff_of_pos_right (by positivity)]
  linarith

theorem e5_pos (a : ℝ) : 0 < e5 ρ s a := by unfold e5; positivity

theorem e5_max (hs : 0 < s) (a : ℝ) : e5 ρ s a ≤ Real.exp (-25 / 2) := by
  unfold e5
  have : Real.exp (-(a - 5 * ρ) ^ 2 / (2 * s ^ 2)) ≤ 1 := by
    rw [Real.exp_le_one_iff]
    exact div_nonpos_of_nonpos_of_nonneg (by nlinarith [sq_nonneg (a - 5 * ρ)]) (by positivity)
  nlinarith [Real.exp_pos (-25 / 2)]

/-- The mirrored line through -5 carries hardly any density. -/
theorem e5_neg_le (hs : 0 < s) (hρ : 0 ≤ ρ) {y : ℝ} (hy : 0 ≤ y) : e5 ρ s (-y) ≤ Real.exp (-25 / 2) * e0 s y := by
  unfold e5 e0
  refine mul_le_mul_of_nonneg_left ?_ (Real.exp_pos _).le
  rw [Real.exp_le_exp, div_le_div_iff_of_pos_right (by positivity)]
  nlinarith [mul_nonneg hρ hy, sq_nonneg ρ]

theorem e5_neg_diff (hs : 0 < s) (hρ0 : 0 ≤ ρ) (hρ1 : ρ ≤ 1) {y : ℝ} (hy : 0 ≤ y) (hy5 : y ≤ 5) :
    e0 s 5 - e5 ρ s (-5) ≤ e0 s y - e5 ρ s (-y) := by
  set x := (25 - y ^ 2) / (2 * s ^ 2) with hx
  have hx0 : 0 ≤ x := div_nonneg (by nlinarith) (by positivity)
  set B := (y + 5 * ρ) ^ 2 / (2 * s ^ 2) with hB
  set A := y ^ 2 / (2 * s ^ 2) with hA
  have hAB : A ≤ B := by
    rw [hA, hB, div_le_div_iff_of_pos_right (by positivity)]
    nlinarith [mul_nonneg hρ0 hy, sq_nonneg ρ]
  set D := (5 + 5 * ρ) ^ 2 / (2 * s ^ 2) with hD
  have hDB : D - B ≤ 3 * x := by
    rw [hD, hB, hx, ← sub_div, ← mul_div_assoc, div_le_div_iff_of_pos_right (by positivity)]
    nlinarith [mul_nonneg (sub_nonneg.2 hy5) (sub_nonneg.2 hρ1), mul_nonneg (sub_nonneg.2 hy5) hy]
  have e1 : e0 s 5 = Real.exp (-A) * Real.exp (-x) := by
    unfold e0
    rw [← Real.exp_add]; congr 1
    rw [hA, hx]; field_simp; ring
  have e2 : e0 s y = Real.exp (-A) := by unfold e0; rw [hA, neg_div]
  have e3 : e5 ρ s (-y) = Real.exp (-25 / 2) * Real.exp (-B) := by
    unfold e5; congr 2; rw [hB]; ring
  have e4 : e5 ρ s (-5) = Real.exp (-25 / 2) * Real.exp (-D) := by
    unfold e5; congr 2; rw [hD]; ring
  have h1 : Real.exp (-B) * Real.exp (-x) ^ 3 ≤ Real.exp (-D) := by
    rw [← Real.exp_nat_mul, ← Real.exp_add, Real.exp_le_exp]
    push_cast
    linarith
  have h2 : Real.exp (-B) ≤ Real.exp (-A) := Real.exp_le_exp.2 (by linarith)
  have hq : Real.exp (-x) ≤ 1 := Real.exp_le_one_iff.2 (by linarith)
  have hq0 := Real.exp_pos (-x)
  have hε := exp_25
  have hε0 := Real.exp_pos (-25 / 2)
  rw [e1, e2, e3, e4]
  generalize Real.exp (-x) = q at *
  generalize Real.exp (-25 / 2) = ε at *
  have hA0 := Real.exp_pos (-A)
  have hB0 := Real.exp_pos (-B)
  generalize Real.exp (-A) = α at *
  generalize Real.exp (-B) = β at *
  generalize Real.exp (-D) = d at *
  have h3 : β - d ≤ 3 * α * (1 - q) := by
    have : β - d ≤ β * (1 - q ^ 3) := by linarith
    have h4 : 1 - q ^ 3 ≤ 3 * (1 - q) := by nlinarith [sq_nonneg (1 - q), mul_nonneg hq0.le (sub_nonneg.2 hq)]
    have h5 : 0 ≤ 1 - q := by linarith
    calc β - d ≤ β * (1 - q ^ 3) := this
      _ ≤ β * (3 * (1 - q)) := mul_le_mul_of_nonneg_left h4 hB0.le
      _ ≤ α * (3 * (1 - q)) := mul_le_mul_of_nonneg_right h2 (by linarith)
      _ = 3 * α * (1 - q) := by ring
  have h5 : 0 ≤ α * (1 - q) := mul_nonneg hA0.le (by linarith)
  nlinarith [mul_le_mul_of_nonneg_left h3 hε0.le, mul_nonneg hε0.le h5]

/-- The part of the sum that may be negative is small. -/
theorem bad_ge (hs : 0 < s) {A t : ℕ → ℝ} {m : ℕ} {B : ℝ} (hA : ∀ i < m, 0 ≤ A i ∧ A i ≤ B)
    (ht : ∀ i < m, t i ≤ t (i + 1)) (hB : 0 ≤ B) :
    -(B * Real.exp (-25 / 2)) ≤ ∑ i ∈ range m, A i * (e5 ρ s (t (i + 1)) - e5 ρ s (t i)) := by
  have key : ∀ n ≤ m, -(B * (e5 ρ s (max (t 0) (5 * ρ)) - e5 ρ s (max (t n) (5 * ρ)))) ≤
      ∑ i ∈ range n, A i * (e5 ρ s (t (i + 1)) - e5 ρ s (t i)) := by
    intro n
    induction n with
    | zero => intro _; simp
    | succ n ih =>
      intro hn
      have ih := ih (by omega)
      rw [sum_range_succ]
      obtain ⟨a1, a2⟩ := hA n (by omega)
      have h1 := ht n (by omega)
      have h2 : e5 ρ s (t n) - e5 ρ s (t (n + 1)) ≤ e5 ρ s (max (t n) (5 * ρ)) - e5 ρ s (max (t (n + 1)) (5 * ρ)) := by
        rcases le_total (t (n + 1)) (5 * ρ) with h | h
        · rw [max_eq_right h, max_eq_right (h1.trans h), sub_self, sub_nonpos]
          exact e5_le hs (by nlinarith)
        · rw [max_eq_left h]
          rcases le_total (t n) (5 * ρ) with h' | h'
          · rw [max_eq_right h']
            have : e5 ρ s (t n) ≤ e5 ρ s (5 * ρ) := e5_le hs (by nlinarith [sq_nonneg (t n - 5 * ρ)])
            linarith
          · rw [max_eq_left h']
      have h3 : 0 ≤ e5 ρ s (max (t n) (5 * ρ)) - e5 ρ s (max (t (n + 1)) (5 * ρ)) := by
        rw [sub_nonneg]
        refine e5_le hs ?_
        have h4 : max (t n) (5 * ρ) ≤ max (t (n + 1)) (5 * ρ) := max_le_max_right _ h1
        have h5 : 5 * ρ ≤ max (t n) (5 * ρ) := le_max_right _ _
        nlinarith
      nlinarith [mul_le_mul_of_nonneg_left h2 a1, mul_le_mul_of_nonneg_right a2 h3]
  have h := key m le_rfl
  have h1 := e5_max (ρ := ρ) hs (max (t 0) (5 * ρ))
  have h2 := e5_pos (ρ := ρ) (s := s) (max (t m) (5 * ρ))
  nlinarith

theorem exp_four : 53 * Real.exp (-25 / 2) + Real.exp (-25 / 2) ≤ Real.exp (-17 / 2) := by
  have h1 : Real.exp (-17 / 2 : ℝ) = Real.exp (-25 / 2) * Real.exp 4 := by rw [← Real.exp_add]; norm_num
  have h2 : Real.exp 4 = Real.exp 1 ^ 4 := by rw [← Real.exp_nat_mul]; norm_num
  have h4 : (2.718 : ℝ) ^ 4 ≤ Real.exp 1 ^ 4 := pow_le_pow_left₀ (by norm_num) (by linarith [Real.exp_one_gt_d9]) 4
  have h5 : (54 : ℝ) ≤ Real.exp 4 := by rw [h2]; refine le_trans ?_ h4; norm_num
  have := Real.exp_pos (-25 / 2 : ℝ)
  rw [h1]; nlinarith

set_option maxHeartbeats 1000000 in
/-- The sum is positive. -/
theorem grid_sum_pos (hρ0 : 0 < ρ) (hρ1 : ρ < 1) (hs : 0 < s) (hs2 : s ^ 2 = 1 - ρ ^ 2) {w t0 : ℝ} {m : ℕ} (hw : 0 < w)
    (hm : t0 + m * w = 5) (ht : t0 = 0 ∧ w ≤ 5 / 2 ∨ t0 = w / 2 ∧ w ≤ 10 / 3) {A M : ℕ → ℝ}
    (hA : ∀ i < m, 0 ≤ A i ∧ A i ≤ 3 * ρ) (hM : Monotone M) (hM0 : -(ρ / 50000) ≤ M 0)
    (hMk : ∀ k : ℕ, s / 2 ≤ t0 + k * w → ρ / 10 ≤ M k) (hMw : s ≤ w → 0 ≤ M 0) :
    0 < ∑ i ∈ range m, (A i * ((e0 s (t0 + i * w) - e0 s (t0 + (i + 1 : ℕ) * w)) +
        (e5 ρ s (t0 + (i + 1 : ℕ) * w) - e5 ρ s (t0 + i * w))) +
      M i * ((e0 s (t0 + i * w) - e5 ρ s (-(t0 + i * w))) -
        (e0 s (t0 + (i + 1 : ℕ) * w) - e5 ρ s (-(t0 + (i + 1 : ℕ) * w))))) := by
  set t : ℕ → ℝ := fun i => t0 + i * w with htdef
  set E : ℕ → ℝ := fun i => e0 s (t i) - e5 ρ s (-t i) with hE
  have hs1 : s ≤ 1 := by nlinarith
  have ht0 : 0 ≤ t0 := by rcases ht with ⟨h, -⟩ | ⟨h, -⟩ <;> rw [h] <;> linarith
  have tnn : ∀ i, 0 ≤ t i := fun i => by simp only [htdef]; positivity
  have tm : t m = 5 := hm
  have tmono : ∀ i j, i ≤ j → t i ≤ t j := fun i j hij => by
    simp only [htdef]
    have : (i : ℝ) ≤ j := by exact_mod_cast hij
    nlinarith
  have hEm : ∀ i ≤ m, E m ≤ E i := by
    intro i hi
    simp only [hE]
    rw [tm]
    exact e5_neg_diff hs hρ0.le hρ1.le (tnn i) (tm ▸ tmono i m hi)
  set ε := Real.exp (-25 / 2) with hε
  have hε0 : 0 < ε := Real.exp_pos _
  have hε1 : ε ≤ 1 / 100000 := exp_25
  have hEi : ∀ i, (1 - ε) * e0 s (t i) ≤ E i := fun i => by
    have := e5_neg_le hs hρ0.le (tnn i)
    rw [← hε] at this
    simp only [hE]
    linarith
  have hE0 : E 0 ≤ 1 := by
    have h1 := e0_le_one hs (t 0)
    have h2 := e5_pos (ρ := ρ) (s := s) (-t 0)
    simp only [hE]
    linarith
  have hE5 : E m ≤ ε := by
    have h2 := e5_pos (ρ := ρ) (s := s) (-t m)
    have h3 : e0 s 5 ≤ ε := by
      unfold e0
      rw [hε, Real.exp_le_exp, div_le_div_iff₀ (by positivity) (by norm_num)]
      nlinarith
    simp only [hE]
    rw [tm] at h2 ⊢
    linarith
  have hEm0 : 0 ≤ E m := by
    have := hEi m
    have : 0 < e0 s (t m) := Real.exp_pos _
    nlinarith
  have split : ∑ i ∈ range m, (A i * ((e0 s (t i) - e0 s (t (i + 1))) + (e5 ρ s (t (i + 1)) - e5 ρ s (t i))) +
      M i * (E i - E (i + 1))) =
      ∑ i ∈ range m, A i * (e0 s (t i) - e0 s (t (i + 1))) + ∑ i ∈ range m, A i * (e5 ρ s (t (i + 1)) - e5 ρ s (t i)) +
      ∑ i ∈ range m, M i * (E i - E (i + 1)) := by
    rw [← sum_add_distrib, ← sum_add_distrib]
    exact sum_congr rfl fun i _ => by ring
  change 0 < ∑ i ∈ range m, (A i * ((e0 s (t i) - e0 s (t (i + 1))) + (e5 ρ s (t (i + 1)) - e5 ρ s (t i))) +
      M i * (E i - E (i + 1)))
  rw [split]
  have g1 : 0 ≤ ∑ i ∈ range m, A i * (e0 s (t i) - e0 s (t (i + 1))) :=
    sum_nonneg fun i hi => mul_nonneg (hA i (mem_range.1 hi)).1
      (sub_nonneg.2 (e0_anti hs (tnn i) (tmono i _ (Nat.le_succ i))))
  have g2 := bad_ge (ρ := ρ) hs hA (t := t) (fun i _ => tmono i _ (Nat.le_succ i)) (by linarith)
  rw [← hε] at g2
  have hLk : ∀ k i, i ≤ k → (1 - ε) * e0 s (t k) ≤ E i := fun k i hik =>
    le_trans (mul_le_mul_of_nonneg_left (e0_anti hs (tnn i) (tmono i k hik)) (by linarith)) (hEi i)
  have hkm : ∀ k, t k ≤ 5 / 2 → k < m := fun k hk => by
    by_contra hcon
    have := tmono m k (by omega)
    rw [tm] at this
    linarith
  rcases lt_or_ge w s with hws | hws
  · -- narrow bins
    obtain ⟨k, hk1, hk2⟩ : ∃ k : ℕ, s / 2 ≤ t k ∧ t k ≤ 3 / 2 * s := by
      refine ⟨⌈(s / 2 - t0) / w⌉₊, ?_, ?_⟩
      · have := Nat.le_ceil ((s / 2 - t0) / w)
        rw [div_le_iff₀ hw] at this
        simp only [htdef]; linarith
      · rcases le_total (s / 2 - t0) 0 with h | h
        · have : ⌈(s / 2 - t0) / w⌉₊ = 0 := Nat.ceil_eq_zero.2 (div_nonpos_of_nonpos_of_nonneg h hw.le)
          simp only [htdef, this, Nat.cast_zero, zero_mul, add_zero]
          rcases ht with ⟨h', -⟩ | ⟨h', -⟩ <;> rw [h'] <;> linarith
        · have := Nat.ceil_lt_add_one (div_nonneg h hw.le)
          have h2 : (⌈(s / 2 - t0) / w⌉₊ : ℝ) * w < ((s / 2 - t0) / w + 1) * w := mul_lt_mul_of_pos_right this hw
          rw [add_mul, div_mul_cancel₀ _ hw.ne'] at h2
          simp only [htdef]; linarith
    have hkm' := hkm k (by linarith)
    have hab := abel_ge (M := fun i => M i + ρ / 50000) (E := E) (fun i j hij => by have := hM hij; simpa using this)
      (by linarith) hkm' (hLk k) hEm
    have hsum : ∑ i ∈ range m, (M i + ρ / 50000) * (E i - E (i + 1)) =
        ∑ i ∈ range m, M i * (E i - E (i + 1)) + ρ / 50000 * (E 0 - E m) := by
      rw [← sum_range_sub', mul_sum, ← sum_add_distrib]
      exact sum_congr rfl fun i _ => by ring
    rw [hsum] at hab
    have hz : 3 / 10 ≤ e0 s (t k) := by
      have h1 : Real.exp (-(9 / 8)) ≤ e0 s (t k) := by
        unfold e0
        rw [Real.exp_le_exp, le_div_iff₀ (by positivity)]
        nlinarith [tnn k]
      have h2 : (3 : ℝ) / 10 ≤ Real.exp (-(9 / 8)) := by
        have h3 := Real.exp_one_lt_d9
        have h4 : Real.exp (9 / 8 : ℝ) = Real.exp 1 * Real.exp (1 / 8) := by rw [← Real.exp_add]; norm_num
        have h5 : Real.exp (1 / 8 : ℝ) ≤ 8 / 7 := by
          have := Real.exp_bound_div_one_sub_of_interval (x := 1 / 8) (by norm_num) (by norm_num)
          norm_num at this ⊢; linarith
        rw [Real.exp_neg, le_inv_comm₀ (by norm_num) (Real.exp_pos _), h4]
        have := Real.exp_pos (1 : ℝ)
        nlinarith
      linarith
    have hMk' := hMk k hk1
    have h6 : 29 / 100 ≤ (1 - ε) * e0 s (t k) - E m := by nlinarith
    have h7 : ρ / 10 * (29 / 100) ≤ (M k + ρ / 50000) * ((1 - ε) * e0 s (t k) - E m) :=
      mul_le_mul (by linarith) h6 (by norm_num) (by linarith)
    have h8 : ρ / 50000 * (E 0 - E m) ≤ ρ / 50000 := by nlinarith
    have h9 : 3 * ρ * ε ≤ 3 * ρ * (1 / 100000) := by gcongr
    nlinarith
  · -- wide bins
    have hM0' := hMw hws
    obtain ⟨k, hk1, hk2, hk3⟩ : ∃ k : ℕ, s / 2 ≤ t k ∧ t k ≤ w ∧ t k ≤ 5 / 2 := by
      rcases ht with ⟨h, h'⟩ | ⟨h, h'⟩
      · refine ⟨1, ?_, ?_, ?_⟩ <;> simp only [htdef, h, Nat.cast_one, one_mul, zero_add] <;> linarith
      · refine ⟨0, ?_, ?_, ?_⟩ <;> simp only [htdef, h, Nat.cast_zero, zero_mul, add_zero] <;> linarith
    have hMk' := hMk k hk1
    have hab := abel_ge hM hM0' (hkm k hk3) (hLk k) hEm
    by_cases hbad : w < 10 * (1 - ρ)
    · have hz : Real.exp (-17 / 2) ≤ e0 s (t k) := by
        unfold e0
        rw [Real.exp_le_exp, div_le_div_iff₀ (by norm_num) (by positivity), hs2]
        have htk := tnn k
        rcases le_total ρ (1 / 2) with h | h
        · have h1 : t k ^ 2 ≤ 25 / 4 := by nlinarith
          nlinarith
        · have h1 : t k ^ 2 ≤ 5 / 2 * (10 * (1 - ρ)) := by nlinarith
          nlinarith
      have h4 := exp_four
      rw [← hε] at h4
      have h5 : 52 * ε ≤ (1 - ε) * e0 s (t k) - E m := by nlinarith
      have h6 : ρ / 10 * (52 * ε) ≤ M k * ((1 - ε) * e0 s (t k) - E m) :=
        mul_le_mul hMk' h5 (by positivity) (by linarith)
      nlinarith [mul_pos hρ0 hε0]
    · push Not at hbad
      have g3 : 0 ≤ ∑ i ∈ range m, A i * (e5 ρ s (t (i + 1)) - e5 ρ s (t i)) := by
        refine sum_nonneg fun i hi => mul_nonneg (hA i (mem_range.1 hi)).1 (sub_nonneg.2 (e5_le hs ?_))
        have h1 : t (i + 1) ≤ 5 := tm ▸ tmono (i + 1) m (by have := mem_range.1 hi; omega)
        have h2 : t (i + 1) = t i + w := by simp only [htdef]; push_cast; ring
        nlinarith
      have h5 : 0 < (1 - ε) * e0 s (t k) - E m := by
        have h6 : E m ≤ e0 s 5 := by
          have h2 := e5_pos (ρ := ρ) (s := s) (-t m)
          simp only [hE]
          rw [tm] at h2 ⊢
          linarith
        have h7 : e0 s 5 ≤ ε * e0 s (5 / 2) * 100 := by
          have e1 : e0 s 5 = e0 s (5 / 2) * Real.exp (-(75 / 4) / (2 * s ^ 2)) := by
            unfold e0; rw [← Real.exp_add]; congr 1; field_simp; norm_num
          have e2 : Real.exp (-(75 / 4) / (2 * s ^ 2)) ≤ Real.exp (-25 / 2) * Real.exp 4 := by
            rw [← Real.exp_add, Real.exp_le_exp, div_le_iff₀ (by positivity)]
            nlinarith
          have e3 : Real.exp 4 ≤ 100 := by
            have h2 : Real.exp 4 = Real.exp 1 ^ 4 := by rw [← Real.exp_nat_mul]; norm_num
            rw [h2]
            have h4 : Real.exp 1 ^ 4 ≤ (2.72 : ℝ) ^ 4 :=
              pow_le_pow_left₀ (Real.exp_pos _).le (by linarith [Real.exp_one_lt_d9]) 4
            refine h4.trans (by norm_num)
          have e4 : Real.exp (-(75 / 4) / (2 * s ^ 2)) ≤ ε * 100 :=
            e2.trans (mul_le_mul_of_nonneg_left e3 hε0.le)
          rw [e1]
          have := mul_le_mul_of_nonneg_left e4 (Real.exp_pos (-(5 / 2 : ℝ) ^ 2 / (2 * s ^ 2))).le
          unfold e0
          linarith
        have h8 := e0_anti hs (tnn k) hk3
        have h9 : 0 < e0 s (5 / 2) := Real.exp_pos _
        nlinarith
      have h6 : 0 < M k * ((1 - ε) * e0 s (t k) - E m) := mul_pos (by linarith) h5
      linarith

end

end Phik.Gauss
