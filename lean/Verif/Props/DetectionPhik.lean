import Verif.Props.Detection
import Verif.Props.CramerV

/-! # Property C102 for phik: a deviation from independence bounds phik from below -/

namespace Phik.Props

open Spec Gauss Set

/-- **C102 (phik).** phik of a square table of `n` records without noise correction is, up to the tolerance of the root finder, at least
`(D / n) / √(k - 1)`, where `D` is the deviation from independence and `k` the number of categories; with noise correction at least the root
of the fraction by which `D² / n` exceeds the pedestal. -/
theorem phik_ge_deviation {brentq : (ℝ → ℝ) → ℝ → ℝ → ℝ → Except Err ℝ} (hb : BrentqSpec brentq) {a : Arr2 ℝ}
    (h : DataTable a) {k : ℕ} (hr : a.r = k) (hc : a.c = k) (hk : 2 ≤ k) :
    (∃ x, phikFromHist2d gaussMvn brentq a false = .ok x ∧ tableDeviation a / a.total / √((k : ℝ) - 1) ≤ x + rootTol) ∧
    ∃ x, phikFromHist2d gaussMvn brentq a true = .ok x ∧
      √((tableDeviation a ^ 2 / a.total - ((k : ℝ) - 1) ^ 2) / (a.total * ((k : ℝ) - 1) - ((k : ℝ) - 1) ^ 2)) ≤ x + rootTol := by
  have ha := data_isCount h (by omega)
  have t0 := ha.pos
  obtain ⟨y, -, hy, -, hD, -⟩ := chi2_ge_deviation ha
  rw [(get_chi2_value ha).1] at hy
  cases hy
  have em : ((min (a.r - 1) (a.c - 1) : ℕ) : ℝ) = (k : ℝ) - 1 := by
    rw [hr, hc, min_self, Nat.cast_sub (by omega), Nat.cast_one]
  have k1 : (1 : ℝ) ≤ (k : ℝ) - 1 := by
    have : (2 : ℝ) ≤ k := by exact_mod_cast hk
    linarith
  have k0 : (0 : ℝ) < (k : ℝ) - 1 := by linarith
  constructor
  · obtain ⟨x, e, hx, -⟩ := phik_cramersV hb h (by rw [hr, hc]) (by omega)
    refine ⟨x, e, le_trans ?_ hx⟩
    unfold cramersV
    rw [em]
    refine Real.le_sqrt_of_sq_le ?_
    rw [div_pow, Real.sq_sqrt k0.le, div_le_div_iff₀ k0 (by positivity), div_pow]
    have := mul_le_mul_of_nonneg_right hD k0.le
    calc tableDeviation a ^ 2 / a.total ^ 2 * (a.total * ((k : ℝ) - 1)) = tableDeviation a ^ 2 / a.total * ((k : ℝ) - 1) := by field_simp
      _ ≤ _ := this
  · obtain ⟨x, e, hx, -⟩ := phik_cramersV_noise hb h hr hc hk true
    refine ⟨x, e, le_trans ?_ hx⟩
    unfold cramersVAbove
    simp only [if_true]
    rw [em]
    refine Real.sqrt_le_sqrt (div_le_div_of_nonneg_right (by linarith) ?_)
    have := data_total_ge h (show 2 ≤ a.r by omega)
    rw [hr] at this
    nlinarith

/-- **C102 (phik, enough records).** A deviation of at least the fraction `δ` of the records of a square table gives a phik of at least
`δ / √(k - 1)` without noise correction, and of at least half of it (up to the tolerance) with noise correction, as soon as there are
`4 (k - 1)² / (3 δ²)` records. -/
theorem phik_detects {brentq : (ℝ → ℝ) → ℝ → ℝ → ℝ → Except Err ℝ} (hb : BrentqSpec brentq) {a : Arr2 ℝ}
    (h : DataTable a) {k : ℕ} (hr : a.r = k) (hc : a.c = k) (hk : 2 ≤ k) {δ : ℝ} (hδ : 0 < δ) (hd : δ * a.total ≤ tableDeviation a) :
    (∃ x, phikFromHist2d gaussMvn brentq a false = .ok x ∧ δ / √((k : ℝ) - 1) ≤ x + rootTol) ∧
    (4 * ((k : ℝ) - 1) ^ 2 / (3 * δ ^ 2) ≤ a.total →
      ∃ x, phikFromHist2d gaussMvn brentq a true = .ok x ∧ δ / (2 * √((k : ℝ) - 1)) ≤ x + rootTol) := by
  obtain ⟨⟨x, e, hx⟩, y, e', hy⟩ := phik_ge_deviation hb h hr hc hk
  have t0 := (data_isCount h (by omega)).pos
  have k1 : (1 : ℝ) ≤ (k : ℝ) - 1 := by
    have : (2 : ℝ) ≤ k := by exact_mod_cast hk
    linarith
  have k0 : (0 : ℝ) < (k : ℝ) - 1 := by linarith
  have hmax : 0 < a.total * ((k : ℝ) - 1) - ((k : ℝ) - 1) ^ 2 := by
    have := data_total_ge h (show 2 ≤ a.r by omega)
    rw [hr] at this
    nlinarith
  refine ⟨⟨x, e, le_trans (div_le_div_of_nonneg_right ((le_div_iff₀ t0).2 hd) (Real.sqrt_nonneg _)) hx⟩, fun hn => ⟨y, e', le_trans ?_ hy⟩⟩
  refine Real.le_sqrt_of_sq_le ?_
  rw [div_pow, mul_pow, Real.sq_sqrt k0.le, div_le_div_iff₀ (by positivity) hmax]
  rw [div_le_iff₀ (by positivity)] at hn
  have q : δ ^ 2 * a.total ≤ tableDeviation a ^ 2 / a.total := by
    rw [le_div_iff₀ t0]
    have := pow_le_pow_left₀ (by positivity) hd 2
    nlinarith
  have h1 : δ ^ 2 * a.total / 4 ≤ tableDeviation a ^ 2 / a.total - ((k : ℝ) - 1) ^ 2 := by linarith
  have h2 := mul_le_mul_of_nonneg_right h1 (show (0 : ℝ) ≤ 2 ^ 2 * ((k : ℝ) - 1) by positivity)
  have h3 : 0 ≤ δ ^ 2 * ((k : ℝ) - 1) ^ 2 := by positivity
  nlinarith

/-- Non-vacuity: three perfectly associated categories with five records each. -/
example {brentq : (ℝ → ℝ) → ℝ → ℝ → ℝ → Except Err ℝ} (hb : BrentqSpec brentq) :
    ∃ x, phikFromHist2d gaussMvn brentq (diagTable 3 5) true = .ok x ∧ (4 / 3) / (2 * √(((3 : ℕ) : ℝ) - 1)) ≤ x + rootTol := by
  have hd : DataTable (diagTable 3 5) := by
    have one : ∀ i : Fin 3, (if (i : Fin 3) = i then ((5 : ℕ) : ℝ) else 0) ≠ 0 := by simp
    have cnt : ∀ i j : Fin 3, ∃ n : ℕ, (if i = j then ((5 : ℕ) : ℝ) else 0) = n := fun i j => by
      by_cases q : i = j
      · exact ⟨5, by rw [if_pos q]⟩
      · exact ⟨0, by rw [if_neg q]; simp⟩
    exact ⟨cnt, fun i => ⟨i, one i⟩, fun i => ⟨i, one i⟩⟩
  have ht : (diagTable 3 5).total = 15 := by rw [diagTable_total]; norm_num
  have hv : tableDeviation (diagTable 3 5) = 20 := by rw [diagTable_deviation (by norm_num) (by norm_num)]; norm_num
  exact (phik_detects hb hd (k := 3) rfl rfl (by norm_num) (δ := 4 / 3) (by norm_num) (by rw [ht, hv]; norm_num)).2 (by rw [ht]; norm_num)

end Phik.Props
