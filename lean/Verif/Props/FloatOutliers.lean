import Verif.Spec.FloatOutliers
import Verif.Props.FloatStats
import Verif.Lemmas.Outliers

/-! # Property C99: rounding errors of the expected frequencies of the outlier test -/

namespace Phik.Props

open Spec

/-! ### brackets -/

/-- `y` is `x` after at most `k` roundings. -/
def Within (k : ℕ) (x y : ℝ) : Prop := (1 - uR) ^ k * x ≤ y ∧ y ≤ (1 + uR) ^ k * x

theorem lo_nonneg (k : ℕ) : (0 : ℝ) ≤ (1 - uR) ^ k := pow_nonneg (by norm_num) _
theorem hi_nonneg (k : ℕ) : (0 : ℝ) ≤ (1 + uR) ^ k := pow_nonneg (by norm_num) _

namespace Within

theorem refl (x : ℝ) : Within 0 x x := by simp [Within]

theorem nonneg {k : ℕ} {x y : ℝ} (h : Within k x y) (hx : 0 ≤ x) : 0 ≤ y :=
  le_trans (mul_nonneg (lo_nonneg k) hx) h.1

theorem weaken {k m : ℕ} {x y : ℝ} (h : Within k x y) (hx : 0 ≤ x) (hm : k ≤ m) : Within m x y :=
  ⟨le_trans (mul_le_mul_of_nonneg_right (pow_le_pow_of_le_one (by norm_num) (by norm_num) hm) hx) h.1,
    le_trans h.2 (mul_le_mul_of_nonneg_right (pow_le_pow_right₀ (by norm_num) hm) hx)⟩

theorem trans {k m : ℕ} {x y z : ℝ} (h : Within k x y) (h' : Within m y z) : Within (k + m) x z := by
  constructor
  · calc (1 - uR) ^ (k + m) * x = (1 - uR) ^ m * ((1 - uR) ^ k * x) := by rw [pow_add]; ring
      _ ≤ (1 - uR) ^ m * y := mul_le_mul_of_nonneg_left h.1 (lo_nonneg m)
      _ ≤ z := h'.1
  · calc z ≤ (1 + uR) ^ m * y := h'.2
      _ ≤ (1 + uR) ^ m * ((1 + uR) ^ k * x) := mul_le_mul_of_nonneg_left h.2 (hi_nonneg m)
      _ = _ := by rw [pow_add]; ring

theorem mul {k m : ℕ} {x y x' y' : ℝ} (h : Within k x y) (h' : Within m x' y') (hx : 0 ≤ x) (hx' : 0 ≤ x') :
    Within (k + m) (x * x') (y * y') := by
  have hy := h.nonneg hx
  have hy' := h'.nonneg hx'
  constructor
  · calc (1 - uR) ^ (k + m) * (x * x') = ((1 - uR) ^ k * x) * ((1 - uR) ^ m * x') := by rw [pow_add]; ring
      _ ≤ y * y' := mul_le_mul h.1 h'.1 (mul_nonneg (lo_nonneg m) hx') hy
  · calc y * y' ≤ ((1 + uR) ^ k * x) * ((1 + uR) ^ m * x') := mul_le_mul h.2 h'.2 hy' (mul_nonneg (hi_nonneg k) hx)
      _ = _ := by rw [pow_add]; ring

theorem div {k : ℕ} {x y d : ℝ} (h : Within k x y) (hd : 0 < d) : Within k (x / d) (y / d) := by
  constructor
  · rw [← mul_div_assoc]; exact div_le_div_of_nonneg_right h.1 hd.le
  · rw [← mul_div_assoc]; exact div_le_div_of_nonneg_right h.2 hd.le

theorem add {k : ℕ} {x y x' y' : ℝ} (h : Within k x y) (h' : Within k x' y') : Within k (x + x') (y + y') := by
  constructor <;> rw [mul_add]
  · exact add_le_add h.1 h'.1
  · exact add_le_add h.2 h'.2

theorem round {fl : ℚ → ℚ} (hfl : RelRounding fl) {k : ℕ} {x : ℝ} {y : ℚ} (h : Within k x y) (hx : 0 ≤ x) : Within (k + 1) x (fl y : ℚ) := by
  have hy : 0 ≤ y := by exact_mod_cast h.nonneg hx
  refine h.trans ⟨?_, ?_⟩
  · have := hfl.mul_le hy
    have : ((y * (1 - 1 / 9007199254740992) : ℚ) : ℝ) ≤ (fl y : ℚ) := by exact_mod_cast this
    push_cast at this
    rw [pow_one, mul_comm]; exact this
  · have := hfl.le_mul hy
    have : ((fl y : ℚ) : ℝ) ≤ ((y * (1 + 1 / 9007199254740992) : ℚ) : ℝ) := by exact_mod_cast this
    push_cast at this
    rw [pow_one, mul_comm]; exact this

theorem square {pw : ℚ → ℚ} (hp : SquareRounding pw) {k : ℕ} {x : ℝ} {y : ℚ} (h : Within k x y) (hx : 0 ≤ x) :
    Within (2 * k + 3) (x ^ 2) (pw y : ℚ) := by
  have h2 : Within (2 * k) (x ^ 2) ((y : ℝ) ^ 2) := by
    have := h.mul h hx hx
    rw [two_mul, sq, sq]; exact this
  refine h2.trans ?_
  have he := abs_le.1 (hp y)
  have a1 : ((y ^ 2 - y ^ 2 / 2 ^ 52 : ℚ) : ℝ) ≤ (pw y : ℚ) := by exact_mod_cast (by linarith [he.1])
  have a2 : ((pw y : ℚ) : ℝ) ≤ ((y ^ 2 + y ^ 2 / 2 ^ 52 : ℚ) : ℝ) := by exact_mod_cast (by linarith [he.2])
  push_cast at a1 a2
  have p : (0 : ℝ) ≤ (y : ℝ) ^ 2 := sq_nonneg _
  constructor
  · refine le_trans ?_ a1
    calc (1 - uR) ^ 3 * (y : ℝ) ^ 2 ≤ (1 - 1 / 2 ^ 52) * (y : ℝ) ^ 2 := mul_le_mul_of_nonneg_right (by norm_num) p
      _ = _ := by ring
  · refine le_trans a2 ?_
    calc _ = (1 + 1 / 2 ^ 52) * (y : ℝ) ^ 2 := by ring
      _ ≤ (1 + uR) ^ 3 * (y : ℝ) ^ 2 := mul_le_mul_of_nonneg_right (by norm_num) p

theorem sqrt {k : ℕ} {x y : ℝ} (h : Within (2 * k) x y) (hx : 0 ≤ x) : Within k (√x) (√y) := by
  constructor
  · refine Real.le_sqrt_of_sq_le ?_
    rw [mul_pow, Real.sq_sqrt hx, ← pow_mul, mul_comm k]
    exact h.1
  · refine Real.sqrt_le_iff.2 ⟨mul_nonneg (hi_nonneg k) (Real.sqrt_nonneg _), ?_⟩
    rw [mul_pow, Real.sq_sqrt hx, ← pow_mul, mul_comm k]
    exact h.2

theorem root {sq : ℚ → ℚ} (hs : SqrtRounding sq) {x : ℚ} (hx : 0 ≤ x) : Within 1 (√(x : ℝ)) (sq x : ℚ) := by
  have := abs_le.1 (hs x hx)
  constructor
  · rw [pow_one]
    calc (1 - uR) * √(x : ℝ) = √(x : ℝ) - √(x : ℝ) / 2 ^ 53 := by norm_num; ring
      _ ≤ _ := by linarith [this.1]
  · rw [pow_one]
    calc _ ≤ √(x : ℝ) + √(x : ℝ) / 2 ^ 53 := by linarith [this.2]
      _ = _ := by norm_num; ring

theorem err {k : ℕ} {x y : ℝ} (h : Within k x y) (hx : 0 ≤ x) (hk : k ≤ 67108864) : |y - x| ≤ (k + 1) / 2 ^ 53 * x := by
  have hk' : (k : ℝ) ≤ 67108864 := by exact_mod_cast hk
  have k0 : (0 : ℝ) ≤ k := by positivity
  have hu : (k : ℝ) * uR ≤ 1 := by simp only [uR]; linarith
  have up := pow_upper k hu
  have lo := pow_lower k
  have hq : ((k : ℝ) * uR) ^ 2 ≤ uR := by
    simp only [uR]
    nlinarith
  have e53 : ((k : ℝ) + 1) / 2 ^ 53 = k * uR + uR := by norm_num; ring
  rw [e53, abs_le]
  have a1 := mul_le_mul_of_nonneg_right up hx
  have a2 := mul_le_mul_of_nonneg_right lo hx
  have a3 := mul_le_mul_of_nonneg_right hq hx
  have a4 : (0 : ℝ) ≤ uR * x := mul_nonneg (by norm_num) hx
  constructor
  · nlinarith [h.1]
  · nlinarith [h.2]

end Within

theorem within_of_err {k : ℕ} {x y : ℝ} (hx : 0 ≤ x) (hk : k ≤ 67108863) (h : |y - x| ≤ k / 2 ^ 53 * x) : Within (k + 1) x y := by
  have hk' : (k : ℝ) ≤ 67108863 := by exact_mod_cast hk
  have k0 : (0 : ℝ) ≤ k := by positivity
  have h' := abs_le.1 h
  have e53 : (k : ℝ) / 2 ^ 53 = k * uR := by norm_num; ring
  rw [e53] at h'
  have b : 1 + ((k + 1 : ℕ) : ℝ) * uR ≤ (1 + uR) ^ (k + 1) := one_add_mul_le_pow (by norm_num) _
  push_cast at b
  have u0 : (0 : ℝ) < uR := by norm_num
  constructor
  · have m1 : (1 - uR) ^ (k + 1) * (1 + uR) ^ (k + 1) ≤ 1 := by
      rw [← mul_pow]
      exact pow_le_one₀ (by norm_num) (by norm_num)
    have m2 : (1 - uR) ^ (k + 1) * (1 + (k + 1) * uR) ≤ 1 := le_trans (mul_le_mul_of_nonneg_left b (lo_nonneg _)) m1
    have m3 : (1 : ℝ) ≤ (1 - k * uR) * (1 + (k + 1) * uR) := by
      simp only [uR]; nlinarith
    have p : (0 : ℝ) < 1 + (k + 1) * uR := by positivity
    have m4 : (1 - uR) ^ (k + 1) ≤ 1 - k * uR := le_of_mul_le_mul_right (m2.trans m3) p
    have := mul_le_mul_of_nonneg_right m4 hx
    linarith [h'.1]
  · have : (1 + k * uR) * x ≤ (1 + uR) ^ (k + 1) * x := mul_le_mul_of_nonneg_right (by linarith) hx
    linarith [h'.2]

/-! ### the sums are exact -/

theorem fl_nat {fl : ℚ → ℚ} (hfl : RelRounding fl) {n : ℕ} (hn : n ≤ 4503599627370496) : fl n = n := by
  have := hfl.exact (2 * n) (by
    rw [abs_of_nonneg (by positivity)]
    omega)
  push_cast at this
  rwa [mul_div_cancel_left₀ _ (by norm_num : (2 : ℚ) ≠ 0)] at this

theorem fl_sub {fl : ℚ → ℚ} (hfl : RelRounding fl) {m n : ℕ} (hm : m ≤ 4503599627370496) (h : n ≤ m) : fl ((m : ℚ) - n) = ((m - n : ℕ) : ℚ) := by
  rw [← Nat.cast_sub h]
  exact fl_nat hfl (by omega)

section
variable {fl sq pw unc : ℚ → ℚ} {order : SumSite → List ℚ → SumTree} {r c : ℕ}

/-- The part of the table in the row of the cell, in its column, and in neither. -/
abbrev offRow (T : Fin r → Fin c → ℕ) (i : Fin r) (j : Fin c) : ℕ := ∑ j', T i j' - T i j
abbrev offCol (T : Fin r → Fin c → ℕ) (i : Fin r) (j : Fin c) : ℕ := ∑ i', T i' j - T i j
abbrev offBoth (T : Fin r → Fin c → ℕ) (i : Fin r) (j : Fin c) : ℕ := ∑ i', ∑ j', T i' j' - offRow T i j - offCol T i j - T i j

theorem cross_le (T : Fin r → Fin c → ℕ) (i : Fin r) (j : Fin c) :
    T i j ≤ ∑ j', T i j' ∧ T i j ≤ ∑ i', T i' j ∧ ∑ j', T i j' + ∑ i', T i' j ≤ ∑ i', ∑ j', T i' j' + T i j := by
  refine ⟨Finset.single_le_sum (f := fun j' => T i j') (fun _ _ => Nat.zero_le _) (Finset.mem_univ j),
    Finset.single_le_sum (f := fun i' => T i' j) (fun _ _ => Nat.zero_le _) (Finset.mem_univ i), ?_⟩
  have h1 := Finset.add_sum_erase Finset.univ (fun i' => ∑ j', T i' j') (Finset.mem_univ i)
  have h2 := Finset.add_sum_erase Finset.univ (fun i' => T i' j) (Finset.mem_univ i)
  have h3 : ∑ i' ∈ Finset.univ.erase i, T i' j ≤ ∑ i' ∈ Finset.univ.erase i, ∑ j', T i' j' :=
    Finset.sum_le_sum fun i' _ => Finset.single_le_sum (f := fun j' => T i' j') (fun _ _ => Nat.zero_le _) (Finset.mem_univ j)
  omega

theorem flEstimateCell_eq (hfl : RelRounding fl) (ho : AddsAll order) (T : Fin r → Fin c → ℕ) (hN : ∑ i, ∑ j, T i j ≤ 4503599627370496)
    (i : Fin r) (j : Fin c) :
    flEstimateCell fl sq pw unc order ⟨r, c, fun i j => (T i j : ℚ)⟩ i j =
      if 0 < offBoth T i j then
        let B : ℚ := offRow T i j
        let C : ℚ := offCol T i j
        let D : ℚ := offBoth T i j
        let e := fl (fl (B * C) / D)
        some (e, sq (fl (fl (pw (fl (fl (unc B * C) / D)) + pw (fl (fl (unc C * B) / D))) + pw (fl (fl (unc D * e) / D)))))
      else none := by
  unfold flEstimateCell
  obtain ⟨m1, m2⟩ := marg_le T i j
  obtain ⟨c1, c2, c3⟩ := cross_le T i j
  have e1 : (List.ofFn fun j' => (T i j' : ℚ)).sum = ((∑ j', T i j' : ℕ) : ℚ) := by rw [List.sum_ofFn]; push_cast; rfl
  have e2 : (List.ofFn fun i' => (T i' j : ℚ)).sum = ((∑ i', T i' j : ℕ) : ℚ) := by rw [List.sum_ofFn]; push_cast; rfl
  have s1 : flSum fl order (.row i) (List.ofFn fun j' => (T i j' : ℚ)) = ((∑ j', T i j' : ℕ) : ℚ) := by
    rw [flSum_int hfl ho _ (fun x hx => ?_) ?_, e1]
    · rw [e1]; exact_mod_cast m1.trans hN
    · obtain ⟨k, rfl⟩ := List.mem_ofFn.1 hx; exact ⟨_, rfl⟩
  have s2 : flSum fl order (.col j) (List.ofFn fun i' => (T i' j : ℚ)) = ((∑ i', T i' j : ℕ) : ℚ) := by
    rw [flSum_int hfl ho _ (fun x hx => ?_) ?_, e2]
    · rw [e2]; exact_mod_cast m2.trans hN
    · obtain ⟨k, rfl⟩ := List.mem_ofFn.1 hx; exact ⟨_, rfl⟩
  simp only [s1, s2, flTotal_eq hfl ho .total T hN]
  rw [fl_sub hfl (by omega) c1, fl_sub hfl (by omega) c2, fl_sub hfl hN (by omega), fl_sub hfl (by omega) (by omega),
    fl_sub hfl (by omega) (by omega)]
  simp only [Nat.cast_pos]

theorem estimateCell_eq (N : OutNum) (ci : String) {u : ℕ → ℝ} (hu : ∀ n : ℕ, getUncertainty N n ci = .ok (u n)) (T : Fin r → Fin c → ℕ)
    (i : Fin r) (j : Fin c) :
    estimateCell N ⟨r, c, T⟩ ci i j =
      if 0 < offBoth T i j then
        let B : ℝ := offRow T i j
        let C : ℝ := offCol T i j
        let D : ℝ := offBoth T i j
        let e := B * C / D
        .ok (some e, some (√((u (offRow T i j) * C / D) ^ 2 + (u (offCol T i j) * B / D) ^ 2 + (u (offBoth T i j) * e / D) ^ 2)))
      else .ok (none, none) := by
  obtain ⟨c1, c2, c3⟩ := cross_le T i j
  unfold estimateCell Arr2.rowSum Arr2.colSum Arr2.total
  simp only
  rw [← Nat.cast_sub c1, ← Nat.cast_sub c2, ← Nat.cast_sub (by omega), ← Nat.cast_sub (by omega), ← Nat.cast_sub (by omega)]
  simp only [hu, Nat.cast_pos]
  split <;> rfl

theorem core_rounding (hfl : RelRounding fl) (hs : SqrtRounding sq) (hp : SquareRounding pw) {B C D : ℕ} (hD : 0 < D) {u : ℕ → ℝ} (h0 : ∀ n, 0 ≤ u n)
    {k : ℕ} (hu : ∀ n : ℕ, Within k (u n) (unc n : ℚ)) :
    Within 2 ((B : ℝ) * C / D) (fl (fl ((B : ℚ) * C) / D) : ℚ) ∧
    Within (k + 8) (√((u B * C / D) ^ 2 + (u C * B / D) ^ 2 + (u D * ((B : ℝ) * C / D) / D) ^ 2))
      (sq (fl (fl (pw (fl (fl (unc B * C) / D)) + pw (fl (fl (unc C * B) / D))) + pw (fl (fl (unc D * fl (fl ((B : ℚ) * C) / D)) / D)))) : ℚ) := by
  have d0 : (0 : ℝ) < D := by exact_mod_cast hD
  have step : ∀ {m : ℕ} {x : ℝ} {y : ℚ}, 0 ≤ x → Within m x y → Within (m + 2) (x / D) (fl (fl y / D) : ℚ) := by
    intro m x y hx h
    have h1 := (h.round hfl hx).div d0
    have h2 : Within (m + 1) (x / D) ((fl y / D : ℚ) : ℝ) := by push_cast; exact h1
    exact h2.round hfl (by positivity)
  have nat : ∀ n : ℕ, Within 0 (n : ℝ) ((n : ℚ) : ℝ) := fun n => by simpa using Within.refl (n : ℝ)
  have he : Within 2 ((B : ℝ) * C / D) (fl (fl ((B : ℚ) * C) / D) : ℚ) := by
    have := (nat B).mul (nat C) (by positivity) (by positivity)
    exact step (m := 0) (by positivity) (by push_cast at this ⊢; exact this)
  refine ⟨he, ?_⟩
  have t1 : ∀ (X Y : ℕ), Within (2 * k + 7) ((u X * Y / D) ^ 2) (pw (fl (fl (unc X * Y) / D)) : ℚ) := by
    intro X Y
    have p : 0 ≤ u X * Y := mul_nonneg (h0 X) (by positivity)
    have h1 := (hu X).mul (nat Y) (h0 X) (by positivity)
    have h2 := step (y := unc X * Y) p (by push_cast at h1 ⊢; exact h1)
    have h3 := h2.square hp (by positivity)
    exact h3.weaken (by positivity) (by omega)
  have t3 : Within (2 * k + 11) ((u D * ((B : ℝ) * C / D) / D) ^ 2) (pw (fl (fl (unc D * fl (fl ((B : ℚ) * C) / D)) / D)) : ℚ) := by
    have p : 0 ≤ u D * ((B : ℝ) * C / D) := mul_nonneg (h0 D) (by positivity)
    have h1 := (hu D).mul he (h0 D) (by positivity)
    have h2 := step (y := unc D * fl (fl ((B : ℚ) * C) / D)) p (by push_cast at h1 ⊢; exact h1)
    have h3 := h2.square hp (by positivity)
    exact h3.weaken (by positivity) (by omega)
  have s1 : Within (2 * k + 12) ((u B * C / D) ^ 2 + (u C * B / D) ^ 2) (fl (pw (fl (fl (unc B * C) / D)) + pw (fl (fl (unc C * B) / D))) : ℚ) := by
    have h := (t1 B C).add (t1 C B)
    exact (Within.round hfl (y := pw (fl (fl (unc B * C) / D)) + pw (fl (fl (unc C * B) / D))) (by push_cast; exact h) (by positivity)).weaken
      (by positivity) (by omega)
  have s2 := s1.add (t3.weaken (by positivity) (by omega : 2 * k + 11 ≤ 2 * k + 12))
  have s3 := Within.round hfl (y := fl (pw (fl (fl (unc B * C) / D)) + pw (fl (fl (unc C * B) / D))) +
    pw (fl (fl (unc D * fl (fl ((B : ℚ) * C) / D)) / D))) (by push_cast; exact s2) (by positivity)
  have s4 := (s3.weaken (by positivity) (by omega : 2 * k + 12 + 1 ≤ 2 * (k + 7))).sqrt (by positivity)
  have nn := s3.nonneg (by positivity)
  exact s4.trans (Within.root hs (by exact_mod_cast nn))

/-- What the computed value `x` of a cell says about its exact value `y`. -/
theorem cell_rounding (hfl : RelRounding fl) (hs : SqrtRounding sq) (hp : SquareRounding pw) (ho : AddsAll order) (N : OutNum) (ci : String)
    {k : ℕ} (hk : k ≤ 1000000) {u : ℕ → ℝ} (hN : ∀ n : ℕ, getUncertainty N n ci = .ok (u n)) (h0 : ∀ n, 0 ≤ u n)
    (hu : ∀ n : ℕ, Within k (u n) (unc n : ℚ)) (T : Fin r → Fin c → ℕ) (hT : ∑ i, ∑ j, T i j ≤ 4503599627370496) :
    ∃ v : Fin r → Fin c → Option ℝ × Option ℝ, independentEstimates N ⟨r, c, T⟩ ci = .ok ⟨r, c, v⟩ ∧
      ∀ i j, EstimateWithin (3 / 2 ^ 53) ((k + 9) / 2 ^ 53) (v i j) (flEstimateCell fl sq pw unc order ⟨r, c, fun i j => (T i j : ℚ)⟩ i j) := by
  refine ⟨_, Out.cells2_ok (g := fun i j => if 0 < offBoth T i j then
        let B : ℝ := offRow T i j
        let C : ℝ := offCol T i j
        let D : ℝ := offBoth T i j
        let e := B * C / D
        (some e, some (√((u (offRow T i j) * C / D) ^ 2 + (u (offCol T i j) * B / D) ^ 2 + (u (offBoth T i j) * e / D) ^ 2)))
      else (none, none)) (fun i j => ?_), fun i j => ?_⟩
  · rw [estimateCell_eq N ci hN T i j]
    split <;> rfl
  · rw [flEstimateCell_eq hfl ho T hT]
    by_cases hD : 0 < offBoth T i j
    · simp only [hD, if_true]
      obtain ⟨h1, h2⟩ := core_rounding hfl hs hp (B := offRow T i j) (C := offCol T i j) hD h0 hu
      refine ⟨?_, ?_⟩
      · have := h1.err (by positivity) (by norm_num)
        norm_num at this ⊢
        exact this
      · have := h2.err (by positivity) (by omega)
        push_cast at this
        rw [show (k : ℝ) + 8 + 1 = k + 9 by ring] at this
        exact this
    · simp only [hD, if_false, EstimateWithin]

theorem poissonUncertainty_within (hs : SqrtRounding sq) (n : ℕ) : Within 1 (poissonUncertainty n) (flPoissonUncertainty sq n : ℚ) := by
  unfold poissonUncertainty flPoissonUncertainty
  by_cases h : 1 ≤ n
  · rw [if_pos (by exact_mod_cast h), if_pos (by exact_mod_cast h)]
    have := Within.root hs (x := n) (by positivity)
    simpa using this
  · rw [if_neg (by exact_mod_cast h), if_neg (by exact_mod_cast h)]
    have := (Within.refl 1).weaken (by norm_num) (by norm_num : 0 ≤ 1)
    simpa using this

/-! ### the theorems -/

/-- C99: the expected frequencies of the outlier test, and their errors, in floating point arithmetic. -/
theorem outlier_estimates_rounding (hfl : RelRounding fl) (hs : SqrtRounding sq) (hp : SquareRounding pw) (ho : AddsAll order) (N : OutNum) (ci : String)
    {k : ℕ} (hk : k < 1000000) (hu : ∀ n : ℕ, ∃ s, getUncertainty N n ci = .ok s ∧ 0 ≤ s ∧ |(unc n : ℝ) - s| ≤ k / 2 ^ 53 * s)
    (T : Fin r → Fin c → ℕ) (hT : ∑ i, ∑ j, T i j ≤ 2 ^ 52) :
    ∃ v : Fin r → Fin c → Option ℝ × Option ℝ, independentEstimates N ⟨r, c, T⟩ ci = .ok ⟨r, c, v⟩ ∧
      ∀ i j, EstimateWithin (3 / 2 ^ 53) ((k + 10) / 2 ^ 53) (v i j) (flEstimateCell fl sq pw unc order ⟨r, c, fun i j => (T i j : ℚ)⟩ i j) := by
  choose u h1 h2 h3 using hu
  have := cell_rounding (order := order) hfl hs hp ho N ci (k := k + 1) (by omega) h1 h2 (fun n => within_of_err (h2 n) (by omega) (h3 n)) T (by simpa using hT)
  push_cast at this
  rw [show ((k : ℝ) + 1 + 9) = k + 10 by ring] at this
  exact this

/-- C99 for the method `'poisson'`: every value has a relative error of at most 3 or 10 units of rounding. -/
theorem outlier_estimates_rounding_poisson (hfl : RelRounding fl) (hs : SqrtRounding sq) (hp : SquareRounding pw) (ho : AddsAll order) (N : OutNum)
    (T : Fin r → Fin c → ℕ) (hT : ∑ i, ∑ j, T i j ≤ 2 ^ 52) :
    ∃ v : Fin r → Fin c → Option ℝ × Option ℝ, independentEstimates N ⟨r, c, T⟩ "poisson" = .ok ⟨r, c, v⟩ ∧
      ∀ i j, EstimateWithin (3 / 2 ^ 53) (10 / 2 ^ 53) (v i j)
        (flEstimateCell fl sq pw (flPoissonUncertainty sq) order ⟨r, c, fun i j => (T i j : ℚ)⟩ i j) := by
  have := cell_rounding (order := order) hfl hs hp ho N "poisson" (k := 1) (by norm_num) (u := fun n => poissonUncertainty n)
    (fun n => by simp [getUncertainty]) (fun n => by unfold poissonUncertainty; split <;> positivity) (poissonUncertainty_within hs) T (by simpa using hT)
  norm_num at this ⊢
  exact this

end

end Phik.Props
