import Verif.Lemmas.FloatStats
import Verif.Props.Phik
import Verif.Spec.FloatStats

/-! # Property C88: rounding errors of the Pearson statistic -/

namespace Phik.Props

open Spec

/-! ### analysis -/

theorem norm_diff {ι : Type} [Fintype ι] {e x y : ι → ℝ} (he : ∀ k, 0 < e k) {K : ℝ} (hK : 0 ≤ K) (h : ∑ k, (y k - x k) ^ 2 / e k ≤ K ^ 2) :
    |√(∑ k, y k ^ 2 / e k) - √(∑ k, x k ^ 2 / e k)| ≤ K := by
  let X : EuclideanSpace ℝ ι := WithLp.toLp 2 fun k => x k / √(e k)
  let Y : EuclideanSpace ℝ ι := WithLp.toLp 2 fun k => y k / √(e k)
  have hn : ∀ z : ι → ℝ, ‖(WithLp.toLp 2 fun k => z k / √(e k) : EuclideanSpace ℝ ι)‖ = √(∑ k, z k ^ 2 / e k) := by
    intro z
    rw [EuclideanSpace.norm_eq]
    congr 1
    refine Finset.sum_congr rfl fun k _ => ?_
    simp only [Real.norm_eq_abs, sq_abs, div_pow, Real.sq_sqrt (he k).le]
  have hsub : Y - X = WithLp.toLp 2 fun k => (y k - x k) / √(e k) := by
    ext k
    simp [X, Y, sub_div]
  have := abs_norm_sub_norm_le Y X
  rw [hsub, hn, hn, hn] at this
  refine this.trans ?_
  rw [← Real.sqrt_sq hK]
  exact Real.sqrt_le_sqrt h

theorem sqrt_factor {S Y θ : ℝ} (hY : 0 ≤ Y) (h0 : 0 ≤ θ) (h1 : θ ≤ 1) (hi : S ≤ (1 + θ) ^ 2 * Y) (lo : (1 - θ) ^ 2 * Y ≤ S) : |√S - √Y| ≤ θ * √Y := by
  have a := Real.sqrt_le_sqrt hi
  have b := Real.sqrt_le_sqrt lo
  rw [Real.sqrt_mul (by positivity), Real.sqrt_sq (by linarith)] at a b
  rw [abs_le]
  constructor <;> linarith

/-- `u` as a real number. -/
noncomputable abbrev uR : ℝ := 1 / 9007199254740992

theorem pow_upper (m : ℕ) (hm : (m : ℝ) * uR ≤ 1) : (1 + uR) ^ m ≤ 1 + m * uR + (m * uR) ^ 2 := by
  have h1 : (1 + uR) ^ m ≤ Real.exp (m * uR) := by
    rw [Real.exp_nat_mul]
    refine pow_le_pow_left₀ (by norm_num) ?_ m
    have := Real.add_one_le_exp uR
    linarith
  have h0 : 0 ≤ (m : ℝ) * uR := by positivity
  have h2 := Real.abs_exp_sub_one_sub_id_le (x := m * uR) (by rwa [abs_of_nonneg h0])
  linarith [(abs_le.1 h2).2]

theorem pow_lower (m : ℕ) : 1 - m * uR ≤ (1 - uR) ^ m := by
  have := one_add_mul_le_pow (a := -uR) (by norm_num) m
  calc 1 - m * uR = 1 + m * -uR := by ring
    _ ≤ (1 + -uR) ^ m := this
    _ = _ := by ring

theorem factor_upper (D : ℕ) (hD : ((D + 8 : ℕ) : ℝ) * uR ≤ 1) : (1 + uR) ^ (D + 4) / (1 - uR) ^ 2 ≤ (1 + (D + 8 : ℕ) * uR) ^ 2 := by
  have h1 : 1 / (1 - uR) ^ 2 ≤ (1 + uR) ^ 4 := by
    rw [div_le_iff₀ (by norm_num)]; norm_num
  have h2 := pow_upper (D + 8) hD
  have h0 : 0 ≤ ((D + 8 : ℕ) : ℝ) * uR := by positivity
  calc (1 + uR) ^ (D + 4) / (1 - uR) ^ 2 = (1 + uR) ^ (D + 4) * (1 / (1 - uR) ^ 2) := by ring
    _ ≤ (1 + uR) ^ (D + 4) * (1 + uR) ^ 4 := mul_le_mul_of_nonneg_left h1 (by positivity)
    _ = (1 + uR) ^ (D + 8) := by rw [← pow_add]
    _ ≤ _ := h2.trans (by nlinarith)

theorem factor_lower (D : ℕ) (hD : ((D + 8 : ℕ) : ℝ) * uR ≤ 1) : (1 - (D + 8 : ℕ) * uR) ^ 2 ≤ (1 - uR) ^ (D + 4) / (1 + uR) ^ 2 := by
  have h1 : (1 - uR) ^ 2 ≤ 1 / (1 + uR) ^ 2 := by
    rw [le_div_iff₀ (by norm_num)]; norm_num
  have h2 := pow_lower (D + 6)
  have h0 : 0 ≤ ((D + 8 : ℕ) : ℝ) * uR := by positivity
  calc (1 - (D + 8 : ℕ) * uR) ^ 2 ≤ 1 - (D + 8 : ℕ) * uR := by nlinarith
    _ ≤ 1 - (D + 6 : ℕ) * uR := by
      have : ((D + 6 : ℕ) : ℝ) * uR ≤ ((D + 8 : ℕ) : ℝ) * uR := mul_le_mul_of_nonneg_right (by push_cast; linarith) (by norm_num)
      linarith
    _ ≤ (1 - uR) ^ (D + 6) := h2
    _ = (1 - uR) ^ (D + 4) * (1 - uR) ^ 2 := by rw [← pow_add]
    _ ≤ (1 - uR) ^ (D + 4) * (1 / (1 + uR) ^ 2) := mul_le_mul_of_nonneg_left h1 (pow_nonneg (by norm_num) _)
    _ = _ := by ring

/-- From the errors of the single operations to the error of the statistic. -/
theorem statistic_error {ι : Type} [Fintype ι] {e e' obs o' t : ι → ℝ} {x N : ℝ} {D : ℕ} (hN : 0 ≤ N) (hD : D ≤ 67108864)
    (he : ∀ k, 0 < e k) (h1 : ∀ k, (1 - uR) ^ 2 * e k ≤ e' k) (h2 : ∀ k, e' k ≤ (1 + uR) ^ 2 * e k)
    (t1 : ∀ k, (1 - uR) ^ 4 * ((o' k - e' k) ^ 2 / e' k) ≤ t k) (t2 : ∀ k, t k ≤ (1 + uR) ^ 4 * ((o' k - e' k) ^ 2 / e' k))
    (x1 : (1 - uR) ^ D * ∑ k, t k ≤ x) (x2 : x ≤ (1 + uR) ^ D * ∑ k, t k)
    (hk : ∑ k, ((o' k - e' k) - (obs k - e k)) ^ 2 / e k ≤ 1000 * uR ^ 2 * N) :
    |√x - √(∑ k, (obs k - e k) ^ 2 / e k)| ≤ (D + 8 : ℕ) * uR * √(∑ k, (obs k - e k) ^ 2 / e k) + √N / 281474976710656 := by
  set θ : ℝ := (D + 8 : ℕ) * uR with hθ
  have hDr : (D : ℝ) ≤ 67108864 := by exact_mod_cast hD
  have θ0 : 0 ≤ θ := by positivity
  have θ1 : θ ≤ 1 / 10 ^ 8 := by rw [hθ]; push_cast; norm_num; linarith
  set Y := ∑ k, (o' k - e' k) ^ 2 / e k with hY
  set X := ∑ k, (obs k - e k) ^ 2 / e k with hX
  have hY0 : 0 ≤ Y := Finset.sum_nonneg fun k _ => div_nonneg (sq_nonneg _) (he k).le
  have he' : ∀ k, 0 < e' k := fun k => lt_of_lt_of_le (mul_pos (by norm_num) (he k)) (h1 k)
  have q1 : ∀ k, (o' k - e' k) ^ 2 / e k / (1 + uR) ^ 2 ≤ (o' k - e' k) ^ 2 / e' k := fun k => by
    rw [div_div]
    exact div_le_div_of_nonneg_left (sq_nonneg _) (he' k) (by rw [mul_comm]; exact h2 k)
  have q2 : ∀ k, (o' k - e' k) ^ 2 / e' k ≤ (o' k - e' k) ^ 2 / e k / (1 - uR) ^ 2 := fun k => by
    rw [div_div]
    exact div_le_div_of_nonneg_left (sq_nonneg _) (mul_pos (he k) (by norm_num)) (by rw [mul_comm]; exact h1 k)
  have s1 : (1 - uR) ^ 4 * (Y / (1 + uR) ^ 2) ≤ ∑ k, t k := by
    rw [hY, Finset.sum_div, Finset.mul_sum]
    exact Finset.sum_le_sum fun k _ => le_trans (mul_le_mul_of_nonneg_left (q1 k) (by norm_num)) (t1 k)
  have s2 : ∑ k, t k ≤ (1 + uR) ^ 4 * (Y / (1 - uR) ^ 2) := by
    rw [hY, Finset.sum_div, Finset.mul_sum]
    exact Finset.sum_le_sum fun k _ => le_trans (t2 k) (mul_le_mul_of_nonneg_left (q2 k) (by norm_num))
  have hi : x ≤ (1 + θ) ^ 2 * Y := by
    refine x2.trans (le_trans (mul_le_mul_of_nonneg_left s2 (by positivity)) ?_)
    calc (1 + uR) ^ D * ((1 + uR) ^ 4 * (Y / (1 - uR) ^ 2)) = (1 + uR) ^ (D + 4) / (1 - uR) ^ 2 * Y := by rw [pow_add]; ring
      _ ≤ _ := mul_le_mul_of_nonneg_right (factor_upper D (by rw [← hθ]; linarith)) hY0
  have lo : (1 - θ) ^ 2 * Y ≤ x := by
    refine le_trans ?_ (le_trans (mul_le_mul_of_nonneg_left s1 (pow_nonneg (by norm_num) D)) x1)
    calc (1 - θ) ^ 2 * Y ≤ (1 - uR) ^ (D + 4) / (1 + uR) ^ 2 * Y := mul_le_mul_of_nonneg_right (factor_lower D (by rw [← hθ]; linarith)) hY0
      _ = _ := by rw [pow_add]; ring
  have a := sqrt_factor hY0 θ0 (by linarith) hi lo
  set K := 63 / 2 * (1 + 1 / 100) * uR * √N with hK
  have b : |√Y - √X| ≤ K := by
    refine norm_diff he (by positivity) (hk.trans ?_)
    rw [hK, mul_pow, mul_pow, Real.sq_sqrt hN]
    refine mul_le_mul_of_nonneg_right ?_ hN
    norm_num
  have hsN := Real.sqrt_nonneg N
  have hYX : √Y ≤ √X + K := by linarith [(abs_le.1 b).2]
  have : |√x - √X| ≤ θ * √Y + K := by
    have : √x - √X = (√x - √Y) + (√Y - √X) := by ring
    rw [this]
    exact (abs_add_le _ _).trans (add_le_add a b)
  refine this.trans ?_
  have h3 : θ * √Y ≤ θ * √X + θ * K := by rw [← mul_add]; exact mul_le_mul_of_nonneg_left hYX θ0
  have hK0 : 0 ≤ K := by positivity
  have h4 : θ * K ≤ 1 / 10 ^ 8 * K := mul_le_mul_of_nonneg_right θ1 hK0
  have h5 : K + 1 / 10 ^ 8 * K ≤ √N / 281474976710656 := by
    rw [hK]
    norm_num
    linarith
  linarith

/-! ### a table without empty rows and columns -/

section
variable {fl : ℚ → ℚ} {order : SumSite → List ℚ → SumTree} {r c : ℕ}

/-- The expectation in exact arithmetic. -/
def exactE (T : Fin r → Fin c → ℕ) (i : Fin r) (j : Fin c) : ℚ :=
  ((∑ j', T i j' : ℕ) : ℚ) * (∑ i', T i' j : ℕ) / (∑ i', ∑ j', T i' j' : ℕ)

theorem marg_le (T : Fin r → Fin c → ℕ) (i : Fin r) (j : Fin c) :
    ∑ j', T i j' ≤ ∑ i', ∑ j', T i' j' ∧ ∑ i', T i' j ≤ ∑ i', ∑ j', T i' j' := by
  refine ⟨Finset.single_le_sum (f := fun i => ∑ j', T i j') (fun _ _ => Nat.zero_le _) (Finset.mem_univ i), ?_⟩
  rw [Finset.sum_comm]
  exact Finset.single_le_sum (f := fun j => ∑ i', T i' j) (fun _ _ => Nat.zero_le _) (Finset.mem_univ j)

theorem flTotal_eq (hfl : RelRounding fl) (ho : ∀ s l, l ≠ [] → (order s l).leaves.Perm l) (s : SumSite) (T : Fin r → Fin c → ℕ)
    (hN : ∑ i, ∑ j, T i j ≤ 4503599627370496) :
    flSum fl order s (cellList fun i j => (T i j : ℚ)) = (∑ i, ∑ j, T i j : ℕ) := by
  have e : (cellList fun i j => (T i j : ℚ)).sum = ((∑ i, ∑ j, T i j : ℕ) : ℚ) := by rw [cellList_sum]; push_cast; rfl
  rw [flSum_int hfl ho s (fun x hx => ?_) ?_, e]
  · rw [e]; exact_mod_cast hN
  · obtain ⟨i, j, rfl⟩ := mem_cellList.1 hx
    exact ⟨_, rfl⟩

theorem flExpected_eq (hfl : RelRounding fl) (ho : ∀ s l, l ≠ [] → (order s l).leaves.Perm l) (T : Fin r → Fin c → ℕ)
    (hN : ∑ i, ∑ j, T i j ≤ 4503599627370496) (i : Fin r) (j : Fin c) :
    flExpected fl order ⟨r, c, fun i j => (T i j : ℚ)⟩ i j =
      fl (fl (((∑ j', T i j' : ℕ) : ℚ) * (∑ i', T i' j : ℕ)) / (∑ i', ∑ j', T i' j' : ℕ)) := by
  unfold flExpected
  simp only
  obtain ⟨m1, m2⟩ := marg_le T i j
  have e1 : (List.ofFn fun j' => (T i j' : ℚ)).sum = ((∑ j', T i j' : ℕ) : ℚ) := by rw [List.sum_ofFn]; push_cast; rfl
  have e2 : (List.ofFn fun i' => (T i' j : ℚ)).sum = ((∑ i', T i' j : ℕ) : ℚ) := by rw [List.sum_ofFn]; push_cast; rfl
  rw [flTotal_eq hfl ho .total T hN, flSum_int hfl ho (.row i) (l := List.ofFn fun j' => (T i j' : ℚ)) (fun x hx => ?_) ?_,
    flSum_int hfl ho (.col j) (l := List.ofFn fun i' => (T i' j : ℚ)) (fun x hx => ?_) ?_, e1, e2]
  · rw [e2]; exact_mod_cast m2.trans hN
  · obtain ⟨k, rfl⟩ := List.mem_ofFn.1 hx; exact ⟨_, rfl⟩
  · rw [e1]; exact_mod_cast m1.trans hN
  · obtain ⟨k, rfl⟩ := List.mem_ofFn.1 hx; exact ⟨_, rfl⟩

theorem flExpected_bounds (hfl : RelRounding fl) (ho : ∀ s l, l ≠ [] → (order s l).leaves.Perm l) (T : Fin r → Fin c → ℕ)
    (hN : ∑ i, ∑ j, T i j ≤ 4503599627370496) (hpos : 0 < ∑ i, ∑ j, T i j) (i : Fin r) (j : Fin c) :
    (1 - uRound) ^ 2 * exactE T i j ≤ flExpected fl order ⟨r, c, fun i j => (T i j : ℚ)⟩ i j ∧
      flExpected fl order ⟨r, c, fun i j => (T i j : ℚ)⟩ i j ≤ (1 + uRound) ^ 2 * exactE T i j := by
  rw [flExpected_eq hfl ho T hN]
  exact fl_expect_bounds hfl (by positivity) (by exact_mod_cast hpos)

theorem exactE_sum (T : Fin r → Fin c → ℕ) (hpos : 0 < ∑ i, ∑ j, T i j) : ∑ i, ∑ j, exactE T i j = (∑ i, ∑ j, T i j : ℕ) := by
  unfold exactE
  have hp : ((∑ i, ∑ j, T i j : ℕ) : ℚ) ≠ 0 := by exact_mod_cast hpos.ne'
  have h2 : ∑ j, ((∑ i', T i' j : ℕ) : ℚ) = (∑ i, ∑ j, T i j : ℕ) := by
    rw [Finset.sum_comm]; push_cast; rfl
  simp only [← Finset.sum_div, ← Finset.mul_sum, ← Finset.sum_mul, h2]
  have h1 : ∑ i, ((∑ j', T i j' : ℕ) : ℚ) = (∑ i, ∑ j, T i j : ℕ) := by push_cast; rfl
  rw [h1, mul_div_assoc, div_self hp, mul_one]

/-- The check of the sums passes when the relative difference is at most 8e-9. -/
theorem check_passes (hfl : RelRounding fl) {so se n : ℚ} (hn : 0 < n) (hd : |so - se| ≤ 8 / 10 ^ 9 * n) (h1 : (1 - 1 / 10 ^ 8) * n ≤ so)
    (h2 : (1 - 1 / 10 ^ 8) * n ≤ se) : ¬ fl (1 / 10 ^ 8) < fl (|fl (so - se)| / min so se) := by
  rw [not_lt]
  refine hfl.mono _ _ ?_
  have hm : (1 - 1 / 10 ^ 8) * n ≤ min so se := le_min h1 h2
  have hm0 : 0 < min so se := lt_of_lt_of_le (by positivity) hm
  rw [div_le_iff₀ hm0]
  have := (abs_fl_bounds hfl (so - se)).2
  have h3 := mul_le_mul_of_nonneg_left hd (by norm_num : (0 : ℚ) ≤ 1 + uRound)
  have h4 := mul_le_mul_of_nonneg_left hm (by norm_num : (0 : ℚ) ≤ 1 / 10 ^ 8)
  refine this.trans (h3.trans (le_trans ?_ h4))
  norm_num [uRound]
  linarith

theorem exactE_pos (T : Fin r → Fin c → ℕ) (hr : ∀ i, 0 < ∑ j, T i j) (hc : ∀ j, 0 < ∑ i, T i j) (i : Fin r) (j : Fin c) : 0 < exactE T i j := by
  have := (hr i).trans_le (marg_le T i j).1
  have h1 := hr i
  have h2 := hc j
  unfold exactE
  have a1 : (0 : ℚ) < (∑ j', T i j' : ℕ) := by exact_mod_cast h1
  have a2 : (0 : ℚ) < (∑ i', T i' j : ℕ) := by exact_mod_cast h2
  have a3 : (0 : ℚ) < (∑ i', ∑ j', T i' j' : ℕ) := by exact_mod_cast this
  positivity

theorem pow_upper_rat {m : ℕ} (hm : m ≤ 67108864) : (1 + uRound) ^ (m + 2) ≤ 1 + ((m : ℚ) + 3) * uRound := by
  have h : (m : ℝ) ≤ 67108864 := by exact_mod_cast hm
  have h0 : (0 : ℝ) ≤ m := Nat.cast_nonneg m
  have h1 := pow_upper (m + 2) (by push_cast; norm_num; linarith)
  have : (((1 + uRound) ^ (m + 2) : ℚ) : ℝ) ≤ ((1 + ((m : ℚ) + 3) * uRound : ℚ) : ℝ) := by
    push_cast at h1 ⊢
    refine h1.trans ?_
    have : (((m : ℝ) + 2) * uR) ^ 2 ≤ uR := by
      have h2 : ((m : ℝ) + 2) ^ 2 ≤ 67108866 ^ 2 := pow_le_pow_left₀ (by linarith) (by linarith) 2
      have h3 := mul_le_mul_of_nonneg_right h2 (by norm_num : 0 ≤ uR ^ 2)
      rw [mul_pow]
      refine h3.trans ?_
      norm_num
    have e : 1 + ((m : ℝ) + 3) * (1 / 9007199254740992) = 1 + ((m : ℝ) + 2) * uR + uR := by ring
    rw [e]
    linarith
  exact_mod_cast this

theorem pow_lower_rat (m : ℕ) : 1 - ((m : ℚ) + 3) * uRound ≤ (1 - uRound) ^ (m + 2) := by
  have := one_add_mul_le_pow (a := -uRound) (by norm_num) (m + 2)
  rw [← sub_eq_add_neg] at this
  refine le_trans ?_ this
  push_cast
  norm_num [uRound]
  linarith

/-- The computed sum of the expectations. -/
theorem sum_expected_close (hfl : RelRounding fl) (ho : ∀ s l, l ≠ [] → (order s l).leaves.Perm l) (T : Fin r → Fin c → ℕ)
    (hr : ∀ i, 0 < ∑ j, T i j) (hc : ∀ j, 0 < ∑ i, T i j)
    (hN : ∑ i, ∑ j, T i j ≤ 4503599627370496) (hpos : 0 < ∑ i, ∑ j, T i j) (hs : r * c ≤ 67108864) :
    |flSum fl order .expected (cellList (flExpected fl order ⟨r, c, fun i j => (T i j : ℚ)⟩)) - (∑ i, ∑ j, T i j : ℕ)| ≤
      ((r * c : ℕ) + 3) * uRound * (∑ i, ∑ j, T i j : ℕ) := by
  set E := flExpected fl order ⟨r, c, fun i j => (T i j : ℚ)⟩ with hE
  have hb := flExpected_bounds hfl ho T hN hpos
  have hE0 : ∀ i j, 0 ≤ E i j := fun i j => le_trans (mul_nonneg (by norm_num) (exactE_pos T hr hc i j).le) (hb i j).1
  have hsum := flSum_bounds hfl ho .expected (l := cellList E) (fun x hx => by obtain ⟨i, j, rfl⟩ := mem_cellList.1 hx; exact hE0 i j) (D := r * c) (fun hl => by
    have := (order .expected (cellList E)).depth_lt
    rw [(ho .expected _ hl).length_eq, cellList_length] at this
    exact this.le)
  rw [cellList_sum] at hsum
  have s1 : (1 - uRound) ^ 2 * (∑ i, ∑ j, T i j : ℕ) ≤ ∑ i, ∑ j, E i j := by
    rw [← exactE_sum T hpos]
    simp only [Finset.mul_sum]
    exact Finset.sum_le_sum fun i _ => Finset.sum_le_sum fun j _ => (hb i j).1
  have s2 : ∑ i, ∑ j, E i j ≤ (1 + uRound) ^ 2 * (∑ i, ∑ j, T i j : ℕ) := by
    rw [← exactE_sum T hpos]
    simp only [Finset.mul_sum]
    exact Finset.sum_le_sum fun i _ => Finset.sum_le_sum fun j _ => (hb i j).2
  set n : ℚ := ((∑ i, ∑ j, T i j : ℕ) : ℚ) with hn
  have hn0 : 0 < n := by rw [hn]; exact_mod_cast hpos
  set F := flSum fl order .expected (cellList E)
  have u1 := pow_upper_rat hs
  have u2 := pow_lower_rat (r * c)
  have hi : F ≤ (1 + uRound) ^ (r * c + 2) * n := by
    refine hsum.2.trans ?_
    rw [pow_add, mul_assoc]
    exact mul_le_mul_of_nonneg_left s2 (by positivity)
  have lo : (1 - uRound) ^ (r * c + 2) * n ≤ F := by
    refine le_trans ?_ hsum.1
    rw [pow_add, mul_assoc]
    exact mul_le_mul_of_nonneg_left s1 (pow_nonneg (by norm_num) _)
  have h3 := mul_le_mul_of_nonneg_right u1 hn0.le
  have h4 := mul_le_mul_of_nonneg_right u2 hn0.le
  rw [abs_le]
  constructor <;> linarith

/-- The observations that enter the statistic: exact and computed. -/
def exactObs (T : Fin r → Fin c → ℕ) (i : Fin r) (j : Fin c) : ℚ :=
  if nominalDof r c = 1 then T i j + clip (exactE T i j - T i j) else T i j

def floatObs (fl : ℚ → ℚ) (order : SumSite → List ℚ → SumTree) (T : Fin r → Fin c → ℕ) (i : Fin r) (j : Fin c) : ℚ :=
  if nominalDof r c = 1 then flYates fl (T i j) (flExpected fl order ⟨r, c, fun i j => (T i j : ℚ)⟩ i j) else T i j

theorem exactE_rows (T : Fin r → Fin c → ℕ) (hpos : 0 < ∑ i, ∑ j, T i j) (i : Fin r) : ∑ j, exactE T i j = ∑ j, (T i j : ℚ) := by
  unfold exactE
  have hp : ((∑ i, ∑ j, T i j : ℕ) : ℚ) ≠ 0 := by exact_mod_cast hpos.ne'
  have h2 : ∑ j, ((∑ i', T i' j : ℕ) : ℚ) = (∑ i, ∑ j, T i j : ℕ) := by
    rw [Finset.sum_comm]; push_cast; rfl
  simp only [← Finset.sum_div, ← Finset.mul_sum, h2]
  rw [mul_div_assoc, div_self hp, mul_one]
  push_cast; rfl

theorem clip_neg (x : ℚ) : clip (-x) = -clip x := by
  unfold clip
  rcases le_total x (1 / 2) with h | h <;> rcases le_total (-(1 / 2)) x with h' | h'
  · rw [min_eq_right h, max_eq_right h', min_eq_right (by linarith), max_eq_right (by linarith)]
  · rw [min_eq_right h, max_eq_left h', min_eq_left (by linarith), max_eq_right (by norm_num), neg_neg]
  · rw [min_eq_left h, max_eq_right (by norm_num : -(1 / 2 : ℚ) ≤ 1 / 2), min_eq_right (by linarith : -x ≤ 1 / 2), max_eq_left (by linarith)]
  · linarith

theorem exactObs_sum (T : Fin r → Fin c → ℕ) (hr0 : 0 < r) (hc0 : 0 < c) (hpos : 0 < ∑ i, ∑ j, T i j) :
    ∑ i, ∑ j, exactObs T i j = (∑ i, ∑ j, T i j : ℕ) := by
  unfold exactObs
  by_cases h : nominalDof r c = 1
  · obtain ⟨rfl, rfl⟩ := (nominalDof_one hr0 hc0).1 h
    simp only [h, if_true]
    have key : ∀ i, ∑ j, ((T i j : ℚ) + clip (exactE T i j - T i j)) = ∑ j, (T i j : ℚ) := by
      intro i
      have := exactE_rows T hpos i
      rw [Fin.sum_univ_two, Fin.sum_univ_two] at this ⊢
      have e : exactE T i 1 - T i 1 = -(exactE T i 0 - T i 0) := by linarith
      rw [e, clip_neg]; ring
    rw [Finset.sum_congr rfl fun i _ => key i]
    push_cast; rfl
  · simp only [h, if_false]
    push_cast; rfl

theorem flYates_eq (hfl : RelRounding fl) (o e' : ℚ) : flYates fl o e' = fl (o + clip (fl (e' - o))) := by
  unfold flYates
  simp only [clip_eq]
  congr 2
  unfold clip
  rcases le_total (fl (e' - o)) (1 / 2) with h | h
  · rw [min_eq_right h]
    rcases le_total (-(1 / 2)) (fl (e' - o)) with h' | h'
    · rw [max_eq_right h', hfl.idem]
    · rw [max_eq_left h']
      have := hfl.exact (-1) (by norm_num)
      norm_num at this ⊢
      exact this
  · rw [min_eq_left h, max_eq_right (by norm_num), hfl.half]

theorem floatObs_nonneg (hfl : RelRounding fl) (T : Fin r → Fin c → ℕ) (i : Fin r) (j : Fin c)
    (hE : 0 ≤ flExpected fl order ⟨r, c, fun i j => (T i j : ℚ)⟩ i j) : 0 ≤ floatObs fl order T i j := by
  unfold floatObs
  split
  · rw [flYates_eq hfl]
    refine hfl.nonneg ?_
    rcases Nat.eq_zero_or_pos (T i j) with h | h
    · have : 0 ≤ fl (flExpected fl order ⟨r, c, fun i j => (T i j : ℚ)⟩ i j - (0 : ℕ)) := hfl.nonneg (by simpa using hE)
      rw [h]
      have h2 : (0 : ℚ) ≤ clip (fl (flExpected fl order ⟨r, c, fun i j => (T i j : ℚ)⟩ i j - (0 : ℕ))) :=
        le_max_of_le_right (le_min (by norm_num) this)
      push_cast at h2 ⊢
      linarith
    · have h1 : (1 : ℚ) ≤ T i j := by exact_mod_cast h
      have h2 : -(1 / 2) ≤ clip (fl (flExpected fl order ⟨r, c, fun i j => (T i j : ℚ)⟩ i j - (T i j))) := le_max_left _ _
      linarith
  · positivity

/-- The errors of the differences of observation and expectation. -/
theorem floatObs_error (hfl : RelRounding fl) (ho : ∀ s l, l ≠ [] → (order s l).leaves.Perm l) (T : Fin r → Fin c → ℕ)
    (hr : ∀ i, 0 < ∑ j, T i j) (hc : ∀ j, 0 < ∑ i, T i j)
    (hN : ∑ i, ∑ j, T i j ≤ 4503599627370496) (hpos : 0 < ∑ i, ∑ j, T i j) (i : Fin r) (j : Fin c) :
    |(floatObs fl order T i j - flExpected fl order ⟨r, c, fun i j => (T i j : ℚ)⟩ i j) - (exactObs T i j - exactE T i j)| ≤
      if nominalDof r c = 1 then 10 * uRound * (exactE T i j + T i j) else 5 / 2 * uRound * exactE T i j := by
  obtain ⟨h1, h2⟩ := flExpected_bounds hfl ho T hN hpos i j
  have he := (exactE_pos T hr hc i j).le
  unfold floatObs exactObs
  split
  · exact flYates_error hfl (by positivity) he h1 h2
  · rw [abs_le]
    constructor <;> norm_num [uRound] at h1 h2 ⊢ <;> linarith

theorem obs_sq_le (T : Fin r → Fin c → ℕ) (hr : ∀ i, 0 < ∑ j, T i j) (hc : ∀ j, 0 < ∑ i, T i j) (i : Fin r) (j : Fin c) :
    (T i j : ℚ) ^ 2 / exactE T i j ≤ (∑ i, ∑ j, T i j : ℕ) := by
  rw [div_le_iff₀ (exactE_pos T hr hc i j)]
  unfold exactE
  have hp : ((∑ i, ∑ j, T i j : ℕ) : ℚ) ≠ 0 := by
    have := (hr i).trans_le (marg_le T i j).1
    exact_mod_cast this.ne'
  rw [mul_div_cancel₀ _ hp, sq]
  have a1 : T i j ≤ ∑ j', T i j' := Finset.single_le_sum (f := fun j => T i j) (fun _ _ => Nat.zero_le _) (Finset.mem_univ j)
  have a2 : T i j ≤ ∑ i', T i' j := Finset.single_le_sum (f := fun i => T i j) (fun _ _ => Nat.zero_le _) (Finset.mem_univ i)
  exact_mod_cast Nat.mul_le_mul a1 a2

theorem floatObs_sq (hfl : RelRounding fl) (ho : ∀ s l, l ≠ [] → (order s l).leaves.Perm l) (T : Fin r → Fin c → ℕ) (hr0 : 0 < r) (hc0 : 0 < c)
    (hr : ∀ i, 0 < ∑ j, T i j) (hc : ∀ j, 0 < ∑ i, T i j)
    (hN : ∑ i, ∑ j, T i j ≤ 4503599627370496) (hpos : 0 < ∑ i, ∑ j, T i j) :
    ∑ i, ∑ j, ((floatObs fl order T i j - flExpected fl order ⟨r, c, fun i j => (T i j : ℚ)⟩ i j) - (exactObs T i j - exactE T i j)) ^ 2 / exactE T i j ≤
      1000 * uRound ^ 2 * (∑ i, ∑ j, T i j : ℕ) := by
  have herr := floatObs_error hfl ho T hr hc hN hpos
  have hsum := exactE_sum T hpos
  set n : ℚ := ((∑ i, ∑ j, T i j : ℕ) : ℚ) with hn
  have hn0 : 0 < n := by rw [hn]; exact_mod_cast hpos
  by_cases h : nominalDof r c = 1
  · obtain ⟨rfl, rfl⟩ := (nominalDof_one hr0 hc0).1 h
    have key : ∀ i j, ((floatObs fl order T i j - flExpected fl order ⟨2, 2, fun i j => (T i j : ℚ)⟩ i j) - (exactObs T i j - exactE T i j)) ^ 2 / exactE T i j ≤
        200 * uRound ^ 2 * exactE T i j + 200 * uRound ^ 2 * n := by
      intro i j
      have he := exactE_pos T hr hc i j
      have h1 := herr i j
      rw [if_pos h] at h1
      have h2 := sq_le_sq' (by linarith [(abs_le.1 h1).1]) (abs_le.1 h1).2
      have h3 := obs_sq_le T hr hc i j
      rw [div_le_iff₀ he] at h3 ⊢
      refine h2.trans ?_
      rw [← hn] at h3
      norm_num [uRound]
      nlinarith [sq_nonneg (exactE T i j - T i j)]
    refine (Finset.sum_le_sum fun i _ => Finset.sum_le_sum fun j _ => key i j).trans ?_
    simp only [Fin.sum_univ_two] at hsum ⊢
    norm_num [uRound]
    linarith
  · have key : ∀ i j, ((floatObs fl order T i j - flExpected fl order ⟨r, c, fun i j => (T i j : ℚ)⟩ i j) - (exactObs T i j - exactE T i j)) ^ 2 / exactE T i j ≤
        25 / 4 * uRound ^ 2 * exactE T i j := by
      intro i j
      have he := exactE_pos T hr hc i j
      have h1 := herr i j
      rw [if_neg h] at h1
      have h2 := sq_le_sq' (by linarith [(abs_le.1 h1).1]) (abs_le.1 h1).2
      rw [div_le_iff₀ he]
      refine h2.trans (le_of_eq ?_)
      ring
    refine (Finset.sum_le_sum fun i _ => Finset.sum_le_sum fun j _ => key i j).trans ?_
    simp only [← Finset.mul_sum]
    rw [hsum]
    norm_num [uRound]
    linarith

/-- The computed sum of the observations. -/
theorem sum_observed_close (hfl : RelRounding fl) (ho : ∀ s l, l ≠ [] → (order s l).leaves.Perm l) (T : Fin r → Fin c → ℕ) (hr0 : 0 < r) (hc0 : 0 < c)
    (hr : ∀ i, 0 < ∑ j, T i j) (hc : ∀ j, 0 < ∑ i, T i j)
    (hN : ∑ i, ∑ j, T i j ≤ 4503599627370496) (hpos : 0 < ∑ i, ∑ j, T i j) :
    |flSum fl order .observed (cellList (floatObs fl order T)) - (∑ i, ∑ j, T i j : ℕ)| ≤ 40 * uRound * (∑ i, ∑ j, T i j : ℕ) := by
  have herr := floatObs_error hfl ho T hr hc hN hpos
  have hb := flExpected_bounds hfl ho T hN hpos
  have hsum := exactE_sum T hpos
  have hobs := exactObs_sum T hr0 hc0 hpos
  by_cases h : nominalDof r c = 1
  · obtain ⟨rfl, rfl⟩ := (nominalDof_one hr0 hc0).1 h
    have h0 : ∀ i j, 0 ≤ floatObs fl order T i j := fun i j =>
      floatObs_nonneg hfl T i j (le_trans (mul_nonneg (by norm_num) (exactE_pos T hr hc i j).le) (hb i j).1)
    have hs := flSum_bounds hfl ho .observed (l := cellList (floatObs fl order T))
      (fun x hx => by obtain ⟨i, j, rfl⟩ := mem_cellList.1 hx; exact h0 i j) (D := 3) (fun hl => by
        have := (order .observed (cellList (floatObs fl order T))).depth_lt
        rw [(ho .observed _ hl).length_eq, cellList_length] at this
        omega)
    rw [cellList_sum] at hs
    have hT : ∑ i, ∑ j, (T i j : ℚ) = (∑ i, ∑ j, T i j : ℕ) := by push_cast; rfl
    set n : ℚ := ((∑ i, ∑ j, T i j : ℕ) : ℚ) with hn
    have hn0 : 0 < n := by rw [hn]; exact_mod_cast hpos
    have key : ∀ i j, |floatObs fl order T i j - exactObs T i j| ≤ 25 / 2 * uRound * (exactE T i j + T i j) := by
      intro i j
      have h1 := herr i j
      rw [if_pos h, abs_le] at h1
      obtain ⟨h2, h3⟩ := hb i j
      have he := (exactE_pos T hr hc i j).le
      have ht : (0 : ℚ) ≤ T i j := by positivity
      rw [abs_le]
      norm_num [uRound] at h1 h2 h3 ⊢
      constructor <;> linarith
    have k00 := abs_le.1 (key 0 0)
    have k01 := abs_le.1 (key 0 1)
    have k10 := abs_le.1 (key 1 0)
    have k11 := abs_le.1 (key 1 1)
    simp only [Fin.sum_univ_two] at hs hsum hobs hT
    rw [abs_le]
    norm_num [uRound] at hs k00 k01 k10 k11 ⊢
    constructor <;> linarith
  · have : floatObs fl order T = fun i j => (T i j : ℚ) := by
      funext i j
      simp [floatObs, h]
    rw [this, flTotal_eq hfl ho .observed T hN, sub_self, abs_zero]
    positivity

theorem yates_clip (o e : ℚ) : yates (o : ℝ) (e : ℝ) = ((o + clip (e - o) : ℚ) : ℝ) := by
  have key : ∀ x : ℚ, min (1 / 2 : ℝ) |(x : ℝ)| * SignType.sign (x : ℝ) = ((clip x : ℚ) : ℝ) := by
    intro x
    rw [← clip_eq]
    rcases lt_trichotomy x 0 with h | rfl | h
    · rw [sign_neg h, sign_neg (by exact_mod_cast h : (x : ℝ) < 0)]; simp
    · simp
    · rw [sign_pos h, sign_pos (by exact_mod_cast h : (0 : ℝ) < x)]; simp
  unfold yates
  rw [Rat.cast_add, ← key]
  push_cast
  rfl

theorem check_sums {so se n k : ℚ} (hn : 0 < n) (h1 : -(40 * uRound * n) ≤ so - n ∧ so - n ≤ 40 * uRound * n) (h2 : -k ≤ se - n ∧ se - n ≤ k)
    (hk : k ≤ 76 / 10 ^ 10 * n) : |so - se| ≤ 8 / 10 ^ 9 * n ∧ (1 - 1 / 10 ^ 8) * n ≤ so ∧ (1 - 1 / 10 ^ 8) * n ≤ se := by
  have hu : 40 * uRound * n ≤ 1 / 10 ^ 10 * n := mul_le_mul_of_nonneg_right (by norm_num [uRound]) hn.le
  generalize 40 * uRound * n = q at h1 hu
  rw [abs_le]
  refine ⟨⟨?_, ?_⟩, ?_, ?_⟩ <;> linarith [h1.1, h1.2, h2.1, h2.2]

/-- A table without empty rows and columns. -/
theorem full_table_rounding (hfl : RelRounding fl) (ho : ∀ s l, l ≠ [] → (order s l).leaves.Perm l) (T : Fin r → Fin c → ℕ) (hr0 : 0 < r) (hc0 : 0 < c)
    (hr : ∀ i, 0 < ∑ j, T i j) (hc : ∀ j, 0 < ∑ i, T i j) (hN : ∑ i, ∑ j, T i j ≤ 4503599627370496) (hs : r * c ≤ 67108864) {D : ℕ} (hDs : D ≤ 67108864)
    (hD : ∀ l, l ≠ [] → l.length = r * c → (order .terms l).depth ≤ D) {χ : ℝ}
    (hχ : chi2Contingency ⟨r, c, fun i j => ((T i j : ℕ) : ℝ)⟩ "pearson" = .ok χ) :
    ∃ x, flChi2Contingency fl order ⟨r, c, fun i j => (T i j : ℚ)⟩ = .ok x ∧ 0 ≤ x ∧
      |√(x : ℝ) - √χ| ≤ (D + 8 : ℕ) * uR * √χ + √((∑ i, ∑ j, T i j : ℕ) : ℝ) / 281474976710656 := by
  have hpos : 0 < ∑ i, ∑ j, T i j := (hr ⟨0, hr0⟩).trans_le (marg_le T ⟨0, hr0⟩ ⟨0, hc0⟩).1
  have hb := flExpected_bounds hfl ho T hN hpos
  have he := exactE_pos T hr hc
  have hE : ∀ i j, 0 < flExpected fl order ⟨r, c, fun i j => (T i j : ℚ)⟩ i j := fun i j => lt_of_lt_of_le (mul_pos (by norm_num) (he i j)) (hb i j).1
  have hexp : ∀ i j, expected ⟨r, c, fun i j => ((T i j : ℕ) : ℝ)⟩ i j = ((exactE T i j : ℚ) : ℝ) := by
    intro i j
    unfold expected exactE Arr2.rowSum Arr2.colSum Arr2.total
    push_cast
    rfl
  unfold chi2Contingency at hχ
  unfold flChi2Contingency
  have c1 : ¬ ∃ i j, (⟨r, c, fun i j => (T i j : ℚ)⟩ : Arr2 ℚ).v i j < 0 := by
    rintro ⟨i, j, h⟩
    exact absurd h (not_lt.2 (by positivity))
  have c2 : ¬ (⟨r, c, fun i j => (T i j : ℚ)⟩ : Arr2 ℚ).size = 0 := (Nat.mul_pos hr0 hc0).ne'
  have c3 : ¬ flSum fl order .total (cellList (⟨r, c, fun i j => (T i j : ℚ)⟩ : Arr2 ℚ).v) = 0 := by
    rw [flTotal_eq hfl ho .total T hN]
    exact_mod_cast hpos.ne'
  have c4 : ¬ ∃ i j, flExpected fl order ⟨r, c, fun i j => (T i j : ℚ)⟩ i j = 0 := by
    rintro ⟨i, j, h⟩
    exact absurd h (hE i j).ne'
  rw [if_neg c1, if_neg c2, if_neg c3, if_neg c4]
  split at hχ
  · cases hχ
  split at hχ
  · cases hχ
  split at hχ
  · cases hχ
  split at hχ
  · cases hχ
  change (if nominalDof r c = 0 then _ else _) = _ at hχ
  change ∃ x, (if nominalDof r c = 0 then _ else _) = _ ∧ _
  by_cases h0 : nominalDof r c = 0
  · rw [if_pos h0] at hχ ⊢
    cases hχ
    refine ⟨0, rfl, le_rfl, ?_⟩
    simp only [Rat.cast_zero, Real.sqrt_zero, sub_self, abs_zero, mul_zero, zero_add]
    positivity
  rw [if_neg h0] at hχ ⊢
  simp only [powerDivLambda, if_true] at hχ
  have hg : ∃ o : Fin r → Fin c → ℝ, (∀ i j, o i j = ((exactObs T i j : ℚ) : ℝ)) ∧ powerDivergence o (fun i j => ((exactE T i j : ℚ) : ℝ)) 1 = .ok χ := by
    have hf : expected ⟨r, c, fun i j => ((T i j : ℕ) : ℝ)⟩ = fun i j => ((exactE T i j : ℚ) : ℝ) := by funext i j; exact hexp i j
    rw [hf] at hχ
    refine ⟨_, ?_, hχ⟩
    intro i j
    unfold exactObs
    by_cases h1 : nominalDof r c = 1
    · simp only [h1, if_true]
      rw [← yates_clip]; push_cast; rfl
    · simp only [h1, if_false]
      push_cast; rfl
  obtain ⟨o, ho1, hχ⟩ := hg
  unfold powerDivergence at hχ
  simp only at hχ
  split at hχ
  · cases hχ
  split at hχ
  · cases hχ
  have hobs : (if nominalDof r c = 1 then fun i j => flYates fl ((T i j : ℕ) : ℚ) (flExpected fl order ⟨r, c, fun i j => (T i j : ℚ)⟩ i j) else fun i j => ((T i j : ℕ) : ℚ)) =
      floatObs fl order T := by
    funext i j
    unfold floatObs
    split <;> rfl
  have hχ' : χ = ∑ i, ∑ j, ((exactObs T i j : ℝ) - exactE T i j) ^ 2 / exactE T i j := by
    cases hχ
    refine Finset.sum_congr rfl fun i _ => Finset.sum_congr rfl fun j _ => ?_
    unfold powerTerm
    rw [if_pos rfl, ho1]
  change ∃ x, flPearson fl order (if nominalDof r c = 1 then _ else _) _ = _ ∧ _
  erw [hobs]
  unfold flPearson
  simp only
  have hse := abs_le.1 (sum_expected_close hfl ho T hr hc hN hpos hs)
  have hso := abs_le.1 (sum_observed_close hfl ho T hr0 hc0 hr hc hN hpos)
  have hn0 : (0 : ℚ) < (∑ i, ∑ j, T i j : ℕ) := by exact_mod_cast hpos
  have hrc : ((r * c : ℕ) : ℚ) ≤ 67108864 := by exact_mod_cast hs
  have hrc' : (((r * c : ℕ) : ℚ) + 3) * uRound * (∑ i, ∑ j, T i j : ℕ) ≤ 76 / 10 ^ 10 * (∑ i, ∑ j, T i j : ℕ) := by
    refine mul_le_mul_of_nonneg_right ?_ hn0.le
    calc (((r * c : ℕ) : ℚ) + 3) * uRound ≤ (67108864 + 3) * uRound := mul_le_mul_of_nonneg_right (by linarith) (by norm_num)
      _ ≤ _ := by norm_num [uRound]
  rw [if_neg (check_passes hfl hn0 ?_ ?_ ?_)]
  · refine ⟨_, rfl, ?_⟩
    have ht : ∀ i j, 0 ≤ flTerm fl (floatObs fl order T i j) (flExpected fl order ⟨r, c, fun i j => (T i j : ℚ)⟩ i j) := fun i j =>
      le_trans (mul_nonneg (by norm_num) (div_nonneg (sq_nonneg _) (hE i j).le)) (flTerm_bounds hfl _ (hE i j)).1
    have hx := flSum_bounds hfl ho .terms (l := cellList fun i j => flTerm fl (floatObs fl order T i j) (flExpected fl order ⟨r, c, fun i j => (T i j : ℚ)⟩ i j))
      (fun x hx => by obtain ⟨i, j, rfl⟩ := mem_cellList.1 hx; exact ht i j) (fun hl => hD _ hl (cellList_length _))
    rw [cellList_sum] at hx
    refine ⟨le_trans (mul_nonneg (pow_nonneg (by norm_num) _) (Finset.sum_nonneg fun i _ => Finset.sum_nonneg fun j _ => ht i j)) hx.1, ?_⟩
    have hsq := floatObs_sq hfl ho T hr0 hc0 hr hc hN hpos
    rw [hχ']
    have e1 : ∀ g : Fin r → Fin c → ℝ, ∑ i, ∑ j, g i j = ∑ k : Fin r × Fin c, g k.1 k.2 := fun g => (Fintype.sum_prod_type' g).symm
    rw [e1]
    refine statistic_error (ι := Fin r × Fin c) (e := fun k => (exactE T k.1 k.2 : ℝ)) (e' := fun k => (flExpected fl order ⟨r, c, fun i j => (T i j : ℚ)⟩ k.1 k.2 : ℝ))
      (obs := fun k => (exactObs T k.1 k.2 : ℝ)) (o' := fun k => (floatObs fl order T k.1 k.2 : ℝ))
      (t := fun k => (flTerm fl (floatObs fl order T k.1 k.2) (flExpected fl order ⟨r, c, fun i j => (T i j : ℚ)⟩ k.1 k.2) : ℝ))
      (by positivity) hDs ?_ ?_ ?_ ?_ ?_ ?_ ?_ ?_
    · intro k; exact_mod_cast he k.1 k.2
    · intro k
      have := (hb k.1 k.2).1
      have h2 : (((1 - uRound) ^ 2 * exactE T k.1 k.2 : ℚ) : ℝ) ≤ (flExpected fl order ⟨r, c, fun i j => (T i j : ℚ)⟩ k.1 k.2 : ℝ) := by exact_mod_cast this
      push_cast at h2
      exact h2
    · intro k
      have := (hb k.1 k.2).2
      have h2 : (flExpected fl order ⟨r, c, fun i j => (T i j : ℚ)⟩ k.1 k.2 : ℝ) ≤ (((1 + uRound) ^ 2 * exactE T k.1 k.2 : ℚ) : ℝ) := by exact_mod_cast this
      push_cast at h2
      exact h2
    · intro k
      have := (flTerm_bounds hfl (floatObs fl order T k.1 k.2) (hE k.1 k.2)).1
      have h2 := (Rat.cast_le (K := ℝ)).2 this
      push_cast at h2
      exact h2
    · intro k
      have := (flTerm_bounds hfl (floatObs fl order T k.1 k.2) (hE k.1 k.2)).2
      have h2 := (Rat.cast_le (K := ℝ)).2 this
      push_cast at h2
      exact h2
    · have h2 := (Rat.cast_le (K := ℝ)).2 hx.1
      push_cast at h2
      rw [e1] at h2
      exact h2
    · have h2 := (Rat.cast_le (K := ℝ)).2 hx.2
      push_cast at h2
      rw [e1] at h2
      exact h2
    · have h2 := (Rat.cast_le (K := ℝ)).2 hsq
      push_cast at h2
      rw [e1] at h2
      push_cast
      exact h2
  · exact (check_sums hn0 hso hse hrc').1
  · exact (check_sums hn0 hso hse hrc').2.1
  · exact (check_sums hn0 hso hse hrc').2.2

end

/-! ### empty rows and columns -/

/-- Removal of empty rows and columns from a table of integers. -/
def natDrop (a : Arr2 ℕ) : Arr2 ℕ := a.filterRows fun i => !decide (∀ j, a.v i j = 0)

theorem flDrop_map (a : Arr2 ℕ) : flDropZeroRows (a.map (Nat.cast : ℕ → ℚ)) = (natDrop a).map (Nat.cast : ℕ → ℚ) := by
  have h : (fun i => !decide (∀ j, (a.map (Nat.cast : ℕ → ℚ)).v i j = 0)) = fun i => !decide (∀ j, a.v i j = 0) := by
    funext i
    congr 1
    exact decide_eq_decide.2 (forall_congr' fun j => Nat.cast_eq_zero)
  unfold flDropZeroRows natDrop
  rw [h]
  rfl

theorem drop_map (a : Arr2 ℕ) : dropZeroRows (a.map (Nat.cast : ℕ → ℝ)) = (natDrop a).map (Nat.cast : ℕ → ℝ) := by
  have h : (fun i => !decide (∀ j, (a.map (Nat.cast : ℕ → ℝ)).v i j = 0)) = fun i => !decide (∀ j, a.v i j = 0) := by
    funext i
    congr 1
    exact decide_eq_decide.2 (forall_congr' fun j => Nat.cast_eq_zero)
  have h2 : dropZeroRows (a.map (Nat.cast : ℕ → ℝ)) = (a.map (Nat.cast : ℕ → ℝ)).filterRows (fun i => !decide (∀ j, (a.map (Nat.cast : ℕ → ℝ)).v i j = 0)) := by
    unfold dropZeroRows
    congr!
  rw [h2, h]
  rfl

/-- The table without empty rows and columns. -/
def natCore (a : Arr2 ℕ) : Arr2 ℕ := (natDrop (natDrop a).transpose).transpose

theorem core_map (a : Arr2 ℕ) : core (a.map (Nat.cast : ℕ → ℝ)) = (natCore a).map (Nat.cast : ℕ → ℝ) := by
  unfold core
  rw [drop_map]
  change (dropZeroRows ((natDrop a).transpose.map (Nat.cast : ℕ → ℝ))).transpose = _
  rw [drop_map]
  rfl

theorem flGetChi2_core (fl : ℚ → ℚ) (order : SumSite → List ℚ → SumTree) (a : Arr2 ℕ) :
    flGetChi2 fl order (a.map (Nat.cast : ℕ → ℚ)) = flChi2Contingency fl order ((natCore a).map (Nat.cast : ℕ → ℚ)) := by
  unfold flGetChi2
  simp only
  rw [flDrop_map]
  change flChi2Contingency fl order (flDropZeroRows ((natDrop a).transpose.map (Nat.cast : ℕ → ℚ))).transpose = _
  rw [flDrop_map]
  rfl

/-- C88: the value the code computes in floating point arithmetic, against the exact Pearson statistic, for every rounding and every order of the
additions. -/
theorem get_chi2_rounding {fl : ℚ → ℚ} (hfl : RelRounding fl) {order : SumSite → List ℚ → SumTree} (ho : AddsAll order)
    {r c : ℕ} (T : Fin r → Fin c → ℕ) (hpos : 0 < ∑ i, ∑ j, T i j) (hN : ∑ i, ∑ j, T i j ≤ 2 ^ 52) (hs : r * c ≤ 2 ^ 26)
    {D : ℕ} (hD : ∀ l, l ≠ [] → l.length ≤ r * c → (order .terms l).depth ≤ D) :
    ∃ x, flGetChi2 fl order ⟨r, c, fun i j => (T i j : ℚ)⟩ = .ok x ∧ 0 ≤ x ∧
      |√(x : ℝ) - √(statistic pearsonCell ⟨r, c, fun i j => (T i j : ℝ)⟩)| ≤
        (D + 8) / 2 ^ 53 * √(statistic pearsonCell ⟨r, c, fun i j => (T i j : ℝ)⟩) + √((∑ i, ∑ j, T i j : ℕ) : ℝ) / 2 ^ 48 := by
  have hcount : IsCount (⟨r, c, fun i j => (T i j : ℝ)⟩ : Arr2 ℝ) :=
    ⟨fun i j => Nat.cast_nonneg (α := ℝ) _, by
      change (0 : ℝ) < ∑ i, ∑ j, (T i j : ℝ)
      exact_mod_cast hpos⟩
  have hval := (get_chi2_value hcount).1
  rw [getChi2_eq] at hval
  have hcm := core_map ⟨r, c, T⟩
  change core ⟨r, c, fun i j => (T i j : ℝ)⟩ = _ at hcm
  obtain ⟨s⟩ := core_sub ⟨r, c, fun i j => (T i j : ℝ)⟩
  rw [hcm] at hval s
  have hfc := flGetChi2_core fl order ⟨r, c, T⟩
  change flGetChi2 fl order ⟨r, c, fun i j => (T i j : ℚ)⟩ = _ at hfc
  rw [hfc]
  have hbc := s.isCount hcount
  have hrow := s.rowSum_pos hcount
  have hcol := s.colSum_pos hcount
  obtain ⟨hr0, hc0⟩ := size_pos hbc.pos.ne'
  have htot := s.total
  have h1 := Fintype.card_le_of_injective _ s.ρ_inj
  have h2 := Fintype.card_le_of_injective _ s.σ_inj
  simp only [Fintype.card_fin] at h1 h2
  generalize natCore ⟨r, c, T⟩ = b at *
  obtain ⟨r', c', t⟩ := b
  change 0 < r' at hr0
  change 0 < c' at hc0
  change r' ≤ r at h1
  change c' ≤ c at h2
  have ht : ∑ i, ∑ j, t i j = ∑ i, ∑ j, T i j := by
    change ∑ i, ∑ j, (t i j : ℝ) = ∑ i, ∑ j, (T i j : ℝ) at htot
    exact_mod_cast htot
  have hsz : r' * c' ≤ r * c := Nat.mul_le_mul h1 h2
  have hfull := full_table_rounding (D := min D (r * c)) hfl ho t hr0 hc0
    (fun i => by have : (0 : ℝ) < ∑ j, (t i j : ℝ) := hrow i; exact_mod_cast this)
    (fun j => by have : (0 : ℝ) < ∑ i, (t i j : ℝ) := hcol j; exact_mod_cast this)
    (by rw [ht]; exact hN) (hsz.trans hs) ((min_le_right _ _).trans hs)
    (fun l hl hlen => le_min (hD l hl (hlen.trans_le hsz)) (by
      have := (order .terms l).depth_lt
      rw [(ho .terms l hl).length_eq] at this
      omega)) hval
  obtain ⟨x, hx, hx0, hxe⟩ := hfull
  refine ⟨x, hx, hx0, hxe.trans ?_⟩
  rw [ht]
  have hle : ((min D (r * c) + 8 : ℕ) : ℝ) ≤ (D : ℝ) + 8 := by
    have : min D (r * c) + 8 ≤ D + 8 := by omega
    exact_mod_cast this
  refine add_le_add (mul_le_mul_of_nonneg_right ?_ (Real.sqrt_nonneg _)) (by norm_num)
  unfold uR
  rw [mul_one_div]
  norm_num
  rw [div_le_div_iff_of_pos_right (by norm_num)]
  push_cast at hle
  exact hle

/-- C88 (rejection): without records the computation fails as it does in exact arithmetic. -/
theorem get_chi2_rounding_empty (fl : ℚ → ℚ) (order : SumSite → List ℚ → SumTree) {r c : ℕ} (T : Fin r → Fin c → ℕ) (h0 : ∀ i j, T i j = 0) :
    flGetChi2 fl order ⟨r, c, fun i j => (T i j : ℚ)⟩ = .error .value := by
  have hfc := flGetChi2_core fl order ⟨r, c, T⟩
  change flGetChi2 fl order ⟨r, c, fun i j => (T i j : ℚ)⟩ = _ at hfc
  rw [hfc]
  have hcm := core_map ⟨r, c, T⟩
  change core ⟨r, c, fun i j => (T i j : ℝ)⟩ = _ at hcm
  obtain ⟨s⟩ := core_sub ⟨r, c, fun i j => (T i j : ℝ)⟩
  rw [hcm] at s
  generalize natCore ⟨r, c, T⟩ = b at *
  have hb : ((b.map (Nat.cast : ℕ → ℚ)).size) = 0 := by
    change b.r * b.c = 0
    rcases Nat.eq_zero_or_pos b.r with hr | hr
    · simp [hr]
    · obtain ⟨j, hj⟩ := s.fullRow ⟨0, hr⟩
      rw [s.val] at hj
      exact absurd (by simp [h0]) hj
  unfold flChi2Contingency
  rw [if_pos hb]
  split <;> rfl

/-- C88 (reproducibility): the same table, with its rows and columns in another order or transposed, on two machines that add and round
differently. -/
theorem get_chi2_rounding_reproducible {fl fl' : ℚ → ℚ} (hfl : RelRounding fl) (hfl' : RelRounding fl') {order order' : SumSite → List ℚ → SumTree}
    (ho : AddsAll order) (ho' : AddsAll order') {r c r' c' : ℕ} (T : Fin r → Fin c → ℕ) (T' : Fin r' → Fin c' → ℕ)
    (hsame : SameTable ⟨r, c, fun i j => (T i j : ℝ)⟩ ⟨r', c', fun i j => (T' i j : ℝ)⟩ ∨
      SameTable ⟨r, c, fun i j => (T i j : ℝ)⟩ (Arr2.transpose ⟨r', c', fun i j => (T' i j : ℝ)⟩))
    (htot : ∑ i, ∑ j, T' i j = ∑ i, ∑ j, T i j)
    (hpos : 0 < ∑ i, ∑ j, T i j) (hN : ∑ i, ∑ j, T i j ≤ 2 ^ 52) (hs : r * c ≤ 2 ^ 26) (hs' : r' * c' ≤ 2 ^ 26)
    {D : ℕ} (hD : ∀ l, l ≠ [] → l.length ≤ r * c → (order .terms l).depth ≤ D)
    (hD' : ∀ l, l ≠ [] → l.length ≤ r' * c' → (order' .terms l).depth ≤ D) :
    ∃ x y, flGetChi2 fl order ⟨r, c, fun i j => (T i j : ℚ)⟩ = .ok x ∧ flGetChi2 fl' order' ⟨r', c', fun i j => (T' i j : ℚ)⟩ = .ok y ∧
      |√(x : ℝ) - √(y : ℝ)| ≤
        (D + 8) / 2 ^ 52 * √(statistic pearsonCell ⟨r, c, fun i j => (T i j : ℝ)⟩) + √((∑ i, ∑ j, T i j : ℕ) : ℝ) / 2 ^ 47 := by
  obtain ⟨x, hx, -, hxe⟩ := get_chi2_rounding hfl ho T hpos hN hs hD
  obtain ⟨y, hy, -, hye⟩ := get_chi2_rounding hfl' ho' T' (by rw [htot]; exact hpos) (by rw [htot]; exact hN) hs' hD'
  have hcount : IsCount (⟨r, c, fun i j => (T i j : ℝ)⟩ : Arr2 ℝ) :=
    ⟨fun i j => Nat.cast_nonneg (α := ℝ) _, by
      change (0 : ℝ) < ∑ i, ∑ j, (T i j : ℝ)
      exact_mod_cast hpos⟩
  have hcount' : IsCount (⟨r', c', fun i j => (T' i j : ℝ)⟩ : Arr2 ℝ) :=
    ⟨fun i j => Nat.cast_nonneg (α := ℝ) _, by
      change (0 : ℝ) < ∑ i, ∑ j, (T' i j : ℝ)
      rw [← htot] at hpos
      exact_mod_cast hpos⟩
  have heq : statistic pearsonCell ⟨r', c', fun i j => (T' i j : ℝ)⟩ = statistic pearsonCell ⟨r, c, fun i j => (T i j : ℝ)⟩ := by
    have h1 := (get_chi2_value hcount).1
    have h2 := (get_chi2_value hcount').1
    have h3 : getChi2 ⟨r', c', fun i j => (T' i j : ℝ)⟩ "pearson" = getChi2 ⟨r, c, fun i j => (T i j : ℝ)⟩ "pearson" := by
      rcases hsame with h | h
      · first | exact get_chi2_sameTable h "pearson" | exact (get_chi2_sameTable h "pearson").symm
      · rw [← get_chi2_swap]
        first | exact get_chi2_sameTable h "pearson" | exact (get_chi2_sameTable h "pearson").symm
    rw [h1, h2] at h3
    exact Except.ok.inj h3
  rw [heq, htot] at hye
  refine ⟨x, y, hx, hy, ?_⟩
  rw [abs_le] at *
  norm_num at hxe hye ⊢
  constructor <;> linarith [hxe.1, hxe.2, hye.1, hye.2]

/-- The number of degrees of freedom is not affected by rounding. -/
theorem ndof_rounding {fl : ℚ → ℚ} (hfl : RelRounding fl) {order : SumSite → List ℚ → SumTree} (ho : AddsAll order)
    {r c : ℕ} (T : Fin r → Fin c → ℕ) (hN : ∑ i, ∑ j, T i j ≤ 2 ^ 52) :
    flEstimateSimpleNdof fl order ⟨r, c, fun i j => (T i j : ℚ)⟩ = estimateSimpleNdof ⟨r, c, fun i j => (T i j : ℝ)⟩ := by
  have htot := flTotal_eq hfl ho .total T hN
  unfold flEstimateSimpleNdof estimateSimpleNdof
  simp only
  have key : (∑ i, ∑ j, if flSum fl order .total (cellList fun i j => (T i j : ℚ)) ≠ 0 ∧
      flExpected fl order ⟨r, c, fun i j => (T i j : ℚ)⟩ i j = 0 then 1 else 0 : ℕ) =
      countCells fun i j => (expectedFreq ⟨r, c, fun i j => (T i j : ℝ)⟩).v i j = some 0 := by
    unfold countCells
    refine Finset.sum_congr rfl fun i _ => Finset.sum_congr rfl fun j _ => ?_
    suffices hiff : (flSum fl order .total (cellList fun i j => (T i j : ℚ)) ≠ 0 ∧ flExpected fl order ⟨r, c, fun i j => (T i j : ℚ)⟩ i j = 0) ↔
        (expectedFreq ⟨r, c, fun i j => (T i j : ℝ)⟩).v i j = some 0 by
      by_cases hh : (expectedFreq ⟨r, c, fun i j => (T i j : ℝ)⟩).v i j = some 0
      · exact (if_pos (hiff.2 hh)).trans (if_pos hh).symm
      · exact (if_neg (mt hiff.1 hh)).trans (if_neg hh).symm
    rw [htot]
    have e1 : (expectedFreq ⟨r, c, fun i j => (T i j : ℝ)⟩).v i j =
        if ((∑ i, ∑ j, T i j : ℕ) : ℝ) = 0 then none else some ((exactE T i j : ℚ) : ℝ) := by
      unfold expectedFreq exactE Arr2.rowSum Arr2.colSum Arr2.total
      push_cast
      rfl
    rw [e1]
    by_cases h0 : ∑ i, ∑ j, T i j = 0
    · simp [h0]
    · have hpos : 0 < ∑ i, ∑ j, T i j := Nat.pos_of_ne_zero h0
      have hb := flExpected_bounds hfl ho T hN hpos i j
      rw [if_neg (by exact_mod_cast h0)]
      simp only [Option.some.injEq, Rat.cast_eq_zero]
      constructor
      · rintro ⟨-, h⟩
        rw [h] at hb
        have : 0 ≤ exactE T i j := by unfold exactE; positivity
        have h2 := hb.1
        norm_num [uRound] at h2
        linarith
      · intro h
        rw [h] at hb
        refine ⟨by exact_mod_cast h0, ?_⟩
        linarith [hb.1, hb.2]
  change (if nominalDof r c - ((∑ i, ∑ j, if flSum fl order .total (cellList fun i j => (T i j : ℚ)) ≠ 0 ∧
      flExpected fl order ⟨r, c, fun i j => (T i j : ℚ)⟩ i j = 0 then 1 else 0 : ℕ) : ℤ) < 0 then (0 : ℤ) else
      nominalDof r c - ((∑ i, ∑ j, if flSum fl order .total (cellList fun i j => (T i j : ℚ)) ≠ 0 ∧
      flExpected fl order ⟨r, c, fun i j => (T i j : ℚ)⟩ i j = 0 then 1 else 0 : ℕ) : ℤ)) = _
  rw [key]
  rfl

/-- C88 (phik): with the rounded chi2 phik of every table built from data is still a number of [0, 1] that solves the equation for the rounded
chi2, and the degrees of freedom, hence the pedestal, are exact. -/
theorem phik_of_data_rounded {mvn : ℝ → Rect → ℝ} (hm : MvnSpec mvn) {brentq : (ℝ → ℝ) → ℝ → ℝ → ℝ → Except Err ℝ} (hb : BrentqSpec brentq)
    {fl : ℚ → ℚ} (hfl : RelRounding fl) {order : SumSite → List ℚ → SumTree} (ho : AddsAll order) {r c : ℕ} (T : Fin r → Fin c → ℕ)
    (h : DataTable ⟨r, c, fun i j => (T i j : ℝ)⟩) (hr : 2 ≤ r) (hc : 2 ≤ c) (hN : ∑ i, ∑ j, T i j ≤ 2 ^ 52) (hs : r * c ≤ 2 ^ 26)
    {D : ℕ} (hD : ∀ l, l ≠ [] → l.length ≤ r * c → (order .terms l).depth ≤ D) (noise : Bool) :
    ∃ χ N ped mx rounded x : ℝ, N = (∑ i, ∑ j, T i j : ℕ) ∧ χ = statistic pearsonCell ⟨r, c, fun i j => (T i j : ℝ)⟩ ∧
      ped = (if noise then ((r : ℝ) - 1) * ((c : ℝ) - 1) else 0) ∧ mx = N * (min (r - 1) (c - 1) : ℕ) ∧
      0 ≤ rounded ∧ |√rounded - √χ| ≤ (D + 8) / 2 ^ 53 * √χ + √N / 2 ^ 48 ∧
      flPhikFromHist2d mvn brentq fl order ⟨r, c, fun i j => (T i j : ℚ)⟩ noise = .ok x ∧ 0 ≤ x ∧ x ≤ 1 ∧
      (rounded ≤ ped → x = 0) ∧ (mx ≤ rounded → x = 1) ∧
      (ped < rounded → rounded < mx → ∃ x₀, 0 ≤ x₀ ∧ x₀ ≤ 1 ∧ theoryChi2 mvn r c N ped x₀ = rounded ∧
        |x - x₀| ≤ 1 / 10 ^ 5 + 4 * 2 ^ (-52 : ℤ) * |x₀|) := by
  have ha := data_isCount h hr
  have hpos : 0 < ∑ i, ∑ j, T i j := by
    have : (0 : ℝ) < ∑ i, ∑ j, (T i j : ℝ) := ha.pos
    exact_mod_cast this
  obtain ⟨y, hy, hy0, hye⟩ := get_chi2_rounding hfl ho T hpos hN hs hD
  have hend : flEstimateSimpleNdof fl order ⟨r, c, fun i j => (T i j : ℚ)⟩ = ((r : ℤ) - 1) * ((c : ℤ) - 1) := by
    rw [ndof_rounding hfl ho T hN]
    exact (estimate_simple_ndof_full ha).2 h.rows h.cols
  have hnn : (0 : ℤ) ≤ ((r : ℤ) - 1) * ((c : ℤ) - 1) := by apply mul_nonneg <;> omega
  set ped : ℤ := if noise then ((r : ℤ) - 1) * ((c : ℤ) - 1) else 0 with hped
  have hp0 : (0 : ℤ) ≤ ped := by rw [hped]; split <;> simp [hnn]
  have hp : (0 : ℝ) ≤ (ped : ℝ) := by exact_mod_cast hp0
  have hT : (⟨r, c, fun i j => (T i j : ℝ)⟩ : Arr2 ℝ).total = ((∑ i, ∑ j, T i j : ℕ) : ℝ) := by
    unfold Arr2.total; push_cast; rfl
  have hmx := data_max_above_pedestal h hr hc
  rw [hT] at hmx
  have hn0 : (0 : ℝ) < (∑ i, ∑ j, T i j : ℕ) := by exact_mod_cast hpos
  have hmx' : (ped : ℝ) < (∑ i, ∑ j, T i j : ℕ) * ((min (r - 1) (c - 1) : ℕ) : ℝ) := by
    refine lt_of_le_of_lt ?_ hmx
    rw [hped]
    split
    · exact le_rfl
    · exact_mod_cast hnn
  have hrun : flPhikFromHist2d mvn brentq fl order ⟨r, c, fun i j => (T i j : ℚ)⟩ noise =
      phikFromChi2 mvn brentq (y : ℝ) (∑ i, ∑ j, T i j : ℕ) r c none none ped := by
    unfold flPhikFromHist2d
    rw [hy]
    simp only [bind, Except.bind, hend]
    rw [← hped, if_neg (not_lt.2 hp0)]
    erw [flTotal_eq hfl ho .total T hN]
    rw [Rat.cast_natCast]
  obtain ⟨c1, c2, c3⟩ := phik_from_chi2_cases hm brentq hr hc (chi2 := (y : ℝ)) hp hn0 hmx'
  obtain ⟨t0, t1⟩ := theory_ends hm hr hc ((∑ i, ∑ j, T i j : ℕ) : ℝ) ped
  have hs : ∃ x, flPhikFromHist2d mvn brentq fl order ⟨r, c, fun i j => (T i j : ℚ)⟩ noise = .ok x ∧ 0 ≤ x ∧ x ≤ 1 ∧
      ((y : ℝ) ≤ ped → x = 0) ∧ ((∑ i, ∑ j, T i j : ℕ) * ((min (r - 1) (c - 1) : ℕ) : ℝ) ≤ y → x = 1) ∧
      ((ped : ℝ) < y → (y : ℝ) < (∑ i, ∑ j, T i j : ℕ) * ((min (r - 1) (c - 1) : ℕ) : ℝ) → ∃ x₀, 0 ≤ x₀ ∧ x₀ ≤ 1 ∧
        theoryChi2 mvn r c ((∑ i, ∑ j, T i j : ℕ) : ℝ) ped x₀ = y ∧ |x - x₀| ≤ 1 / 10 ^ 5 + 4 * 2 ^ (-52 : ℤ) * |x₀|) := by
    rw [hrun]
    rcases le_or_gt (y : ℝ) (ped : ℝ) with hle | hgt
    · exact ⟨0, c1 hle, le_rfl, zero_le_one, fun _ => rfl, fun e => by linarith, fun e => by linarith⟩
    · rcases lt_or_ge (y : ℝ) ((∑ i, ∑ j, T i j : ℕ) * ((min (r - 1) (c - 1) : ℕ) : ℝ)) with hlt | hge
      · obtain ⟨x, e1, hx01, x₀, h0, h1, h2⟩ := hb.root (fun rho => theoryChi2 mvn r c ((∑ i, ∑ j, T i j : ℕ) : ℝ) ped rho - y)
          0 1 (1 / 10 ^ 5) zero_le_one (by norm_num) ((theory_cont hm _ _ _ _).sub continuousOn_const)
          (by simp only [t0]; linarith) (by simp only [t1]; linarith)
        exact ⟨x, (c3 hgt hlt).trans e1, hx01.1, hx01.2, fun e => by linarith, fun e => by linarith,
          fun _ _ => ⟨x₀, h0.1, h0.2, by linarith, h2⟩⟩
      · exact ⟨1, c2 hge, zero_le_one, le_rfl, fun e => by linarith, fun _ => rfl, fun _ e => by linarith⟩
  obtain ⟨x, e1, e2, e3, e4, e5, e6⟩ := hs
  refine ⟨_, _, (ped : ℝ), _, y, x, rfl, rfl, ?_, rfl, by exact_mod_cast hy0, hye, e1, e2, e3, e4, e5, e6⟩
  rw [hped]
  split <;> push_cast <;> rfl

/-- C88 (independence): rounding errors do not make phik of an exactly independent table positive, as long as the noise correction is on. -/
theorem phik_independent_rounded {mvn : ℝ → Rect → ℝ} (hm : MvnSpec mvn) {brentq : (ℝ → ℝ) → ℝ → ℝ → ℝ → Except Err ℝ} (hb : BrentqSpec brentq)
    {fl : ℚ → ℚ} (hfl : RelRounding fl) {order : SumSite → List ℚ → SumTree} (ho : AddsAll order) {r c : ℕ} (T : Fin r → Fin c → ℕ)
    (h : DataTable ⟨r, c, fun i j => (T i j : ℝ)⟩) (hr : 2 ≤ r) (hc : 2 ≤ c) (hN : ∑ i, ∑ j, T i j ≤ 2 ^ 52) (hs : r * c ≤ 2 ^ 26)
    (hind : Independent ⟨r, c, fun i j => (T i j : ℝ)⟩) :
    flPhikFromHist2d mvn brentq fl order ⟨r, c, fun i j => (T i j : ℚ)⟩ true = .ok 0 := by
  obtain ⟨χ, N, ped, mx, y, x, hN', hχ, hped, -, hy0, hye, hrun, -, -, hz, -, -⟩ := phik_of_data_rounded hm hb hfl ho T h hr hc hN hs
    (D := r * c) (fun l hl hlen => by
      have := (order .terms l).depth_lt
      rw [(ho .terms l hl).length_eq] at this
      omega) true
  have ha := data_isCount h hr
  have hχ0 : χ = 0 := by
    have hp := pearson_zero_iff ha
    rw [(get_chi2_value ha).1, Except.ok.injEq] at hp
    rw [hχ]
    by_cases h2 : nRows ⟨r, c, fun i j => (T i j : ℝ)⟩ = 2 ∧ nCols ⟨r, c, fun i j => (T i j : ℝ)⟩ = 2
    · exact (hp.2 h2).2 fun i j => by rw [hind i j, sub_self, abs_zero]; norm_num
    · exact (hp.1 h2).2 hind
  rw [hχ0, Real.sqrt_zero, mul_zero, zero_add, sub_zero, abs_of_nonneg (Real.sqrt_nonneg _)] at hye
  have hN1 : N ≤ 4503599627370496 := by rw [hN']; exact_mod_cast hN
  have hN0 : 0 ≤ N := by rw [hN']; positivity
  have hsq : √N ≤ 67108864 := by
    rw [Real.sqrt_le_left (by norm_num)]
    norm_num
    exact hN1
  have hy1 : √y ≤ 1 := by
    refine hye.trans ?_
    norm_num
    linarith
  have hy2 : y ≤ 1 := by
    rw [Real.sqrt_le_left (by norm_num)] at hy1
    simpa using hy1
  have hp1 : 1 ≤ ped := by
    rw [hped, if_pos rfl]
    have h1 : (2 : ℝ) ≤ r := by exact_mod_cast hr
    have h2 : (2 : ℝ) ≤ c := by exact_mod_cast hc
    nlinarith
  rw [hrun, hz (hy2.trans hp1)]

/-- An independent table without empty rows and columns and with at most 2^26 records: no operation rounds. -/
theorem full_table_exact_zero {fl : ℚ → ℚ} (hfl : RelRounding fl) {order : SumSite → List ℚ → SumTree} (ho : AddsAll order) {r c : ℕ}
    (T : Fin r → Fin c → ℕ) (hr0 : 0 < r) (hc0 : 0 < c) (hr : ∀ i, 0 < ∑ j, T i j) (hc : ∀ j, 0 < ∑ i, T i j) (hN : ∑ i, ∑ j, T i j ≤ 2 ^ 26)
    (hind : ∀ i j, T i j * ∑ i', ∑ j', T i' j' = (∑ j', T i j') * ∑ i', T i' j) :
    flChi2Contingency fl order ⟨r, c, fun i j => (T i j : ℚ)⟩ = .ok 0 := by
  have hN' : ∑ i, ∑ j, T i j ≤ 4503599627370496 := hN.trans (by norm_num)
  have hpos : 0 < ∑ i, ∑ j, T i j := (hr ⟨0, hr0⟩).trans_le (marg_le T ⟨0, hr0⟩ ⟨0, hc0⟩).1
  have hint : ∀ k : ℕ, k ≤ 4503599627370496 → fl (k : ℚ) = k := by
    intro k hk
    have := hfl.exact (2 * k) (by rw [abs_of_nonneg (by positivity)]; exact_mod_cast (by omega : 2 * k ≤ 9007199254740992))
    push_cast at this
    rwa [mul_div_cancel_left₀ _ (two_ne_zero)] at this
  have hexp : ∀ i j, flExpected fl order ⟨r, c, fun i j => (T i j : ℚ)⟩ i j = T i j := by
    intro i j
    obtain ⟨m1, m2⟩ := marg_le T i j
    rw [flExpected_eq hfl ho T hN', ← Nat.cast_mul, hint _ (le_trans (Nat.mul_le_mul (m1.trans hN) (m2.trans hN)) (by norm_num)), ← hind, Nat.cast_mul,
      mul_div_cancel_right₀ _ (by exact_mod_cast hpos.ne')]
    refine hint _ (le_trans ?_ (m1.trans hN'))
    exact Finset.single_le_sum (f := fun j => T i j) (fun _ _ => Nat.zero_le _) (Finset.mem_univ j)
  have hexp' : flExpected fl order ⟨r, c, fun i j => (T i j : ℚ)⟩ = fun i j => (T i j : ℚ) := by funext i j; exact hexp i j
  have hT : ∀ i j, 0 < T i j := by
    intro i j
    have := Nat.mul_pos (hr i) (hc j)
    rw [← hind] at this
    exact Nat.pos_of_mul_pos_right this
  have hfl0 : fl 0 = 0 := by have := hint 0 (by norm_num); simpa using this
  have hTle : ∀ i j, T i j ≤ 4503599627370496 := fun i j =>
    le_trans (Finset.single_le_sum (f := fun j => T i j) (fun _ _ => Nat.zero_le _) (Finset.mem_univ j)) ((marg_le T i j).1.trans hN')
  have hobs : (if nominalDof r c = 1 then fun i j => flYates fl (T i j : ℚ) (flExpected fl order ⟨r, c, fun i j => (T i j : ℚ)⟩ i j)
      else fun i j => (T i j : ℚ)) = fun i j => (T i j : ℚ) := by
    split
    · funext i j
      rw [hexp]
      unfold flYates
      simp only [sub_self, hfl0, abs_zero, sign_zero, SignType.coe_zero, mul_zero, add_zero]
      exact hint _ (hTle i j)
    · rfl
  unfold flChi2Contingency
  rw [if_neg (by rintro ⟨i, j, h⟩; exact absurd h (not_lt.2 (by positivity))),
    if_neg (show ¬ (⟨r, c, fun i j => (T i j : ℚ)⟩ : Arr2 ℚ).size = 0 from (Nat.mul_pos hr0 hc0).ne'),
    if_neg (by rw [flTotal_eq hfl ho .total T hN']; exact_mod_cast hpos.ne'),
    if_neg (by rintro ⟨i, j, h⟩; rw [hexp] at h; exact absurd h (by exact_mod_cast (hT i j).ne'))]
  split
  · rfl
  change flPearson fl order (if nominalDof r c = 1 then _ else _) _ = _
  erw [hobs, hexp']
  unfold flPearson
  simp only
  have hterm : (fun (i : Fin r) (j : Fin c) => flTerm fl (T i j : ℚ) (T i j : ℚ)) = fun _ _ => ((0 : ℕ) : ℚ) := by
    funext i j
    unfold flTerm
    simp [hfl0]
  have hz : flSum fl order .terms (cellList fun (_ : Fin r) (_ : Fin c) => ((0 : ℕ) : ℚ)) = 0 := by
    rw [flTotal_eq hfl ho .terms (fun _ _ => 0) (by simp)]
    simp
  rw [hterm, hz, flTotal_eq hfl ho .observed T hN', flTotal_eq hfl ho .expected T hN', sub_self, hfl0, abs_zero, zero_div, hfl0,
    if_neg]
  rw [not_lt, ← hfl0]
  exact hfl.mono _ _ (by norm_num)

/-- C88 (exact independence): with at most 2^26 records the chi2 of an exactly independent table is computed without any rounding error: it is
exactly 0, and so is phik, with and without noise correction. -/
theorem independent_exact_zero {fl : ℚ → ℚ} (hfl : RelRounding fl) {order : SumSite → List ℚ → SumTree} (ho : AddsAll order) {r c : ℕ}
    (T : Fin r → Fin c → ℕ) (hpos : 0 < ∑ i, ∑ j, T i j) (hN : ∑ i, ∑ j, T i j ≤ 2 ^ 26) (hind : Independent ⟨r, c, fun i j => (T i j : ℝ)⟩) :
    flGetChi2 fl order ⟨r, c, fun i j => (T i j : ℚ)⟩ = .ok 0 ∧
    ∀ {mvn : ℝ → Rect → ℝ} (_ : MvnSpec mvn) (brentq : (ℝ → ℝ) → ℝ → ℝ → ℝ → Except Err ℝ) (noise : Bool), 2 ≤ r → 2 ≤ c →
      DataTable ⟨r, c, fun i j => (T i j : ℝ)⟩ →
      flPhikFromHist2d mvn brentq fl order ⟨r, c, fun i j => (T i j : ℚ)⟩ noise = .ok 0 := by
  have hN' : ∑ i, ∑ j, T i j ≤ 4503599627370496 := hN.trans (by norm_num)
  have hcount : IsCount (⟨r, c, fun i j => (T i j : ℝ)⟩ : Arr2 ℝ) :=
    ⟨fun i j => Nat.cast_nonneg (α := ℝ) _, by
      change (0 : ℝ) < ∑ i, ∑ j, (T i j : ℝ)
      exact_mod_cast hpos⟩
  have hz : flGetChi2 fl order ⟨r, c, fun i j => (T i j : ℚ)⟩ = .ok 0 := by
    have hcm := core_map ⟨r, c, T⟩
    change core ⟨r, c, fun i j => (T i j : ℝ)⟩ = _ at hcm
    obtain ⟨s⟩ := core_sub ⟨r, c, fun i j => (T i j : ℝ)⟩
    rw [hcm] at s
    have hfc := flGetChi2_core fl order ⟨r, c, T⟩
    change flGetChi2 fl order ⟨r, c, fun i j => (T i j : ℚ)⟩ = _ at hfc
    rw [hfc]
    have hbc := s.isCount hcount
    have hrow := s.rowSum_pos hcount
    have hcol := s.colSum_pos hcount
    obtain ⟨hr0, hc0⟩ := size_pos hbc.pos.ne'
    have htot := s.total
    have hexp := s.expected
    have hv := s.val
    generalize natCore ⟨r, c, T⟩ = b at *
    obtain ⟨r', c', t⟩ := b
    have ht : ∑ i, ∑ j, t i j = ∑ i, ∑ j, T i j := by
      change ∑ i, ∑ j, (t i j : ℝ) = ∑ i, ∑ j, (T i j : ℝ) at htot
      exact_mod_cast htot
    refine full_table_exact_zero hfl ho t hr0 hc0
      (fun i => by have : (0 : ℝ) < ∑ j, (t i j : ℝ) := hrow i; exact_mod_cast this)
      (fun j => by have : (0 : ℝ) < ∑ i, (t i j : ℝ) := hcol j; exact_mod_cast this) (by rw [ht]; exact hN) ?_
    intro i j
    have e1 : (t i j : ℝ) = (∑ j', (t i j' : ℝ)) * (∑ i', (t i' j : ℝ)) / ∑ i', ∑ j', (t i' j' : ℝ) := by
      have h1 := hv i j
      have h2 := hexp i j
      have h3 := hind (s.ρ i) (s.σ j)
      exact (h1.trans h3).trans h2.symm
    have hp : (∑ i', ∑ j', (t i' j' : ℝ)) ≠ 0 := by
      have : (0 : ℝ) < ∑ i', ∑ j', (t i' j' : ℝ) := hbc.pos
      exact this.ne'
    rw [eq_div_iff hp] at e1
    exact_mod_cast e1
  refine ⟨hz, fun {mvn} hm brentq noise hr hc h => ?_⟩
  unfold flPhikFromHist2d
  rw [hz]
  simp only [bind, Except.bind]
  have hT : (⟨r, c, fun i j => (T i j : ℝ)⟩ : Arr2 ℝ).total = ((∑ i, ∑ j, T i j : ℕ) : ℝ) := by
    unfold Arr2.total; push_cast; rfl
  have hmx := data_max_above_pedestal h hr hc
  rw [hT] at hmx
  erw [flTotal_eq hfl ho .total T hN']
  rw [Rat.cast_natCast, ndof_rounding hfl ho T hN', (estimate_simple_ndof_full hcount).2 h.rows h.cols]
  have hnn : (0 : ℤ) ≤ ((r : ℤ) - 1) * ((c : ℤ) - 1) := by apply mul_nonneg <;> omega
  set ped : ℤ := if noise then ((r : ℤ) - 1) * ((c : ℤ) - 1) else 0 with hped
  have hp0 : (0 : ℤ) ≤ ped := by rw [hped]; split <;> simp [hnn]
  have hp : (0 : ℝ) ≤ (ped : ℝ) := by exact_mod_cast hp0
  have hmx' : (ped : ℝ) < (∑ i, ∑ j, T i j : ℕ) * ((min (r - 1) (c - 1) : ℕ) : ℝ) := by
    refine lt_of_le_of_lt ?_ hmx
    rw [hped]
    split
    · exact le_rfl
    · exact_mod_cast hnn
  change phikFromChi2 mvn brentq ((0 : ℚ) : ℝ) _ r c none none ((if ped < 0 then 0 else ped : ℤ) : ℝ) = _
  rw [if_neg (not_lt.2 hp0)]
  exact (phik_from_chi2_cases hm brentq hr hc hp (by exact_mod_cast hpos) hmx').1 (by rw [Rat.cast_zero]; exact hp)

end Phik.Props
