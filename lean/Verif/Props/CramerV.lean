import Verif.Lemmas.BinnedVariance

/-! # C92: phik and Cramér's V

With the true bivariate normal integrals and a square table. -/

namespace Phik.Props
open Spec Gauss Set

/-- The tolerance of the root finder for a root in [0, 1]. -/
noncomputable def rootTol : ℝ := 1 / 10 ^ 5 + 4 * 2 ^ (-52 : ℤ)

/-- A correlation with given theoretical chi2 on a square grid: its square is at least the fraction of the range of chi2, and,
times the square of the binned variance, at most 1.0016 (k - 1) times it. -/
theorem square_root_bounds {k : ℕ} (hk : 2 ≤ k) {n ped chi2 x : ℝ} (hmax : ped < n * (k - 1 : ℕ)) (h0 : 0 ≤ x) (h1 : x ≤ 1)
    (hx : theoryChi2 gaussMvn k k n ped x = chi2) :
    (chi2 - ped) / (n * (k - 1 : ℕ) - ped) ≤ x ^ 2 ∧
      x ^ 2 * binnedVariance k ^ 2 ≤ (626 / 625) * (k - 1 : ℕ) * ((chi2 - ped) / (n * (k - 1 : ℕ) - ped)) := by
  have hD := distance_one_pos gaussian_mvn_spec hk hk
  have hpos : 0 < n * (k - 1 : ℕ) - ped := by linarith
  have he : (chi2 - ped) / (n * (k - 1 : ℕ) - ped) = distance gaussMvn k k x / distance gaussMvn k k 1 := by
    rw [← hx]
    unfold theoryChi2
    rw [min_self]
    field_simp
    ring
  rw [he]
  have a1 := square_distance_scaled k h0 h1 le_rfl
  have a2 := square_distance_ge k ⟨h0, h1⟩
  have a3 := square_distance_one (show 1 ≤ k by omega)
  have hin := inside_range
  have hk1 : (1 : ℝ) ≤ (k - 1 : ℕ) := by exact_mod_cast (by omega : 1 ≤ k - 1)
  have hkc : ((k - 1 : ℕ) : ℝ) = k - 1 := by rw [Nat.cast_sub (by omega)]; simp
  have hD1 : distance gaussMvn k k 1 ≤ (626 / 625) * (k - 1 : ℕ) := by
    rw [a3, ← hkc]
    nlinarith
  constructor
  · rw [div_le_iff₀ hD]
    linarith
  · rw [mul_div_assoc', le_div_iff₀ hD]
    have hnn : 0 ≤ distance gaussMvn k k x := le_trans (by positivity) a2
    calc x ^ 2 * binnedVariance k ^ 2 * distance gaussMvn k k 1 ≤ distance gaussMvn k k x * distance gaussMvn k k 1 :=
          mul_le_mul_of_nonneg_right a2 hD.le
      _ ≤ distance gaussMvn k k x * ((626 / 625) * (k - 1 : ℕ)) := mul_le_mul_of_nonneg_left hD1 hnn
      _ = _ := by ring

/-- **C92.** With the true bivariate normal integrals, phik of the square table of any two variables is, up to the tolerance
of the root finder, at least Cramér's V computed from chi2 and its maximum less the noise pedestal, and at most
`1.001 √(k - 1) / binnedVariance k` times it. -/
theorem phik_cramersV_noise {brentq : (ℝ → ℝ) → ℝ → ℝ → ℝ → Except Err ℝ} (hb : BrentqSpec brentq) {a : Arr2 ℝ}
    (h : DataTable a) {k : ℕ} (hr : a.r = k) (hc : a.c = k) (hk : 2 ≤ k) (noise : Bool) :
    ∃ x, phikFromHist2d gaussMvn brentq a noise = .ok x ∧
      cramersVAbove (if noise then ((k : ℝ) - 1) ^ 2 else 0) a ≤ x + rootTol ∧
      x ≤ 1001 / 1000 * √((k : ℝ) - 1) / binnedVariance k * cramersVAbove (if noise then ((k : ℝ) - 1) ^ 2 else 0) a + rootTol := by
  obtain ⟨chi2, ped, mx, x, hchi, hped, hmx, hlt, hle, hrun, hx0, hx1, hz, ho, hroot⟩ :=
    phik_of_data gaussian_mvn_spec hb h (by omega) (by omega) noise
  obtain ⟨r, c, v⟩ := a
  simp only at hr hc
  subst hr
  obtain rfl : c = r := hc
  rename' c => r
  have hk1 : (1 : ℝ) ≤ (r - 1 : ℕ) := by exact_mod_cast (by omega : 1 ≤ r - 1)
  have hkc : ((r - 1 : ℕ) : ℝ) = r - 1 := by rw [Nat.cast_sub (by omega)]; simp
  have hped' : ped = if noise then ((r : ℝ) - 1) ^ 2 else 0 := by
    rw [hped]
    cases noise <;> simp
    ring
  rw [← hped']
  have hst : statistic pearsonCell ⟨r, r, v⟩ = chi2 := by
    have := (get_chi2_value (data_isCount h hk)).1
    rw [hchi] at this
    exact (Except.ok.inj this).symm
  have hV : cramersVAbove ped ⟨r, r, v⟩ = √((chi2 - ped) / (mx - ped)) := by
    unfold cramersVAbove
    rw [hst, hmx]
  have htol : 0 ≤ rootTol := by unfold rootTol; positivity
  have hbv := binnedVariance_ge hk
  have hbv0 : 0 < binnedVariance r := by linarith
  have hmp : 0 < mx - ped := by linarith
  rw [hV]
  refine ⟨x, hrun, ?_⟩
  set B := 1001 / 1000 * √((r : ℝ) - 1) / binnedVariance r with hB
  have hB0 : 0 ≤ B := by positivity
  have hV0 := Real.sqrt_nonneg ((chi2 - ped) / (mx - ped))
  have hV1 : √((chi2 - ped) / (mx - ped)) ≤ 1 := by
    rw [Real.sqrt_le_one, div_le_one hmp]; linarith
  have main : ∀ x₀, 0 ≤ x₀ → x₀ ≤ 1 → theoryChi2 gaussMvn r r (Arr2.total ⟨r, r, v⟩) ped x₀ = chi2 →
      √((chi2 - ped) / (mx - ped)) ≤ x₀ ∧ x₀ ≤ B * √((chi2 - ped) / (mx - ped)) := by
    intro x₀ h0 h1 hth
    simp only [min_self] at hmx
    have hb := square_root_bounds hk (n := Arr2.total ⟨r, r, v⟩) (by rw [← hmx]; exact hlt) h0 h1 hth
    rw [← hmx] at hb
    refine ⟨Real.sqrt_le_iff.2 ⟨h0, hb.1⟩, ?_⟩
    rw [hB, div_mul_eq_mul_div, le_div_iff₀ hbv0]
    have hfr : 0 ≤ (chi2 - ped) / (mx - ped) := by
      by_contra hneg
      push Not at hneg
      have h2 : (626 / 625 : ℝ) * (r - 1 : ℕ) * ((chi2 - ped) / (mx - ped)) < 0 := mul_neg_of_pos_of_neg (by positivity) hneg
      have h3 : 0 ≤ x₀ ^ 2 * binnedVariance r ^ 2 := by positivity
      linarith [hb.2]
    refine abs_le_of_sq_le_sq' ?_ (by positivity) |>.2
    rw [mul_pow, mul_pow, mul_pow, Real.sq_sqrt (by linarith), Real.sq_sqrt hfr]
    refine hb.2.trans ?_
    rw [hkc]
    have : 0 ≤ ((r : ℝ) - 1) * ((chi2 - ped) / (mx - ped)) := mul_nonneg (by linarith) hfr
    nlinarith
  rcases le_or_gt chi2 ped with h1 | h1
  · rw [hz h1, Real.sqrt_eq_zero_of_nonpos (div_nonpos_of_nonpos_of_nonneg (by linarith) hmp.le)]
    constructor <;> linarith
  rcases hle.eq_or_lt with h2 | h2
  · rw [ho h2]
    have hone : theoryChi2 gaussMvn r r (Arr2.total ⟨r, r, v⟩) ped 1 = chi2 := by
      unfold theoryChi2
      rw [div_self (distance_one_pos gaussian_mvn_spec hk hk).ne', h2, hmx]
      ring
    obtain ⟨m1, m2⟩ := main 1 zero_le_one le_rfl hone
    constructor <;> linarith
  · obtain ⟨x₀, g0, g1, gth, gx⟩ := hroot h1 h2
    obtain ⟨m1, m2⟩ := main x₀ g0 g1 gth
    have g2 : |x - x₀| ≤ rootTol := by
      refine gx.trans ?_
      unfold rootTol
      rw [abs_of_nonneg g0]
      have : (0 : ℝ) ≤ 4 * 2 ^ (-52 : ℤ) := by positivity
      nlinarith
    rw [abs_le] at g2
    constructor <;> linarith

/-- **C92.** Without noise correction phik of the square table of any two variables is, up to the tolerance of the root finder,
at least their Cramér's V, and at most 5.01 times the square root of chi2 over the number of records, whatever the number of
categories. -/
theorem phik_cramersV {brentq : (ℝ → ℝ) → ℝ → ℝ → ℝ → Except Err ℝ} (hb : BrentqSpec brentq) {a : Arr2 ℝ}
    (h : DataTable a) (hrc : a.r = a.c) (hr : 2 ≤ a.r) :
    ∃ x, phikFromHist2d gaussMvn brentq a false = .ok x ∧ cramersV a ≤ x + rootTol ∧
      x ≤ 501 / 100 * √(statistic pearsonCell a / a.total) + rootTol := by
  obtain ⟨x, h1, h2, h3⟩ := phik_cramersV_noise hb h rfl hrc.symm hr false
  simp only [Bool.false_eq_true, if_false] at h2 h3
  have e : cramersVAbove 0 a = cramersV a := by simp [cramersVAbove, cramersV]
  rw [e] at h2 h3
  refine ⟨x, h1, h2, h3.trans ?_⟩
  have hbv := binnedVariance_ge hr
  have hbv0 : 0 < binnedVariance a.r := by linarith
  have hk : (0 : ℝ) < (a.r - 1 : ℕ) := by exact_mod_cast (by omega : 0 < a.r - 1)
  have hkc : ((a.r - 1 : ℕ) : ℝ) = a.r - 1 := by rw [Nat.cast_sub (by omega)]; simp
  have hV : √((a.r : ℝ) - 1) * cramersV a = √(statistic pearsonCell a / a.total) := by
    unfold cramersV
    rw [← hrc, min_self, ← hkc, ← Real.sqrt_mul hk.le]
    congr 1
    field_simp
  have h5 : 1001 / 1000 * √((a.r : ℝ) - 1) / binnedVariance a.r * cramersV a =
      1001 / 1000 / binnedVariance a.r * √(statistic pearsonCell a / a.total) := by
    rw [← hV]; ring
  rw [h5]
  have h6 : 1001 / 1000 / binnedVariance a.r ≤ 501 / 100 := by
    rw [div_le_iff₀ hbv0]; linarith
  have := mul_le_mul_of_nonneg_right h6 (Real.sqrt_nonneg (statistic pearsonCell a / a.total))
  linarith

/-- Two independent binary variables with `m` records in every cell. -/
def balanced (m : ℕ) : Arr2 ℝ := ⟨2, 2, fun _ _ => m⟩

/-- The same records and one more, with a new value of both variables. -/
def balancedAndOne (m : ℕ) : Arr2 ℝ :=
  ⟨3, 3, fun i j => if i = 2 ∧ j = 2 then 1 else if i = 2 ∨ j = 2 then 0 else m⟩

theorem balanced_data {m : ℕ} (hm : 1 ≤ m) : DataTable (balanced m) := by
  have h : (m : ℝ) ≠ 0 := by exact_mod_cast (by omega : m ≠ 0)
  exact ⟨fun _ _ => ⟨m, rfl⟩, fun _ => ⟨(0 : Fin 2), h⟩, fun _ => ⟨(0 : Fin 2), h⟩⟩

theorem balancedAndOne_data {m : ℕ} (hm : 1 ≤ m) : DataTable (balancedAndOne m) := by
  have h : (m : ℝ) ≠ 0 := by exact_mod_cast (by omega : m ≠ 0)
  have h1 : ∀ i j : Fin 3, ∃ k : ℕ, (if i = 2 ∧ j = 2 then (1 : ℝ) else if i = 2 ∨ j = 2 then 0 else m) = k := by
    intro i j
    split
    · exact ⟨1, by simp⟩
    · split
      · exact ⟨0, by simp⟩
      · exact ⟨m, rfl⟩
  have h2 : ∀ i : Fin 3, (if i = 2 ∧ i = 2 then (1 : ℝ) else if i = 2 ∨ i = 2 then 0 else m) ≠ 0 := by
    intro i
    by_cases hi : i = 2 <;> simp [hi, h]
  exact ⟨h1, fun i => ⟨i, h2 i⟩, fun j => ⟨j, h2 j⟩⟩

/-- Chi2 of the table with one record more is the number of records: half of its maximum. -/
theorem balancedAndOne_chi2 {m : ℕ} (hm : 1 ≤ m) : statistic pearsonCell (balancedAndOne m) = 4 * m + 1 := by
  have hd := balancedAndOne_data hm
  have e1 : nRows (balancedAndOne m) = 3 := by
    unfold nRows
    rw [Nat.card_congr (Equiv.subtypeUnivEquiv hd.rows)]
    simp [balancedAndOne]
  have e2 : nCols (balancedAndOne m) = 3 := by
    unfold nCols
    rw [Nat.card_congr (Equiv.subtypeUnivEquiv hd.cols)]
    simp [balancedAndOne]
  have h : (1 : ℝ) ≤ m := by exact_mod_cast hm
  have ha := data_isCount hd (by simp [balancedAndOne])
  have hstat : statistic pearsonCell (balancedAndOne m) =
      ∑ i, ∑ j, pearsonCell ((balancedAndOne m).v i j) (expect (balancedAndOne m) i j) := by
    unfold statistic
    rw [e1, e2, if_neg (by norm_num)]
    refine Finset.sum_congr rfl fun i _ => Finset.sum_congr rfl fun j _ => ?_
    rw [if_neg (by norm_num : ¬ (3 = 2 ∧ 3 = 2))]
    split
    · next he => rw [he]; simp [pearsonCell]
    · rfl
  rw [hstat]
  let v : Fin 3 → Fin 3 → ℝ := fun i j => if i = 2 ∧ j = 2 then 1 else if i = 2 ∨ j = 2 then 0 else m
  change ∑ i : Fin 3, ∑ j : Fin 3, (v i j - (∑ j' : Fin 3, v i j') * (∑ i' : Fin 3, v i' j) / ∑ i' : Fin 3, ∑ j' : Fin 3, v i' j') ^ 2 /
    ((∑ j' : Fin 3, v i j') * (∑ i' : Fin 3, v i' j) / ∑ i' : Fin 3, ∑ j' : Fin 3, v i' j') = _
  have v00 : v 0 0 = m := by simp [v]
  have v01 : v 0 1 = m := by simp [v]
  have v02 : v 0 2 = 0 := by simp [v]
  have v10 : v 1 0 = m := by simp [v]
  have v11 : v 1 1 = m := by simp [v]
  have v12 : v 1 2 = 0 := by simp [v]
  have v20 : v 2 0 = 0 := by simp [v]
  have v21 : v 2 1 = 0 := by simp [v]
  have v22 : v 2 2 = 1 := by simp [v]
  simp only [Fin.sum_univ_three, v00, v01, v02, v10, v11, v12, v20, v21, v22]
  have h5 : (m : ℝ) ≠ 0 := by positivity
  have h6 : 4 * (m : ℝ) + 1 ≠ 0 := by positivity
  have e3 : (m : ℝ) + m + 0 + (m + m + 0) + (0 + 0 + 1) = 4 * m + 1 := by ring
  simp only [e3]
  simp only [add_zero, zero_add, one_mul, mul_one]
  have e4 : (m : ℝ) + m = 2 * m := by ring
  simp only [e4]
  field_simp
  ring

/-- **C92 (violated).** "One record among many hardly moves phik" is false: of two independent binary variables, `m` records in
every cell, phik is exactly 0, and with one more record that has a new value of both variables it is at least 0.69,
with and without noise correction, for every `m` from 25. -/
theorem one_record_violated {brentq : (ℝ → ℝ) → ℝ → ℝ → ℝ → Except Err ℝ} (hb : BrentqSpec brentq) {m : ℕ} (hm : 25 ≤ m)
    (noise : Bool) :
    phikFromHist2d gaussMvn brentq (balanced m) noise = .ok 0 ∧
    ∃ x, phikFromHist2d gaussMvn brentq (balancedAndOne m) noise = .ok x ∧ 69 / 100 ≤ x := by
  have hm' : (25 : ℝ) ≤ m := by exact_mod_cast hm
  constructor
  · have hd := balanced_data (m := m) (by omega)
    obtain ⟨chi2, ped, mx, x, hchi, hped, hmx, hlt, hle, hrun, hx0, hx1, hz, -, -⟩ :=
      phik_of_data gaussian_mvn_spec hb hd (by simp [balanced]) (by simp [balanced]) noise
    have h0 : getChi2 (balanced m) "pearson" = .ok 0 := by
      have e1 : nRows (balanced m) = 2 := by
        unfold nRows
        rw [Nat.card_congr (Equiv.subtypeUnivEquiv hd.rows)]
        simp [balanced]
      have e2 : nCols (balanced m) = 2 := by
        unfold nCols
        rw [Nat.card_congr (Equiv.subtypeUnivEquiv hd.cols)]
        simp [balanced]
      refine ((pearson_zero_iff (data_isCount hd (by simp [balanced]))).2 ⟨e1, e2⟩).2 fun i j => ?_
      have h5 : (m : ℝ) ≠ 0 := by positivity
      have : expect (balanced m) i j = m := by
        change (∑ _ : Fin 2, (m : ℝ)) * (∑ _ : Fin 2, (m : ℝ)) / (∑ _ : Fin 2, ∑ _ : Fin 2, (m : ℝ)) = m
        simp only [Fin.sum_univ_two]
        field_simp
      rw [this]
      simp [balanced]
    rw [h0] at hchi
    have : chi2 = 0 := (Except.ok.inj hchi).symm
    have hp0 : 0 ≤ ped := by
      rw [hped]
      cases noise <;> simp [balanced]
    rw [hrun, hz (by linarith)]
  · obtain ⟨x, h1, h2, -⟩ := phik_cramersV_noise hb (balancedAndOne_data (m := m) (by omega)) (k := 3) rfl rfl (by norm_num) noise
    refine ⟨x, h1, ?_⟩
    have ht : (balancedAndOne m).total = 4 * m + 1 := by
      change ∑ i : Fin 3, ∑ j : Fin 3, (if i = 2 ∧ j = 2 then (1 : ℝ) else if i = 2 ∨ j = 2 then 0 else m) = _
      simp [Fin.sum_univ_three]
      ring
    have hV : 698 / 1000 ≤ cramersVAbove (if noise then ((3 : ℕ) - 1 : ℝ) ^ 2 else 0) (balancedAndOne m) := by
      unfold cramersVAbove
      rw [balancedAndOne_chi2 (by omega), ht]
      refine Real.le_sqrt_of_sq_le ?_
      simp only [balancedAndOne, Nat.add_one_sub_one, min_self]
      cases noise
      · simp only [Bool.false_eq_true, if_false]
        rw [le_div_iff₀ (by push_cast; linarith)]
        push_cast
        linarith
      · simp only [if_true]
        rw [le_div_iff₀ (by push_cast; linarith)]
        push_cast
        linarith
    have htol : rootTol ≤ 1 / 1000 := by
      unfold rootTol
      norm_num
    have := hV.trans h2
    linarith

/-- The hypotheses are met by the table of two identical columns with three categories. -/
example (noise : Bool) := phik_cramersV_noise idealBrentq_spec exDiag_data.1 (k := 3) rfl rfl (by norm_num) noise
example := phik_cramersV idealBrentq_spec (balancedAndOne_data (m := 30) (by norm_num)) rfl (by simp [balancedAndOne])
/-- The bound on the variance left by binning, for two bins. -/
example : 1 / 5 ≤ binnedVariance 2 := binnedVariance_ge le_rfl

end Phik.Props
