import Verif.Props.OutlierTable
import Verif.Spec.OutlierMono
import Verif.Lemmas.BetaSens
import Verif.Lemmas.GammaCLT

/-! # Property C100: the significance of a combination when records are added -/

namespace Phik.Props

open Spec BetaCF Out MeasureTheory Set

/-! ### the tail grows with shape and scale -/

theorem betaInt_lt {a b x y : ℝ} (ha : 0 < a) (hb : 0 < b) (hx : 0 ≤ x) (hxy : x < y) (hy : y ≤ 1) : betaInt a b x < betaInt a b y := by
  unfold betaInt
  rw [← intervalIntegral.integral_add_adjacent_intervals (betaInt_integrable ha hb le_rfl zero_le_one hx (hxy.le.trans hy))
    (betaInt_integrable ha hb hx (hxy.le.trans hy) (hx.trans hxy.le) hy)]
  have : 0 < ∫ t in x..y, t ^ (a - 1) * (1 - t) ^ (b - 1) :=
    intervalIntegral.intervalIntegral_pos_of_pos_on (betaInt_integrable ha hb hx (hxy.le.trans hy) (hx.trans hxy.le) hy)
      (fun t ht => mul_pos (Real.rpow_pos_of_pos (by linarith [ht.1]) _) (Real.rpow_pos_of_pos (by linarith [ht.2]) _)) hxy
  linarith

theorem tail_mono {n : ℕ} {b b' r r' : ℝ} (hb : 0 < b) (hbb : b ≤ b') (hr' : 0 < r') (hr : r' < r) :
    gammaPoissonTail n b r ≤ gammaPoissonTail n b' r' ∧ (n ≠ 0 → gammaPoissonTail n b r < gammaPoissonTail n b' r') := by
  have hr0 : 0 < r := by linarith
  by_cases hn : n = 0
  · subst hn
    rw [gammaPoissonTail_zero hb hr0, gammaPoissonTail_zero (by linarith) hr']
    exact ⟨le_rfl, fun h => absurd rfl h⟩
  · have n0 : (0 : ℝ) < n := by positivity
    have key : gammaPoissonTail n b r < gammaPoissonTail n b' r' := by
      rw [← regBeta_eq_tail hb hr0 hn, ← regBeta_eq_tail (by linarith) hr' hn]
      have x1 : 1 / (1 + r') ≤ 1 := by rw [div_le_one (by positivity)]; linarith
      have xx : 1 / (1 + r) < 1 / (1 + r') := one_div_lt_one_div_of_lt (by linarith) (by linarith)
      refine lt_of_lt_of_le ?_ (regBeta_mono_b n0 hb hbb (by positivity) x1)
      exact div_lt_div_of_pos_right (betaInt_lt n0 hb (by positivity) xx x1) (betaInt_one_pos n0 hb)
    exact ⟨key.le, fun _ => key⟩

/-! ### shape and rate of a cell -/

/-- Shape and rate of the gamma distribution for the counts `B`, `C`, `D` (not both `B` and `C` zero). -/
noncomputable def shapeOf (B C D : ℝ) : ℝ := if B = 0 ∨ C = 0 then 2 else 1 + 1 / (1 / B + 1 / C + 1 / D)
noncomputable def rateOf (B C D : ℝ) : ℝ := D / (B + C + B * C / D)

theorem poissonUncertainty_sq {n : ℕ} (h : n ≠ 0) : poissonUncertainty n ^ 2 = n := by
  unfold poissonUncertainty
  rw [if_pos (by exact_mod_cast Nat.one_le_iff_ne_zero.2 h), Real.sq_sqrt (by positivity)]

theorem countTail_params {B C D : ℕ} (hD : D ≠ 0) (h : ¬ (B = 0 ∧ C = 0)) (n : ℕ) :
    countTail (abcd B C D) (abcdErr poissonUncertainty B C D) n = gammaPoissonTail n (shapeOf B C D) (rateOf B C D) := by
  have d0 : (0 : ℝ) < D := by positivity
  have z1 : poissonUncertainty ((0 : ℕ) : ℝ) = 1 := by simp [poissonUncertainty]
  by_cases hB : B = 0
  · have hC : C ≠ 0 := fun hc => h ⟨hB, hc⟩
    subst hB
    have c0 : (0 : ℝ) < C := by positivity
    have e0 : abcd ((0 : ℕ) : ℝ) C D = 0 := by simp [abcd]
    have s0 : abcdErr poissonUncertainty ((0 : ℕ) : ℝ) C D = C / D := by
      rw [← abcdErr_eq _ _ _ d0.ne', z1]
      simp only [Nat.cast_zero, mul_zero, zero_mul, zero_div, one_mul, ne_eq, OfNat.ofNat_ne_zero, not_false_eq_true, zero_pow, add_zero]
      exact Real.sqrt_sq (by positivity)
    rw [e0, s0, countTail, if_pos (by positivity), if_neg (lt_irrefl _)]
    congr 1
    · simp only [shapeOf, Nat.cast_zero, true_or, if_true]; field_simp; norm_num
    · simp only [rateOf, Nat.cast_zero, zero_mul, zero_div, add_zero, zero_add]; field_simp
  · have b0 : (0 : ℝ) < B := by positivity
    by_cases hC : C = 0
    · subst hC
      have e0 : abcd B ((0 : ℕ) : ℝ) D = 0 := by simp [abcd]
      have s0 : abcdErr poissonUncertainty B ((0 : ℕ) : ℝ) D = B / D := by
        rw [← abcdErr_eq _ _ _ d0.ne', z1]
        simp only [Nat.cast_zero, mul_zero, zero_div, one_mul, ne_eq, OfNat.ofNat_ne_zero, not_false_eq_true, zero_pow, add_zero, zero_add]
        exact Real.sqrt_sq (by positivity)
      rw [e0, s0, countTail, if_pos (by positivity), if_neg (lt_irrefl _)]
      congr 1
      · simp only [shapeOf, Nat.cast_zero, or_true, if_true]; field_simp; norm_num
      · simp only [rateOf, Nat.cast_zero, mul_zero, zero_div, add_zero]; field_simp
    · have c0 : (0 : ℝ) < C := by positivity
      have e0 : 0 < abcd (B : ℝ) C D := by unfold abcd; positivity
      have s2 : abcdErr poissonUncertainty (B : ℝ) C D ^ 2 = (abcd (B : ℝ) C D) ^ 2 * (1 / B + 1 / C + 1 / D) := by
        rw [← abcdErr_eq _ _ _ d0.ne', Real.sq_sqrt (by positivity), div_pow, div_pow, div_pow, mul_pow, mul_pow, mul_pow,
          poissonUncertainty_sq hB, poissonUncertainty_sq hC, poissonUncertainty_sq hD]
        unfold abcd
        field_simp
      have s0 : 0 < abcdErr poissonUncertainty (B : ℝ) C D := by
        have nn : 0 ≤ abcdErr poissonUncertainty (B : ℝ) C D := Real.sqrt_nonneg _
        rcases nn.eq_or_lt with hz | hz
        · rw [← hz] at s2
          have : 0 < (abcd (B : ℝ) C D) ^ 2 * (1 / B + 1 / C + 1 / D) := by positivity
          rw [← s2] at this; norm_num at this
        · exact hz
      rw [countTail, if_pos s0, if_pos e0, s2]
      have nB : (B : ℝ) ≠ 0 := b0.ne'
      have nC : (C : ℝ) ≠ 0 := c0.ne'
      congr 1
      · simp only [shapeOf, nB, nC, or_self, if_false]; unfold abcd; field_simp; ring
      · simp only [rateOf]; unfold abcd; field_simp; ring

theorem shape_pos {B C D : ℝ} (hB : 0 ≤ B) (hC : 0 ≤ C) (hD : 0 < D) : 0 < shapeOf B C D := by
  unfold shapeOf; split
  · norm_num
  · positivity

theorem rate_pos {B C D : ℝ} (hB : 0 ≤ B) (hC : 0 ≤ C) (hD : 0 < D) (h : 0 < B + C) : 0 < rateOf B C D := by
  unfold rateOf; positivity

theorem shape_mono {B B' C D : ℝ} (hB : 0 < B) (hBB : B ≤ B') (hC : 0 ≤ C) (hD : 0 < D) : shapeOf B C D ≤ shapeOf B' C D := by
  have hB' : 0 < B' := by linarith
  unfold shapeOf
  rcases hC.eq_or_lt with rfl | hC
  · simp
  · rw [if_neg (by simp [hB.ne', hC.ne']), if_neg (by simp [hB'.ne', hC.ne'])]
    have : 1 / B' ≤ 1 / B := one_div_le_one_div_of_le hB hBB
    have := one_div_le_one_div_of_le (by positivity : 0 < 1 / B' + 1 / C + 1 / D) (by linarith : 1 / B' + 1 / C + 1 / D ≤ 1 / B + 1 / C + 1 / D)
    linarith

theorem rate_anti {B B' C D : ℝ} (hB : 0 ≤ B) (hBB : B < B') (hC : 0 ≤ C) (hD : 0 < D) (h : 0 < B + C) : rateOf B' C D < rateOf B C D := by
  unfold rateOf
  refine div_lt_div_of_pos_left hD (by positivity) ?_
  have : B * C / D ≤ B' * C / D := div_le_div_of_nonneg_right (mul_le_mul_of_nonneg_right hBB.le hC) hD.le
  linarith

theorem shape_comm (B C D : ℝ) : shapeOf B C D = shapeOf C B D := by
  unfold shapeOf; simp only [or_comm, add_comm (1 / B)]

theorem rate_comm (B C D : ℝ) : rateOf B C D = rateOf C B D := by
  unfold rateOf; rw [add_comm B, mul_comm B]

/-- The documented mid-p value grows with the other records in the row. -/
theorem midTail_row {B B' C D : ℕ} (hB : B ≠ 0) (hBB : B < B') (hD : D ≠ 0) (n : ℕ) :
    midTail (abcd B C D) (abcdErr poissonUncertainty B C D) n < midTail (abcd B' C D) (abcdErr poissonUncertainty B' C D) n := by
  have b0 : (0 : ℝ) < B := by positivity
  have d0 : (0 : ℝ) < D := by positivity
  have c0 : (0 : ℝ) ≤ C := by positivity
  have bb : (B : ℝ) < B' := by exact_mod_cast hBB
  have t := fun m => tail_mono (n := m) (shape_pos b0.le c0 d0) (shape_mono b0 bb.le c0 d0) (rate_pos (by linarith : (0 : ℝ) ≤ B') c0 d0 (by linarith))
    (rate_anti b0.le bb c0 d0 (by linarith))
  unfold midTail
  rw [countTail_params hD (by omega), countTail_params hD (by omega), countTail_params hD (by omega), countTail_params hD (by omega)]
  linarith [(t n).1, (t (n + 1)).2 (by omega)]

/-- The same for the column. -/
theorem midTail_col {B C C' D : ℕ} (hC : C ≠ 0) (hCC : C < C') (hD : D ≠ 0) (n : ℕ) :
    midTail (abcd B C D) (abcdErr poissonUncertainty B C D) n < midTail (abcd B C' D) (abcdErr poissonUncertainty B C' D) n := by
  have := midTail_row (C := B) hC hCC hD n
  unfold midTail at this ⊢
  rw [countTail_params hD (by omega), countTail_params hD (by omega), countTail_params hD (by omega), countTail_params hD (by omega)] at this ⊢
  rw [shape_comm B, rate_comm B, shape_comm B, rate_comm B]
  exact this

theorem midTail_cell {e s : ℝ} (hs : 0 < s) {n m : ℕ} (h : n < m) : midTail e s m < midTail e s n := by
  have step : ∀ k, midTail e s (k + 1) < midTail e s k := by
    intro k
    unfold midTail
    have h1 := countTail_facts (e := e) hs k
    have h2 := countTail_facts (e := e) hs (k + 1)
    linarith [h1.2, h2.2]
  exact strictAnti_nat_of_succ_lt step h

/-! ### tables -/

section
variable {N : OutNum} {r c : ℕ}

/-- p-value and significance of the same cell of two tables. -/
theorem compare_cells (h : OutExact N) {t t' : Fin r → Fin c → ℕ} {i : Fin r} {j : Fin c}
    (hD : elsewhere ⟨r, c, t⟩ i j ≠ 0) (hD' : elsewhere ⟨r, c, t'⟩ i j ≠ 0) (hB : ¬ (inRow ⟨r, c, t⟩ i j = 0 ∧ inCol ⟨r, c, t⟩ i j = 0))
    (hB' : ¬ (inRow ⟨r, c, t'⟩ i j = 0 ∧ inCol ⟨r, c, t'⟩ i j = 0)) :
    ∃ w w' : Fin r → Fin c → Option ℝ × FVal, ∃ z z' : ℝ, outlierFromHist2d N ⟨r, c, t⟩ "poisson" = .ok ⟨r, c, w⟩ ∧
      outlierFromHist2d N ⟨r, c, t'⟩ "poisson" = .ok ⟨r, c, w'⟩ ∧
      w i j = (some (midTail (abcd (inRow ⟨r, c, t⟩ i j) (inCol ⟨r, c, t⟩ i j) (elsewhere ⟨r, c, t⟩ i j))
        (abcdErr poissonUncertainty (inRow ⟨r, c, t⟩ i j) (inCol ⟨r, c, t⟩ i j) (elsewhere ⟨r, c, t⟩ i j)) (t i j)), some (z : EReal)) ∧
      w' i j = (some (midTail (abcd (inRow ⟨r, c, t'⟩ i j) (inCol ⟨r, c, t'⟩ i j) (elsewhere ⟨r, c, t'⟩ i j))
        (abcdErr poissonUncertainty (inRow ⟨r, c, t'⟩ i j) (inCol ⟨r, c, t'⟩ i j) (elsewhere ⟨r, c, t'⟩ i j)) (t' i j)), some (z' : EReal)) ∧
      (z' < z ↔ midTail (abcd (inRow ⟨r, c, t⟩ i j) (inCol ⟨r, c, t⟩ i j) (elsewhere ⟨r, c, t⟩ i j))
        (abcdErr poissonUncertainty (inRow ⟨r, c, t⟩ i j) (inCol ⟨r, c, t⟩ i j) (elsewhere ⟨r, c, t⟩ i j)) (t i j) <
        midTail (abcd (inRow ⟨r, c, t'⟩ i j) (inCol ⟨r, c, t'⟩ i j) (elsewhere ⟨r, c, t'⟩ i j))
        (abcdErr poissonUncertainty (inRow ⟨r, c, t'⟩ i j) (inCol ⟨r, c, t'⟩ i j) (elsewhere ⟨r, c, t'⟩ i j)) (t' i j)) ∧
      (z < z' ↔ midTail (abcd (inRow ⟨r, c, t'⟩ i j) (inCol ⟨r, c, t'⟩ i j) (elsewhere ⟨r, c, t'⟩ i j))
        (abcdErr poissonUncertainty (inRow ⟨r, c, t'⟩ i j) (inCol ⟨r, c, t'⟩ i j) (elsewhere ⟨r, c, t'⟩ i j)) (t' i j) <
        midTail (abcd (inRow ⟨r, c, t⟩ i j) (inCol ⟨r, c, t⟩ i j) (elsewhere ⟨r, c, t⟩ i j))
        (abcdErr poissonUncertainty (inRow ⟨r, c, t⟩ i j) (inCol ⟨r, c, t⟩ i j) (elsewhere ⟨r, c, t⟩ i j)) (t i j)) := by
  obtain ⟨w, hw, g⟩ := outlier_table h ⟨r, c, t⟩
  obtain ⟨w', hw', g'⟩ := outlier_table h ⟨r, c, t'⟩
  obtain ⟨g1, -, -, z, g2, g3⟩ := (g i j).2.1 hD hB
  obtain ⟨g1', -, -, z', g2', g3'⟩ := (g' i j).2.1 hD' hB'
  have lt_iff : ∀ x y : ℝ, normCdf (-x) < normCdf (-y) ↔ y < x := fun x y => by
    rw [← not_le, normCdf_le_iff, not_le, neg_lt_neg_iff]
  refine ⟨w, w', z, z', hw, hw', Prod.ext (by rw [g1]) g3, Prod.ext (by rw [g1']) g3', ?_, ?_⟩
  · rw [← g2, ← g2', lt_iff]
  · rw [← g2, ← g2', lt_iff]

/-- C100: more records in the cell raise its significance, with either kind of uncertainty. -/
theorem outlier_more_in_cell (h : OutExact N) {ci : String} (hci : ci = "poisson" ∨ ci = "exact_poisson" ∧ ExactQuantiles N)
    {t t' : Fin r → Fin c → ℕ} {i : Fin r} {j : Fin c} (ha : AddedInCell i j t t')
    (hD : elsewhere ⟨r, c, t⟩ i j ≠ 0) (hB : inRow ⟨r, c, t⟩ i j ≠ 0 ∨ inCol ⟨r, c, t⟩ i j ≠ 0) :
    ∃ w w' : Fin r → Fin c → Option ℝ × FVal, ∃ p p' z z' : ℝ, outlierFromHist2d N ⟨r, c, t⟩ ci = .ok ⟨r, c, w⟩ ∧
      outlierFromHist2d N ⟨r, c, t'⟩ ci = .ok ⟨r, c, w'⟩ ∧ w i j = (some p, some (z : EReal)) ∧ w' i j = (some p', some (z' : EReal)) ∧
      p' < p ∧ z < z' := by
  obtain ⟨h1, h2⟩ := ha
  have eB : inRow ⟨r, c, t'⟩ i j = inRow ⟨r, c, t⟩ i j := Finset.sum_congr rfl fun l hl => h1 i l fun q => (Finset.mem_erase.1 hl).1 q.2
  have eC : inCol ⟨r, c, t'⟩ i j = inCol ⟨r, c, t⟩ i j := Finset.sum_congr rfl fun k hk => h1 k j fun q => (Finset.mem_erase.1 hk).1 q.1
  have eD : elsewhere ⟨r, c, t'⟩ i j = elsewhere ⟨r, c, t⟩ i j := Finset.sum_congr rfl fun k hk => Finset.sum_congr rfl fun l _ =>
    h1 k l fun q => (Finset.mem_erase.1 hk).1 q.1
  have hpos : ∀ m : ℕ, 0 < uncertaintyOf N ci m := by
    rcases hci with rfl | ⟨rfl, hq⟩
    · exact fun m => zero_lt_one.trans_le (uncertaintyOf_pos _)
    · intro m
      unfold uncertaintyOf
      rw [if_pos rfl]
      exact (exact_uncertainty_limit hq).1 m
  have hc := hci.imp id And.left
  obtain ⟨w, hw, g⟩ := outlier_table_ci h hc hpos ⟨r, c, t⟩
  obtain ⟨w', hw', g'⟩ := outlier_table_ci h hc hpos ⟨r, c, t'⟩
  obtain ⟨g1, -, -, z, g2, g3⟩ := (g i j).2.1 hD (by tauto)
  obtain ⟨g1', -, -, z', g2', g3'⟩ := (g' i j).2.1 (by rw [eD]; exact hD) (by rw [eB, eC]; tauto)
  rw [eB, eC, eD] at g1' g2'
  have key := midTail_cell (e := abcd (inRow ⟨r, c, t⟩ i j) (inCol ⟨r, c, t⟩ i j) (elsewhere ⟨r, c, t⟩ i j))
    ((err_zero_iff hpos ⟨r, c, t⟩ i j hD).2 (by tauto)) h2
  refine ⟨w, w', _, _, z, z', hw, hw', Prod.ext (by rw [g1]) g3, Prod.ext (by rw [g1']) g3', key, ?_⟩
  by_contra hz
  have := (normCdf_le_iff (x := -z) (y := -z')).2 (by linarith)
  rw [g2, g2'] at this
  linarith

/-- C100: more records in the row of a cell, if there are others already, lower its significance. -/
theorem outlier_more_in_row (h : OutExact N) {t t' : Fin r → Fin c → ℕ} {i : Fin r} {j : Fin c} (ha : AddedInRow i j t t')
    (hD : elsewhere ⟨r, c, t⟩ i j ≠ 0) (hB : inRow ⟨r, c, t⟩ i j ≠ 0) :
    ∃ w w' : Fin r → Fin c → Option ℝ × FVal, ∃ p p' z z' : ℝ, outlierFromHist2d N ⟨r, c, t⟩ "poisson" = .ok ⟨r, c, w⟩ ∧
      outlierFromHist2d N ⟨r, c, t'⟩ "poisson" = .ok ⟨r, c, w'⟩ ∧ w i j = (some p, some (z : EReal)) ∧ w' i j = (some p', some (z' : EReal)) ∧
      p < p' ∧ z' < z := by
  obtain ⟨h1, h2, h3⟩ := ha
  have e0 : t' i j = t i j := h1 i j (by simp)
  have eC : inCol ⟨r, c, t'⟩ i j = inCol ⟨r, c, t⟩ i j := Finset.sum_congr rfl fun k hk => h1 k j (by simp)
  have eD : elsewhere ⟨r, c, t'⟩ i j = elsewhere ⟨r, c, t⟩ i j := Finset.sum_congr rfl fun k hk => Finset.sum_congr rfl fun l _ =>
    h1 k l fun q => (Finset.mem_erase.1 hk).1 q.1
  have lB : inRow ⟨r, c, t⟩ i j < inRow ⟨r, c, t'⟩ i j := by
    refine Finset.sum_lt_sum (fun l _ => h2 l) ?_
    by_contra hno
    push Not at hno
    refine h3 (funext fun k => funext fun l => ?_)
    by_cases q : k = i ∧ l ≠ j
    · obtain ⟨rfl, hl⟩ := q
      exact le_antisymm (hno l (Finset.mem_erase.2 ⟨hl, Finset.mem_univ l⟩)) (h2 l)
    · exact h1 k l q
  obtain ⟨w, w', z, z', a1, a2, a3, a4, a5, a6⟩ := compare_cells h (t := t) (t' := t') (i := i) (j := j) hD (by rw [eD]; exact hD) (by tauto)
    (by omega)
  rw [eC, eD, e0] at a4 a5
  have key := midTail_row (C := inCol ⟨r, c, t⟩ i j) hB lB hD (t i j)
  exact ⟨w, w', _, _, z, z', a1, a2, a3, a4, key, a5.2 key⟩

/-- C100: more records in the column of a cell, if there are others already, lower its significance. -/
theorem outlier_more_in_col (h : OutExact N) {t t' : Fin r → Fin c → ℕ} {i : Fin r} {j : Fin c} (ha : AddedInCol i j t t')
    (hD : elsewhere ⟨r, c, t⟩ i j ≠ 0) (hC : inCol ⟨r, c, t⟩ i j ≠ 0) :
    ∃ w w' : Fin r → Fin c → Option ℝ × FVal, ∃ p p' z z' : ℝ, outlierFromHist2d N ⟨r, c, t⟩ "poisson" = .ok ⟨r, c, w⟩ ∧
      outlierFromHist2d N ⟨r, c, t'⟩ "poisson" = .ok ⟨r, c, w'⟩ ∧ w i j = (some p, some (z : EReal)) ∧ w' i j = (some p', some (z' : EReal)) ∧
      p < p' ∧ z' < z := by
  obtain ⟨h1, h2, h3⟩ := ha
  have e0 : t' i j = t i j := h1 i j (by simp)
  have eB : inRow ⟨r, c, t'⟩ i j = inRow ⟨r, c, t⟩ i j := Finset.sum_congr rfl fun l hl => h1 i l (by simp)
  have eD : elsewhere ⟨r, c, t'⟩ i j = elsewhere ⟨r, c, t⟩ i j := Finset.sum_congr rfl fun k hk => Finset.sum_congr rfl fun l hl =>
    h1 k l fun q => (Finset.mem_erase.1 hl).1 q.2
  have lC : inCol ⟨r, c, t⟩ i j < inCol ⟨r, c, t'⟩ i j := by
    refine Finset.sum_lt_sum (fun k _ => h2 k) ?_
    by_contra hno
    push Not at hno
    refine h3 (funext fun k => funext fun l => ?_)
    by_cases q : k ≠ i ∧ l = j
    · obtain ⟨hk, rfl⟩ := q
      exact le_antisymm (hno k (Finset.mem_erase.2 ⟨hk, Finset.mem_univ k⟩)) (h2 k)
    · exact h1 k l q
  obtain ⟨w, w', z, z', a1, a2, a3, a4, a5, a6⟩ := compare_cells h (t := t) (t' := t') (i := i) (j := j) hD (by rw [eD]; exact hD) (by tauto)
    (by omega)
  rw [eB, eD, e0] at a4 a5
  have key := midTail_col (B := inRow ⟨r, c, t⟩ i j) hC lC hD (t i j)
  exact ⟨w, w', _, _, z, z', a1, a2, a3, a4, key, a5.2 key⟩

theorem rate_elsewhere {B C D D' : ℝ} (hB : 0 ≤ B) (hC : 0 ≤ C) (hD : 0 < D) (hDD : D < D') (h : 0 < B + C) : rateOf B C D < rateOf B C D' := by
  have hD' : 0 < D' := by linarith
  unfold rateOf
  have e : B * C / D' ≤ B * C / D := div_le_div_of_nonneg_left (mul_nonneg hB hC) hD hDD.le
  calc D / (B + C + B * C / D) ≤ D / (B + C + B * C / D') := div_le_div_of_nonneg_left hD.le (by positivity) (by linarith)
    _ < D' / (B + C + B * C / D') := div_lt_div_of_pos_right hDD (by positivity)

/-- C100: more records outside row and column of a cell raise its significance, if the row or the column has no other records. -/
theorem outlier_more_elsewhere (h : OutExact N) {t t' : Fin r → Fin c → ℕ} {i : Fin r} {j : Fin c} (ha : AddedElsewhere i j t t')
    (hD : elsewhere ⟨r, c, t⟩ i j ≠ 0)
    (hX : inRow ⟨r, c, t⟩ i j = 0 ∧ inCol ⟨r, c, t⟩ i j ≠ 0 ∨ inRow ⟨r, c, t⟩ i j ≠ 0 ∧ inCol ⟨r, c, t⟩ i j = 0) :
    ∃ w w' : Fin r → Fin c → Option ℝ × FVal, ∃ p p' z z' : ℝ, outlierFromHist2d N ⟨r, c, t⟩ "poisson" = .ok ⟨r, c, w⟩ ∧
      outlierFromHist2d N ⟨r, c, t'⟩ "poisson" = .ok ⟨r, c, w'⟩ ∧ w i j = (some p, some (z : EReal)) ∧ w' i j = (some p', some (z' : EReal)) ∧
      p' < p ∧ z < z' := by
  obtain ⟨h1, h2, h3⟩ := ha
  have e0 : t' i j = t i j := h1 i j (by simp)
  have eB : inRow ⟨r, c, t'⟩ i j = inRow ⟨r, c, t⟩ i j := Finset.sum_congr rfl fun l hl => h1 i l (by simp)
  have eC : inCol ⟨r, c, t'⟩ i j = inCol ⟨r, c, t⟩ i j := Finset.sum_congr rfl fun k hk => h1 k j (by simp)
  have lD : elsewhere ⟨r, c, t⟩ i j < elsewhere ⟨r, c, t'⟩ i j := by
    obtain ⟨k, l, hkl⟩ : ∃ k l, t k l < t' k l := by
      by_contra hno
      push Not at hno
      exact h3 (funext fun k => funext fun l => le_antisymm (hno k l) (h2 k l))
    have hk : k ≠ i ∧ l ≠ j := by
      by_contra q
      exact hkl.ne (h1 k l q).symm
    exact Finset.sum_lt_sum (fun k _ => Finset.sum_le_sum fun l _ => h2 k l) ⟨k, Finset.mem_erase.2 ⟨hk.1, Finset.mem_univ k⟩,
      Finset.sum_lt_sum (fun l _ => h2 k l) ⟨l, Finset.mem_erase.2 ⟨hk.2, Finset.mem_univ l⟩, hkl⟩⟩
  obtain ⟨w, w', z, z', a1, a2, a3, a4, a5, a6⟩ := compare_cells h (t := t) (t' := t') (i := i) (j := j) hD (by omega) (by tauto)
    (by rw [eB, eC]; tauto)
  rw [eB, eC, e0] at a4 a6
  set B := inRow ⟨r, c, t⟩ i j
  set C := inCol ⟨r, c, t⟩ i j
  set D := elsewhere ⟨r, c, t⟩ i j
  set D' := elsewhere ⟨r, c, t'⟩ i j
  have key : midTail (abcd B C D') (abcdErr poissonUncertainty B C D') (t i j) < midTail (abcd B C D) (abcdErr poissonUncertainty B C D) (t i j) := by
    have d0 : (0 : ℝ) < D := by positivity
    have dd : (D : ℝ) < D' := by exact_mod_cast lD
    have bc : (0 : ℝ) < (B : ℝ) + C := by
      have : 0 < B + C := by omega
      exact_mod_cast this
    have sh : ∀ x : ℝ, shapeOf B C x = 2 := fun x => by
      unfold shapeOf; rw [if_pos (hX.imp (fun q => by exact_mod_cast q.1) (fun q => by exact_mod_cast q.2))]
    have tm := fun m => tail_mono (n := m) (b := 2) (b' := 2) (by norm_num) le_rfl (rate_pos (Nat.cast_nonneg B) (Nat.cast_nonneg C) d0 bc)
      (rate_elsewhere (Nat.cast_nonneg B) (Nat.cast_nonneg C) d0 dd bc)
    unfold midTail
    rw [countTail_params (by omega) (by tauto), countTail_params (by omega) (by tauto), countTail_params hD (by tauto), countTail_params hD (by tauto)]
    simp only [sh]
    linarith [(tm (t i j)).1, (tm (t i j + 1)).2 (by omega)]
  exact ⟨w, w', _, _, z, z', a1, a2, a3, a4, key, a6.2 key⟩

/-! ### the hypotheses can be met -/

example : OutExact trueOut ∧ ExactQuantiles trueOut := ⟨trueOut_exact, trueOut_quantiles⟩

example : AddedInCell (r := 2) (c := 2) 0 0 ![![20, 3], ![4, 30]] ![![22, 3], ![4, 30]] ∧ elsewhere ⟨2, 2, ![![20, 3], ![4, 30]]⟩ 0 0 ≠ 0 ∧
    inRow ⟨2, 2, ![![20, 3], ![4, 30]]⟩ 0 0 ≠ 0 := by unfold AddedInCell; decide

example : AddedInRow (r := 2) (c := 2) 0 0 ![![20, 3], ![4, 30]] ![![20, 5], ![4, 30]] ∧ elsewhere ⟨2, 2, ![![20, 3], ![4, 30]]⟩ 0 0 ≠ 0 ∧
    inRow ⟨2, 2, ![![20, 3], ![4, 30]]⟩ 0 0 ≠ 0 := by unfold AddedInRow; decide

example : AddedInCol (r := 2) (c := 2) 0 0 ![![20, 3], ![4, 30]] ![![20, 3], ![7, 30]] ∧ elsewhere ⟨2, 2, ![![20, 3], ![4, 30]]⟩ 0 0 ≠ 0 ∧
    inCol ⟨2, 2, ![![20, 3], ![4, 30]]⟩ 0 0 ≠ 0 := by unfold AddedInCol; decide

example : AddedElsewhere (r := 2) (c := 2) 0 0 ![![20, 0], ![4, 30]] ![![20, 0], ![4, 33]] ∧ elsewhere ⟨2, 2, ![![20, 0], ![4, 30]]⟩ 0 0 ≠ 0 ∧
    inRow ⟨2, 2, ![![20, 0], ![4, 30]]⟩ 0 0 = 0 ∧ inCol ⟨2, 2, ![![20, 0], ![4, 30]]⟩ 0 0 ≠ 0 := by unfold AddedElsewhere; decide

/-! ### two ways in which the expected behaviour fails -/

theorem tail_one {b r : ℝ} (hb : 0 < b) (hr : 0 < r) : gammaPoissonTail 1 b r = 1 - (r / (1 + r)) ^ b := by
  rw [gammaPoissonTail_eq hb hr]
  have : (1 : ℝ) - 1 / (1 + r) = r / (1 + r) := by field_simp; ring
  rw [this]
  simp [(Real.Gamma_pos_of_pos hb).ne']

theorem tail_two {b r : ℝ} (hb : 0 < b) (hr : 0 < r) : gammaPoissonTail 2 b r = 1 - (1 + b / (1 + r)) * (r / (1 + r)) ^ b := by
  rw [gammaPoissonTail_eq hb hr]
  have : (1 : ℝ) - 1 / (1 + r) = r / (1 + r) := by field_simp; ring
  have g := (Real.Gamma_pos_of_pos hb).ne'
  simp only [this, Finset.sum_range_succ, Finset.sum_range_zero, Nat.cast_zero, Nat.cast_one, add_zero, Nat.factorial, Real.Gamma_add_one hb.ne']
  field_simp
  ring

/-- C100, violated: the first other record in the row of a cell can raise its significance. The table has one record in the cell,
none elsewhere in the row (so that none is expected), 100 elsewhere in the column and one elsewhere; the p-value exceeds 0.999. -/
theorem outlier_first_in_row_violated (h : OutExact N) :
    AddedInRow (r := 2) (c := 2) 0 0 ![![1, 0], ![100, 1]] ![![1, 1], ![100, 1]] ∧
    ∃ w w' : Fin 2 → Fin 2 → Option ℝ × FVal, ∃ p p' z z' : ℝ, outlierFromHist2d N ⟨2, 2, ![![1, 0], ![100, 1]]⟩ "poisson" = .ok ⟨2, 2, w⟩ ∧
      outlierFromHist2d N ⟨2, 2, ![![1, 1], ![100, 1]]⟩ "poisson" = .ok ⟨2, 2, w'⟩ ∧ w 0 0 = (some p, some (z : EReal)) ∧
      w' 0 0 = (some p', some (z' : EReal)) ∧ p' < p ∧ z < z' ∧ 0.999 < p := by
  refine ⟨by unfold AddedInRow; decide, ?_⟩
  have b1 : inRow ⟨2, 2, ![![1, 0], ![100, 1]]⟩ 0 0 = 0 := by decide
  have c1 : inCol ⟨2, 2, ![![1, 0], ![100, 1]]⟩ 0 0 = 100 := by decide
  have d1 : elsewhere ⟨2, 2, ![![1, 0], ![100, 1]]⟩ 0 0 = 1 := by decide
  have b2 : inRow ⟨2, 2, ![![1, 1], ![100, 1]]⟩ 0 0 = 1 := by decide
  have c2 : inCol ⟨2, 2, ![![1, 1], ![100, 1]]⟩ 0 0 = 100 := by decide
  have d2 : elsewhere ⟨2, 2, ![![1, 1], ![100, 1]]⟩ 0 0 = 1 := by decide
  obtain ⟨w, w', z, z', a1, a2, a3, a4, a5, a6⟩ := compare_cells h (t := ![![1, 0], ![100, 1]]) (t' := ![![1, 1], ![100, 1]]) (i := 0) (j := 0)
    (by rw [d1]; norm_num) (by rw [d2]; norm_num) (by rw [b1, c1]; norm_num) (by rw [b2, c2]; norm_num)
  rw [b1, c1, d1] at a3 a6
  rw [b2, c2, d2] at a4 a6
  change w 0 0 = (some (midTail _ _ 1), _) at a3
  change w' 0 0 = (some (midTail _ _ 1), _) at a4
  change z < z' ↔ midTail _ _ 1 < midTail _ _ 1 at a6
  have m1 : midTail (abcd (0 : ℕ) (100 : ℕ) (1 : ℕ)) (abcdErr poissonUncertainty (0 : ℕ) (100 : ℕ) (1 : ℕ)) 1 = 1 - (1 + 100 / 101) / 101 ^ 2 := by
    unfold midTail
    rw [countTail_params (by norm_num) (by norm_num), countTail_params (by norm_num) (by norm_num)]
    have s2 : shapeOf (0 : ℕ) (100 : ℕ) (1 : ℕ) = 2 := by unfold shapeOf; simp
    have r2 : rateOf (0 : ℕ) (100 : ℕ) (1 : ℕ) = 1 / 100 := by unfold rateOf; norm_num
    rw [s2, r2, tail_one (by norm_num) (by norm_num), tail_two (by norm_num) (by norm_num), Real.rpow_ofNat]
    norm_num
  have m2 : midTail (abcd (1 : ℕ) (100 : ℕ) (1 : ℕ)) (abcdErr poissonUncertainty (1 : ℕ) (100 : ℕ) (1 : ℕ)) 1 ≤ 1 - 1 / 3030 := by
    unfold midTail
    rw [countTail_params (by norm_num) (by norm_num), countTail_params (by norm_num) (by norm_num)]
    have s2 : shapeOf (1 : ℕ) (100 : ℕ) (1 : ℕ) = 301 / 201 := by unfold shapeOf; norm_num
    have r2 : rateOf (1 : ℕ) (100 : ℕ) (1 : ℕ) = 1 / 201 := by unfold rateOf; norm_num
    rw [s2, r2]
    have l := gammaPoissonTail_lt (s := 301 / 201) (r := 1 / 201) (by norm_num) (by norm_num) 1
    have t1 := tail_one (b := 301 / 201) (r := 1 / 201) (by norm_num) (by norm_num)
    have q : (1 : ℝ) / 3030 ≤ (1 / 201 / (1 + 1 / 201)) ^ ((301 : ℝ) / 201) := by
      have e : (1 / 201 / (1 + 1 / 201) : ℝ) = 1 / 202 := by norm_num
      rw [e]
      calc (1 : ℝ) / 3030 ≤ (1 / 202) * (1 / 15) := by norm_num
        _ ≤ (1 / 202) * (1 / 202) ^ ((1 : ℝ) / 2) := by
          refine mul_le_mul_of_nonneg_left ?_ (by norm_num)
          rw [← Real.sqrt_eq_rpow]
          exact Real.le_sqrt_of_sq_le (by norm_num)
        _ = (1 / 202 : ℝ) ^ (1 + (1 : ℝ) / 2) := by rw [Real.rpow_add (by norm_num), Real.rpow_one]
        _ ≤ _ := Real.rpow_le_rpow_of_exponent_ge (by norm_num) (by norm_num) (by norm_num)
    norm_num at l t1 q ⊢
    linarith
  have key : midTail (abcd (1 : ℕ) (100 : ℕ) (1 : ℕ)) (abcdErr poissonUncertainty (1 : ℕ) (100 : ℕ) (1 : ℕ)) 1 <
      midTail (abcd (0 : ℕ) (100 : ℕ) (1 : ℕ)) (abcdErr poissonUncertainty (0 : ℕ) (100 : ℕ) (1 : ℕ)) 1 := by
    rw [m1]; refine lt_of_le_of_lt m2 (by norm_num)
  exact ⟨w, w', _, _, z, z', a1, a2, a3, a4, key, a6.2 key, by rw [m1]; norm_num⟩

/-- C100, violated: a record elsewhere, which halves the expectation of a cell (from 10000 to 5000), can lower its significance. -/
theorem outlier_elsewhere_violated (h : OutExact N) :
    AddedElsewhere (r := 2) (c := 2) 0 0 ![![0, 100], ![100, 1]] ![![0, 100], ![100, 2]] ∧
    ∃ w w' : Fin 2 → Fin 2 → Option ℝ × FVal, ∃ p p' z z' : ℝ, outlierFromHist2d N ⟨2, 2, ![![0, 100], ![100, 1]]⟩ "poisson" = .ok ⟨2, 2, w⟩ ∧
      outlierFromHist2d N ⟨2, 2, ![![0, 100], ![100, 2]]⟩ "poisson" = .ok ⟨2, 2, w'⟩ ∧ w 0 0 = (some p, some (z : EReal)) ∧
      w' 0 0 = (some p', some (z' : EReal)) ∧ p < p' ∧ z' < z := by
  refine ⟨by unfold AddedElsewhere; decide, ?_⟩
  have b1 : inRow ⟨2, 2, ![![0, 100], ![100, 1]]⟩ 0 0 = 100 := by decide
  have c1 : inCol ⟨2, 2, ![![0, 100], ![100, 1]]⟩ 0 0 = 100 := by decide
  have d1 : elsewhere ⟨2, 2, ![![0, 100], ![100, 1]]⟩ 0 0 = 1 := by decide
  have b2 : inRow ⟨2, 2, ![![0, 100], ![100, 2]]⟩ 0 0 = 100 := by decide
  have c2 : inCol ⟨2, 2, ![![0, 100], ![100, 2]]⟩ 0 0 = 100 := by decide
  have d2 : elsewhere ⟨2, 2, ![![0, 100], ![100, 2]]⟩ 0 0 = 2 := by decide
  obtain ⟨w, w', z, z', a1, a2, a3, a4, a5, a6⟩ := compare_cells h (t := ![![0, 100], ![100, 1]]) (t' := ![![0, 100], ![100, 2]]) (i := 0) (j := 0)
    (by rw [d1]; norm_num) (by rw [d2]; norm_num) (by rw [b1, c1]; norm_num) (by rw [b2, c2]; norm_num)
  rw [b1, c1, d1] at a3 a5
  rw [b2, c2, d2] at a4 a5
  change w 0 0 = (some (midTail _ _ 0), _) at a3
  change w' 0 0 = (some (midTail _ _ 0), _) at a4
  change z' < z ↔ midTail _ _ 0 < midTail _ _ 0 at a5
  have m1 : midTail (abcd (100 : ℕ) (100 : ℕ) (1 : ℕ)) (abcdErr poissonUncertainty (100 : ℕ) (100 : ℕ) (1 : ℕ)) 0 ≤ 1 - 1 / 2 * (1 / 10201) ^ 2 := by
    unfold midTail
    rw [countTail_params (by norm_num) (by norm_num), countTail_params (by norm_num) (by norm_num)]
    have s2 : shapeOf (100 : ℕ) (100 : ℕ) (1 : ℕ) = 101 / 51 := by unfold shapeOf; norm_num
    have r2 : rateOf (100 : ℕ) (100 : ℕ) (1 : ℕ) = 1 / 10200 := by unfold rateOf; norm_num
    rw [s2, r2, zero_add, gammaPoissonTail_zero (by norm_num) (by norm_num), tail_one (by norm_num) (by norm_num)]
    have e : (1 / 10200 / (1 + 1 / 10200) : ℝ) = 1 / 10201 := by norm_num
    rw [e]
    have q : (1 / 10201 : ℝ) ^ (2 : ℝ) ≤ (1 / 10201 : ℝ) ^ ((101 : ℝ) / 51) :=
      Real.rpow_le_rpow_of_exponent_ge (by norm_num) (by norm_num) (by norm_num)
    rw [Real.rpow_ofNat] at q
    linarith
  have m2 : 1 - 1 / 2 * (1 / 51) ^ 5 ≤ midTail (abcd (100 : ℕ) (100 : ℕ) (2 : ℕ)) (abcdErr poissonUncertainty (100 : ℕ) (100 : ℕ) (2 : ℕ)) 0 := by
    unfold midTail
    rw [countTail_params (by norm_num) (by norm_num), countTail_params (by norm_num) (by norm_num)]
    have s2 : shapeOf (100 : ℕ) (100 : ℕ) (2 : ℕ) = 38 / 13 := by unfold shapeOf; norm_num
    have r2 : rateOf (100 : ℕ) (100 : ℕ) (2 : ℕ) = 1 / 2600 := by unfold rateOf; norm_num
    rw [s2, r2, zero_add, gammaPoissonTail_zero (by norm_num) (by norm_num), tail_one (by norm_num) (by norm_num)]
    have e : (1 / 2600 / (1 + 1 / 2600) : ℝ) = (1 / 51) ^ (2 : ℝ) := by rw [Real.rpow_ofNat]; norm_num
    rw [e, ← Real.rpow_mul (by norm_num)]
    have q : (1 / 51 : ℝ) ^ ((2 : ℝ) * (38 / 13)) ≤ (1 / 51 : ℝ) ^ (5 : ℝ) :=
      Real.rpow_le_rpow_of_exponent_ge (by norm_num) (by norm_num) (by norm_num)
    rw [Real.rpow_ofNat] at q
    linarith
  have key : midTail (abcd (100 : ℕ) (100 : ℕ) (1 : ℕ)) (abcdErr poissonUncertainty (100 : ℕ) (100 : ℕ) (1 : ℕ)) 0 <
      midTail (abcd (100 : ℕ) (100 : ℕ) (2 : ℕ)) (abcdErr poissonUncertainty (100 : ℕ) (100 : ℕ) (2 : ℕ)) 0 := by
    refine lt_of_le_of_lt m1 (lt_of_lt_of_le (by norm_num) m2)
  exact ⟨w, w', _, _, z, z', a1, a2, a3, a4, key, a5.2 key⟩

end

end Phik.Props
