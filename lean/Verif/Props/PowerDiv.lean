import Verif.Props.Stats
import Verif.Spec.PowerDiv
import Mathlib.Analysis.Convex.SpecificFunctions.Basic

/-! # Property C77: the other test statistics -/

namespace Phik.Props
open Spec

theorem corrected_pos {o e : ℝ} (ho : 0 ≤ o) (he : 0 < e) : 0 < corrected o e := by
  unfold corrected
  split
  · exact he
  · next h =>
    split
    · linarith
    · next h2 =>
      rw [abs_of_nonpos (by linarith)] at h
      linarith

/-- The observations after the continuity correction, if any. -/
noncomputable def obsOf (b : Arr2 ℝ) : Fin b.r → Fin b.c → ℝ :=
  if nominalDof b.r b.c = 1 then fun i j => yates (b.v i j) (expected b i j) else b.v

theorem obsOf_sum {a b : Arr2 ℝ} (s : Sub a b) (h : IsCount a) :
    ∑ i, ∑ j, obsOf b i j = ∑ i, ∑ j, expected b i j := by
  have hb := s.isCount h
  obtain ⟨hr, hc⟩ := size_pos hb.pos.ne'
  unfold obsOf
  by_cases h1 : nominalDof b.r b.c = 1
  · simp only [h1, if_true]
    obtain ⟨h2, h3⟩ := (nominalDof_one hr hc).1 h1
    have key : ∀ b : Arr2 ℝ, b.total ≠ 0 → b.r = 2 → b.c = 2 →
        ∑ i, ∑ j, yates (b.v i j) (expected b i j) = ∑ i, ∑ j, expected b i j := by
      rintro ⟨r, c, v⟩ ht h2 h3
      simp only at h2 h3
      subst h2 h3
      refine sum_yates (v := v) (e := expected ⟨2, 2, v⟩) ?_
      intro i
      exact (row_expected ht i).symm
    exact key b hb.pos.ne' h2 h3
  · simp only [h1, if_false]
    rw [sum_expected hb.pos.ne']
    rfl

theorem core_exp_pos {a b : Arr2 ℝ} (s : Sub a b) (h : IsCount a) (i : Fin b.r) (j : Fin b.c) : 0 < expected b i j :=
  div_pos (mul_pos (s.rowSum_pos h i) (s.colSum_pos h j)) (s.isCount h).pos

theorem obsOf_nonneg {a b : Arr2 ℝ} (s : Sub a b) (h : IsCount a) (i : Fin b.r) (j : Fin b.c) : 0 ≤ obsOf b i j := by
  have hb := s.isCount h
  unfold obsOf
  split
  · change 0 ≤ yates _ _
    rw [yates_eq]
    exact (corrected_pos (hb.nonneg i j) (core_exp_pos s h i j)).le
  · exact hb.nonneg i j

theorem obsOf_pos {a b : Arr2 ℝ} (s : Sub a b) (h : IsCount a) (hz : TwoByTwo a ∨ ¬ EmptyCell a) (i : Fin b.r)
    (j : Fin b.c) : 0 < obsOf b i j := by
  have hb := s.isCount h
  obtain ⟨hr, hc⟩ := size_pos hb.pos.ne'
  unfold obsOf
  split
  · change 0 < yates _ _
    rw [yates_eq]
    exact corrected_pos (hb.nonneg i j) (core_exp_pos s h i j)
  · next hn =>
    rcases hz with ⟨h1, h2⟩ | hz
    · rw [s.nRows] at h1
      rw [s.nCols] at h2
      exact absurd ((nominalDof_one hr hc).2 ⟨h1, h2⟩) hn
    · refine lt_of_le_of_ne (hb.nonneg i j) fun h0 => hz ⟨s.ρ i, s.σ j, (s.ρ_range _).1 ⟨i, rfl⟩,
        (s.σ_range _).1 ⟨j, rfl⟩, ?_⟩
      rw [← s.val, ← h0]

theorem get_chi2_power {a : Arr2 ℝ} (h : IsCount a) {name : String} {lam : ℝ}
    (hl : powerDivLambda name = some lam)
    (hz : 0 ≤ lam ∨ (nRows a = 1 ∨ nCols a = 1) ∨ TwoByTwo a ∨ ¬ EmptyCell a) {cell : ℝ → ℝ → ℝ} (k : ℝ)
    (hcell : ∀ o e, 0 ≤ o → (0 < o ∨ 0 ≤ lam) → 0 < e → powerTerm lam o e = cell o e + k * (o - e)) :
    getChi2 a name = .ok (statistic cell a) := by
  obtain ⟨s⟩ := core_sub a
  rw [getChi2_eq]
  generalize core a = b at s
  rw [chi2_of_core s h, hl]
  have hb := s.isCount h
  obtain ⟨hr, hc⟩ := size_pos hb.pos.ne'
  unfold statistic
  by_cases hd : nRows a = 1 ∨ nCols a = 1
  · rw [if_pos hd]
    rw [s.nRows, s.nCols] at hd
    rw [if_pos (nominalDof_zero.2 hd)]
  rw [if_neg hd]
  have hd' := hd
  rw [s.nRows, s.nCols] at hd'
  rw [if_neg (mt nominalDof_zero.1 hd')]
  have hpos' : ∀ i j, 0 < obsOf b i j ∨ 0 ≤ lam := by
    intro i j
    rcases hz with hz | hz | hz
    · exact .inr hz
    · exact absurd hz hd
    · exact .inl (obsOf_pos s h hz i j)
  have hsum := obsOf_sum s h
  have hpd : powerDivergence (obsOf b) (expected b) lam = .ok (∑ i, ∑ j, cell (obsOf b i j) (expected b i j)) := by
    unfold powerDivergence
    simp only
    rw [hsum, sub_self, abs_zero, zero_div, if_neg (by norm_num), if_neg]
    · congr 1
      have : ∑ i, ∑ j, powerTerm lam (obsOf b i j) (expected b i j) =
          ∑ i, ∑ j, (cell (obsOf b i j) (expected b i j) + k * (obsOf b i j - expected b i j)) :=
        Finset.sum_congr rfl fun i _ => Finset.sum_congr rfl fun j _ =>
          hcell _ _ (obsOf_nonneg s h i j) (hpos' i j) (core_exp_pos s h i j)
      rw [this]
      simp only [Finset.sum_add_distrib, ← Finset.mul_sum, Finset.sum_sub_distrib, hsum, sub_self, mul_zero, add_zero]
    · rintro ⟨hneg, i, j, h0⟩
      rcases hpos' i j with h1 | h1
      · exact h1.ne' h0
      · exact absurd h1 (not_le.2 hneg)
  refine Eq.trans hpd ?_
  congr 1
  refine s.sum_cells (fun i j => if expect a i j = 0 then 0
    else cell (if nRows a = 2 ∧ nCols a = 2 then corrected (a.v i j) (expect a i j) else a.v i j)
      (expect a i j)) _ ?_ ?_
  · intro i j hij
    have : expect a i j = 0 := by
      change a.rowSum i * a.colSum j / a.total = 0
      rcases hij with e | e <;> rw [e] <;> simp
    rw [if_pos this]
  · intro i j
    have e1 : expect a (s.ρ i) (s.σ j) = expected b i j := (s.expected i j).symm
    simp only [e1, if_neg (core_exp_pos s h i j).ne', ← s.val]
    congr 1
    rw [s.nRows, s.nCols]
    unfold obsOf
    by_cases h2 : b.r = 2 ∧ b.c = 2
    · rw [if_pos h2, if_pos ((nominalDof_one hr hc).2 h2), yates_eq]
    · rw [if_neg h2, if_neg (mt (nominalDof_one hr hc).1 h2)]

/-- **C77 (Cressie and Read).** -/
theorem get_chi2_cressie_read {a : Arr2 ℝ} (h : IsCount a) :
    getChi2 a "cressie-read" = .ok (statistic cressieReadCell a) := by
  refine get_chi2_power h (lam := 2 / 3) (by simp [powerDivLambda]) (.inl (by norm_num)) 0 fun o e _ _ _ => ?_
  unfold powerTerm cressieReadCell
  rw [if_neg (by norm_num), if_neg (by norm_num), if_neg (by norm_num)]
  ring

/-- **C77 (Freeman and Tukey, Neyman, modified likelihood ratio).** With a single non-empty row or column, with two
non-empty rows and two non-empty columns, or without an empty cell between non-empty rows and columns, the statistic is
the sum of the textbook contributions. -/
theorem get_chi2_negative {a : Arr2 ℝ} (h : IsCount a)
    (hz : (nRows a = 1 ∨ nCols a = 1) ∨ TwoByTwo a ∨ ¬ EmptyCell a) :
    getChi2 a "freeman-tukey" = .ok (statistic freemanTukeyCell a) ∧
    getChi2 a "neyman" = .ok (statistic neymanCell a) ∧
    getChi2 a "mod-log-likelihood" = .ok (statistic modGCell a) := by
  refine ⟨get_chi2_power h (lam := -1 / 2) (by simp [powerDivLambda]) (.inr hz) 4 fun o e _ ho he => ?_,
    get_chi2_power h (lam := -2) (by simp [powerDivLambda]) (.inr hz) (-2) fun o e _ ho he => ?_,
    get_chi2_power h (lam := -1) (by simp [powerDivLambda]) (.inr hz) 0 fun o e _ ho he => ?_⟩
  · have ho : 0 < o := ho.resolve_right (by norm_num)
    unfold powerTerm freemanTukeyCell
    rw [if_neg (by norm_num), if_neg (by norm_num), if_neg (by norm_num)]
    have h1 : (o / e) ^ (-1 / 2 : ℝ) = √e / √o := by
      rw [show (-1 / 2 : ℝ) = -(1 / 2) by norm_num, Real.rpow_neg (div_pos ho he).le, ← Real.sqrt_eq_rpow,
        Real.sqrt_div' _ he.le, inv_div]
    rw [h1]
    have hso : √o ≠ 0 := (Real.sqrt_pos.2 ho).ne'
    have h2 : o * (√e / √o) = √o * √e := by
      rw [mul_div_assoc', div_eq_iff hso]
      nth_rw 1 [← Real.mul_self_sqrt ho.le]
      ring
    have h3 := Real.mul_self_sqrt ho.le
    have h4 := Real.mul_self_sqrt he.le
    have : o * (√e / √o - 1) / (1 / 2 * (-1 / 2) * (-1 / 2 + 1)) = -8 * (o * (√e / √o) - o) := by ring
    rw [this, h2]
    nlinarith
  · have ho : 0 < o := ho.resolve_right (by norm_num)
    unfold powerTerm neymanCell
    rw [if_neg (by norm_num), if_neg (by norm_num), if_neg (by norm_num)]
    rw [show (-2 : ℝ) = ((-2 : ℤ) : ℝ) by norm_num, Real.rpow_intCast]
    rw [zpow_neg, div_zpow]
    push_cast
    have := ho.ne'
    have := he.ne'
    norm_num [zpow_ofNat]
    field_simp
    ring
  · have ho : 0 < o := ho.resolve_right (by norm_num)
    unfold powerTerm modGCell xlogy
    rw [if_neg (by norm_num), if_neg (by norm_num), if_pos rfl, if_neg he.ne']
    ring

/-- **C77 (an empty cell).** These three statistics are not finite when a cell between non-empty rows and columns is
empty, except for two by two tables. -/
theorem get_chi2_empty_cell {a : Arr2 ℝ} (h : IsCount a) {name : String}
    (hn : name ∈ ["freeman-tukey", "neyman", "mod-log-likelihood"]) (hr : 2 ≤ nRows a) (hc : 2 ≤ nCols a)
    (h2 : ¬ TwoByTwo a) (hz : EmptyCell a) : getChi2 a name = .error .nonfinite := by
  obtain ⟨s⟩ := core_sub a
  rw [getChi2_eq]
  generalize core a = b at s
  unfold TwoByTwo at h2
  rw [s.nRows] at hr h2
  rw [s.nCols] at hc h2
  obtain ⟨lam, hl, hneg⟩ : ∃ lam, powerDivLambda name = some lam ∧ lam < 0 := by
    simp only [List.mem_cons, List.not_mem_nil, or_false] at hn
    rcases hn with rfl | rfl | rfl
    · exact ⟨-1 / 2, by simp [powerDivLambda], by norm_num⟩
    · exact ⟨-2, by simp [powerDivLambda], by norm_num⟩
    · exact ⟨-1, by simp [powerDivLambda], by norm_num⟩
  rw [chi2_of_core s h, if_neg (by rw [nominalDof_zero]; omega), hl]
  have hb := s.isCount h
  have hn1 : nominalDof b.r b.c ≠ 1 := mt (nominalDof_one (by omega) (by omega)).1 h2
  have hsum := obsOf_sum s h
  change powerDivergence (obsOf b) (expected b) lam = _
  unfold powerDivergence
  simp only
  rw [hsum, sub_self, abs_zero, zero_div, if_neg (by norm_num), if_pos]
  refine ⟨hneg, ?_⟩
  obtain ⟨i, j, hi, hj, h0⟩ := hz
  obtain ⟨k, rfl⟩ := (s.ρ_range i).2 hi
  obtain ⟨l, rfl⟩ := (s.σ_range j).2 hj
  refine ⟨k, l, ?_⟩
  unfold obsOf
  rw [if_neg hn1, s.val, h0]

/-- The Cressie-Read contribution, minus its tangent, of one cell. -/
theorem cressie_cell {o e : ℝ} (ho : 0 ≤ o) (he : 0 < e) :
    0 ≤ cressieReadCell o e - 6 / 5 * (o - e) ∧ (cressieReadCell o e - 6 / 5 * (o - e) = 0 ↔ o = e) := by
  have hx : 0 ≤ o / e := div_nonneg ho he.le
  have hpow : (o / e) * (o / e) ^ (2 / 3 : ℝ) = (o / e) ^ (5 / 3 : ℝ) := by
    rcases hx.eq_or_lt with h | h
    · rw [← h, Real.zero_rpow (by norm_num), Real.zero_rpow (by norm_num), mul_zero]
    · nth_rw 1 [← Real.rpow_one (o / e)]
      rw [← Real.rpow_add h]; norm_num
  have hval : cressieReadCell o e - 6 / 5 * (o - e) = 9 / 5 * e * ((o / e) ^ (5 / 3 : ℝ) - 1 - 5 / 3 * (o / e - 1)) := by
    unfold cressieReadCell
    rw [← hpow]
    field_simp
    ring
  rw [hval]
  have hc : (0 : ℝ) < 9 / 5 * e := by positivity
  by_cases hne : o = e
  · subst hne
    rw [div_self he.ne', Real.one_rpow]
    simp
  have hne' : o / e - 1 ≠ 0 := by
    rw [sub_ne_zero, Ne, div_eq_one_iff_eq he.ne']; exact hne
  have := one_add_mul_self_lt_rpow_one_add (s := o / e - 1) (by linarith) hne' (p := 5 / 3) (by norm_num)
  rw [add_sub_cancel] at this
  have hpos := mul_pos hc (by linarith : 0 < (o / e) ^ (5 / 3 : ℝ) - 1 - 5 / 3 * (o / e - 1))
  exact ⟨hpos.le, fun h => absurd h hpos.ne', fun h => absurd h hne⟩

/-- **C77 (sign and zero).** Whenever one of these statistics is finite it is non-negative; except for two by two tables
it is zero exactly when the table is the product of its margins; for two by two (continuity correction) exactly when every
cell is within one half of it. -/
theorem power_zero_iff {a : Arr2 ℝ} (h : IsCount a) {name : String}
    (hn : name ∈ ["cressie-read", "freeman-tukey", "neyman", "mod-log-likelihood"])
    (hz : name ≠ "cressie-read" → (nRows a = 1 ∨ nCols a = 1) ∨ TwoByTwo a ∨ ¬ EmptyCell a) :
    ∃ x, getChi2 a name = .ok x ∧ 0 ≤ x ∧ (¬ TwoByTwo a → (x = 0 ↔ Independent a)) ∧
      (TwoByTwo a → (x = 0 ↔ ∀ i j, |a.v i j - expect a i j| ≤ 1 / 2)) := by
  simp only [List.mem_cons, List.not_mem_nil, or_false] at hn
  rcases hn with rfl | rfl | rfl | rfl
  · refine ⟨_, get_chi2_power h (lam := 2 / 3) (by simp [powerDivLambda]) (.inl (by norm_num)) (6 / 5)
      (cell := fun o e => cressieReadCell o e - 6 / 5 * (o - e)) fun o e _ _ _ => ?_,
      statistic_zero_iff h (fun o e ho he => (cressie_cell ho he).1) fun o e ho he => (cressie_cell ho he).2⟩
    unfold powerTerm cressieReadCell
    rw [if_neg (by norm_num), if_neg (by norm_num), if_neg (by norm_num)]
    ring
  · have hz := hz (by decide)
    refine ⟨_, (get_chi2_negative h hz).1, statistic_zero_iff h (fun o e ho he => by unfold freemanTukeyCell; positivity)
      fun o e ho he => ?_⟩
    unfold freemanTukeyCell
    rw [mul_eq_zero, sq_eq_zero_iff, sub_eq_zero, Real.sqrt_inj ho he.le]
    norm_num
  · have hz := hz (by decide)
    refine ⟨_, get_chi2_power h (lam := -2) (by simp [powerDivLambda]) (.inr hz) (-2)
      (cell := fun o e => if o = 0 then 1 else neymanCell o e) fun o e _ ho he => ?_,
      statistic_zero_iff h (fun o e ho he => ?_) fun o e ho he => ?_⟩
    · have ho : 0 < o := ho.resolve_right (by norm_num)
      simp only [ho.ne', if_false]
      unfold powerTerm neymanCell
      rw [if_neg (by norm_num), if_neg (by norm_num), if_neg (by norm_num)]
      rw [show (-2 : ℝ) = ((-2 : ℤ) : ℝ) by norm_num, Real.rpow_intCast]
      rw [zpow_neg, div_zpow]
      push_cast
      have := ho.ne'
      have := he.ne'
      norm_num [zpow_ofNat]
      field_simp
      ring
    · split
      · norm_num
      · exact div_nonneg (sq_nonneg _) ho
    · split
      · next h0 => subst h0; simp [he.ne]
      · next h0 =>
        unfold neymanCell
        rw [div_eq_zero_iff, sq_eq_zero_iff, sub_eq_zero]
        tauto
  · have hz := hz (by decide)
    refine ⟨_, get_chi2_power h (lam := -1) (by simp [powerDivLambda]) (.inr hz) (-2)
      (cell := fun o e => if o = 0 then 1 else modGCell o e - 2 * (e - o)) fun o e _ ho he => ?_,
      statistic_zero_iff h (fun o e ho he => ?_) fun o e ho he => ?_⟩
    · have ho : 0 < o := ho.resolve_right (by norm_num)
      simp only [ho.ne', if_false]
      unfold powerTerm modGCell xlogy
      rw [if_neg (by norm_num), if_neg (by norm_num), if_pos rfl, if_neg he.ne']
      ring
    · split
      · norm_num
      · next h0 => exact (gibbs_cell he.le (lt_of_le_of_ne ho (Ne.symm h0))).1
    · split
      · next h0 => subst h0; simp [he.ne]
      · next h0 =>
        rw [eq_comm (a := o)]
        exact (gibbs_cell he.le (lt_of_le_of_ne ho (Ne.symm h0))).2

/-- A three by two table without an empty cell, and one with. -/
noncomputable def fullTable : Arr2 ℝ := ⟨3, 2, ![![5, 1], ![2, 2], ![1, 4]]⟩
noncomputable def holeTable : Arr2 ℝ := ⟨3, 2, ![![2, 4], ![2, 0], ![1, 1]]⟩

theorem fullTable_isCount : IsCount fullTable := by
  constructor
  · intro i j
    change Fin 3 at i; change Fin 2 at j
    fin_cases i <;> fin_cases j <;> simp [fullTable]
  · change 0 < ∑ i : Fin 3, ∑ j : Fin 2, _
    simp [Fin.sum_univ_succ, fullTable]; norm_num

theorem fullTable_full : ¬ EmptyCell fullTable := by
  rintro ⟨i, j, -, -, h⟩
  change Fin 3 at i; change Fin 2 at j
  revert h
  fin_cases i <;> fin_cases j <;> simp [fullTable]

theorem holeTable_isCount : IsCount holeTable := by
  constructor
  · intro i j
    change Fin 3 at i; change Fin 2 at j
    fin_cases i <;> fin_cases j <;> simp [holeTable]
  · change 0 < ∑ i : Fin 3, ∑ j : Fin 2, _
    simp [Fin.sum_univ_succ, holeTable]; norm_num

theorem holeTable_shape : nRows holeTable = 3 ∧ nCols holeTable = 2 := by
  have h1 : ∀ i, FullRow holeTable i := by
    intro i
    change Fin 3 at i
    exact ⟨(0 : Fin 2), by fin_cases i <;> simp [holeTable]⟩
  have h2 : ∀ j, FullCol holeTable j := by
    intro j
    change Fin 2 at j
    exact ⟨(0 : Fin 3), by fin_cases j <;> simp [holeTable]⟩
  constructor
  · unfold nRows
    rw [Nat.card_congr (Equiv.subtypeUnivEquiv h1), Nat.card_eq_fintype_card, Fintype.card_fin]; rfl
  · unfold nCols
    rw [Nat.card_congr (Equiv.subtypeUnivEquiv h2), Nat.card_eq_fintype_card, Fintype.card_fin]; rfl

theorem holeTable_hole : EmptyCell holeTable :=
  ⟨(1 : Fin 3), (1 : Fin 2), ⟨(0 : Fin 2), by simp [holeTable]⟩, ⟨(0 : Fin 3), by simp [holeTable]⟩, by simp [holeTable]⟩

example : getChi2 fullTable "neyman" = .ok (statistic neymanCell fullTable) :=
  (get_chi2_negative fullTable_isCount (.inr (.inr fullTable_full))).2.1

example : getChi2 holeTable "neyman" = .error .nonfinite :=
  get_chi2_empty_cell holeTable_isCount (by simp) (by rw [holeTable_shape.1]; norm_num) (by rw [holeTable_shape.2])
    (by unfold TwoByTwo; rw [holeTable_shape.1]; norm_num) holeTable_hole

/-- Pearson's statistic, the log-likelihood ratio and the one of Cressie and Read are defined and non-negative for every table of counts. -/
theorem get_chi2_three {a : Arr2 ℝ} (h : IsCount a) {lambda : String} (hlam : lambda ∈ ["pearson", "log-likelihood", "cressie-read"]) :
    ∃ x, getChi2 a lambda = .ok x ∧ 0 ≤ x := by
  simp only [List.mem_cons, List.not_mem_nil, or_false] at hlam
  rcases hlam with rfl | rfl | rfl
  · exact ⟨_, (get_chi2_value h).1, (pearson_bounds h (get_chi2_value h).1).1⟩
  · obtain ⟨g, hg, hg0, -⟩ := log_likelihood_nonneg h
    exact ⟨g, hg, hg0⟩
  · obtain ⟨g, hg, hg0, -⟩ := power_zero_iff h (name := "cressie-read") (by simp) (fun h => absurd rfl h)
    exact ⟨g, hg, hg0⟩

example : getChi2 holeTable "cressie-read" = .ok (statistic cressieReadCell holeTable) :=
  get_chi2_cressie_read holeTable_isCount

example : ∃ x, getChi2 fullTable "mod-log-likelihood" = .ok x ∧ 0 ≤ x :=
  let ⟨x, h, h0, _⟩ := power_zero_iff fullTable_isCount (name := "mod-log-likelihood") (by simp)
    fun _ => .inr (.inr fullTable_full)
  ⟨x, h, h0⟩

end Phik.Props
