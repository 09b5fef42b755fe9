import Verif.Spec.Deviation
import Verif.Props.SigCapData

/-! # Property C102: how many records make a deviation from independence significant -/

namespace Phik.Props

open Spec MeasureTheory ProbabilityTheory Set

/-! ### the deviation bounds the statistics -/

theorem log_ge_rational {t : ℝ} (ht : 0 < t) : 5 / 2 - 1 / (4 * t) - 27 / (4 * (t + 2)) ≤ Real.log t := by
  set f : ℝ → ℝ := fun t => Real.log t - (5 / 2 - 1 / (4 * t) - 27 / (4 * (t + 2))) with hf
  have hd : ∀ x, 0 < x → HasDerivAt f ((x - 1) ^ 3 / (x ^ 2 * (x + 2) ^ 2)) x := by
    intro x hx
    have h1 := Real.hasDerivAt_log hx.ne'
    have h2 : HasDerivAt (fun t : ℝ => 1 / (4 * t)) (-(4 * 1) / (4 * x) ^ 2) x := by
      have := ((hasDerivAt_id x).const_mul 4).fun_inv (by simpa using hx.ne')
      simpa [one_div] using this
    have h3 : HasDerivAt (fun t : ℝ => 27 / (4 * (t + 2))) (27 * (-(4 * 1) / (4 * (x + 2)) ^ 2)) x := by
      have := ((((hasDerivAt_id x).add_const 2).const_mul 4).fun_inv (by simp; linarith)).const_mul 27
      simpa [div_eq_mul_inv] using this
    have := h1.sub (((hasDerivAt_const x (5 / 2 : ℝ)).sub h2).sub h3)
    refine this.congr_deriv ?_
    have : x + 2 ≠ 0 := by linarith
    field_simp
    ring
  have f1 : f 1 = 0 := by simp only [hf, Real.log_one]; norm_num
  have hc : ContinuousOn f (Ioi 0) := fun x hx => (hd x hx).continuousAt.continuousWithinAt
  have key : 0 ≤ f t := by
    rcases le_total 1 t with h1 | h1
    · have : MonotoneOn f (Ici 1) := by
        refine monotoneOn_of_deriv_nonneg (convex_Ici 1) (hc.mono fun x hx => mem_Ioi.2 (one_pos.trans_le (mem_Ici.1 hx))) ?_ ?_
        · rw [interior_Ici]
          exact fun x hx => (hd x (one_pos.trans hx)).differentiableAt.differentiableWithinAt
        · rw [interior_Ici]
          intro x hx
          have hx : 1 < x := hx
          rw [(hd x (by linarith)).deriv]
          have : 0 ≤ x - 1 := by linarith
          positivity
      rw [← f1]; exact this (mem_Ici.2 le_rfl) h1 h1
    · have : AntitoneOn f (Icc t 1) := by
        refine antitoneOn_of_deriv_nonpos (convex_Icc t 1) (hc.mono fun x hx => lt_of_lt_of_le ht hx.1) ?_ ?_
        · rw [interior_Icc]
          exact fun x hx => (hd x (ht.trans hx.1)).differentiableAt.differentiableWithinAt
        · rw [interior_Icc]
          intro x hx
          rw [(hd x (ht.trans hx.1)).deriv]
          refine div_nonpos_of_nonpos_of_nonneg (Odd.pow_nonpos (by decide) (by linarith [hx.2])) (by positivity)
      rw [← f1]; exact this ⟨le_rfl, h1⟩ ⟨h1, le_rfl⟩ h1
  simp only [hf] at key
  linarith

/-- A cell's contribution to the log-likelihood statistic, centred, is at least quadratic in the difference. -/
theorem gCell_ge {o e : ℝ} (ho : 0 ≤ o) (he : 0 < e) : 3 * (o - e) ^ 2 / (o + 2 * e) ≤ gCell o e - 2 * (o - e) := by
  unfold gCell
  rcases ho.eq_or_lt with rfl | ho
  · simp only [zero_div, Real.log_zero, mul_zero, zero_sub, zero_add]
    rw [div_le_iff₀ (by linarith)]
    nlinarith [sq_nonneg e]
  · have h1 := log_ge_rational (div_pos ho he)
    have h2 := mul_le_mul_of_nonneg_left h1 (show 0 ≤ 2 * o by linarith)
    have e1 : 2 * o * (5 / 2 - 1 / (4 * (o / e)) - 27 / (4 * (o / e + 2))) = 3 * (o - e) ^ 2 / (o + 2 * e) + 2 * (o - e) := by
      have : o + 2 * e ≠ 0 := by positivity
      have : o / e + 2 ≠ 0 := by positivity
      have : o / e + 2 = (o + 2 * e) / e := by field_simp
      rw [this]
      field_simp
      ring
    linarith

theorem abs_le_pearson {o e s : ℝ} (he : 0 < e) (hs : 0 < s) : |o - e| ≤ 1 / (2 * s) * pearsonCell o e + s / 2 * e := by
  unfold pearsonCell
  rw [← sq_abs (o - e)]
  have h : 0 ≤ (|o - e| - s * e) ^ 2 / (2 * s * e) := by positivity
  have : (|o - e| - s * e) ^ 2 / (2 * s * e) = 1 / (2 * s) * (|o - e| ^ 2 / e) + s / 2 * e - |o - e| := by
    field_simp; ring
  linarith

theorem abs_le_g {o e s : ℝ} (ho : 0 ≤ o) (he : 0 < e) (hs : 0 < s) :
    |o - e| - (s / 6 - 1 / s) * (o - e) ≤ 1 / (2 * s) * gCell o e + s / 2 * e := by
  have h1 := mul_le_mul_of_nonneg_left (gCell_ge ho he) (show 0 ≤ 1 / (2 * s) by positivity)
  have p : 0 < o + 2 * e := by linarith
  rw [← sq_abs (o - e)] at h1
  have h : 0 ≤ (3 * |o - e| - s * (o + 2 * e)) ^ 2 / (6 * s * (o + 2 * e)) := by positivity
  have e1 : (3 * |o - e| - s * (o + 2 * e)) ^ 2 / (6 * s * (o + 2 * e)) =
      1 / (2 * s) * (3 * |o - e| ^ 2 / (o + 2 * e)) + s / 6 * (o + 2 * e) - |o - e| := by
    field_simp; ring
  have e2 : 1 / (2 * s) * (gCell o e - 2 * (o - e)) = 1 / (2 * s) * gCell o e - 1 / s * (o - e) := by
    field_simp
  rw [e2] at h1
  linarith

theorem sq_le_of_all {D S N : ℝ} (hN : 0 < N) (hD : 0 ≤ D) (hS : 0 ≤ S) (h : ∀ s, 0 < s → D ≤ 1 / (2 * s) * S + s / 2 * N) :
    D ^ 2 / N ≤ S := by
  rcases hD.eq_or_lt with rfl | hD
  · simpa using hS
  · have := h (D / N) (by positivity)
    have e : 1 / (2 * (D / N)) * S + D / N / 2 * N = N * S / (2 * D) + D / 2 := by field_simp
    rw [e] at this
    have h2 : D / 2 ≤ N * S / (2 * D) := by linarith
    rw [le_div_iff₀ (by linarith)] at h2
    rw [div_le_iff₀ hN]
    nlinarith

theorem abs_corrected (o e : ℝ) : |corrected o e - e| = max (|o - e| - 1 / 2) 0 := by
  unfold corrected
  rcases lt_or_ge (1 / 2) |o - e| with h | h
  · rw [max_eq_left (by linarith)]
    rcases lt_or_ge o e with h2 | h2
    · have h4 : |o - e| = e - o := by rw [abs_of_neg (by linarith)]; ring
      have h5 : |e - o| = e - o := abs_of_pos (by linarith)
      rw [h4] at h ⊢
      rw [if_neg (by rw [h5]; linarith), if_pos h2, abs_of_neg (by linarith)]; ring
    · have h4 : |o - e| = o - e := abs_of_nonneg (by linarith)
      have h5 : |e - o| = o - e := by rw [abs_sub_comm, h4]
      rw [h4] at h ⊢
      rw [if_neg (by rw [h5]; linarith), if_neg (by linarith), abs_of_pos (by linarith)]; ring
  · rw [max_eq_right (by linarith), if_pos (by rw [abs_sub_comm]; exact h)]; simp

theorem deviation_nonneg (a : Arr2 ℝ) : 0 ≤ tableDeviation a := by
  unfold tableDeviation
  split
  · exact Finset.sum_nonneg fun i _ => Finset.sum_nonneg fun j _ => le_max_right _ _
  · exact Finset.sum_nonneg fun i _ => Finset.sum_nonneg fun j _ => abs_nonneg _

/-- **C102 (what the deviation measures).** Except for two by two, it is zero only for independent tables. -/
theorem deviation_zero_iff {a : Arr2 ℝ} :
    (¬ (nRows a = 2 ∧ nCols a = 2) → (tableDeviation a = 0 ↔ Independent a)) ∧
    ((nRows a = 2 ∧ nCols a = 2) → (tableDeviation a = 0 ↔ ∀ i j, |a.v i j - expect a i j| ≤ 1 / 2)) := by
  unfold tableDeviation
  constructor
  · intro h2
    rw [if_neg h2, Finset.sum_eq_zero_iff_of_nonneg (fun i _ => Finset.sum_nonneg fun j _ => abs_nonneg _)]
    unfold Independent
    refine forall_congr' fun i => ?_
    rw [Finset.sum_eq_zero_iff_of_nonneg (fun j _ => abs_nonneg _)]
    simp [sub_eq_zero]
  · intro h2
    rw [if_pos h2, Finset.sum_eq_zero_iff_of_nonneg (fun i _ => Finset.sum_nonneg fun j _ => le_max_right _ _)]
    refine forall_congr' fun i => ?_
    rw [Finset.sum_eq_zero_iff_of_nonneg (fun j _ => le_max_right _ _)]
    simp

theorem deviation_statistic {a : Arr2 ℝ} (h : IsCount a) : tableDeviation a = statistic (fun o e => |o - e|) a := by
  unfold statistic
  by_cases h1 : nRows a = 1 ∨ nCols a = 1
  · rw [if_pos h1]
    have h2 : ¬ (nRows a = 2 ∧ nCols a = 2) := by omega
    refine (deviation_zero_iff.1 h2).2 (((pearson_zero_iff h).1 h2).1 ?_)
    rw [(get_chi2_value h).1]
    unfold statistic
    rw [if_pos h1]
  · rw [if_neg h1]
    unfold tableDeviation
    split
    · next h2 =>
      refine Finset.sum_congr rfl fun i _ => Finset.sum_congr rfl fun j _ => ?_
      rw [← abs_corrected]
      split
      · next he => rw [he, zero_of_expect_zero h he]; simp [corrected]
      · rfl
    · refine Finset.sum_congr rfl fun i _ => Finset.sum_congr rfl fun j _ => ?_
      split
      · next he => rw [he, zero_of_expect_zero h he]; norm_num
      · rfl

/-- **C102.** Both statistics of a table of `n` records are at least the square of the table's deviation from independence, divided by `n`. -/
theorem chi2_ge_deviation {a : Arr2 ℝ} (h : IsCount a) :
    ∃ x g, getChi2 a "pearson" = .ok x ∧ getChi2 a "log-likelihood" = .ok g ∧
      tableDeviation a ^ 2 / a.total ≤ x ∧ tableDeviation a ^ 2 / a.total ≤ g := by
  have p0 := (pearson_bounds h (get_chi2_value h).1).1
  obtain ⟨g', hg', g0, -⟩ := log_likelihood_nonneg h
  rw [(get_chi2_value h).2] at hg'
  cases hg'
  refine ⟨_, _, (get_chi2_value h).1, (get_chi2_value h).2, ?_, ?_⟩
  · by_cases h1 : nRows a = 1 ∨ nCols a = 1
    · have : tableDeviation a = 0 := by rw [deviation_statistic h]; unfold statistic; rw [if_pos h1]
      rw [this]; simpa using p0
    · refine sq_le_of_all h.pos (deviation_nonneg a) p0 fun s hs => ?_
      rw [deviation_statistic h]
      refine (statistic_le h (g := fun o e => 1 / (2 * s) * pearsonCell o e + s / 2 * e) fun o e ho he => abs_le_pearson he hs).trans ?_
      rw [statistic_add, statistic_mul, statistic_const h h1]
  · by_cases h1 : nRows a = 1 ∨ nCols a = 1
    · have : tableDeviation a = 0 := by rw [deviation_statistic h]; unfold statistic; rw [if_pos h1]
      rw [this]; simpa using g0
    · refine sq_le_of_all h.pos (deviation_nonneg a) g0 fun s hs => ?_
      rw [deviation_statistic h, statistic_centred h _ (s / 6 - 1 / s)]
      refine (statistic_le h (g := fun o e => 1 / (2 * s) * gCell o e + s / 2 * e) fun o e ho he => abs_le_g ho he hs).trans ?_
      rw [statistic_add, statistic_mul, statistic_const h h1]

/-- Four rows and two columns: `2 m` and `m` records in turn. -/
noncomputable def checkTable (m : ℕ) : Arr2 ℝ := ⟨4, 2, fun i j => if (i.val + j.val) % 2 = 0 then 2 * m else m⟩

/-- **C102 (the bound is attained).** The statistic of this table is exactly the squared deviation over the number of records. -/
theorem deviation_bound_attained {m : ℕ} (hm : 1 ≤ m) : IsCount (checkTable m) ∧ tableDeviation (checkTable m) = 4 * m ∧
    getChi2 (checkTable m) "pearson" = .ok (tableDeviation (checkTable m) ^ 2 / (checkTable m).total) := by
  have m0 : (0 : ℝ) < m := by exact_mod_cast hm
  have ht : (checkTable m).total = 12 * m := by
    change ∑ i : Fin 4, ∑ j : Fin 2, (if (i.val + j.val) % 2 = 0 then 2 * (m : ℝ) else m) = _
    simp [Fin.sum_univ_succ]; ring
  have hp : ∀ (i : Fin 4) (j : Fin 2), (0 : ℝ) < if (i.val + j.val) % 2 = 0 then 2 * (m : ℝ) else m := by
    intro i j; split <;> positivity
  have h : IsCount (checkTable m) := ⟨fun i j => (hp i j).le, by rw [ht]; positivity⟩
  have fr : ∀ i : Fin 4, FullRow (checkTable m) i := fun i => ⟨(0 : Fin 2), (hp i 0).ne'⟩
  have fc : ∀ j : Fin 2, FullCol (checkTable m) j := fun j => ⟨(0 : Fin 4), (hp 0 j).ne'⟩
  have nr : nRows (checkTable m) = 4 := by
    unfold nRows
    rw [Nat.card_congr (Equiv.subtypeUnivEquiv (p := fun i => FullRow (checkTable m) i) fr)]
    exact Nat.card_fin 4
  have nc : nCols (checkTable m) = 2 := by
    unfold nCols
    rw [Nat.card_congr (Equiv.subtypeUnivEquiv (p := fun i => FullCol (checkTable m) i) fc)]
    exact Nat.card_fin 2
  have ex : ∀ i j, expect (checkTable m) i j = 3 * m / 2 := by
    intro i j
    have r : ∀ i : Fin 4, ∑ j : Fin 2, (if (i.val + j.val) % 2 = 0 then 2 * (m : ℝ) else m) = 3 * m := by
      intro i; fin_cases i <;> simp [Fin.sum_univ_succ] <;> ring
    have c : ∀ j : Fin 2, ∑ i : Fin 4, (if (i.val + j.val) % 2 = 0 then 2 * (m : ℝ) else m) = 6 * m := by
      intro j; fin_cases j <;> simp [Fin.sum_univ_succ] <;> ring
    change (∑ j' : Fin 2, (if (i.val + j'.val) % 2 = 0 then 2 * (m : ℝ) else m)) *
      (∑ i' : Fin 4, (if (i'.val + j.val) % 2 = 0 then 2 * (m : ℝ) else m)) / (checkTable m).total = _
    rw [ht]
    refine Eq.trans (congrArg₂ (fun x y => x * y / (12 * (m : ℝ))) (r i) (c j)) ?_
    field_simp
    ring
  have dv : ∀ i j, |(checkTable m).v i j - expect (checkTable m) i j| = m / 2 := by
    intro i j
    rw [ex]
    change |(if (i.val + j.val) % 2 = 0 then 2 * (m : ℝ) else m) - 3 * m / 2| = m / 2
    split
    · rw [abs_of_nonneg (by linarith)]; ring
    · rw [abs_of_nonpos (by linarith)]; ring
  have hd : tableDeviation (checkTable m) = 4 * m := by
    unfold tableDeviation
    rw [nr, nc, if_neg (by omega)]
    simp only [dv]
    change ∑ _i : Fin 4, ∑ _j : Fin 2, (m : ℝ) / 2 = _
    simp; ring
  refine ⟨h, hd, ?_⟩
  rw [(get_chi2_value h).1, hd, ht]
  congr 1
  unfold statistic
  rw [nr, nc, if_neg (by omega)]
  have n2 : ¬ ((4 : ℕ) = 2 ∧ (2 : ℕ) = 2) := by omega
  simp only [n2, if_false]
  have cell : ∀ i j, (if expect (checkTable m) i j = 0 then 0 else pearsonCell ((checkTable m).v i j) (expect (checkTable m) i j)) = (m : ℝ) / 6 := by
    intro i j
    have := dv i j
    rw [ex] at this ⊢
    rw [if_neg (by positivity)]
    unfold pearsonCell
    rw [← sq_abs, this]
    field_simp
    norm_num
  refine (Finset.sum_congr rfl fun i _ => Finset.sum_congr rfl fun j _ => cell i j).trans ?_
  change ∑ _i : Fin 4, ∑ _j : Fin 2, (m : ℝ) / 6 = _
  simp
  field_simp
  norm_num

/-! ### the p-value -/

/-- Chernoff's bound for the chi2 distribution. -/
theorem chi2Tail_le {k : ℝ} (hk : 0 < k) (x : ℝ) : chi2Tail k x ≤ 2 ^ (k / 2) * Real.exp (-(x / 4)) := by
  have : Fact (0 < k) := ⟨hk⟩
  have hm := mgf_chi2 hk (show (1 / 4 : ℝ) < 1 / 2 by norm_num)
  have e : (1 - 2 * (1 / 4 : ℝ)) ^ (-k / 2) = 2 ^ (k / 2) := by
    rw [show (1 - 2 * (1 / 4 : ℝ)) = 2⁻¹ by norm_num, neg_div, Real.rpow_neg (by norm_num), Real.inv_rpow (by norm_num), inv_inv]
  rw [e] at hm
  have hi : Integrable (fun y : ℝ => Real.exp (1 / 4 * id y)) (chi2Law k) := by
    by_contra hni
    rw [mgf_undef hni] at hm
    have : (0 : ℝ) < 2 ^ (k / 2) := by positivity
    linarith
  have := measure_ge_le_exp_mul_mgf (μ := chi2Law k) (X := id) x (by norm_num) hi
  rw [hm] at this
  refine (measureReal_mono fun y hy => ?_).trans (this.trans (le_of_eq ?_))
  · exact le_of_lt (mem_Ioi.1 hy)
  · rw [mul_comm]; congr 2; ring

/-- **C102 (the p-value).** The asymptotic p-value falls exponentially with the square of the deviation. -/
theorem asymptotic_detection {F : Type} (rn : SimRun F) (hl : rn.lambda = "log-likelihood" ∨ rn.lambda = "pearson") {a : Arr2 ℝ} (h : IsCount a)
    (hr : 2 ≤ a.r) (hc : 2 ≤ a.c) :
    ∃ (p : ℝ) (z : EReal), sigFromHist2d trueSig rn a "asymptotic" = .ok (some p, some z) ∧ z = -normPpf p ∧
      0 < p ∧ p ≤ 2 ^ (((a.r - 1) * (a.c - 1) : ℕ) / 2 : ℝ) * Real.exp (-(tableDeviation a ^ 2 / (4 * a.total))) := by
  obtain ⟨x, g, hx, hg, bx, bg⟩ := chi2_ge_deviation h
  have key : ∀ y, getChi2 a rn.lambda = .ok y → tableDeviation a ^ 2 / a.total ≤ y → ∃ (p : ℝ) (z : EReal),
      sigFromHist2d trueSig rn a "asymptotic" = .ok (some p, some z) ∧ z = -normPpf p ∧
      0 < p ∧ p ≤ 2 ^ (((a.r - 1) * (a.c - 1) : ℕ) / 2 : ℝ) * Real.exp (-(tableDeviation a ^ 2 / (4 * a.total))) := by
    intro y hy by'
    refine ⟨_, _, asymptotic_value rn hr hc hy, rfl, chi2Tail_pos (dof_pos hr hc) _, (chi2Tail_le (dof_pos hr hc) y).trans ?_⟩
    refine mul_le_mul_of_nonneg_left (Real.exp_le_exp.2 (neg_le_neg ?_)) (by positivity)
    rw [show tableDeviation a ^ 2 / (4 * a.total) = tableDeviation a ^ 2 / a.total / 4 by rw [div_div, mul_comm]]
    linarith
  rcases hl with hl | hl
  · exact key g (by rw [hl]; exact hg) bg
  · exact key x (by rw [hl]; exact hx) bx

/-- **C102 (enough records).** A deviation of at least the fraction `δ` of the records has a p-value of at most `α`, and the significance
that belongs to `α`, if there are at least `(4 log (1/α) + 2 dof log 2) / δ²` records. -/
theorem enough_records {F : Type} (rn : SimRun F) (hl : rn.lambda = "log-likelihood" ∨ rn.lambda = "pearson") {a : Arr2 ℝ} (h : IsCount a)
    (hr : 2 ≤ a.r) (hc : 2 ≤ a.c) {α δ : ℝ} (hα : 0 < α) (hα1 : α ≤ 1) (hδ : 0 < δ) (hd : δ * a.total ≤ tableDeviation a)
    (hn : (4 * Real.log (1 / α) + 2 * ((a.r - 1) * (a.c - 1) : ℕ) * Real.log 2) / δ ^ 2 ≤ a.total) :
    ∃ (p : ℝ) (z : EReal), sigFromHist2d trueSig rn a "asymptotic" = .ok (some p, some z) ∧ p ≤ α ∧ -normPpf α ≤ z := by
  obtain ⟨p, z, e, hz, p0, hp⟩ := asymptotic_detection rn hl h hr hc
  have t0 := h.pos
  have hpα : p ≤ α := by
    refine hp.trans ?_
    set d : ℝ := (((a.r - 1) * (a.c - 1) : ℕ) : ℝ) with hdd
    have q1 : δ ^ 2 * a.total / 4 ≤ tableDeviation a ^ 2 / (4 * a.total) := by
      rw [div_le_div_iff₀ (by norm_num) (by positivity)]
      have : (δ * a.total) ^ 2 ≤ tableDeviation a ^ 2 := pow_le_pow_left₀ (by positivity) hd 2
      nlinarith
    rw [div_le_iff₀ (by positivity), one_div, Real.log_inv] at hn
    have q2 : (2 : ℝ) ^ (d / 2) = Real.exp (Real.log 2 * (d / 2)) := Real.rpow_def_of_pos (by norm_num) _
    rw [q2, ← Real.exp_add]
    refine (Real.exp_le_exp.2 ?_).trans (Real.exp_log hα).le
    linarith
  refine ⟨p, z, e, hpα, ?_⟩
  rw [hz, EReal.neg_le_neg_iff]
  exact normPpf_strictMono.monotoneOn ⟨p0.le, hpα.trans hα1⟩ ⟨hα.le, hα1⟩ hpα

/-! ### repeated data -/

/-- Every record `k` times. -/
def copies (k : ℕ) (a : Arr2 ℝ) : Arr2 ℝ := ⟨a.r, a.c, fun i j => k * a.v i j⟩

theorem copies_total (k : ℕ) (a : Arr2 ℝ) : (copies k a).total = k * a.total := by
  change ∑ i, ∑ j, (k : ℝ) * a.v i j = k * ∑ i, ∑ j, a.v i j
  simp only [Finset.mul_sum]

theorem copies_isCount {k : ℕ} (hk : 1 ≤ k) {a : Arr2 ℝ} (h : IsCount a) : IsCount (copies k a) := by
  refine ⟨fun i j => mul_nonneg (Nat.cast_nonneg _) (h.nonneg i j), ?_⟩
  rw [copies_total]
  exact mul_pos (by exact_mod_cast hk) h.pos

theorem copies_expect {k : ℕ} (hk : 1 ≤ k) (a : Arr2 ℝ) (i : Fin a.r) (j : Fin a.c) :
    expect (copies k a) i j = k * expect a i j := by
  have k0 : (k : ℝ) ≠ 0 := by exact_mod_cast (by omega : k ≠ 0)
  change (∑ j', (k : ℝ) * a.v i j') * (∑ i', (k : ℝ) * a.v i' j) / (copies k a).total =
    k * ((∑ j', a.v i j') * (∑ i', a.v i' j) / a.total)
  rw [copies_total, ← Finset.mul_sum, ← Finset.mul_sum]
  rcases eq_or_ne a.total 0 with q | q
  · rw [q]; simp
  · field_simp

/-- Repeating every record `k` times multiplies the deviation at least by `k`. -/
theorem copies_deviation {k : ℕ} (hk : 1 ≤ k) (a : Arr2 ℝ) : k * tableDeviation a ≤ tableDeviation (copies k a) := by
  have k1 : (1 : ℝ) ≤ k := by exact_mod_cast hk
  have k0 : (k : ℝ) ≠ 0 := by linarith
  have e1 : nRows (copies k a) = nRows a := by
    unfold nRows
    refine Nat.card_congr (Equiv.subtypeEquivRight fun i => exists_congr fun j => ?_)
    change (k : ℝ) * a.v i j ≠ 0 ↔ _
    rw [Ne, mul_eq_zero, not_or]
    exact ⟨fun q => q.2, fun q => ⟨k0, q⟩⟩
  have e2 : nCols (copies k a) = nCols a := by
    unfold nCols
    refine Nat.card_congr (Equiv.subtypeEquivRight fun j => exists_congr fun i => ?_)
    change (k : ℝ) * a.v i j ≠ 0 ↔ _
    rw [Ne, mul_eq_zero, not_or]
    exact ⟨fun q => q.2, fun q => ⟨k0, q⟩⟩
  have e3 : ∀ i j, |(k : ℝ) * a.v i j - expect (copies k a) i j| = k * |a.v i j - expect a i j| := by
    intro i j
    rw [copies_expect hk, ← mul_sub, abs_mul, abs_of_pos (by linarith : (0 : ℝ) < k)]
  unfold tableDeviation
  rw [e1, e2]
  split
  · rw [Finset.mul_sum]
    refine Finset.sum_le_sum fun i _ => ?_
    rw [Finset.mul_sum]
    refine Finset.sum_le_sum fun j _ => ?_
    refine le_trans ?_ (max_le_max (sub_le_sub_right (e3 i j).ge _) le_rfl)
    rw [mul_max_of_nonneg _ _ (by linarith), mul_zero]
    refine max_le_max ?_ le_rfl
    nlinarith
  · rw [Finset.mul_sum]
    refine le_of_eq (Finset.sum_congr rfl fun i _ => ?_)
    rw [Finset.mul_sum]
    exact Finset.sum_congr rfl fun j _ => (e3 i j).symm

/-- **C102 (repeated data).** If every record is present `k` times, the p-value falls at least exponentially with `k`, unless the table has
no deviation. -/
theorem copies_detection {F : Type} (rn : SimRun F) (hl : rn.lambda = "log-likelihood" ∨ rn.lambda = "pearson") {a : Arr2 ℝ} (h : IsCount a)
    (hr : 2 ≤ a.r) (hc : 2 ≤ a.c) {k : ℕ} (hk : 1 ≤ k) :
    ∃ (p : ℝ) (z : EReal), sigFromHist2d trueSig rn (copies k a) "asymptotic" = .ok (some p, some z) ∧ z = -normPpf p ∧
      0 < p ∧ p ≤ 2 ^ (((a.r - 1) * (a.c - 1) : ℕ) / 2 : ℝ) * Real.exp (-(k * (tableDeviation a ^ 2 / (4 * a.total)))) := by
  obtain ⟨p, z, e, hz, p0, hp⟩ := asymptotic_detection rn hl (copies_isCount hk h) hr hc
  refine ⟨p, z, e, hz, p0, hp.trans (mul_le_mul_of_nonneg_left (Real.exp_le_exp.2 (neg_le_neg ?_)) (by positivity))⟩
  have k0 : (0 : ℝ) < k := by exact_mod_cast hk
  have t0 := h.pos
  rw [copies_total]
  have := pow_le_pow_left₀ (mul_nonneg k0.le (deviation_nonneg a)) (copies_deviation hk a) 2
  have e2 : k * (tableDeviation a ^ 2 / (4 * a.total)) = (k * tableDeviation a) ^ 2 / (4 * (k * a.total)) := by field_simp
  rw [e2]
  exact div_le_div_of_nonneg_right this (by positivity)

/-! ### records and matrices -/

theorem deviation_transpose (a : Arr2 ℝ) : tableDeviation a.transpose = tableDeviation a := by
  have he : ∀ i j, expect a.transpose j i = expect a i j := by
    intro i j
    have ht : a.transpose.total = a.total := Finset.sum_comm
    change a.colSum j * a.rowSum i / a.transpose.total = a.rowSum i * a.colSum j / a.total
    rw [ht, mul_comm]
  have hv : ∀ i j, a.transpose.v j i = a.v i j := fun _ _ => rfl
  have e1 : nRows a.transpose = nCols a := rfl
  have e2 : nCols a.transpose = nRows a := rfl
  unfold tableDeviation
  rw [e1, e2]
  by_cases h2 : nRows a = 2 ∧ nCols a = 2
  · rw [if_pos h2, if_pos h2.symm, Finset.sum_comm]
    exact Finset.sum_congr rfl fun i _ => Finset.sum_congr rfl fun j _ => by rw [he, hv]
  · rw [if_neg h2, if_neg fun q => h2 q.symm, Finset.sum_comm]
    exact Finset.sum_congr rfl fun i _ => Finset.sum_congr rfl fun j _ => by rw [he, hv]

/-- The records have a table with at least two rows and columns that deviates from independence by at least the fraction `δ` of the records,
and there are enough of them for the level `α`. -/
def Detectable (α δ : ℝ) (T : Hist) : Prop :=
  ¬ Few T ∧ δ * T.values.total ≤ tableDeviation T.values ∧
    (4 * Real.log (1 / α) + 2 * ((T.rows.length - 1) * (T.cols.length - 1) : ℕ) * Real.log 2) / δ ^ 2 ≤ T.values.total

theorem records_detection {F : Type} (rn : SimRun F) (hl : rn.lambda = "log-likelihood" ∨ rn.lambda = "pearson")
    {recs : List (Option Cell × Option Cell)} {v : Option EReal} (h : IsSig trueSig rn "asymptotic" recs v) {T : Hist} (ht : IsTable recs T)
    {α δ : ℝ} (hα : 0 < α) (hα1 : α ≤ 1) (hδ : 0 < δ) (hd : Detectable α δ T) : ∃ z, v = some z ∧ -normPpf α ≤ z := by
  obtain ⟨T', ht', q⟩ := h
  obtain rfl := table_unique ht ht'
  obtain ⟨hf, d1, d2⟩ := hd
  obtain ⟨-, p', hp⟩ := q.resolve_left fun q => hf q.1
  have hr : 2 ≤ T.rows.length := by unfold Few at hf; omega
  have hc : 2 ≤ T.cols.length := by unfold Few at hf; omega
  obtain ⟨p, z, e, -, hz⟩ := enough_records rn hl (a := T.values) (data_isCount (table_data ht) hr) hr hc hα hα1 hδ d1 d2
  rw [e] at hp
  cases hp
  exact ⟨z, rfl, hz⟩

/-- **C102 (matrix).** The entry of the asymptotic significance matrix for any two columns whose records deviate from independence by at least
the fraction `δ` is at least the significance that belongs to `α`, if there are enough records. -/
theorem significance_matrix_detection {F : Type} {R : ℕ → SimRun F} (hl : ∀ k, (R k).lambda = "log-likelihood" ∨ (R k).lambda = "pearson")
    {r : Ref} {w w' : World} {f : Frame} (hr : w.heap[r]? = some f) (hn : f.names.Nodup) (dropna du dof : Bool) {t : LTab EReal}
    (hrun : (sigFromRebinned trueSig R r "asymptotic" dropna du dof).exec w = (.ok t, w')) {ca cb : Column} (ha : ca ∈ f.cols) (hb : cb ∈ f.cols)
    {T : Hist} (hT : IsTable (records dropna du dof ca cb) T) {α δ : ℝ} (hα : 0 < α) (hα1 : α ≤ 1) (hδ : 0 < δ) (hd : Detectable α δ T) :
    ∃ z, t.v ca.name cb.name = some z ∧ -normPpf α ≤ z := by
  have hm : IsSigMatrix trueSig R "asymptotic" dropna du dof f t := by
    rcases significance_of_frame trueSig R "asymptotic" hr hn dropna du dof with ⟨t', w'', e, hm, -⟩ | ⟨e', w'', e, -⟩
    · rw [hrun] at e
      cases e
      exact hm
    · rw [hrun] at e
      cases e
  have mem : ∀ c ∈ f.cols, c.name ∈ f.names := fun c hc => List.mem_map_of_mem hc
  have key : ∀ c1 ∈ f.cols, ∀ c2 ∈ f.cols, (c1.name, c2.name) ∈ cwr f.names → ∀ {T : Hist}, IsTable (records dropna du dof c1 c2) T →
      Detectable α δ T → ∃ z, t.v c1.name c2.name = some z ∧ -normPpf α ≤ z := by
    intro c1 h1 c2 h2 hc T hT hd
    obtain ⟨k, hk⟩ := List.getElem?_of_mem hc
    obtain ⟨d1, m1, d2, m2, n1, n2, hs⟩ := hm.entry k _ _ hk
    have e1 : d1 = c1 := by rw [← colOf_name hn m1, ← colOf_name hn h1, n1]
    have e2 : d2 = c2 := by rw [← colOf_name hn m2, ← colOf_name hn h2, n2]
    subst e1 e2
    exact records_detection (R k) (hl k) hs hT hα hα1 hδ hd
  by_cases hab : ca.name = cb.name
  · exact key ca ha cb hb (mem_cwr.2 (.inl ⟨hab, mem ca ha⟩)) hT hd
  · rcases pair_sublist (mem ca ha) (mem cb hb) hab with q | q
    · exact key ca ha cb hb (mem_cwr.2 (.inr q)) hT hd
    · obtain ⟨z, hz, hle⟩ := key cb hb ca ha (mem_cwr.2 (.inr q)) (T := ⟨T.cols, T.rows, fun i j => T.v j i⟩) (by
        have := isTable_swap hT
        have e : (records dropna du dof ca cb).map Prod.swap = records dropna du dof cb ca := by
          unfold records
          rw [List.map_map, ← List.zip_swap ca.cells cb.cells, List.map_map]
          rfl
        rwa [e] at this) (by
        obtain ⟨q1, q2, q3⟩ := hd
        have et : Hist.values ⟨T.cols, T.rows, fun i j => T.v j i⟩ = T.values.transpose := rfl
        have e0 : T.values.transpose.total = T.values.total := Finset.sum_comm
        refine ⟨fun q => q1 q.symm, ?_, ?_⟩
        · rw [et, deviation_transpose, e0]; exact q2
        · rw [et, e0, mul_comm (T.cols.length - 1)]; exact q3)
      refine ⟨z, ?_, hle⟩
      rw [← hz]
      exact hm.symm _ (mem ca ha) _ (mem cb hb)

/-- **C102 (arrays).** The same for two arrays: `T` is the contingency table of their prepared entries. -/
theorem significance_array_detection {F : Type} (rn : SimRun F) (hl : rn.lambda = "log-likelihood" ∨ rn.lambda = "pearson") (render : ℚ → String)
    {x y : List Cell} (hlen : x.length = y.length) (dropna du dof : Bool) {w w' : World} {pz : Option ℝ × Option EReal}
    (hrun : (sigFromBinnedArray trueSig rn render x y "asymptotic" dropna du dof).exec w = (.ok pz, w')) {T : Hist}
    (hT : IsTable (((prepArray render dropna du dof x).zip (prepArray render dropna du dof y)).map fun p => (p.1.opt, p.2.opt)) T)
    {α δ : ℝ} (hα : 0 < α) (hα1 : α ≤ 1) (hδ : 0 < δ) (hd : Detectable α δ T) : ∃ z, pz.2 = some z ∧ -normPpf α ≤ z := by
  obtain ⟨res, w2, h1, -, h, ht, hres⟩ := (significance_array trueSig rn render x y "asymptotic" dropna du dof w).2 hlen
  rw [hrun] at h1
  cases h1
  refine records_detection rn hl (recs := ((prepArray render dropna du dof x).zip (prepArray render dropna du dof y)).map
      fun p => (p.1.opt, p.2.opt)) ⟨h, ht, ?_⟩ hT hα hα1 hδ hd
  rcases hres with ⟨hf, e⟩ | ⟨hf, e⟩
  · cases e
    exact .inl ⟨hf, rfl⟩
  · obtain ⟨p, v⟩ := pz
    exact .inr ⟨hf, p, e.symm⟩

/-! ### non-vacuity -/

theorem diagTable_expect {k m : ℕ} (hk : 1 ≤ k) (hm : 1 ≤ m) (i j : Fin k) : expect (diagTable k m) i j = m / k := by
  have m0 : (0 : ℝ) < m := by exact_mod_cast hm
  have k0 : (0 : ℝ) < k := by exact_mod_cast hk
  change (∑ j' : Fin k, (if i = j' then (m : ℝ) else 0)) * (∑ i' : Fin k, (if i' = j then (m : ℝ) else 0)) /
      (∑ i : Fin k, ∑ j : Fin k, (if i = j then (m : ℝ) else 0)) = m / k
  simp
  field_simp

theorem diagTable_nRows {k m : ℕ} (hm : 1 ≤ m) : nRows (diagTable k m) = k := by
  have m0 : (0 : ℝ) < m := by exact_mod_cast hm
  have fr : ∀ i : Fin k, FullRow (diagTable k m) i := fun i => ⟨i, by
    change (if (i : Fin k) = i then (m : ℝ) else 0) ≠ 0
    rw [if_pos rfl]; exact m0.ne'⟩
  unfold nRows
  rw [Nat.card_congr (Equiv.subtypeUnivEquiv (p := fun i => FullRow (diagTable k m) i) fr)]
  exact Nat.card_fin k

/-- Perfect association with `k ≥ 3` categories deviates by `2 n (k - 1) / k`. -/
theorem diagTable_deviation {k m : ℕ} (hk : 3 ≤ k) (hm : 1 ≤ m) : tableDeviation (diagTable k m) = 2 * m * (k - 1) := by
  have m0 : (0 : ℝ) < m := by exact_mod_cast hm
  have k0 : (0 : ℝ) < k := by positivity
  have k1 : (1 : ℝ) ≤ k := by exact_mod_cast (by omega : 1 ≤ k)
  unfold tableDeviation
  rw [diagTable_nRows hm, if_neg (by omega)]
  have cell : ∀ i j : Fin k, |(diagTable k m).v i j - expect (diagTable k m) i j| = m / k + if i = j then (m - 2 * m / k : ℝ) else 0 := by
    intro i j
    rw [diagTable_expect (by omega) hm]
    change |(if i = j then (m : ℝ) else 0) - m / k| = _
    split
    · rw [abs_of_nonneg]
      · ring
      · have : (m : ℝ) / k ≤ m := div_le_self m0.le k1
        linarith
    · rw [zero_sub, abs_neg, abs_of_pos (by positivity), add_zero]
  change ∑ i : Fin k, ∑ j : Fin k, |(diagTable k m).v i j - expect (diagTable k m) i j| = _
  simp only [cell, Finset.sum_add_distrib, Finset.sum_ite_eq, Finset.mem_univ, if_true, Finset.sum_const, Finset.card_univ,
    Fintype.card_fin, nsmul_eq_mul]
  field_simp
  ring

/-- Non-vacuity: forty-two records of two perfectly associated variables with three categories are significant at one in a million. -/
example (rn : SimRun Unit) (hl : rn.lambda = "log-likelihood") :
    ∃ (p : ℝ) (z : EReal), sigFromHist2d trueSig rn (diagTable 3 14) "asymptotic" = .ok (some p, some z) ∧ p ≤ 1 / 1000000 := by
  have hc : IsCount (diagTable 3 14) := diagTable_isCount (by norm_num) (by norm_num)
  have ht : (diagTable 3 14).total = 42 := by rw [diagTable_total]; norm_num
  have hd : tableDeviation (diagTable 3 14) = 56 := by rw [diagTable_deviation (by norm_num) (by norm_num)]; norm_num
  obtain ⟨p, z, e, hp, -⟩ := enough_records rn (.inl hl) hc (le_refl 2 |>.trans (by decide)) (by decide) (α := 1 / 1000000) (δ := 4 / 3)
    (by norm_num) (by norm_num) (by norm_num) (by rw [ht, hd]; norm_num) (by
      rw [ht, div_le_iff₀ (by norm_num)]
      have l2 := Real.log_two_lt_d9
      have l1 : Real.log (1 / (1 / 1000000)) ≤ 20 * Real.log 2 := by
        rw [show (20 : ℝ) * Real.log 2 = Real.log (2 ^ 20) by rw [Real.log_pow]; norm_num]
        exact Real.log_le_log (by norm_num) (by norm_num)
      have e4 : ((((diagTable 3 14).r - 1) * ((diagTable 3 14).c - 1) : ℕ) : ℝ) = 4 := by
        change (((3 - 1) * (3 - 1) : ℕ) : ℝ) = 4
        norm_num
      rw [e4]
      nlinarith)
  exact ⟨p, z, e, hp⟩

/-- Non-vacuity for records: these forty-two records are detectable. -/
example : ∃ T, IsTable (List.replicate 14 (some (.num 1), some (.num 1)) ++ List.replicate 14 (some (.num 2), some (.num 2)) ++
    List.replicate 14 (some (.num 3), some (.num 3))) T ∧ Detectable (1 / 1000000) (4 / 3) T := by
  refine ⟨⟨[.num 1, .num 2, .num 3], [.num 1, .num 2, .num 3], fun i j => if i.val = j.val then 14 else 0⟩,
    ⟨by decide, by decide, ?_, ?_, ?_⟩, ?_, ?_⟩
  · intro a; simp [exists_or]
  · intro a; simp [exists_or]
  · intro i j
    change Fin 3 at i j
    fin_cases i <;> fin_cases j <;> decide
  · unfold Few; simp
  · have hv : Hist.values ⟨[.num 1, .num 2, .num 3], [.num 1, .num 2, .num 3], fun i j => if i.val = j.val then 14 else 0⟩ = diagTable 3 14 := by
      unfold Hist.values diagTable Arr2.map Hist.arr
      congr 1
      funext i j
      simp [Fin.ext_iff]
    have ht : (diagTable 3 14).total = 42 := by rw [diagTable_total]; norm_num
    have hd : tableDeviation (diagTable 3 14) = 56 := by rw [diagTable_deviation (by norm_num) (by norm_num)]; norm_num
    rw [hv, ht, hd]
    refine ⟨by norm_num, ?_⟩
    rw [div_le_iff₀ (by norm_num)]
    have l2 := Real.log_two_lt_d9
    have l1 : Real.log (1 / (1 / 1000000)) ≤ 20 * Real.log 2 := by
      rw [show (20 : ℝ) * Real.log 2 = Real.log (2 ^ 20) by rw [Real.log_pow]; norm_num]
      exact Real.log_le_log (by norm_num) (by norm_num)
    have e4 : (((([Cell.num 1, .num 2, .num 3]).length - 1) * (([Cell.num 1, .num 2, .num 3]).length - 1) : ℕ) : ℝ) = 4 := by
      simp
    rw [e4]
    nlinarith

end Phik.Props
