import Verif.Props.StatBounds
import Verif.Props.NullSig
import Verif.Lemmas.ChiSquare
import Verif.Props.SigReturns
import Verif.Props.Report

/-! # Property C101: the largest significance that a given number of records can have -/

namespace Phik.Props

open Spec MeasureTheory ProbabilityTheory Set

/-! ### the log-likelihood statistic -/

theorem statistic_const {a : Arr2 ℝ} (h : IsCount a) (h1 : ¬ (nRows a = 1 ∨ nCols a = 1)) (k : ℝ) :
    statistic (fun _ e => k * e) a = k * a.total := by
  unfold statistic
  rw [if_neg h1]
  have : ∀ i j, (if expect a i j = 0 then (0 : ℝ) else k * expect a i j) = k * expect a i j := by
    intro i j; split
    · next q => rw [q, mul_zero]
    · rfl
  simp only [this, ← Finset.mul_sum]
  rw [sum_expect h]

theorem statistic_add (f g : ℝ → ℝ → ℝ) (a : Arr2 ℝ) : statistic (fun o e => f o e + g o e) a = statistic f a + statistic g a := by
  unfold statistic
  split
  · simp
  · simp only [← Finset.sum_add_distrib]
    refine Finset.sum_congr rfl fun i _ => Finset.sum_congr rfl fun j _ => ?_
    split <;> simp

theorem gCell_le {o e c : ℝ} (ho : 0 ≤ o) (he : 0 < e) (hc : 0 < c) : gCell o e ≤ 2 * (o * (o / (e * c) - 1 + Real.log c)) := by
  unfold gCell
  rcases ho.eq_or_lt with rfl | ho
  · simp
  · have h1 := Real.log_le_sub_one_of_pos (div_pos (div_pos ho he) hc)
    rw [Real.log_div (div_pos ho he).ne' hc.ne', div_div] at h1
    have := mul_le_mul_of_nonneg_left (show Real.log (o / e) ≤ o / (e * c) - 1 + Real.log c by linarith) ho.le
    linarith

/-- The log-likelihood statistic in terms of Pearson's. -/
theorem g_le_log {a : Arr2 ℝ} (h : IsCount a) :
    statistic gCell a ≤ 2 * a.total * Real.log (1 + statistic pearsonCell a / a.total) := by
  have t0 := h.pos
  have p0 := (pearson_bounds h (get_chi2_value h).1).1
  set x := statistic pearsonCell a with hx
  have c1 : 1 ≤ 1 + x / a.total := by have := div_nonneg p0 t0.le; linarith
  set c := 1 + x / a.total with hc
  have c0 : 0 < c := by linarith
  by_cases h1 : nRows a = 1 ∨ nCols a = 1
  · have : statistic gCell a = 0 := by unfold statistic; rw [if_pos h1]
    rw [this]
    have := Real.log_nonneg c1
    positivity
  · have e1 : statistic gCell a ≤ statistic (fun o e => 2 * (o * (o / (e * c) - 1 + Real.log c))) a :=
      statistic_le h fun o e ho he => gCell_le ho he c0
    rw [statistic_centred h (fun o e => 2 * (o * (o / (e * c) - 1 + Real.log c))) (4 / c + 2 * (Real.log c - 1))] at e1
    have e2 : statistic (fun o e => 2 * (o * (o / (e * c) - 1 + Real.log c)) - (4 / c + 2 * (Real.log c - 1)) * (o - e)) a ≤
        statistic (fun o e => 2 / c * pearsonCell o e + (2 / c + 2 * Real.log c - 2) * e) a := by
      refine statistic_le h fun o e ho he => le_of_eq ?_
      unfold pearsonCell
      field_simp
      ring
    rw [statistic_add, statistic_mul, statistic_const h h1, ← hx] at e2
    have e3 : 2 / c * x + (2 / c + 2 * Real.log c - 2) * a.total = 2 * a.total * Real.log c := by
      have : x = (c - 1) * a.total := by rw [hc]; field_simp; ring
      rw [this]; field_simp; ring
    linarith

theorem occurring_bounds {a : Arr2 ℝ} (h : IsCount a) : 1 ≤ nRows a ∧ 1 ≤ nCols a ∧ nRows a ≤ a.r ∧ nCols a ≤ a.c := by
  have hne : ∃ i j, a.v i j ≠ 0 := by
    by_contra hno
    push Not at hno
    have : a.total = 0 := Finset.sum_eq_zero fun i _ => Finset.sum_eq_zero fun j _ => hno i j
    exact absurd this h.pos.ne'
  obtain ⟨i, j, hij⟩ := hne
  have : Nonempty {i // FullRow a i} := ⟨⟨i, j, hij⟩⟩
  have : Nonempty {j // FullCol a j} := ⟨⟨j, i, hij⟩⟩
  refine ⟨Nat.card_pos, Nat.card_pos, ?_, ?_⟩
  · simpa [nRows] using Nat.card_le_card_of_injective (Subtype.val : {i // FullRow a i} → Fin a.r) Subtype.val_injective
  · simpa [nCols] using Nat.card_le_card_of_injective (Subtype.val : {j // FullCol a j} → Fin a.c) Subtype.val_injective

/-- **C101.** The log-likelihood statistic of `n` records is at most `2 n log (1 + chi2 / n)` with Pearson's chi2, hence at most
`2 n log k` if the smaller number of categories that occur is `k`. -/
theorem log_likelihood_cap {a : Arr2 ℝ} (h : IsCount a) :
    ∃ x g, getChi2 a "pearson" = .ok x ∧ getChi2 a "log-likelihood" = .ok g ∧
      g ≤ 2 * a.total * Real.log (1 + x / a.total) ∧ g ≤ 2 * a.total * Real.log (min (nRows a) (nCols a) : ℕ) ∧
      g ≤ 2 * a.total * Real.log (min a.r a.c : ℕ) := by
  have t0 := h.pos
  obtain ⟨r1, c1, r2, c2⟩ := occurring_bounds h
  have b := pearson_bounds h (get_chi2_value h).1
  have g1 := g_le_log h
  have m1 : 1 ≤ min (nRows a) (nCols a) := le_min r1 c1
  have e : ((min (nRows a - 1) (nCols a - 1) : ℕ) : ℝ) = (min (nRows a) (nCols a) : ℕ) - 1 := by
    rw [show min (nRows a - 1) (nCols a - 1) = min (nRows a) (nCols a) - 1 by omega, Nat.cast_sub m1, Nat.cast_one]
  have g2 : statistic gCell a ≤ 2 * a.total * Real.log (min (nRows a) (nCols a) : ℕ) := by
    refine g1.trans (mul_le_mul_of_nonneg_left (Real.log_le_log ?_ ?_) (by positivity))
    · have := div_nonneg b.1 t0.le; linarith
    · have h2 := b.2.1
      rw [e] at h2
      have : statistic pearsonCell a / a.total ≤ ((min (nRows a) (nCols a) : ℕ) : ℝ) - 1 := by
        rw [div_le_iff₀ t0]; linarith
      linarith
  refine ⟨_, _, (get_chi2_value h).1, (get_chi2_value h).2, g1, g2, g2.trans ?_⟩
  refine mul_le_mul_of_nonneg_left (Real.log_le_log (by exact_mod_cast m1) ?_) (by positivity)
  exact_mod_cast min_le_min r2 c2

/-! ### the chi2 distribution -/

/-- With any number of degrees of freedom, a chi2 value of `x` is at least as probable as a normal variable beyond `√x` on either side. -/
theorem chi2Tail_ge {k : ℕ} (hk : 1 ≤ k) {x : ℝ} (hx : 0 ≤ x) : 2 * normCdf (-√x) ≤ chi2Tail k x := by
  have : Nonempty (Fin k) := ⟨⟨0, hk⟩⟩
  set μ := Measure.pi fun _ : Fin k => gaussianReal 0 1 with hμ
  have hlaw := sum_sq_law (ι := Fin k)
  rw [Fintype.card_fin] at hlaw
  have ms : Measurable fun y : Fin k → ℝ => ∑ i, y i ^ 2 := by fun_prop
  have e1 : chi2Tail k x = μ.real {y | x < ∑ i, y i ^ 2} := by
    unfold chi2Tail
    rw [← hlaw, measureReal_def, Measure.map_apply ms measurableSet_Ioi]
    rfl
  have i0 : Fin k := ⟨0, hk⟩
  have e2 : μ.real {y | y i0 ∈ Iio (-√x) ∪ Ioi (√x)} = (gaussianReal 0 1).real (Iio (-√x) ∪ Ioi (√x)) := by
    have mp := measurePreserving_eval (fun _ : Fin k => gaussianReal 0 1) i0
    rw [measureReal_def, measureReal_def, ← mp.measure_preimage (measurableSet_Iio.union measurableSet_Ioi).nullMeasurableSet]
    rfl
  have e3 : (gaussianReal 0 1).real (Iio (-√x) ∪ Ioi (√x)) = 2 * normCdf (-√x) := by
    have := nullSingletonClass_gaussianReal (μ := 0) (v := 1) one_ne_zero
    rw [measureReal_union (by
      rw [Set.disjoint_left]; intro z hz hz'
      have q1 : z < -√x := hz
      have q2 : √x < z := hz'
      have := Real.sqrt_nonneg x
      linarith) measurableSet_Ioi]
    have s1 : (gaussianReal 0 1).real (Iio (-√x)) = normCdf (-√x) := by
      unfold normCdf; rw [measureReal_def, measureReal_def, measure_congr Iio_ae_eq_Iic]
    have s2 : (gaussianReal 0 1).real (Ioi (√x)) = normCdf (-√x) := by
      have hn := gaussianReal_map_neg (μ := 0) (v := 1)
      rw [neg_zero] at hn
      rw [← s1]
      conv_lhs => rw [← hn]
      rw [measureReal_def, Measure.map_apply measurable_neg measurableSet_Ioi, measureReal_def]
      congr 2
      ext z
      simp only [mem_preimage, mem_Ioi, mem_Iio]
      constructor <;> intro q <;> linarith
    rw [s1, s2]; ring
  rw [e1, ← e3, ← e2]
  refine measureReal_mono (fun y hy => ?_)
  have q : x < y i0 ^ 2 := by
    have sx := Real.sq_sqrt hx
    have s0 := Real.sqrt_nonneg x
    rcases hy with hy | hy
    · have hy : y i0 < -√x := hy
      nlinarith
    · have hy : √x < y i0 := hy
      nlinarith
  exact q.trans_le (Finset.single_le_sum (f := fun i => y i ^ 2) (fun i _ => sq_nonneg _) (Finset.mem_univ i0))

theorem asymptotic_value {F : Type} (rn : SimRun F) {a : Arr2 ℝ} (hr : 2 ≤ a.r) (hc : 2 ≤ a.c) {x : ℝ} (hx : getChi2 a rn.lambda = .ok x) :
    sigFromHist2d trueSig rn a "asymptotic" = .ok (some (chi2Tail ((a.r - 1) * (a.c - 1) : ℕ) x),
      some (-normPpf (chi2Tail ((a.r - 1) * (a.c - 1) : ℕ) x))) := by
  have hk := dof_pos hr hc
  unfold sigFromHist2d
  rw [hx]
  change sigAsymptotic trueSig a _ = _
  unfold sigAsymptotic
  rw [theoretical_ndof_value]
  have ed : ((((a.r : ℤ) - 1) * ((a.c : ℤ) - 1) : ℤ) : ℝ) = ((a.r - 1) * (a.c - 1) : ℕ) := by
    have h1 : ((a.r - 1 : ℕ) : ℤ) = a.r - 1 := by omega
    have h2 : ((a.c - 1 : ℕ) : ℤ) = a.c - 1 := by omega
    rw [← h1, ← h2]
    push_cast
    rfl
  rw [ed]
  unfold sigFromNdof
  have hp : trueSig.chi2sf x ((a.r - 1) * (a.c - 1) : ℕ) = some (chi2Tail ((a.r - 1) * (a.c - 1) : ℕ) x) := by
    simp only [trueSig]
    rw [if_neg (not_le.2 hk)]
    rfl
  rw [hp]
  have hne : ¬ (some (chi2Tail ((a.r - 1) * (a.c - 1) : ℕ) x) = some 0) := by
    rw [Option.some.injEq]
    exact (chi2Tail_pos hk _).ne'
  simp only [hne, if_false]
  rfl

/-- Significance and p-value for a statistic of at most `b`. -/
theorem asymptotic_cap {F : Type} (rn : SimRun F) {a : Arr2 ℝ} (hr : 2 ≤ a.r) (hc : 2 ≤ a.c) {x b : ℝ} (hx : getChi2 a rn.lambda = .ok x)
    (h0 : 0 ≤ x) (hb : x ≤ b) :
    ∃ (p : ℝ) (z : EReal), sigFromHist2d trueSig rn a "asymptotic" = .ok (some p, some z) ∧ chi2Tail ((a.r - 1) * (a.c - 1) : ℕ) b ≤ p ∧
      2 * normCdf (-√b) ≤ p ∧ z < (√b : ℝ) := by
  have hk := dof_pos hr hc
  have k1 : 1 ≤ (a.r - 1) * (a.c - 1) := by exact_mod_cast hk
  have anti := chi2Tail_anti hk hb
  have l := (chi2Tail_ge k1 (h0.trans hb)).trans anti
  refine ⟨_, _, asymptotic_value rn hr hc hx, anti, l, ?_⟩
  have pos := normCdf_pos (-√b)
  have : Fact ((0 : ℝ) < ((a.r - 1) * (a.c - 1) : ℕ)) := ⟨hk⟩
  have le1 : chi2Tail ((a.r - 1) * (a.c - 1) : ℕ) x ≤ 1 := measureReal_le_one
  have := normPpf_strictMono ⟨pos.le, (normCdf_lt_one _).le⟩ ⟨by linarith, le1⟩ (show normCdf (-√b) < chi2Tail ((a.r - 1) * (a.c - 1) : ℕ) x by linarith)
  rw [normPpf_cdf] at this
  have := EReal.neg_lt_neg_iff.2 this
  rwa [EReal.coe_neg, neg_neg] at this

/-- **C101.** The asymptotic significance of `n` records with the default statistic is below `√(2 n log k)`, if the table has `k` rows or
`k` columns. -/
theorem asymptotic_cap_log_likelihood {F : Type} (rn : SimRun F) (hl : rn.lambda = "log-likelihood") {a : Arr2 ℝ} (h : IsCount a)
    (hr : 2 ≤ a.r) (hc : 2 ≤ a.c) :
    ∃ (p : ℝ) (z : EReal), sigFromHist2d trueSig rn a "asymptotic" = .ok (some p, some z) ∧
      chi2Tail ((a.r - 1) * (a.c - 1) : ℕ) (2 * a.total * Real.log (min a.r a.c : ℕ)) ≤ p ∧
      2 * normCdf (-√(2 * a.total * Real.log (min a.r a.c : ℕ))) ≤ p ∧ z < (√(2 * a.total * Real.log (min a.r a.c : ℕ)) : ℝ) := by
  obtain ⟨x, g, -, hg, -, -, g3⟩ := log_likelihood_cap h
  obtain ⟨g', hg', g0, -⟩ := log_likelihood_nonneg h
  rw [hg] at hg'
  cases hg'
  exact asymptotic_cap rn hr hc (by rw [hl]; exact hg) g0 g3

/-- **C101.** The same for Pearson's statistic: below `√(n (k - 1))`. -/
theorem asymptotic_cap_pearson {F : Type} (rn : SimRun F) (hl : rn.lambda = "pearson") {a : Arr2 ℝ} (h : IsCount a)
    (hr : 2 ≤ a.r) (hc : 2 ≤ a.c) :
    ∃ (p : ℝ) (z : EReal), sigFromHist2d trueSig rn a "asymptotic" = .ok (some p, some z) ∧
      chi2Tail ((a.r - 1) * (a.c - 1) : ℕ) (a.total * (min (a.r - 1) (a.c - 1) : ℕ)) ≤ p ∧
      2 * normCdf (-√(a.total * (min (a.r - 1) (a.c - 1) : ℕ))) ≤ p ∧ z < (√(a.total * (min (a.r - 1) (a.c - 1) : ℕ)) : ℝ) := by
  have b := pearson_bounds h (get_chi2_value h).1
  exact asymptotic_cap rn hr hc (by rw [hl]; exact (get_chi2_value h).1) b.1 b.2.2

/-- The table of two perfectly associated variables with `k` categories, `m` records each. -/
noncomputable def diagTable (k m : ℕ) : Arr2 ℝ := ⟨k, k, fun i j => if i = j then (m : ℝ) else 0⟩

theorem diagTable_total (k m : ℕ) : (diagTable k m).total = k * m := by
  change ∑ i : Fin k, ∑ j : Fin k, (if i = j then (m : ℝ) else 0) = _
  simp

theorem diagTable_isCount {k m : ℕ} (hk : 1 ≤ k) (hm : 1 ≤ m) : IsCount (diagTable k m) := by
  refine ⟨fun i j => ?_, ?_⟩
  · have : ∀ i j : Fin k, (0 : ℝ) ≤ if i = j then (m : ℝ) else 0 := fun i j => by split <;> positivity
    exact this i j
  · rw [diagTable_total]; positivity

/-- **C101 (the bounds are attained).** Perfectly associated variables with `k ≥ 3` equally frequent categories have the log-likelihood
statistic `2 n log k`. -/
theorem log_likelihood_cap_attained {k m : ℕ} (hk : 3 ≤ k) (hm : 1 ≤ m) :
    getChi2 (diagTable k m) "log-likelihood" = .ok (2 * (diagTable k m).total * Real.log k) := by
  have m0 : (0 : ℝ) < m := by exact_mod_cast hm
  have k0 : (0 : ℝ) < k := by positivity
  rw [(get_chi2_value (diagTable_isCount (by omega) hm)).2]
  have fr : ∀ i : Fin k, FullRow (diagTable k m) i := fun i => ⟨i, by
    change (if (i : Fin k) = i then (m : ℝ) else 0) ≠ 0
    rw [if_pos rfl]; exact m0.ne'⟩
  have fc : ∀ i : Fin k, FullCol (diagTable k m) i := fun i => ⟨i, by
    change (if (i : Fin k) = i then (m : ℝ) else 0) ≠ 0
    rw [if_pos rfl]; exact m0.ne'⟩
  have nr : nRows (diagTable k m) = k := by
    unfold nRows
    rw [Nat.card_congr (Equiv.subtypeUnivEquiv (p := fun i => FullRow (diagTable k m) i) fr)]
    exact Nat.card_fin k
  have nc : nCols (diagTable k m) = k := by
    unfold nCols
    rw [Nat.card_congr (Equiv.subtypeUnivEquiv (p := fun i => FullCol (diagTable k m) i) fc)]
    exact Nat.card_fin k
  have ex : ∀ i j, expect (diagTable k m) i j = m / k := by
    have : ∀ i j : Fin k, (∑ j' : Fin k, (if i = j' then (m : ℝ) else 0)) * (∑ i' : Fin k, (if i' = j then (m : ℝ) else 0)) /
        (∑ i : Fin k, ∑ j : Fin k, (if i = j then (m : ℝ) else 0)) = m / k := by
      intro i j
      simp
      field_simp
    exact this
  unfold statistic
  rw [nr, nc, if_neg (by omega)]
  congr 1
  have n2 : ¬ (k = 2 ∧ k = 2) := by omega
  simp only [n2, if_false, ex]
  rw [diagTable_total]
  change ∑ i : Fin k, ∑ j : Fin k, (if (m : ℝ) / k = 0 then (0 : ℝ) else gCell (if i = j then (m : ℝ) else 0) (m / k)) = _
  have hz : ¬ ((m : ℝ) / k = 0) := (by positivity : (0 : ℝ) < m / k).ne'
  have cell : ∀ i j : Fin k, (if (m : ℝ) / k = 0 then (0 : ℝ) else gCell (if i = j then (m : ℝ) else 0) (m / k)) =
      if i = j then 2 * (m * Real.log k) else 0 := by
    intro i j
    rw [if_neg hz]
    split
    · unfold gCell
      rw [div_div_cancel₀ m0.ne']
    · simp [gCell]
  simp only [cell, Finset.sum_ite_eq, Finset.mem_univ, if_true, Finset.sum_const, Finset.card_univ, Fintype.card_fin, nsmul_eq_mul]
  ring

/-- Non-vacuity: six records in a table of three by three. -/
example : ∃ a : Arr2 ℝ, IsCount a ∧ a.r = 3 ∧ a.c = 3 ∧ a.total = 6 := by
  refine ⟨diagTable 3 2, diagTable_isCount (by norm_num) (by norm_num), rfl, rfl, ?_⟩
  rw [diagTable_total]; norm_num

/-! ### records and matrices -/

theorem values_total {recs : List (Option Cell × Option Cell)} {h : Hist} (ht : IsTable recs h) : h.values.total ≤ recs.length := by
  have e : h.values.total = ((h.arr.total : ℕ) : ℝ) := by
    change ∑ i, ∑ j, ((h.v i j : ℕ) : ℝ) = ((∑ i, ∑ j, h.v i j : ℕ) : ℝ)
    push_cast; rfl
  rw [e, (table_totals ht).2.2]
  exact_mod_cast List.countP_le_length

theorem axis_card {α : Type} [DecidableEq α] {l : List α} (hl : l.Nodup) (s : Finset α) (hs : ∀ a ∈ l, a ∈ s) : l.length ≤ s.card := by
  rw [← List.toFinset_card_of_nodup hl]
  exact Finset.card_le_card fun a ha => hs a (List.mem_toFinset.1 ha)

/-- **C101 (records).** If one of two variables has only values in `s`, the asymptotic significance of `n` records is below
`√(2 n log |s|)`. -/
theorem records_cap {F : Type} (rn : SimRun F) (hl : rn.lambda = "log-likelihood") {recs : List (Option Cell × Option Cell)} {z : EReal}
    (h : IsSig trueSig rn "asymptotic" recs (some z)) (s : Finset Cell)
    (hs : (∀ p ∈ recs, ∀ a, p.1 = some a → a ∈ s) ∨ (∀ p ∈ recs, ∀ b, p.2 = some b → b ∈ s)) :
    z < (√(2 * recs.length * Real.log s.card) : ℝ) := by
  obtain ⟨t, ht, ⟨-, hv⟩ | ⟨hf, p, hp⟩⟩ := h
  · simp at hv
  · have hr : 2 ≤ t.rows.length := by unfold Few at hf; omega
    have hc : 2 ≤ t.cols.length := by unfold Few at hf; omega
    obtain ⟨p', z', e, -, -, hz⟩ := asymptotic_cap_log_likelihood rn hl (a := t.values) (data_isCount (table_data ht) hr) hr hc
    rw [e] at hp
    cases hp
    refine hz.trans_le ?_
    rw [EReal.coe_le_coe_iff]
    have k : min t.rows.length t.cols.length ≤ s.card := by
      rcases hs with hs | hs
      · refine (min_le_left _ _).trans (axis_card (ht.rows_sorted.imp fun q => ne_of_lt q) s fun a ha => ?_)
        obtain ⟨b, hb⟩ := (ht.rows_mem a).1 ha
        exact hs _ hb a rfl
      · refine (min_le_right _ _).trans (axis_card (ht.cols_sorted.imp fun q => ne_of_lt q) s fun a ha => ?_)
        obtain ⟨b, hb⟩ := (ht.cols_mem a).1 ha
        exact hs _ hb a rfl
    have k2 : 2 ≤ min t.rows.length t.cols.length := le_min hr hc
    have l0 : 0 ≤ Real.log (min t.rows.length t.cols.length : ℕ) := Real.log_nonneg (by exact_mod_cast (by omega : 1 ≤ min t.rows.length t.cols.length))
    have l1 : Real.log (min t.rows.length t.cols.length : ℕ) ≤ Real.log s.card :=
      Real.log_le_log (by exact_mod_cast (by omega : 0 < min t.rows.length t.cols.length)) (by exact_mod_cast k)
    refine Real.sqrt_le_sqrt ?_
    have := values_total ht
    exact mul_le_mul (by linarith) l1 l0 (by positivity)

theorem pair_sublist {l : List String} {a b : String} (ha : a ∈ l) (hb : b ∈ l) (hab : a ≠ b) : [a, b].Sublist l ∨ [b, a].Sublist l := by
  induction l with
  | nil => simp at ha
  | cons x xs ih =>
    rcases List.mem_cons.1 ha with rfl | ha'
    · rcases List.mem_cons.1 hb with rfl | hb
      · exact absurd rfl hab
      · exact .inl ((List.singleton_sublist.2 hb).cons_cons _)
    · rcases List.mem_cons.1 hb with rfl | hb
      · exact .inr ((List.singleton_sublist.2 ha').cons_cons _)
      · exact (ih ha' hb).imp (fun q => q.cons _) (fun q => q.cons _)

/-- **C101 (matrix).** No entry of the asymptotic significance matrix reaches `√(2 n log k)`, where `n` is the number of records and `k` the
smaller number of different entries of the two columns. -/
theorem significance_matrix_cap {F : Type} {R : ℕ → SimRun F} (hl : ∀ k, (R k).lambda = "log-likelihood") {r : Ref} {w w' : World} {f : Frame}
    (hr : w.heap[r]? = some f) (hn : f.names.Nodup) (hlen : ∀ c ∈ f.cols, c.cells.length = f.nrows) (dropna du dof : Bool) {t : LTab EReal}
    (hrun : (sigFromRebinned trueSig R r "asymptotic" dropna du dof).exec w = (.ok t, w')) {ca cb : Column} (ha : ca ∈ f.cols) (hb : cb ∈ f.cols)
    {z : EReal} (hz : t.v ca.name cb.name = some z) :
    z < (√(2 * f.nrows * Real.log (min ca.cells.toFinset.card cb.cells.toFinset.card : ℕ)) : ℝ) := by
  have hm : IsSigMatrix trueSig R "asymptotic" dropna du dof f t := by
    rcases significance_of_frame trueSig R "asymptotic" hr hn dropna du dof with ⟨t', w'', e, hm, -⟩ | ⟨e', w'', e, -⟩
    · rw [hrun] at e
      cases e
      exact hm
    · rw [hrun] at e
      cases e
  have mem : ∀ c ∈ f.cols, c.name ∈ f.names := fun c hc => List.mem_map_of_mem hc
  -- the claim for a pair in the order of the columns
  have key : ∀ c1 ∈ f.cols, ∀ c2 ∈ f.cols, (c1.name, c2.name) ∈ cwr f.names → t.v c1.name c2.name = some z →
      z < (√(2 * f.nrows * Real.log (min c1.cells.toFinset.card c2.cells.toFinset.card : ℕ)) : ℝ) := by
    intro c1 h1 c2 h2 hc hz
    obtain ⟨k, hk⟩ := List.getElem?_of_mem hc
    obtain ⟨d1, m1, d2, m2, n1, n2, hs⟩ := hm.entry k _ _ hk
    have e1 : d1 = c1 := by rw [← colOf_name hn m1, ← colOf_name hn h1, n1]
    have e2 : d2 = c2 := by rw [← colOf_name hn m2, ← colOf_name hn h2, n2]
    subst e1 e2
    rw [hz] at hs
    have len : (records dropna du dof d1 d2).length = f.nrows := by
      simp [records, hlen d1 h1, hlen d2 h2]
    have side : ∀ d : Column, ((d.cells.toFinset.image (view dropna du dof)).eraseNone).card ≤ d.cells.toFinset.card := by
      intro d
      refine le_trans ?_ (Finset.card_image_le (s := d.cells.toFinset) (f := view dropna du dof))
      exact Finset.card_le_card_of_injOn some (fun x hx => Finset.mem_eraseNone.1 hx) (fun x _ y _ hxy => Option.some.inj hxy)
    have fin : ∀ d : Column, z < (√(2 * f.nrows * Real.log ((d.cells.toFinset.image (view dropna du dof)).eraseNone).card) : ℝ) →
        z < (√(2 * f.nrows * Real.log d.cells.toFinset.card) : ℝ) := by
      intro d q
      refine q.trans_le (EReal.coe_le_coe_iff.2 (Real.sqrt_le_sqrt (mul_le_mul_of_nonneg_left ?_ (by positivity))))
      rcases Nat.eq_zero_or_pos ((d.cells.toFinset.image (view dropna du dof)).eraseNone).card with h0 | h0
      · rw [h0, Nat.cast_zero, Real.log_zero]
        exact Real.log_natCast_nonneg _
      · exact Real.log_le_log (by exact_mod_cast h0) (by exact_mod_cast side d)
    have b1 := fin d1 (by
      rw [← len]
      refine records_cap (R k) (hl k) hs _ (.inl fun p hp a hpa => ?_)
      obtain ⟨q, hq, rfl⟩ := List.mem_map.1 hp
      rw [Finset.mem_eraseNone, Finset.mem_image]
      exact ⟨q.1, List.mem_toFinset.2 (List.of_mem_zip hq).1, hpa⟩)
    have b2 := fin d2 (by
      rw [← len]
      refine records_cap (R k) (hl k) hs _ (.inr fun p hp a hpa => ?_)
      obtain ⟨q, hq, rfl⟩ := List.mem_map.1 hp
      rw [Finset.mem_eraseNone, Finset.mem_image]
      exact ⟨q.2, List.mem_toFinset.2 (List.of_mem_zip hq).2, hpa⟩)
    rcases min_choice d1.cells.toFinset.card d2.cells.toFinset.card with q | q <;> rw [q]
    · exact b1
    · exact b2
  by_cases hab : ca.name = cb.name
  · exact key ca ha cb hb (mem_cwr.2 (.inl ⟨hab, mem ca ha⟩)) hz
  · rcases pair_sublist (mem ca ha) (mem cb hb) hab with q | q
    · exact key ca ha cb hb (mem_cwr.2 (.inr q)) hz
    · rw [min_comm]
      refine key cb hb ca ha (mem_cwr.2 (.inr q)) ?_
      rw [← hz]
      exact hm.symm _ (mem cb hb) _ (mem ca ha)

/-- **C101 (example).** A pair with a column of two different entries and at most 18 records never has an asymptotic significance of 5. -/
theorem five_sigma_needs_19_records {F : Type} {R : ℕ → SimRun F} (hl : ∀ k, (R k).lambda = "log-likelihood") {r : Ref} {w w' : World} {f : Frame}
    (hr : w.heap[r]? = some f) (hn : f.names.Nodup) (hlen : ∀ c ∈ f.cols, c.cells.length = f.nrows) (dropna du dof : Bool) {t : LTab EReal}
    (hrun : (sigFromRebinned trueSig R r "asymptotic" dropna du dof).exec w = (.ok t, w')) {ca cb : Column} (ha : ca ∈ f.cols) (hb : cb ∈ f.cols)
    (h18 : f.nrows ≤ 18) (h2 : ca.cells.toFinset.card ≤ 2) {z : EReal} (hz : t.v ca.name cb.name = some z) : z < ((5 : ℝ) : EReal) := by
  refine (significance_matrix_cap hl hr hn hlen dropna du dof hrun ha hb hz).trans_le (EReal.coe_le_coe_iff.2 ?_)
  rw [Real.sqrt_le_left (by norm_num)]
  have l : Real.log (min ca.cells.toFinset.card cb.cells.toFinset.card : ℕ) ≤ Real.log 2 := by
    rcases Nat.eq_zero_or_pos (min ca.cells.toFinset.card cb.cells.toFinset.card) with q | q
    · rw [q, Nat.cast_zero, Real.log_zero]
      exact Real.log_nonneg (by norm_num)
    · exact Real.log_le_log (by exact_mod_cast q) (by exact_mod_cast (min_le_left _ _).trans h2)
  have l2 := Real.log_two_lt_d9
  have l0 : 0 ≤ Real.log (min ca.cells.toFinset.card cb.cells.toFinset.card : ℕ) := Real.log_natCast_nonneg _
  have n18 : (f.nrows : ℝ) ≤ 18 := by exact_mod_cast h18
  nlinarith [mul_le_mul n18 (l.trans l2.le) l0 (by norm_num : (0 : ℝ) ≤ 18)]

/-- Non-vacuity: a frame of two columns with two values each, four records; the call returns a number for the pair. -/
example {F : Type} (R : ℕ → SimRun F) (hl : ∀ k, (R k).lambda = "log-likelihood") :
    ∃ (f : Frame) (t : LTab EReal) (w' : World) (z : EReal), f.names.Nodup ∧ (∀ c ∈ f.cols, c.cells.length = f.nrows) ∧
      (sigFromRebinned trueSig R 0 "asymptotic" true true true).exec ⟨[f], []⟩ = (.ok t, w') ∧ t.v "a" "b" = some z ∧
      z < (√(2 * (4 : ℕ) * Real.log (min 2 2 : ℕ)) : ℝ) := by
  set ca : Column := ⟨"a", false, [.str "x", .str "x", .str "y", .str "y"]⟩ with hca
  set cb : Column := ⟨"b", false, [.str "u", .str "u", .str "v", .str "v"]⟩ with hcb
  set f : Frame := ⟨4, [ca, cb]⟩ with hf
  have hn : f.names.Nodup := by simp [hf, hca, hcb, Frame.names]
  have hlen : ∀ c ∈ f.cols, c.cells.length = f.nrows := by simp [hf, hca, hcb]
  obtain ⟨t, w', h, g⟩ := significance_returns (S := trueSig) (method := "asymptotic") (R := R)
    (fun k => .inl ⟨rfl, trueSig_spec, trueSig_far, by rw [hl k]; simp⟩) (r := 0) (w := ⟨[f], []⟩) (f := f) rfl hn true true true
  obtain ⟨d1, m1, d2, m2, n1, n2, hs⟩ := g 1 "a" "b" rfl
  have e1 : d1 = ca := by rw [← colOf_name hn m1, n1]; rfl
  have e2 : d2 = cb := by rw [← colOf_name hn m2, n2]; rfl
  subst e1 e2
  have hne : t.v "a" "b" ≠ none := by
    intro q
    obtain ⟨T, hT, few⟩ := hs.1 q
    have two : ∀ {l : List Cell} {u v : Cell}, u ≠ v → u ∈ l → v ∈ l → 2 ≤ l.length := by
      intro l u v huv hu hv
      by_contra hlt
      match l, hlt with
      | [], _ => simp at hu
      | [x], _ => simp at hu hv; exact huv (hu.trans hv.symm)
      | _ :: _ :: _, hlt => simp at hlt
    have r1 := two (l := T.rows) (u := .str "x") (v := .str "y") (by decide)
      ((hT.rows_mem _).2 ⟨.str "u", by simp [records, ca, cb, view]⟩)
      ((hT.rows_mem _).2 ⟨.str "v", by simp [records, ca, cb, view]⟩)
    have r2 := two (l := T.cols) (u := .str "u") (v := .str "v") (by decide)
      ((hT.cols_mem _).2 ⟨.str "x", by simp [records, ca, cb, view]⟩)
      ((hT.cols_mem _).2 ⟨.str "y", by simp [records, ca, cb, view]⟩)
    omega
  obtain ⟨z, hz⟩ := Option.ne_none_iff_exists'.1 hne
  refine ⟨f, t, w', z, hn, hlen, h, hz, ?_⟩
  have := significance_matrix_cap hl rfl hn hlen true true true h m1 m2 hz
  have c1 : ca.cells.toFinset.card = 2 := by decide
  have c2 : cb.cells.toFinset.card = 2 := by decide
  rw [c1, c2] at this
  exact this

end Phik.Props
