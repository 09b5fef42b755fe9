import Verif.Spec.AddRecords
import Verif.Props.Stats
import Verif.Props.Phik
import Verif.Props.Matrix
import Mathlib.Analysis.SpecialFunctions.Log.NegMulLog

/-! # Property C103: the influence of a few records on the default statistic -/

namespace Phik.Props

open Spec Set

/-! ### `x log x` -/

noncomputable def xlog (x : ℝ) : ℝ := x * Real.log x

/-- The increment of `x log x`. -/
noncomputable def xstep (x : ℝ) : ℝ := xlog (x + 1) - xlog x

theorem xstep_mono : MonotoneOn xstep (Ici 0) := by
  have hd : ∀ x : ℝ, 0 < x → HasDerivAt xstep (Real.log (x + 1) + 1 - (Real.log x + 1)) x := by
    intro x hx
    have h1 : HasDerivAt (fun y : ℝ => xlog (y + 1)) (Real.log (x + 1) + 1) x := by
      have := (Real.hasDerivAt_mul_log (by linarith : x + 1 ≠ 0)).comp_add_const x 1
      exact this
    exact h1.sub (Real.hasDerivAt_mul_log hx.ne')
  refine monotoneOn_of_deriv_nonneg (convex_Ici 0) ?_ ?_ ?_
  · have : Continuous xstep := by
      unfold xstep xlog
      exact (Real.continuous_mul_log.comp (continuous_id.add continuous_const)).sub Real.continuous_mul_log
    exact this.continuousOn
  · rw [interior_Ici]
    exact fun x hx => (hd x hx).differentiableAt.differentiableWithinAt
  · rw [interior_Ici]
    intro x hx
    have hx : 0 < x := hx
    rw [(hd x hx).deriv]
    have := Real.log_le_log hx (show x ≤ x + 1 by linarith)
    linarith

theorem xstep_nonneg {x : ℝ} (hx : 0 ≤ x) : 0 ≤ xstep x := by
  have : xstep 0 = 0 := by simp [xstep, xlog]
  rw [← this]
  exact xstep_mono (mem_Ici.2 le_rfl) hx hx

theorem xstep_le {x : ℝ} (hx : 0 ≤ x) : xstep x ≤ 1 + Real.log (x + 1) := by
  unfold xstep xlog
  rcases hx.eq_or_lt with rfl | hx
  · simp
  · have h1 := Real.log_le_sub_one_of_pos (show 0 < (x + 1) / x by positivity)
    rw [Real.log_div (by linarith) hx.ne'] at h1
    have h2 := mul_le_mul_of_nonneg_left h1 hx.le
    have h3 : x * ((x + 1) / x - 1) = 1 := by field_simp; ring
    nlinarith

/-! ### the statistic as sums of `x log x` -/

/-- Twice the sum of `x log x` over cells and total less those over rows and columns. -/
noncomputable def gSum (a : Arr2 ℝ) : ℝ :=
  2 * ((∑ i, ∑ j, xlog (a.v i j)) - (∑ i, xlog (a.rowSum i)) - (∑ j, xlog (a.colSum j)) + xlog a.total)

theorem gCell_sum {a : Arr2 ℝ} (h : IsCount a) : ∑ i, ∑ j, gCell (a.v i j) (expect a i j) = gSum a := by
  have cell : ∀ i j, gCell (a.v i j) (expect a i j) = 2 * (xlog (a.v i j) - a.v i j * Real.log (a.rowSum i) -
      a.v i j * Real.log (a.colSum j) + a.v i j * Real.log a.total) := by
    intro i j
    unfold gCell xlog
    rcases (h.nonneg i j).eq_or_lt with q | q
    · rw [← q]; simp
    · have r := q.trans_le (le_rowSum h i j)
      have c := q.trans_le (le_colSum h i j)
      have e : expect a i j = a.rowSum i * a.colSum j / a.total := rfl
      rw [e, Real.log_div q.ne' (div_pos (mul_pos r c) h.pos).ne', Real.log_div (mul_pos r c).ne' h.pos.ne', Real.log_mul r.ne' c.ne']
      ring
  have e1 : ∑ i, ∑ j, a.v i j * Real.log (a.rowSum i) = ∑ i, xlog (a.rowSum i) := by
    refine Finset.sum_congr rfl fun i _ => ?_
    rw [← Finset.sum_mul]; rfl
  have e2 : ∑ i, ∑ j, a.v i j * Real.log (a.colSum j) = ∑ j, xlog (a.colSum j) := by
    rw [Finset.sum_comm]
    refine Finset.sum_congr rfl fun j _ => ?_
    rw [← Finset.sum_mul]; rfl
  have e3 : ∑ i, ∑ j, a.v i j * Real.log a.total = xlog a.total := by
    simp only [← Finset.sum_mul]; rfl
  simp only [cell, ← Finset.mul_sum, Finset.sum_add_distrib, Finset.sum_sub_distrib, e1, e2, e3]
  rfl

/-- **C103 (the statistic without logarithms of quotients).** Except for two by two, the default statistic is twice the sum of `x log x` over
the cells and the total, less that over the rows and columns. -/
theorem log_likelihood_xlog {a : Arr2 ℝ} (h : IsCount a) (h2 : ¬ (nRows a = 2 ∧ nCols a = 2)) :
    getChi2 a "log-likelihood" = .ok (gSum a) := by
  rw [(get_chi2_value h).2, ← gCell_sum h]
  congr 1
  by_cases h1 : nRows a = 1 ∨ nCols a = 1
  · have z : statistic gCell a = 0 := by unfold statistic; rw [if_pos h1]
    obtain ⟨g, hg, -, hi, -⟩ := log_likelihood_nonneg h
    rw [(get_chi2_value h).2] at hg
    cases hg
    have ind := (hi h2).1 z
    rw [z]
    refine (Finset.sum_eq_zero fun i _ => Finset.sum_eq_zero fun j _ => ?_).symm
    rw [ind i j]
    unfold gCell
    rcases eq_or_ne (expect a i j) 0 with q | q
    · rw [q]; simp
    · rw [div_self q]; simp
  · unfold statistic
    rw [if_neg h1]
    refine Finset.sum_congr rfl fun i _ => Finset.sum_congr rfl fun j _ => ?_
    rw [if_neg h2]
    split
    · next q => rw [zero_of_expect_zero h q]; simp [gCell]
    · rfl

/-! ### further records -/

section Step
variable {r c : ℕ}

theorem withRecords_total (v : Fin r → Fin c → ℝ) (l : List (Fin r × Fin c)) :
    (withRecords v l).total = (⟨r, c, v⟩ : Arr2 ℝ).total + l.length := by
  change ∑ i, ∑ j, (v i j + (l.count (i, j) : ℝ)) = ∑ i, ∑ j, v i j + l.length
  simp only [Finset.sum_add_distrib]
  congr 1
  induction l with
  | nil => simp
  | cons p l ih =>
    obtain ⟨i, j⟩ := p
    simp only [List.count_cons, Nat.cast_add, Finset.sum_add_distrib, ih, List.length_cons]
    congr 1
    have : ∀ i' j', ((if ((i, j) : Fin r × Fin c) == (i', j') then 1 else 0 : ℕ) : ℝ) = if i = i' then (if j = j' then 1 else 0) else 0 := by
      intro i' j'
      by_cases h1 : i = i' <;> by_cases h2 : j = j' <;> simp [h1, h2]
    simp only [this]
    rw [Finset.sum_comm]
    simp

theorem withRecords_isCount {v : Fin r → Fin c → ℝ} (h : IsCount ⟨r, c, v⟩) (l : List (Fin r × Fin c)) : IsCount (withRecords v l) := by
  refine ⟨fun i j => add_nonneg (h.nonneg i j) (Nat.cast_nonneg _), ?_⟩
  rw [withRecords_total]
  have := h.pos
  positivity

/-- One more record. -/
theorem gSum_step (v : Fin r → Fin c → ℝ) (i : Fin r) (j : Fin c) :
    gSum ⟨r, c, fun i' j' => v i' j' + if i = i' ∧ j = j' then 1 else 0⟩ = gSum ⟨r, c, v⟩ +
      2 * (xstep (v i j) - xstep (∑ j', v i j') - xstep (∑ i', v i' j) + xstep (∑ i', ∑ j', v i' j')) := by
  have add : ∀ (x : ℝ) (p : Prop) [Decidable p], xlog (x + if p then 1 else 0) = xlog x + if p then xstep x else 0 := by
    intro x p _
    split
    · unfold xstep; ring
    · simp
  have c1 : ∑ i' : Fin r, ∑ j' : Fin c, xlog (v i' j' + if i = i' ∧ j = j' then 1 else 0) = (∑ i', ∑ j', xlog (v i' j')) + xstep (v i j) := by
    simp only [add, Finset.sum_add_distrib]
    congr 1
    simp only [ite_and]
    rw [Finset.sum_comm]
    simp
  have c2 : ∑ i' : Fin r, xlog (∑ j' : Fin c, (v i' j' + if i = i' ∧ j = j' then 1 else 0)) = (∑ i', xlog (∑ j', v i' j')) + xstep (∑ j', v i j') := by
    have : ∀ i', ∑ j' : Fin c, (v i' j' + if i = i' ∧ j = j' then 1 else 0) = (∑ j', v i' j') + if i = i' then 1 else 0 := by
      intro i'
      rw [Finset.sum_add_distrib]
      congr 1
      by_cases q : i = i' <;> simp [q]
    simp only [this, add, Finset.sum_add_distrib]
    congr 1
    simp
  have c3 : ∑ j' : Fin c, xlog (∑ i' : Fin r, (v i' j' + if i = i' ∧ j = j' then 1 else 0)) = (∑ j', xlog (∑ i', v i' j')) + xstep (∑ i', v i' j) := by
    have : ∀ j', ∑ i' : Fin r, (v i' j' + if i = i' ∧ j = j' then 1 else 0) = (∑ i', v i' j') + if j = j' then 1 else 0 := by
      intro j'
      rw [Finset.sum_add_distrib]
      congr 1
      by_cases q : j = j' <;> simp [q]
    simp only [this, add, Finset.sum_add_distrib]
    congr 1
    simp
  have c4 : xlog (∑ i' : Fin r, ∑ j' : Fin c, (v i' j' + if i = i' ∧ j = j' then 1 else 0)) =
      xlog (∑ i', ∑ j', v i' j') + xstep (∑ i', ∑ j', v i' j') := by
    have : ∑ i' : Fin r, ∑ j' : Fin c, (v i' j' + if i = i' ∧ j = j' then (1 : ℝ) else 0) = (∑ i', ∑ j', v i' j') + 1 := by
      simp only [Finset.sum_add_distrib]
      congr 1
      simp only [ite_and]
      rw [Finset.sum_comm]
      simp
    rw [this]
    unfold xstep; ring
  change 2 * ((∑ i' : Fin r, ∑ j' : Fin c, xlog (v i' j' + if i = i' ∧ j = j' then 1 else 0)) -
      (∑ i' : Fin r, xlog (∑ j' : Fin c, (v i' j' + if i = i' ∧ j = j' then 1 else 0))) -
      (∑ j' : Fin c, xlog (∑ i' : Fin r, (v i' j' + if i = i' ∧ j = j' then 1 else 0))) +
      xlog (∑ i' : Fin r, ∑ j' : Fin c, (v i' j' + if i = i' ∧ j = j' then 1 else 0))) =
    2 * ((∑ i', ∑ j', xlog (v i' j')) - (∑ i', xlog (∑ j', v i' j')) - (∑ j', xlog (∑ i', v i' j')) + xlog (∑ i', ∑ j', v i' j')) + _
  rw [c1, c2, c3, c4]
  ring

theorem gSum_step_le {v : Fin r → Fin c → ℝ} (h : IsCount ⟨r, c, v⟩) (i : Fin r) (j : Fin c) :
    |gSum ⟨r, c, fun i' j' => v i' j' + if i = i' ∧ j = j' then 1 else 0⟩ - gSum ⟨r, c, v⟩| ≤ 2 * (1 + Real.log ((⟨r, c, v⟩ : Arr2 ℝ).total + 1)) := by
  have hv : ∀ i j, 0 ≤ v i j := h.nonneg
  have o0 := hv i j
  have r1 : v i j ≤ ∑ j', v i j' := Finset.single_le_sum (f := fun j' => v i j') (fun j' _ => hv i j') (Finset.mem_univ j)
  have r2 : ∑ j', v i j' ≤ ∑ i', ∑ j', v i' j' :=
    Finset.single_le_sum (f := fun i' => ∑ j', v i' j') (fun i' _ => Finset.sum_nonneg fun j' _ => hv i' j') (Finset.mem_univ i)
  have c1 : v i j ≤ ∑ i', v i' j := Finset.single_le_sum (f := fun i' => v i' j) (fun i' _ => hv i' j) (Finset.mem_univ i)
  have c2 : ∑ i', v i' j ≤ ∑ i', ∑ j', v i' j' := by
    rw [Finset.sum_comm]
    exact Finset.single_le_sum (f := fun j' => ∑ i', v i' j') (fun j' _ => Finset.sum_nonneg fun i' _ => hv i' j') (Finset.mem_univ j)
  rw [gSum_step, add_sub_cancel_left]
  have n0 : 0 ≤ ∑ i', ∑ j', v i' j' := by linarith
  have hN := xstep_le n0
  have m1 := xstep_mono (mem_Ici.2 o0) (mem_Ici.2 (o0.trans r1)) r1
  have m2 := xstep_mono (mem_Ici.2 (o0.trans r1)) (mem_Ici.2 n0) r2
  have m3 := xstep_mono (mem_Ici.2 o0) (mem_Ici.2 (o0.trans c1)) c1
  have m4 := xstep_mono (mem_Ici.2 (o0.trans c1)) (mem_Ici.2 n0) c2
  have z := xstep_nonneg o0
  have e : (⟨r, c, v⟩ : Arr2 ℝ).total = ∑ i', ∑ j', v i' j' := rfl
  rw [e, abs_le]
  constructor <;> linarith

theorem gSum_records {v : Fin r → Fin c → ℝ} (h : IsCount ⟨r, c, v⟩) (l : List (Fin r × Fin c)) :
    |gSum (withRecords v l) - gSum ⟨r, c, v⟩| ≤ l.length * (2 * (1 + Real.log ((⟨r, c, v⟩ : Arr2 ℝ).total + l.length))) := by
  induction l with
  | nil =>
    have : withRecords v [] = ⟨r, c, v⟩ := by unfold withRecords; simp
    rw [this]; simp
  | cons p l ih =>
    obtain ⟨i, j⟩ := p
    have e : withRecords v ((i, j) :: l) = ⟨r, c, fun i' j' => (withRecords v l).v i' j' + if i = i' ∧ j = j' then 1 else 0⟩ := by
      unfold withRecords
      congr 1
      funext i' j'
      simp only [List.count_cons, Nat.cast_add, add_assoc]
      congr 2
      by_cases h1 : i = i' <;> by_cases h2 : j = j' <;> simp [h1, h2]
    have s := gSum_step_le (v := (withRecords v l).v) (withRecords_isCount h l) i j
    have s' : |gSum (withRecords v ((i, j) :: l)) - gSum (withRecords v l)| ≤ 2 * (1 + Real.log ((withRecords v l).total + 1)) := by
      rw [e]; exact s
    rw [withRecords_total] at s'
    have t0 := h.pos
    have mono : Real.log ((⟨r, c, v⟩ : Arr2 ℝ).total + l.length) ≤ Real.log ((⟨r, c, v⟩ : Arr2 ℝ).total + (l.length + 1)) :=
      Real.log_le_log (by positivity) (by linarith)
    have m2 := mul_le_mul_of_nonneg_left mono (Nat.cast_nonneg (α := ℝ) l.length)
    have tri := abs_sub_le (gSum (withRecords v ((i, j) :: l))) (gSum (withRecords v l)) (gSum ⟨r, c, v⟩)
    rw [List.length_cons, Nat.cast_add, Nat.cast_one]
    have e3 : (⟨r, c, v⟩ : Arr2 ℝ).total + l.length + 1 = (⟨r, c, v⟩ : Arr2 ℝ).total + (l.length + 1) := by ring
    rw [e3] at s'
    linarith

/-- **C103.** `m` further records, in any cells, also of new rows and columns, change the default statistic of a table of `n` records by at
most `2 m (1 + log (n + m))`, if neither table is two by two. -/
theorem few_records {v : Fin r → Fin c → ℝ} (h : IsCount ⟨r, c, v⟩) (l : List (Fin r × Fin c))
    (h2 : ¬ (nRows ⟨r, c, v⟩ = 2 ∧ nCols ⟨r, c, v⟩ = 2)) (h2' : ¬ (nRows (withRecords v l) = 2 ∧ nCols (withRecords v l) = 2)) :
    ∃ g g', getChi2 ⟨r, c, v⟩ "log-likelihood" = .ok g ∧ getChi2 (withRecords v l) "log-likelihood" = .ok g' ∧
      |g' - g| ≤ l.length * (2 * (1 + Real.log ((⟨r, c, v⟩ : Arr2 ℝ).total + l.length))) :=
  ⟨_, _, log_likelihood_xlog h h2, log_likelihood_xlog (withRecords_isCount h l) h2', gSum_records h l⟩

end Step

/-! ### records -/

theorem data_nRows {a : Arr2 ℝ} (h : DataTable a) : nRows a = a.r := by
  unfold nRows
  rw [Nat.card_congr (Equiv.subtypeUnivEquiv (p := fun i => FullRow a i) h.rows)]
  exact Nat.card_fin _

theorem data_nCols {a : Arr2 ℝ} (h : DataTable a) : nCols a = a.c := by
  unfold nCols
  rw [Nat.card_congr (Equiv.subtypeUnivEquiv (p := fun i => FullCol a i) h.cols)]
  exact Nat.card_fin _

theorem gSum_sub {a b : Arr2 ℝ} (s : Sub a b) : gSum b = gSum a := by
  have z : xlog 0 = 0 := by simp [xlog]
  have e1 : ∑ i, ∑ j, xlog (b.v i j) = ∑ i, ∑ j, xlog (a.v i j) := by
    refine Fintype.sum_of_injective s.ρ s.ρ_inj _ _ (fun i hi => Finset.sum_eq_zero fun j _ => ?_) fun i => ?_
    · rw [s.zero_row (fun k hk => hi ⟨k, hk⟩), z]
    · refine Fintype.sum_of_injective s.σ s.σ_inj _ _ (fun j hj => ?_) fun j => by rw [s.val]
      rw [s.zero_col (fun k hk => hj ⟨k, hk⟩), z]
  have e2 : ∑ i, xlog (b.rowSum i) = ∑ i, xlog (a.rowSum i) :=
    Fintype.sum_of_injective s.ρ s.ρ_inj _ _ (fun i hi => by rw [s.rowSum_zero (fun k hk => hi ⟨k, hk⟩), z]) fun i => by rw [s.rowSum]
  have e3 : ∑ j, xlog (b.colSum j) = ∑ j, xlog (a.colSum j) :=
    Fintype.sum_of_injective s.σ s.σ_inj _ _ (fun j hj => by rw [s.colSum_zero (fun k hk => hj ⟨k, hk⟩), z]) fun j => by rw [s.colSum]
  unfold gSum
  rw [e1, e2, e3, s.total]

theorem sum_indicator {r c : ℕ} (v : Fin r → Fin c → ℝ) (i : Fin r) (j : Fin c) :
    ∑ i', ∑ j', (v i' j' + if i = i' ∧ j = j' then (1 : ℝ) else 0) = ∑ i', ∑ j', v i' j' + 1 := by
  simp only [Finset.sum_add_distrib]
  congr 1
  simp only [ite_and]
  rw [Finset.sum_comm]
  simp

/-- The table of the records over given axes, which may have categories that do not occur. -/
noncomputable def tableOver (rows cols : List Cell) (recs : List (Option Cell × Option Cell)) : Arr2 ℝ :=
  ⟨rows.length, cols.length, fun i j => (recs.count (some rows[i], some cols[j]) : ℝ)⟩

theorem tableOver_cons {rows cols : List Cell} (hr : rows.Nodup) (hc : cols.Nodup) (p : Option Cell × Option Cell) (recs : List (Option Cell × Option Cell)) :
    tableOver rows cols (p :: recs) = tableOver rows cols recs ∨
    ∃ (i : Fin rows.length) (j : Fin cols.length), tableOver rows cols (p :: recs) =
      ⟨rows.length, cols.length, fun i' j' => (tableOver rows cols recs).v i' j' + if i = i' ∧ j = j' then 1 else 0⟩ := by
  unfold tableOver
  by_cases h : ∃ (i : Fin rows.length) (j : Fin cols.length), p = (some rows[i], some cols[j])
  · obtain ⟨i, j, rfl⟩ := h
    refine .inr ⟨i, j, ?_⟩
    congr 1
    funext i' j'
    simp only [List.count_cons, Nat.cast_add]
    congr 1
    by_cases h1 : i = i'
    · by_cases h2 : j = j'
      · subst h1 h2; simp
      · have : cols[j] ≠ cols[j'] := fun q => h2 (Fin.ext ((List.Nodup.getElem_inj_iff hc).1 q))
        subst h1
        simpa [h2] using this
    · have : rows[i] ≠ rows[i'] := fun q => h1 (Fin.ext ((List.Nodup.getElem_inj_iff hr).1 q))
      have h3 : ((some rows[i], some cols[j]) == (some rows[i'], some cols[j'])) = false := by
        rw [beq_eq_false_iff_ne]
        intro q
        exact this (Option.some.inj (Prod.mk.inj q).1)
      rw [h3]
      simp [h1]
  · refine .inl ?_
    congr 1
    funext i j
    have h3 : (p == (some rows[i], some cols[j])) = false := by
      rw [beq_eq_false_iff_ne]
      exact fun q => h ⟨i, j, q⟩
    rw [List.count_cons, h3]
    simp

theorem tableOver_total_cons {rows cols : List Cell} (hr : rows.Nodup) (hc : cols.Nodup) (p : Option Cell × Option Cell)
    (recs : List (Option Cell × Option Cell)) :
    (tableOver rows cols recs).total ≤ (tableOver rows cols (p :: recs)).total ∧
      (tableOver rows cols (p :: recs)).total ≤ (tableOver rows cols recs).total + 1 := by
  rcases tableOver_cons hr hc p recs with e | ⟨i, j, e⟩
  · rw [e]; constructor <;> linarith
  · have : (tableOver rows cols (p :: recs)).total = (tableOver rows cols recs).total + 1 := by
      rw [e]
      change ∑ i' : Fin rows.length, ∑ j' : Fin cols.length, ((tableOver rows cols recs).v i' j' + if i = i' ∧ j = j' then (1 : ℝ) else 0) =
        ∑ i' : Fin rows.length, ∑ j' : Fin cols.length, (tableOver rows cols recs).v i' j' + 1
      exact sum_indicator (tableOver rows cols recs).v i j
    rw [this]; constructor <;> linarith

theorem tableOver_records {rows cols : List Cell} (hr : rows.Nodup) (hc : cols.Nodup) {recs : List (Option Cell × Option Cell)}
    (h : IsCount (tableOver rows cols recs)) (more : List (Option Cell × Option Cell)) :
    |gSum (tableOver rows cols (more ++ recs)) - gSum (tableOver rows cols recs)| ≤
      more.length * (2 * (1 + Real.log ((tableOver rows cols recs).total + more.length))) ∧
    IsCount (tableOver rows cols (more ++ recs)) ∧
    (tableOver rows cols (more ++ recs)).total ≤ (tableOver rows cols recs).total + more.length := by
  induction more with
  | nil => simpa using h
  | cons p more ih =>
    obtain ⟨i1, i2, i3⟩ := ih
    have t := tableOver_total_cons hr hc p (more ++ recs)
    have t0 := h.pos
    have hc' : IsCount (tableOver rows cols (p :: (more ++ recs))) :=
      ⟨fun i j => Nat.cast_nonneg _, i2.pos.trans_le t.1⟩
    have L : ((p :: more).length : ℝ) = more.length + 1 := by simp
    rw [List.cons_append, L]
    refine ⟨?_, hc', by linarith⟩
    have n0 : (0 : ℝ) ≤ more.length := Nat.cast_nonneg _
    have mono : Real.log ((tableOver rows cols recs).total + more.length) ≤ Real.log ((tableOver rows cols recs).total + (more.length + 1)) :=
      Real.log_le_log (by linarith) (by linarith)
    have m2 := mul_le_mul_of_nonneg_left mono n0
    have one : |gSum (tableOver rows cols (p :: (more ++ recs))) - gSum (tableOver rows cols (more ++ recs))| ≤
        2 * (1 + Real.log ((tableOver rows cols recs).total + (more.length + 1))) := by
      have lg : 0 ≤ Real.log ((tableOver rows cols (more ++ recs)).total + 1) := Real.log_nonneg (by linarith [i2.pos])
      have lm : Real.log ((tableOver rows cols (more ++ recs)).total + 1) ≤ Real.log ((tableOver rows cols recs).total + (more.length + 1)) :=
        Real.log_le_log (by linarith [i2.pos]) (by linarith)
      rcases tableOver_cons hr hc p (more ++ recs) with e | ⟨i, j, e⟩
      · rw [e, sub_self, abs_zero]; linarith
      · have s := gSum_step_le (v := (tableOver rows cols (more ++ recs)).v) i2 i j
        rw [e]
        refine le_trans s ?_
        change 2 * (1 + Real.log ((tableOver rows cols (more ++ recs)).total + 1)) ≤ _
        linarith
    have tri := abs_sub_le (gSum (tableOver rows cols (p :: (more ++ recs)))) (gSum (tableOver rows cols (more ++ recs))) (gSum (tableOver rows cols recs))
    linarith

/-- **C103 (records).** The default statistic of the contingency tables of some records and of the same and `m` further records differ by at
most `2 m (1 + log (n + m))`, where `n` is the number of complete records, if neither table is two by two. -/
theorem few_records_data {recs more : List (Option Cell × Option Cell)} {T T' : Hist} (hT : IsTable recs T) (hT' : IsTable (more ++ recs) T')
    (hne : 0 < T.values.total) (h2 : ¬ (T.rows.length = 2 ∧ T.cols.length = 2)) (h2' : ¬ (T'.rows.length = 2 ∧ T'.cols.length = 2)) :
    ∃ g g', getChi2 T.values "log-likelihood" = .ok g ∧ getChi2 T'.values "log-likelihood" = .ok g' ∧
      |g' - g| ≤ more.length * (2 * (1 + Real.log (T.values.total + more.length))) := by
  have nr : T'.rows.Nodup := hT'.rows_sorted.imp fun q => ne_of_lt q
  have nc : T'.cols.Nodup := hT'.cols_sorted.imp fun q => ne_of_lt q
  have dT := table_data hT
  have dT' := table_data hT'
  -- the second table is the one over its own axes
  have eT' : T'.values = tableOver T'.rows T'.cols (more ++ recs) := by
    unfold Hist.values tableOver Arr2.map Hist.arr
    congr 1
    funext i j
    change ((T'.v i j : ℕ) : ℝ) = _
    rw [hT'.counts]
  -- the first is the non-empty part of the one over the axes of the second
  have rsub : ∀ a ∈ T.rows, ∃ k : Fin T'.rows.length, T'.rows[k] = a := by
    intro a ha
    obtain ⟨b, hb⟩ := (hT.rows_mem a).1 ha
    obtain ⟨k, hk, e⟩ := List.getElem_of_mem ((hT'.rows_mem a).2 ⟨b, List.mem_append_right _ hb⟩)
    exact ⟨⟨k, hk⟩, e⟩
  have csub : ∀ a ∈ T.cols, ∃ k : Fin T'.cols.length, T'.cols[k] = a := by
    intro a ha
    obtain ⟨b, hb⟩ := (hT.cols_mem a).1 ha
    obtain ⟨k, hk, e⟩ := List.getElem_of_mem ((hT'.cols_mem a).2 ⟨b, List.mem_append_right _ hb⟩)
    exact ⟨⟨k, hk⟩, e⟩
  choose ρ hρ using rsub
  choose σ hσ using csub
  have tr : T.rows.Nodup := hT.rows_sorted.imp fun q => ne_of_lt q
  have tc : T.cols.Nodup := hT.cols_sorted.imp fun q => ne_of_lt q
  have val : ∀ (i : Fin T.rows.length) (j : Fin T.cols.length), T.values.v i j = (recs.count (some T.rows[i], some T.cols[j]) : ℝ) :=
    fun i j => congrArg Nat.cast (hT.counts i j)
  let s : Sub (tableOver T'.rows T'.cols recs) T.values :=
    { ρ := fun i : Fin T.rows.length => ρ T.rows[i] (List.getElem_mem _)
      σ := fun j : Fin T.cols.length => σ T.cols[j] (List.getElem_mem _)
      ρ_inj := fun i i' q => by
        have e : T.rows[i] = T.rows[i'] := by
          rw [← hρ T.rows[i] (List.getElem_mem _), ← hρ T.rows[i'] (List.getElem_mem _)]
          exact congrArg (fun k : Fin T'.rows.length => T'.rows[k]) q
        exact Fin.ext ((List.Nodup.getElem_inj_iff tr).1 e)
      σ_inj := fun i i' q => by
        have e : T.cols[i] = T.cols[i'] := by
          rw [← hσ T.cols[i] (List.getElem_mem _), ← hσ T.cols[i'] (List.getElem_mem _)]
          exact congrArg (fun k : Fin T'.cols.length => T'.cols[k]) q
        exact Fin.ext ((List.Nodup.getElem_inj_iff tc).1 e)
      ρ_range := fun k => by
        change Fin T'.rows.length at k
        constructor
        · rintro ⟨i, rfl⟩
          obtain ⟨j, hj⟩ := dT.rows i
          refine ⟨σ T.cols[(j : Fin T.cols.length)] (List.getElem_mem _), ?_⟩
          change (recs.count (some T'.rows[ρ T.rows[(i : Fin T.rows.length)] _], some T'.cols[σ T.cols[(j : Fin T.cols.length)] _]) : ℝ) ≠ 0
          rw [hρ, hσ]
          exact fun q => hj ((val i j).trans q)
        · rintro ⟨j, hj⟩
          change (recs.count (some T'.rows[k], some T'.cols[(j : Fin T'.cols.length)]) : ℝ) ≠ 0 at hj
          have mem : (some T'.rows[k], some T'.cols[(j : Fin T'.cols.length)]) ∈ recs := by
            rw [← List.count_pos_iff]
            exact Nat.pos_of_ne_zero (by exact_mod_cast hj)
          have m2 := (hT.rows_mem _).2 ⟨_, mem⟩
          obtain ⟨i, hi, e⟩ := List.getElem_of_mem m2
          refine ⟨⟨i, hi⟩, ?_⟩
          have := hρ T.rows[i] (List.getElem_mem _)
          exact Fin.ext ((List.Nodup.getElem_inj_iff nr).1 (this.trans e))
      σ_range := fun k => by
        change Fin T'.cols.length at k
        constructor
        · rintro ⟨j, rfl⟩
          obtain ⟨i, hi⟩ := dT.cols j
          refine ⟨ρ T.rows[(i : Fin T.rows.length)] (List.getElem_mem _), ?_⟩
          change (recs.count (some T'.rows[ρ T.rows[(i : Fin T.rows.length)] _], some T'.cols[σ T.cols[(j : Fin T.cols.length)] _]) : ℝ) ≠ 0
          rw [hρ, hσ]
          exact fun q => hi ((val i j).trans q)
        · rintro ⟨i, hi⟩
          change (recs.count (some T'.rows[(i : Fin T'.rows.length)], some T'.cols[k]) : ℝ) ≠ 0 at hi
          have mem : (some T'.rows[(i : Fin T'.rows.length)], some T'.cols[k]) ∈ recs := by
            rw [← List.count_pos_iff]
            exact Nat.pos_of_ne_zero (by exact_mod_cast hi)
          have m2 := (hT.cols_mem _).2 ⟨_, mem⟩
          obtain ⟨j, hj, e⟩ := List.getElem_of_mem m2
          refine ⟨⟨j, hj⟩, ?_⟩
          have := hσ T.cols[j] (List.getElem_mem _)
          exact Fin.ext ((List.Nodup.getElem_inj_iff nc).1 (this.trans e))
      val := fun i j => by
        refine (val i j).trans ?_
        change _ = (recs.count (some T'.rows[ρ T.rows[(i : Fin T.rows.length)] _], some T'.cols[σ T.cols[(j : Fin T.cols.length)] _]) : ℝ)
        rw [hρ, hσ]
        rfl }
  have hcT : IsCount T.values := ⟨fun i j => Nat.cast_nonneg _, hne⟩
  have hc : IsCount (tableOver T'.rows T'.cols recs) := ⟨fun i j => Nat.cast_nonneg _, by rw [← s.total]; exact hne⟩
  obtain ⟨b, hc', -⟩ := tableOver_records nr nc hc more
  rw [← gSum_sub s, ← s.total, ← eT'] at b
  rw [← eT'] at hc'
  refine ⟨_, _, log_likelihood_xlog hcT ?_, log_likelihood_xlog hc' ?_, b⟩
  · rwa [data_nRows dT, data_nCols dT]
  · rwa [data_nRows dT', data_nCols dT']

/-- Non-vacuity: three records of three categories, and one more of a fourth. -/
example : ∃ recs more T T', IsTable recs T ∧ IsTable (more ++ recs) T' ∧ 0 < T.values.total ∧ more.length = 1 ∧
    ¬ (T.rows.length = 2 ∧ T.cols.length = 2) ∧ ¬ (T'.rows.length = 2 ∧ T'.cols.length = 2) := by
  refine ⟨[(some (.num 1), some (.num 1)), (some (.num 2), some (.num 2)), (some (.num 3), some (.num 3))], [(some (.num 4), some (.num 4))],
    ⟨[.num 1, .num 2, .num 3], [.num 1, .num 2, .num 3], fun i j => if i.val = j.val then 1 else 0⟩,
    ⟨[.num 1, .num 2, .num 3, .num 4], [.num 1, .num 2, .num 3, .num 4], fun i j => if i.val = j.val then 1 else 0⟩,
    ⟨by decide, by decide, ?_, ?_, ?_⟩, ⟨by decide, by decide, ?_, ?_, ?_⟩, ?_, rfl, by simp, by simp⟩
  · intro a; simp [exists_or]
  · intro a; simp [exists_or]
  · intro i j
    change Fin 3 at i j
    fin_cases i <;> fin_cases j <;> decide
  · intro a; simp [exists_or]; tauto
  · intro a; simp [exists_or]; tauto
  · intro i j
    change Fin 4 at i j
    fin_cases i <;> fin_cases j <;> decide
  · change (0 : ℝ) < ∑ i : Fin 3, ∑ j : Fin 3, ((if i.val = j.val then 1 else 0 : ℕ) : ℝ)
    have : 0 < ∑ i : Fin 3, ∑ j : Fin 3, (if i.val = j.val then 1 else 0 : ℕ) := by decide
    exact_mod_cast this

end Phik.Props
