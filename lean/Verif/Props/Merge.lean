import Verif.Lemmas.Merge

/-! # Property C83: coarser categories -/

namespace Phik.Props

open Spec

/-! ### the merged table -/

section Merge
variable {a b : Arr2 ℝ} {ρ : Fin a.r → Fin b.r} {σ : Fin a.c → Fin b.c}

theorem _root_.Phik.Spec.MergedBy.rowSum (hm : MergedBy a b ρ σ) (k) : b.rowSum k = ∑ i, if ρ i = k then a.rowSum i else 0 := by
  unfold Arr2.rowSum
  simp only [hm k]
  rw [Finset.sum_comm]
  refine Finset.sum_congr rfl fun i _ => ?_
  rw [Finset.sum_comm]
  split
  · next h =>
    refine Finset.sum_congr rfl fun j _ => ?_
    simp [h]
  · next h => simp [h]

theorem _root_.Phik.Spec.MergedBy.colSum (hm : MergedBy a b ρ σ) (l) : b.colSum l = ∑ j, if σ j = l then a.colSum j else 0 := by
  unfold Arr2.colSum
  simp only [fun k => hm k l]
  have : ∀ k, (∑ i, ∑ j, if ρ i = k ∧ σ j = l then a.v i j else 0) =
      ∑ j, ∑ i, if ρ i = k ∧ σ j = l then a.v i j else 0 := fun k => Finset.sum_comm
  simp only [this]
  rw [Finset.sum_comm]
  refine Finset.sum_congr rfl fun j _ => ?_
  rw [Finset.sum_comm]
  split
  · next h =>
    refine Finset.sum_congr rfl fun i _ => ?_
    simp [h]
  · next h => simp [h]

theorem _root_.Phik.Spec.MergedBy.total (hm : MergedBy a b ρ σ) : b.total = a.total := by
  change ∑ k, b.rowSum k = ∑ i, a.rowSum i
  simp only [hm.rowSum]
  rw [Finset.sum_comm]
  simp

theorem _root_.Phik.Spec.MergedBy.expect_eq (hm : MergedBy a b ρ σ) (k l) :
    expect b k l = ∑ i, ∑ j, if ρ i = k ∧ σ j = l then expect a i j else 0 := by
  change b.rowSum k * b.colSum l / b.total = ∑ i, ∑ j, if ρ i = k ∧ σ j = l then a.rowSum i * a.colSum j / a.total else 0
  rw [hm.rowSum, hm.colSum, hm.total, Finset.sum_mul_sum, Finset.sum_div]
  refine Finset.sum_congr rfl fun i _ => ?_
  rw [Finset.sum_div]
  refine Finset.sum_congr rfl fun j _ => ?_
  by_cases h1 : ρ i = k <;> by_cases h2 : σ j = l <;> simp [h1, h2]

theorem _root_.Phik.Spec.MergedBy.isCount (hm : MergedBy a b ρ σ) (h : IsCount a) : IsCount b := by
  refine ⟨fun k l => ?_, hm.total ▸ h.pos⟩
  rw [hm]
  refine Finset.sum_nonneg fun i _ => Finset.sum_nonneg fun j _ => ?_
  split
  · exact h.nonneg i j
  · exact le_rfl

theorem _root_.Phik.Spec.MergedBy.le (hm : MergedBy a b ρ σ) (h : IsCount a) (i j) : a.v i j ≤ b.v (ρ i) (σ j) := by
  rw [hm]
  have h0 : ∀ i' j', 0 ≤ (if ρ i' = ρ i ∧ σ j' = σ j then a.v i' j' else 0) := by
    intro i' j'; split
    · exact h.nonneg i' j'
    · exact le_rfl
  calc a.v i j = if ρ i = ρ i ∧ σ j = σ j then a.v i j else 0 := by simp
    _ ≤ ∑ j', if ρ i = ρ i ∧ σ j' = σ j then a.v i j' else 0 :=
      Finset.single_le_sum (f := fun j' => if ρ i = ρ i ∧ σ j' = σ j then a.v i j' else 0) (fun j' _ => h0 i j') (Finset.mem_univ j)
    _ ≤ _ := Finset.single_le_sum (f := fun i' => ∑ j', if ρ i' = ρ i ∧ σ j' = σ j then a.v i' j' else 0)
      (fun i' _ => Finset.sum_nonneg fun j' _ => h0 i' j') (Finset.mem_univ i)

theorem _root_.Phik.Spec.MergedBy.source (hm : MergedBy a b ρ σ) {k l} (h : b.v k l ≠ 0) : ∃ i j, ρ i = k ∧ σ j = l ∧ a.v i j ≠ 0 := by
  rw [hm] at h
  obtain ⟨i, -, hi⟩ := Finset.exists_ne_zero_of_sum_ne_zero h
  obtain ⟨j, -, hj⟩ := Finset.exists_ne_zero_of_sum_ne_zero hi
  by_cases hc : ρ i = k ∧ σ j = l
  · rw [if_pos hc] at hj; exact ⟨i, j, hc.1, hc.2, hj⟩
  · rw [if_neg hc] at hj; exact absurd rfl hj

theorem _root_.Phik.Spec.MergedBy.ne (hm : MergedBy a b ρ σ) (h : IsCount a) {i j} (hv : a.v i j ≠ 0) : b.v (ρ i) (σ j) ≠ 0 :=
  ((lt_of_le_of_ne (h.nonneg i j) (Ne.symm hv)).trans_le (hm.le h i j)).ne'

/-- Non-empty rows of the fine table, by the row of the merged table they belong to. -/
def _root_.Phik.Spec.MergedBy.rowMap (hm : MergedBy a b ρ σ) (h : IsCount a) (i : {i // FullRow a i}) : {k // FullRow b k} :=
  ⟨ρ i.1, i.2.imp' σ fun _ hj => hm.ne h hj⟩

def _root_.Phik.Spec.MergedBy.colMap (hm : MergedBy a b ρ σ) (h : IsCount a) (j : {j // FullCol a j}) : {l // FullCol b l} :=
  ⟨σ j.1, j.2.imp' ρ fun _ hi => hm.ne h hi⟩

theorem _root_.Phik.Spec.MergedBy.rowMap_surj (hm : MergedBy a b ρ σ) (h : IsCount a) : Function.Surjective (hm.rowMap h) := by
  rintro ⟨k, l, hk⟩
  obtain ⟨i, j, rfl, rfl, hij⟩ := hm.source hk
  exact ⟨⟨i, j, hij⟩, rfl⟩

theorem _root_.Phik.Spec.MergedBy.colMap_surj (hm : MergedBy a b ρ σ) (h : IsCount a) : Function.Surjective (hm.colMap h) := by
  rintro ⟨l, k, hk⟩
  obtain ⟨i, j, rfl, rfl, hij⟩ := hm.source hk
  exact ⟨⟨j, i, hij⟩, rfl⟩

theorem _root_.Phik.Spec.MergedBy.nRows_le (hm : MergedBy a b ρ σ) (h : IsCount a) : nRows b ≤ nRows a :=
  Nat.card_le_card_of_surjective _ (hm.rowMap_surj h)

theorem _root_.Phik.Spec.MergedBy.nCols_le (hm : MergedBy a b ρ σ) (h : IsCount a) : nCols b ≤ nCols a :=
  Nat.card_le_card_of_surjective _ (hm.colMap_surj h)

/-- If no row and no column disappears, only the order can differ. -/
theorem _root_.Phik.Spec.MergedBy.sameTable (hm : MergedBy a b ρ σ) (h : IsCount a) (hr : nRows b = nRows a) (hc : nCols b = nCols a) :
    SameTable a b := by
  classical
  have hR : Function.Bijective (hm.rowMap h) := by
    rw [Fintype.bijective_iff_surjective_and_card]
    refine ⟨hm.rowMap_surj h, ?_⟩
    rw [← Nat.card_eq_fintype_card, ← Nat.card_eq_fintype_card]; exact hr.symm
  have hC : Function.Bijective (hm.colMap h) := by
    rw [Fintype.bijective_iff_surjective_and_card]
    refine ⟨hm.colMap_surj h, ?_⟩
    rw [← Nat.card_eq_fintype_card, ← Nat.card_eq_fintype_card]; exact hc.symm
  refine ⟨Equiv.ofBijective _ hR, Equiv.ofBijective _ hC, ?_⟩
  rintro ⟨i, hi⟩ ⟨j, hj⟩
  change b.v (ρ i) (σ j) = a.v i j
  rw [hm, Finset.sum_eq_single i, Finset.sum_eq_single j]
  · simp
  · intro j' _ hne
    split
    · next hc' =>
      by_contra hv
      have : hm.colMap h ⟨j', i, hv⟩ = hm.colMap h ⟨j, hj⟩ := Subtype.ext hc'.2
      exact hne (congrArg Subtype.val (hC.1 this))
    · rfl
  · simp
  · intro i' _ hne
    refine Finset.sum_eq_zero fun j' _ => ?_
    split
    · next hc' =>
      by_contra hv
      have : hm.rowMap h ⟨i', j', hv⟩ = hm.rowMap h ⟨i, hi⟩ := Subtype.ext hc'.1
      exact hne (congrArg Subtype.val (hR.1 this))
    · rfl
  · simp

theorem _root_.Phik.Spec.MergedBy.emptyCell (hm : MergedBy a b ρ σ) (h : IsCount a) (he : EmptyCell b) : EmptyCell a := by
  obtain ⟨k, l, hk, hl, hv⟩ := he
  obtain ⟨⟨i, hi⟩, e1⟩ := hm.rowMap_surj h ⟨k, hk⟩
  obtain ⟨⟨j, hj⟩, e2⟩ := hm.colMap_surj h ⟨l, hl⟩
  have e1 : ρ i = k := congrArg Subtype.val e1
  have e2 : σ j = l := congrArg Subtype.val e2
  refine ⟨i, j, hi, hj, ?_⟩
  by_contra hv'
  subst e1 e2
  exact hm.ne h hv' hv

end Merge

/-! ### values -/

theorem get_chi2_single {a : Arr2 ℝ} (h : IsCount a) (h1 : nRows a = 1 ∨ nCols a = 1) (name : String) :
    getChi2 a name = .ok 0 := by
  obtain ⟨s⟩ := core_sub a
  rw [getChi2_eq]
  generalize core a = b at s
  rw [s.nRows, s.nCols] at h1
  rw [chi2_of_core s h, if_pos (nominalDof_zero.2 h1)]

/-- The table allows the statistic with negative powers. -/
def Allowed (strict : Prop) (a : Arr2 ℝ) : Prop := strict → (nRows a = 1 ∨ nCols a = 1) ∨ TwoByTwo a ∨ ¬ EmptyCell a

/-- Every test statistic is a divergence. -/
theorem name_divergence (name : String) (hn : name ∈ ["pearson", "log-likelihood", "freeman-tukey", "mod-log-likelihood",
      "neyman", "cressie-read"]) : ∃ strict d, Divergence strict d ∧
    (∀ a, IsCount a → Allowed strict a → getChi2 a name = .ok (statistic d a)) ∧
    (strict → name ∈ ["freeman-tukey", "neyman", "mod-log-likelihood"]) := by
  simp only [List.mem_cons, List.not_mem_nil, or_false] at hn
  rcases hn with rfl | rfl | rfl | rfl | rfl | rfl
  · exact ⟨_, _, divergence_pearson, fun a h _ => (get_chi2_value h).1, fun h => h.elim⟩
  · exact ⟨_, _, divergence_g, fun a h _ => by rw [(get_chi2_value h).2, g_statistic_eq h], fun h => h.elim⟩
  · exact ⟨_, _, divergence_freeman, fun a h hz => (get_chi2_negative h (hz trivial)).1, by simp⟩
  · refine ⟨_, _, divergence_modg, fun a h hz => get_chi2_power h (lam := -1) (by simp [powerDivLambda])
      (.inr (hz trivial)) (-2) fun o e _ ho he => ?_, by simp⟩
    unfold powerTerm modGCell xlogy
    rw [if_neg (by norm_num), if_neg (by norm_num), if_pos rfl, if_neg he.ne']
    ring
  · exact ⟨_, _, divergence_neyman, fun a h hz => (get_chi2_negative h (hz trivial)).2.1, by simp⟩
  · refine ⟨_, _, divergence_cressie, fun a h _ => get_chi2_power h (lam := 2 / 3) (by simp [powerDivLambda])
      (.inl (by norm_num)) (6 / 5) fun o e _ _ _ => ?_, fun h => h.elim⟩
    unfold powerTerm cressieReadCell
    rw [if_neg (by norm_num), if_neg (by norm_num), if_neg (by norm_num)]
    ring

section
variable {a b : Arr2 ℝ} {ρ : Fin a.r → Fin b.r} {σ : Fin a.c → Fin b.c} {strict : Prop} {d : ℝ → ℝ → ℝ}

/-- The sum over the cells, without correction. -/
noncomputable def cellSum (d : ℝ → ℝ → ℝ) (a : Arr2 ℝ) : ℝ :=
  ∑ i, ∑ j, if expect a i j = 0 then 0 else d (a.v i j) (expect a i j)

theorem expect_full (h : IsCount a) {i j} (he : expect a i j ≠ 0) : FullRow a i ∧ FullCol a j := by
  rw [fullRow_iff h, fullCol_iff h]
  constructor <;> intro h0 <;> apply he <;> change a.rowSum i * a.colSum j / a.total = 0 <;> rw [h0] <;> simp

theorem no_empty_pos (h : IsCount a) (hz : strict → ¬ EmptyCell a) {i j} (he : expect a i j ≠ 0) (hs : strict) :
    0 < a.v i j := by
  obtain ⟨h1, h2⟩ := expect_full h he
  refine lt_of_le_of_ne (h.nonneg i j) fun e => hz hs ⟨i, j, h1, h2, e.symm⟩

theorem statistic_nonneg (hd : Divergence strict d) (h : IsCount a) (hz : Allowed strict a) : 0 ≤ statistic d a := by
  unfold statistic
  split
  · exact le_rfl
  next h1 =>
  refine Finset.sum_nonneg fun i _ => Finset.sum_nonneg fun j _ => ?_
  split
  · exact le_rfl
  next he =>
  have hep : 0 < expect a i j := lt_of_le_of_ne (expect_nonneg h i j) (Ne.symm he)
  split
  · have := corrected_pos (h.nonneg i j) hep
    exact hd.nonneg _ _ this.le hep fun _ => this
  · next h2 =>
    exact hd.nonneg _ _ (h.nonneg i j) hep fun hs => no_empty_pos (strict := strict) h
      (fun hs => ((hz hs).resolve_left h1).resolve_left h2) he hs

theorem statistic_le_cellSum (hd : Divergence strict d) (h : IsCount a) (hz : strict → ¬ EmptyCell a) :
    statistic d a ≤ cellSum d a := by
  have hp : ∀ i j, expect a i j ≠ 0 → 0 < expect a i j := fun i j he => lt_of_le_of_ne (expect_nonneg h i j) (Ne.symm he)
  unfold statistic cellSum
  split
  · refine Finset.sum_nonneg fun i _ => Finset.sum_nonneg fun j _ => ?_
    split
    · exact le_rfl
    · next he => exact hd.nonneg _ _ (h.nonneg i j) (hp i j he) fun hs => no_empty_pos h hz he hs
  · refine Finset.sum_le_sum fun i _ => Finset.sum_le_sum fun j _ => ?_
    split
    · exact le_rfl
    next he =>
    split
    · exact hd.corrected_le (h.nonneg i j) (hp i j he) fun hs => no_empty_pos h hz he hs
    · exact le_rfl

theorem statistic_eq_cellSum (h1 : ¬ (nRows a = 1 ∨ nCols a = 1)) (h2 : ¬ TwoByTwo a) : statistic d a = cellSum d a := by
  unfold TwoByTwo at h2
  unfold statistic cellSum
  rw [if_neg h1]
  simp only [h2, if_false]

theorem sum_fibres (f : Fin a.r → Fin a.c → ℝ) (k : Fin b.r) (l : Fin b.c) :
    (∑ i, ∑ j, if ρ i = k ∧ σ j = l then f i j else 0) =
      ∑ p ∈ (Finset.univ : Finset (Fin a.r × Fin a.c)).filter (fun p => (ρ p.1, σ p.2) = (k, l)), f p.1 p.2 := by
  rw [Finset.sum_filter, Fintype.sum_prod_type]
  simp only [Prod.mk.injEq]

theorem cellSum_merge (hd : Divergence strict d) (h : IsCount a) (hm : MergedBy a b ρ σ) (hz : strict → ¬ EmptyCell a) :
    cellSum d b ≤ cellSum d a := by
  have e1 : cellSum d a = ∑ p : Fin a.r × Fin a.c, if expect a p.1 p.2 = 0 then 0 else d (a.v p.1 p.2) (expect a p.1 p.2) :=
    (Fintype.sum_prod_type (fun p : Fin a.r × Fin a.c => if expect a p.1 p.2 = 0 then 0 else d (a.v p.1 p.2) (expect a p.1 p.2))).symm
  have e2 : cellSum d b = ∑ p : Fin b.r × Fin b.c, if expect b p.1 p.2 = 0 then 0 else d (b.v p.1 p.2) (expect b p.1 p.2) :=
    (Fintype.sum_prod_type (fun p : Fin b.r × Fin b.c => if expect b p.1 p.2 = 0 then 0 else d (b.v p.1 p.2) (expect b p.1 p.2))).symm
  rw [e1, e2, ← Finset.sum_fiberwise Finset.univ (fun p : Fin a.r × Fin a.c => (ρ p.1, σ p.2))]
  refine Finset.sum_le_sum fun q _ => ?_
  obtain ⟨k, l⟩ := q
  have := (hd.sum ((Finset.univ : Finset (Fin a.r × Fin a.c)).filter (fun p => (ρ p.1, σ p.2) = (k, l)))
    (fun p => a.v p.1 p.2) (fun p => expect a p.1 p.2) (fun p _ => h.nonneg _ _) (fun p _ => expect_nonneg h _ _)
    (fun p _ he => zero_of_expect_zero h he) (fun p _ he hs => no_empty_pos h hz he hs)).2
  rw [← sum_fibres (ρ := ρ) (σ := σ) (fun i j => expect a i j), ← sum_fibres (ρ := ρ) (σ := σ) (fun i j => a.v i j),
    ← hm k l, ← hm.expect_eq k l] at this
  exact this

end

/-- **C83 (tables).** If categories of either variable are taken together, the test statistic (any of the six) does not
increase: whenever it is a number for the finer table, it is a number for the coarser one, not negative and not larger.  This
includes the continuity correction of two by two tables. -/
theorem merge_chi2 {a b : Arr2 ℝ} (h : IsCount a) (hm : Merged a b) {name : String} {x : ℝ}
    (hx : getChi2 a name = .ok x) : ∃ y, getChi2 b name = .ok y ∧ 0 ≤ y ∧ y ≤ x := by
  obtain ⟨ρ, σ, hm⟩ := hm
  have hb := hm.isCount h
  have hr := hm.nRows_le h
  have hc := hm.nCols_le h
  have r1 := nRows_pos hb
  have c1 := nCols_pos hb
  by_cases h1 : nRows a = 1 ∨ nCols a = 1
  · rw [get_chi2_single h h1] at hx
    cases hx
    exact ⟨0, get_chi2_single hb (by omega) name, le_rfl, le_rfl⟩
  have hn : name ∈ ["pearson", "log-likelihood", "freeman-tukey", "mod-log-likelihood", "neyman", "cressie-read"] := by
    by_contra hn
    rw [get_chi2_unknown_lambda h hn (by omega) (by omega)] at hx
    cases hx
  obtain ⟨strict, d, hd, hval, hs⟩ := name_divergence name hn
  by_cases h2 : TwoByTwo a
  · have hxa := hval a h (fun _ => .inr (.inl h2))
    rw [hx] at hxa
    cases hxa
    have h0 := statistic_nonneg hd h (fun _ => .inr (.inl h2))
    by_cases h3 : nRows b = 1 ∨ nCols b = 1
    · exact ⟨0, get_chi2_single hb h3 name, le_rfl, h0⟩
    · unfold TwoByTwo at h2
      rw [get_chi2_sameTable (hm.sameTable h (by omega) (by omega)) name] at hx
      exact ⟨_, hx, h0, le_rfl⟩
  have hz : strict → ¬ EmptyCell a := by
    intro hst he
    rw [get_chi2_empty_cell h (hs hst) (by omega) (by omega) h2 he] at hx
    cases hx
  have hzb : strict → ¬ EmptyCell b := fun hst he => hz hst (hm.emptyCell h he)
  have hxa := hval a h (fun hst => .inr (.inr (hz hst)))
  rw [hx] at hxa
  cases hxa
  refine ⟨_, hval b hb (fun hst => .inr (.inr (hzb hst))), statistic_nonneg hd hb (fun hst => .inr (.inr (hzb hst))), ?_⟩
  rw [statistic_eq_cellSum h1 h2]
  exact (statistic_le_cellSum hd hb hzb).trans (cellSum_merge hd h hm hz)

/-! ### nothing is lost -/

section
variable {a b : Arr2 ℝ} {ρ : Fin a.r → Fin b.r} {σ : Fin a.c → Fin b.c} {strict : Prop} {d : ℝ → ℝ → ℝ}

theorem proportional_empty (h : IsCount a) (hm : MergedBy a b ρ σ) (hp : Proportional a b ρ σ) :
    EmptyCell a ↔ EmptyCell b := by
  refine ⟨?_, hm.emptyCell h⟩
  rintro ⟨i, j, hi, hj, hv⟩
  have he : expect a i j ≠ 0 := by
    have h1 := (fullRow_iff h i).1 hi
    have h2 := (fullCol_iff h j).1 hj
    exact div_ne_zero (mul_ne_zero h1 h2) h.pos.ne'
  refine ⟨ρ i, σ j, (hm.rowMap h ⟨i, hi⟩).2, (hm.colMap h ⟨j, hj⟩).2, ?_⟩
  have := hp i j
  rw [hv, zero_mul] at this
  exact (mul_eq_zero.1 this.symm).resolve_right he

theorem cellSum_proportional (hd : Divergence strict d) (h : IsCount a) (hm : MergedBy a b ρ σ)
    (hp : Proportional a b ρ σ) (hz : strict → ¬ EmptyCell b) : cellSum d b = cellSum d a := by
  have hb := hm.isCount h
  have hle : ∀ i j, expect a i j ≤ expect b (ρ i) (σ j) := by
    intro i j
    rw [hm.expect_eq]
    have h0 : ∀ i' j', 0 ≤ (if ρ i' = ρ i ∧ σ j' = σ j then expect a i' j' else 0) := by
      intro i' j'; split
      · exact expect_nonneg h i' j'
      · exact le_rfl
    calc expect a i j = if ρ i = ρ i ∧ σ j = σ j then expect a i j else 0 := by simp
      _ ≤ ∑ j', if ρ i = ρ i ∧ σ j' = σ j then expect a i j' else 0 :=
        Finset.single_le_sum (f := fun j' => if ρ i = ρ i ∧ σ j' = σ j then expect a i j' else 0) (fun j' _ => h0 i j')
          (Finset.mem_univ j)
      _ ≤ _ := Finset.single_le_sum (f := fun i' => ∑ j', if ρ i' = ρ i ∧ σ j' = σ j then expect a i' j' else 0)
        (fun i' _ => Finset.sum_nonneg fun j' _ => h0 i' j') (Finset.mem_univ i)
  have key : ∀ i j, (if expect a i j = 0 then 0 else d (a.v i j) (expect a i j)) =
      expect a i j * (if expect b (ρ i) (σ j) = 0 then 0 else d (b.v (ρ i) (σ j) / expect b (ρ i) (σ j)) 1) := by
    intro i j
    by_cases he : expect a i j = 0
    · rw [if_pos he, he, zero_mul]
    have hep : 0 < expect a i j := lt_of_le_of_ne (expect_nonneg h i j) (Ne.symm he)
    have hbp : 0 < expect b (ρ i) (σ j) := hep.trans_le (hle i j)
    rw [if_neg he, if_neg hbp.ne', ← hd.scale _ _ _ hep (div_nonneg (hb.nonneg _ _) hbp.le) one_pos
      fun hs => div_pos (no_empty_pos hb hz hbp.ne' hs) hbp, mul_one]
    congr 1
    rw [← mul_div_assoc, eq_div_iff hbp.ne', hp i j, mul_comm]
  have keyb : ∀ k l, (if expect b k l = 0 then 0 else d (b.v k l) (expect b k l)) =
      expect b k l * (if expect b k l = 0 then 0 else d (b.v k l / expect b k l) 1) := by
    intro k l
    by_cases he : expect b k l = 0
    · rw [if_pos he, he, zero_mul]
    have hbp : 0 < expect b k l := lt_of_le_of_ne (expect_nonneg hb k l) (Ne.symm he)
    rw [if_neg he, if_neg he, ← hd.scale _ _ _ hbp (div_nonneg (hb.nonneg _ _) hbp.le) one_pos
      fun hs => div_pos (no_empty_pos hb hz he hs) hbp, mul_one, mul_div_cancel₀ _ he]
  unfold cellSum
  simp only [key, keyb]
  generalize hF : (fun k l => if expect b k l = 0 then 0 else d (b.v k l / expect b k l) 1) = F
  have hF' : ∀ k l, (if expect b k l = 0 then 0 else d (b.v k l / expect b k l) 1) = F k l := fun k l => by rw [← hF]
  simp only [hF']
  have e1 : ∀ k l, expect b k l * F k l = ∑ i, ∑ j, if ρ i = k ∧ σ j = l then expect a i j * F (ρ i) (σ j) else 0 := by
    intro k l
    rw [hm.expect_eq, Finset.sum_mul]
    refine Finset.sum_congr rfl fun i _ => ?_
    rw [Finset.sum_mul]
    refine Finset.sum_congr rfl fun j _ => ?_
    split
    · next hc => rw [hc.1, hc.2]
    · rw [zero_mul]
  simp only [e1]
  have e2 : ∀ k, (∑ l, ∑ i, ∑ j, if ρ i = k ∧ σ j = l then expect a i j * F (ρ i) (σ j) else 0) =
      ∑ i, if ρ i = k then ∑ j, expect a i j * F (ρ i) (σ j) else 0 := by
    intro k
    rw [Finset.sum_comm]
    refine Finset.sum_congr rfl fun i _ => ?_
    rw [Finset.sum_comm]
    split
    · next hc =>
      refine Finset.sum_congr rfl fun j _ => ?_
      simp [hc]
    · next hc => simp [hc]
  simp only [e2]
  rw [Finset.sum_comm]
  simp

end

/-- **C83 (nothing lost).** If the categories taken together have the same profile (each cell has its expected share of the
coarser cell), and neither table is two by two, every test statistic stays the same (including whether it is a number at
all). -/
theorem merge_proportional {a b : Arr2 ℝ} (h : IsCount a) {ρ : Fin a.r → Fin b.r} {σ : Fin a.c → Fin b.c}
    (hm : MergedBy a b ρ σ) (hp : Proportional a b ρ σ) (hr : 2 ≤ nRows b) (hc : 2 ≤ nCols b) (h2 : ¬ TwoByTwo a)
    (h2b : ¬ TwoByTwo b) (name : String) : getChi2 b name = getChi2 a name := by
  have hb := hm.isCount h
  have hra := hr.trans (hm.nRows_le h)
  have hca := hc.trans (hm.nCols_le h)
  by_cases hn : name ∈ ["pearson", "log-likelihood", "freeman-tukey", "mod-log-likelihood", "neyman", "cressie-read"]
  · obtain ⟨strict, d, hd, hval, hs⟩ := name_divergence name hn
    by_cases hz : strict → ¬ EmptyCell b
    · have hza : strict → ¬ EmptyCell a := fun hst he => hz hst ((proportional_empty h hm hp).1 he)
      rw [hval a h fun hst => .inr (.inr (hza hst)), hval b hb fun hst => .inr (.inr (hz hst)),
        statistic_eq_cellSum (by omega) h2, statistic_eq_cellSum (by omega) h2b, cellSum_proportional hd h hm hp hz]
    · push Not at hz
      obtain ⟨hst, he⟩ := hz
      rw [get_chi2_empty_cell hb (hs hst) hr hc h2b he,
        get_chi2_empty_cell h (hs hst) hra hca h2 ((proportional_empty h hm hp).2 he)]
  · rw [get_chi2_unknown_lambda h hn hra hca, get_chi2_unknown_lambda hb hn hr hc]

end Phik.Props
