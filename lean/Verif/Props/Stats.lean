import Verif.Lemmas.Stats

/-!
# Properties C18-C20, C23, C32: statistics of contingency tables
-/

namespace Phik.Props

open Spec

theorem expect_eq (a : Arr2 ℝ) (i : Fin a.r) (j : Fin a.c) : expect a i j = expected a i j := rfl

theorem size_pos {a : Arr2 ℝ} (h : a.total ≠ 0) : 0 < a.r ∧ 0 < a.c := by
  obtain ⟨r, c, v⟩ := a
  constructor
  · rcases Nat.eq_zero_or_pos r with rfl | hr
    · simp [Arr2.total] at h
    · exact hr
  · rcases Nat.eq_zero_or_pos c with rfl | hr
    · simp [Arr2.total] at h
    · exact hr

theorem chi2_of_core {a b : Arr2 ℝ} (s : Sub a b) (h : IsCount a) (name : String) :
    chi2Contingency b name = if nominalDof b.r b.c = 0 then .ok 0 else
      match powerDivLambda name with
      | none => .error .value
      | some lam => powerDivergence
          (if nominalDof b.r b.c = 1 then fun i j => yates (b.v i j) (expected b i j) else b.v)
          (expected b) lam := by
  have hb := s.isCount h
  obtain ⟨hr, hc⟩ := size_pos hb.pos.ne'
  unfold chi2Contingency
  rw [if_neg (by push Not; exact hb.nonneg), if_neg (show b.size ≠ 0 from (Nat.mul_pos hr hc).ne'), if_neg hb.pos.ne',
    if_neg (c := ∃ i j, expected b i j = 0)]
  · rfl
  rintro ⟨i, j, hij⟩
  revert hij
  exact (div_pos (mul_pos (s.rowSum_pos h i) (s.colSum_pos h j)) hb.pos).ne'

theorem get_chi2_of_lambda {a : Arr2 ℝ} (h : IsCount a) {name : String} {lam : ℝ}
    (hl : powerDivLambda name = some lam) (h0 : 0 ≤ lam) {cell : ℝ → ℝ → ℝ}
    (hcell : ∀ o e, powerTerm lam o e = cell o e) :
    getChi2 a name = .ok (statistic cell a) := by
  obtain ⟨s⟩ := core_sub a
  rw [getChi2_eq]
  generalize core a = b at s
  rw [chi2_of_core s h, hl]
  have hb := s.isCount h
  obtain ⟨hr, hc⟩ := size_pos hb.pos.ne'
  have hpos : ∀ i j, expected b i j ≠ 0 := fun i j =>
    (div_pos (mul_pos (s.rowSum_pos h i) (s.colSum_pos h j)) hb.pos).ne'
  unfold statistic
  rw [s.nRows, s.nCols]
  by_cases hd : b.r = 1 ∨ b.c = 1
  · rw [if_pos hd, if_pos (nominalDof_zero.2 hd)]
  rw [if_neg hd, if_neg (mt nominalDof_zero.1 hd)]
  have hsum : ∑ i, ∑ j, (if nominalDof b.r b.c = 1 then fun i j => yates (b.v i j) (expected b i j)
      else b.v) i j = ∑ i, ∑ j, expected b i j := by
    by_cases h1 : nominalDof b.r b.c = 1
    · simp only [h1, if_true]
      obtain ⟨h2, h3⟩ := (nominalDof_one hr hc).1 h1
      have key : ∀ b : Arr2 ℝ, b.total ≠ 0 → b.r = 2 → b.c = 2 →
          ∑ i, ∑ j, yates (b.v i j) (expected b i j) = ∑ i, ∑ j, expected b i j := by
        rintro ⟨r, c, v⟩ ht h2 h3
        simp only at h2 h3
        subst h2 h3
        refine sum_yates (v := v) (e := expected ⟨2, 2, v⟩) ?_
        intro i
        exact (row_expected ht i).symm
      exact key b hb.pos.ne' h2 h3
    · simp only [h1, if_false]
      rw [sum_expected hb.pos.ne']
      rfl
  simp only [powerDivergence]
  rw [hsum, sub_self, abs_zero, zero_div, if_neg (by norm_num), if_neg (by
    rintro ⟨h, -⟩; exact absurd h (not_lt.2 h0))]
  congr 1
  refine s.sum_cells (fun i j => if expect a i j = 0 then 0
    else cell (if b.r = 2 ∧ b.c = 2 then corrected (a.v i j) (expect a i j) else a.v i j)
      (expect a i j)) _ ?_ ?_
  · intro i j hij
    have : expect a i j = 0 := by
      change a.rowSum i * a.colSum j / a.total = 0
      rcases hij with e | e <;> rw [e] <;> simp
    rw [if_pos this]
  · intro i j
    have e1 : expect a (s.ρ i) (s.σ j) = expected b i j := (s.expected i j).symm
    simp only [e1, if_neg (hpos i j), ← s.val]
    rw [hcell]
    by_cases h2 : b.r = 2 ∧ b.c = 2
    · rw [if_pos h2, if_pos ((nominalDof_one hr hc).2 h2), yates_eq]
    · rw [if_neg h2, if_neg (mt (nominalDof_one hr hc).1 h2)]

/-- **C19 (success and value).** For every non-negative table with a positive total the chi2
computation succeeds and gives the Pearson or log-likelihood statistic of the table; rows and columns
of zeros contribute nothing. -/
theorem get_chi2_value {a : Arr2 ℝ} (h : IsCount a) :
    getChi2 a "pearson" = .ok (statistic pearsonCell a) ∧
    getChi2 a "log-likelihood" = .ok (statistic gCell a) := by
  refine ⟨get_chi2_of_lambda h (lam := 1) (by simp [powerDivLambda]) (by norm_num) ?_,
    get_chi2_of_lambda h (lam := 0) (by simp [powerDivLambda]) le_rfl ?_⟩
  · intro o e; simp [powerTerm, pearsonCell]
  · intro o e
    simp only [powerTerm, gCell, xlogy]
    rw [if_neg (by norm_num), if_pos trivial]
    split
    · next h => simp [h]
    · rfl

/-- A concrete table. -/
noncomputable def exTable : Arr2 ℝ := ⟨2, 3, ![![5, 0, 0], ![1, 4, 4]]⟩

theorem exTable_isCount : IsCount exTable := by
  constructor
  · intro i j
    change Fin 2 at i; change Fin 3 at j
    fin_cases i <;> fin_cases j <;> simp [exTable]
  · change 0 < ∑ i : Fin 2, ∑ j : Fin 3, _
    simp [Fin.sum_univ_succ, exTable]; norm_num

/-- **C19 (rejection).** An all-zero table, a table without rows or columns, and a table with a negative
entry are rejected with ValueError. -/
theorem get_chi2_rejects {a : Arr2 ℝ} (name : String)
    (h : (∀ i j, a.v i j = 0) ∨ ∃ i j, a.v i j < 0) : getChi2 a name = .error .value := by
  obtain ⟨s⟩ := core_sub a
  rw [getChi2_eq]
  generalize core a = b at s
  unfold chi2Contingency
  rcases h with h | ⟨i, j, h⟩
  · have hb : b.size = 0 := by
      rcases Nat.eq_zero_or_pos b.r with hr | hr
      · simp [Arr2.size, hr]
      · obtain ⟨j, hj⟩ := s.fullRow ⟨0, hr⟩
        rw [s.val] at hj
        exact absurd (h _ _) hj
    split
    · rfl
    · rfl
  · obtain ⟨k, rfl⟩ := (s.ρ_range i).2 ⟨j, h.ne⟩
    obtain ⟨l, rfl⟩ := (s.σ_range j).2 ⟨_, h.ne⟩
    rw [if_pos ⟨k, l, by rw [s.val]; exact h⟩]

theorem get_chi2_unknown_lambda {a : Arr2 ℝ} (h : IsCount a) {name : String}
    (hn : name ∉ ["pearson", "log-likelihood", "freeman-tukey", "mod-log-likelihood", "neyman",
      "cressie-read"]) (hr : 2 ≤ nRows a) (hc : 2 ≤ nCols a) :
    getChi2 a name = .error .value := by
  obtain ⟨s⟩ := core_sub a
  rw [getChi2_eq]
  generalize core a = b at s
  rw [s.nRows] at hr
  rw [s.nCols] at hc
  rw [chi2_of_core s h, if_neg (by rw [nominalDof_zero]; omega)]
  have : powerDivLambda name = none := by
    simp only [List.mem_cons, List.not_mem_nil, or_false, not_or] at hn
    simp [powerDivLambda, hn]
  rw [this]

/-! ### order of the categories -/

theorem chi2_reindex {r c : ℕ} (v : Fin r → Fin c → ℝ) (e : Fin r ≃ Fin r) (f : Fin c ≃ Fin c)
    (name : String) :
    chi2Contingency ⟨r, c, fun i j => v (e i) (f j)⟩ name = chi2Contingency ⟨r, c, v⟩ name := by
  have sums : ∀ g : Fin r → Fin c → ℝ, ∑ i, ∑ j, g (e i) (f j) = ∑ i, ∑ j, g i j := by
    intro g
    rw [← Equiv.sum_comp e (fun i => ∑ j, g i j)]
    exact Finset.sum_congr rfl fun i _ => Equiv.sum_comp f (fun j => g (e i) j)
  have ex : ∀ g : Fin r → Fin c → Prop, (∃ i j, g (e i) (f j)) ↔ ∃ i j, g i j := by
    intro g
    constructor
    · rintro ⟨i, j, h⟩; exact ⟨_, _, h⟩
    · rintro ⟨i, j, h⟩; exact ⟨e.symm i, f.symm j, by simpa using h⟩
  have ht : Arr2.total ⟨r, c, fun i j => v (e i) (f j)⟩ = Arr2.total ⟨r, c, v⟩ := sums v
  have he : expected ⟨r, c, fun i j => v (e i) (f j)⟩ = fun i j => expected ⟨r, c, v⟩ (e i) (f j) := by
    funext i j
    change (∑ j, v (e i) (f j)) * (∑ i, v (e i) (f j)) / Arr2.total ⟨r, c, fun i j => v (e i) (f j)⟩ =
      (∑ j, v (e i) j) * (∑ i, v i (f j)) / Arr2.total ⟨r, c, v⟩
    rw [ht, Equiv.sum_comp f (fun j => v (e i) j), Equiv.sum_comp e (fun i => v i (f j))]
  have hp : ∀ (o x : Fin r → Fin c → ℝ) (lam : ℝ),
      powerDivergence (fun i j => o (e i) (f j)) (fun i j => x (e i) (f j)) lam =
        powerDivergence o x lam := by
    intro o x lam
    unfold powerDivergence
    simp only [sums o, sums x, ex (fun i j => o i j = 0), sums (fun i j => powerTerm lam (o i j) (x i j))]
  unfold chi2Contingency
  simp only [ht, he, ex (fun i j => v i j < 0), ex (fun i j => expected ⟨r, c, v⟩ i j = 0), Arr2.size]
  have ho : (if nominalDof r c = 1 then fun i j => yates (v (e i) (f j)) (expected ⟨r, c, v⟩ (e i) (f j))
      else fun i j => v (e i) (f j)) = fun i j =>
      (if nominalDof r c = 1 then fun i j => yates (v i j) (expected ⟨r, c, v⟩ i j) else v) (e i) (f j) := by
    split <;> rfl
  rw [ho]
  have hp' := hp (if nominalDof r c = 1 then fun i j => yates (v i j) (expected ⟨r, c, v⟩ i j) else v)
    (expected ⟨r, c, v⟩)
  cases powerDivLambda name with
  | none => rfl
  | some lam =>
    exact if_congr Iff.rfl rfl (if_congr Iff.rfl rfl (if_congr Iff.rfl rfl (if_congr Iff.rfl rfl
      (if_congr Iff.rfl rfl (hp' lam)))))

/-- **C19 and C20.** The chi2 computation (any test statistic, including the cases in which it raises)
gives the same result for two tables that agree up to the order of the rows and columns and up to rows
and columns of zeros. -/
theorem get_chi2_sameTable {a b : Arr2 ℝ} (h : SameTable a b) (name : String) :
    getChi2 a name = getChi2 b name := by
  obtain ⟨e, f, hv⟩ := h
  obtain ⟨s⟩ := core_sub a
  obtain ⟨t⟩ := core_sub b
  rw [getChi2_eq, getChi2_eq]
  generalize core a = a' at s
  generalize core b = b' at t
  have E : Fin a'.r ≃ Fin b'.r := (s.rowEquiv.trans e).trans t.rowEquiv.symm
  obtain ⟨E, hE⟩ : ∃ E : Fin a'.r ≃ Fin b'.r, ∀ k, t.ρ (E k) = (e (s.rowEquiv k)).1 :=
    ⟨(s.rowEquiv.trans e).trans t.rowEquiv.symm, fun k => by
      have : t.rowEquiv (t.rowEquiv.symm (e (s.rowEquiv k))) = e (s.rowEquiv k) := by simp
      exact congrArg Subtype.val this⟩
  obtain ⟨F, hF⟩ : ∃ F : Fin a'.c ≃ Fin b'.c, ∀ k, t.σ (F k) = (f (s.colEquiv k)).1 :=
    ⟨(s.colEquiv.trans f).trans t.colEquiv.symm, fun k => by
      have : t.colEquiv (t.colEquiv.symm (f (s.colEquiv k))) = f (s.colEquiv k) := by simp
      exact congrArg Subtype.val this⟩
  have hval : ∀ i j, a'.v i j = b'.v (E i) (F j) := by
    intro i j
    rw [s.val, t.val, hE, hF]
    exact (hv (s.rowEquiv i) (s.colEquiv j)).symm
  obtain ⟨r, c, v⟩ := a'
  obtain ⟨r', c', v'⟩ := b'
  have hr : r = r' := by simpa using Fintype.card_congr E
  have hc : c = c' := by simpa using Fintype.card_congr F
  subst hr hc
  have : v = fun i j => v' (E i) (F j) := by funext i j; exact hval i j
  rw [this]
  exact chi2_reindex v' E F name

/-- scipy's computation does not depend on which variable comes first. -/
theorem chi2_transpose (b : Arr2 ℝ) (name : String) : chi2Contingency b.transpose name = chi2Contingency b name := by
  obtain ⟨r, c, v⟩ := b
  have sums : ∀ g : Fin r → Fin c → ℝ, ∑ j, ∑ i, g i j = ∑ i, ∑ j, g i j := fun g => Finset.sum_comm
  have ex : ∀ g : Fin r → Fin c → Prop, (∃ j i, g i j) ↔ ∃ i j, g i j := fun g => exists_comm
  have ht : Arr2.total ⟨c, r, fun j i => v i j⟩ = Arr2.total ⟨r, c, v⟩ := sums v
  have he : expected ⟨c, r, fun j i => v i j⟩ = fun j i => expected ⟨r, c, v⟩ i j := by
    funext j i
    change (∑ i, v i j) * (∑ j, v i j) / Arr2.total ⟨c, r, fun j i => v i j⟩ = (∑ j, v i j) * (∑ i, v i j) / Arr2.total ⟨r, c, v⟩
    rw [ht, mul_comm]
  have hp : ∀ (o x : Fin r → Fin c → ℝ) (lam : ℝ), powerDivergence (fun j i => o i j) (fun j i => x i j) lam = powerDivergence o x lam := by
    intro o x lam
    unfold powerDivergence
    simp only [sums o, sums x, ex (fun i j => o i j = 0), sums (fun i j => powerTerm lam (o i j) (x i j))]
  have hn : nominalDof c r = nominalDof r c := by rw [nominalDof_eq, nominalDof_eq, mul_comm]
  change chi2Contingency ⟨c, r, fun j i => v i j⟩ name = _
  unfold chi2Contingency
  simp only [ht, he, hn, ex (fun i j => v i j < 0), ex (fun i j => expected ⟨r, c, v⟩ i j = 0), Arr2.size, mul_comm c r]
  have ho : (if nominalDof r c = 1 then fun j i => yates (v i j) (expected ⟨r, c, v⟩ i j)
      else fun j i => v i j) = fun j i =>
      (if nominalDof r c = 1 then fun i j => yates (v i j) (expected ⟨r, c, v⟩ i j) else v) i j := by
    split <;> rfl
  rw [ho]
  have hp' := hp (if nominalDof r c = 1 then fun i j => yates (v i j) (expected ⟨r, c, v⟩ i j) else v) (expected ⟨r, c, v⟩)
  cases powerDivLambda name with
  | none => rfl
  | some lam =>
    exact if_congr Iff.rfl rfl (if_congr Iff.rfl rfl (if_congr Iff.rfl rfl (if_congr Iff.rfl rfl
      (if_congr Iff.rfl rfl (hp' lam)))))

/-- **C20.** Exchanging the two variables changes nothing, whatever the table, for every test statistic, including the cases in which the computation raises. -/
theorem get_chi2_swap (a : Arr2 ℝ) (name : String) : getChi2 a.transpose name = getChi2 a name := by
  obtain ⟨s⟩ := core_sub a
  obtain ⟨t⟩ := core_sub a.transpose
  rw [getChi2_eq, getChi2_eq, ← chi2_transpose (core a)]
  generalize core a = a' at s
  generalize core a.transpose = b' at t
  have E : ∃ E : Fin b'.r ≃ Fin a'.c, ∀ k, s.σ (E k) = t.ρ k :=
    ⟨t.rowEquiv.trans s.colEquiv.symm, fun k => congrArg Subtype.val (s.colEquiv.apply_symm_apply (t.rowEquiv k))⟩
  have F : ∃ F : Fin b'.c ≃ Fin a'.r, ∀ k, s.ρ (F k) = t.σ k :=
    ⟨t.colEquiv.trans s.rowEquiv.symm, fun k => congrArg Subtype.val (s.rowEquiv.apply_symm_apply (t.colEquiv k))⟩
  obtain ⟨E, hE⟩ := E
  obtain ⟨F, hF⟩ := F
  have hval : ∀ i j, b'.v i j = a'.v (F j) (E i) := by
    intro i j
    rw [s.val, t.val, hE, hF]
    rfl
  obtain ⟨r, c, v⟩ := a'
  obtain ⟨r', c', v'⟩ := b'
  have hr : r' = c := by simpa using Fintype.card_congr E
  have hc : c' = r := by simpa using Fintype.card_congr F
  subst hr hc
  have : v' = fun i j => v (F j) (E i) := by funext i j; exact hval i j
  rw [this]
  exact chi2_reindex (fun i j => v j i) E F name

/-- Permuting rows and columns gives the same table. -/
theorem sameTable_perm (a : Arr2 ℝ) (e : Fin a.r ≃ Fin a.r) (f : Fin a.c ≃ Fin a.c) :
    SameTable a ⟨a.r, a.c, fun i j => a.v (e i) (f j)⟩ := by
  refine ⟨⟨fun i => ⟨e.symm i.1, ?_⟩, fun i => ⟨e i.1, ?_⟩, ?_, ?_⟩,
    ⟨fun i => ⟨f.symm i.1, ?_⟩, fun i => ⟨f i.1, ?_⟩, ?_, ?_⟩, ?_⟩
  · obtain ⟨j, hj⟩ := i.2; exact ⟨f.symm j, by simpa using hj⟩
  · obtain ⟨j, hj⟩ := i.2; exact ⟨f j, hj⟩
  · intro i; simp
  · intro i; simp
  · obtain ⟨j, hj⟩ := i.2; exact ⟨e.symm j, by simpa using hj⟩
  · obtain ⟨j, hj⟩ := i.2; exact ⟨e j, hj⟩
  · intro i; simp
  · intro i; simp
  · intro i j; simp

/-- Inserting a row of zeros gives the same table. -/
theorem sameTable_insertRow (a : Arr2 ℝ) (k : Fin (a.r + 1)) :
    SameTable a ⟨a.r + 1, a.c, k.insertNth (fun _ => 0) a.v⟩ := by
  have h1 : ∀ (i : Fin (a.r + 1)) j, (k.insertNth (α := fun _ => Fin a.c → ℝ) (fun _ => 0) a.v) i j ≠ 0 →
      ∃ l, i = k.succAbove l := by
    intro i j h
    rcases Fin.eq_self_or_eq_succAbove k i with rfl | ⟨l, rfl⟩
    · simp at h
    · exact ⟨l, rfl⟩
  have h2 : ∀ l j, (k.insertNth (α := fun _ => Fin a.c → ℝ) (fun _ => 0) a.v) (k.succAbove l) j = a.v l j := by
    intro l j; simp
  refine ⟨Equiv.ofBijective (fun i => ⟨k.succAbove i.1, ?_⟩) ⟨?_, ?_⟩,
    Equiv.ofBijective (fun j => ⟨j.1, ?_⟩) ⟨?_, ?_⟩, ?_⟩
  · obtain ⟨j, hj⟩ := i.2; exact ⟨j, (h2 _ _).trans_ne hj⟩
  · intro x y h; exact Subtype.ext (Fin.succAbove_right_injective (p := k) (by simpa using h))
  · rintro ⟨i, j, hj⟩
    obtain ⟨l, rfl⟩ := h1 i j hj
    exact ⟨⟨l, j, (h2 _ _).symm.trans_ne hj⟩, rfl⟩
  · obtain ⟨i, hi⟩ := j.2; exact ⟨k.succAbove i, (h2 _ _).trans_ne hi⟩
  · intro x y h; exact Subtype.ext (by simpa using h)
  · rintro ⟨j, i, hi⟩
    obtain ⟨l, rfl⟩ := h1 i j hi
    exact ⟨⟨j, l, (h2 _ _).symm.trans_ne hi⟩, rfl⟩
  · intro i j; exact h2 _ _

theorem sameTable_transpose {a b : Arr2 ℝ} (h : SameTable a b) : SameTable a.transpose b.transpose := by
  obtain ⟨e, f, hv⟩ := h
  exact ⟨f, e, fun j i => hv i j⟩

/-- **C20.** Exchanging the two variables does not change chi2. -/
theorem get_chi2_transpose {a : Arr2 ℝ} (h : IsCount a) :
    getChi2 a.transpose "pearson" = getChi2 a "pearson" ∧
    getChi2 a.transpose "log-likelihood" = getChi2 a "log-likelihood" := by
  have ht : a.transpose.total = a.total := Finset.sum_comm
  have h' : IsCount a.transpose := ⟨fun i j => h.nonneg j i, by rw [ht]; exact h.pos⟩
  have he : ∀ i j, expect a.transpose j i = expect a i j := by
    intro i j
    change _ * _ / a.transpose.total = _ * _ / a.total
    rw [ht, mul_comm]; rfl
  have hs : ∀ cell, statistic cell a.transpose = statistic cell a := by
    intro cell
    unfold statistic
    have e1 : nRows a.transpose = nCols a := rfl
    have e2 : nCols a.transpose = nRows a := rfl
    rw [e1, e2]
    by_cases h1 : nRows a = 1 ∨ nCols a = 1
    · rw [if_pos h1, if_pos h1.symm]
    · rw [if_neg h1, if_neg (fun h => h1 h.symm), Finset.sum_comm]
      refine Finset.sum_congr rfl fun i _ => Finset.sum_congr rfl fun j _ => ?_
      rw [he i j]
      by_cases h2 : nRows a = 2 ∧ nCols a = 2
      · rw [if_pos h2, if_pos h2.symm]; rfl
      · rw [if_neg h2, if_neg (c := nCols a = 2 ∧ nRows a = 2) (fun h => h2 h.symm)]; rfl
  rw [(get_chi2_value h).1, (get_chi2_value h').1, (get_chi2_value h).2, (get_chi2_value h').2, hs, hs]
  exact ⟨rfl, rfl⟩

/-! ### degrees of freedom -/

/-- **C23.** The theoretical number of degrees of freedom. -/
theorem theoretical_ndof_value {K : Type*} (a : Arr2 K) :
    theoreticalNdof a = ((a.r : ℤ) - 1) * ((a.c : ℤ) - 1) := nominalDof_eq _ _

open scoped Classical in
/-- **C23.** The simple estimate: the theoretical number minus the number of cells with zero
expectation, but not below zero. -/
theorem estimate_simple_ndof_value {a : Arr2 ℝ} (h : a.total ≠ 0) :
    estimateSimpleNdof a = max 0 (((a.r : ℤ) - 1) * ((a.c : ℤ) - 1) -
      (Finset.univ.filter fun p : Fin a.r × Fin a.c => expect a p.1 p.2 = 0).card) := by
  unfold estimateSimpleNdof
  have hc : countCells (fun i j => (expectedFreq a).v i j = some 0) =
      (Finset.univ.filter fun p : Fin a.r × Fin a.c => expect a p.1 p.2 = 0).card := by
    unfold countCells
    rw [Finset.card_filter, ← Finset.univ_product_univ, Finset.sum_product]
    refine Finset.sum_congr rfl fun i _ => Finset.sum_congr rfl fun j _ => ?_
    have : ((expectedFreq a).v i j = some 0) ↔ expect a i j = 0 := by
      simp only [expectedFreq, h, if_false, Option.some.injEq]; rfl
    simp only [this]
  simp only [hc]
  change (if nominalDof a.r a.c - _ < 0 then _ else nominalDof a.r a.c - _) = _
  rw [nominalDof_eq]
  split
  · rw [max_eq_left]; omega
  · rw [max_eq_right]; omega

/-- **C23.** For tables of counts, in terms of the numbers of non-empty rows and columns: with
`r', c'` non-empty rows and columns the estimate is `r' c' - r - c + 1`, not below zero; it is
`(r-1)(c-1)` when no row or column is empty.  An empty row therefore lowers the estimate below
`(r'-1)(c'-1)`. -/
theorem estimate_simple_ndof_full {a : Arr2 ℝ} (h : IsCount a) :
    estimateSimpleNdof a = max 0 ((nRows a : ℤ) * nCols a - a.r - a.c + 1) ∧
    ((∀ i, FullRow a i) → (∀ j, FullCol a j) →
      estimateSimpleNdof a = ((a.r : ℤ) - 1) * ((a.c : ℤ) - 1)) := by
  classical
  have hrow : ∀ i, a.rowSum i ≠ 0 ↔ FullRow a i := by
    intro i
    unfold Arr2.rowSum FullRow
    rw [Ne, Finset.sum_eq_zero_iff_of_nonneg (fun j _ => h.nonneg i j)]
    simp
  have hcol : ∀ j, a.colSum j ≠ 0 ↔ FullCol a j := by
    intro j
    unfold Arr2.colSum FullCol
    rw [Ne, Finset.sum_eq_zero_iff_of_nonneg (fun i _ => h.nonneg i j)]
    simp
  have hcard : ((Finset.univ.filter fun p : Fin a.r × Fin a.c => expect a p.1 p.2 = 0).card : ℤ) =
      a.r * a.c - nRows a * nCols a := by
    have e1 : (Finset.univ.filter fun p : Fin a.r × Fin a.c => ¬ expect a p.1 p.2 = 0) =
        (Finset.univ.filter fun i => FullRow a i) ×ˢ (Finset.univ.filter fun j => FullCol a j) := by
      ext ⟨i, j⟩
      simp only [Finset.mem_filter, Finset.mem_univ, true_and, Finset.mem_product]
      rw [← hrow, ← hcol]
      change ¬ a.rowSum i * a.colSum j / a.total = 0 ↔ _
      rw [div_eq_zero_iff, mul_eq_zero]
      have := h.pos.ne'
      tauto
    have e2 := Finset.card_filter_add_card_filter_not (s := (Finset.univ : Finset (Fin a.r × Fin a.c)))
      (fun p => expect a p.1 p.2 = 0)
    rw [e1, Finset.card_product] at e2
    have e3 : (Finset.univ.filter fun i => FullRow a i).card = nRows a := by
      unfold nRows; rw [Nat.card_eq_fintype_card, Fintype.card_subtype]
    have e4 : (Finset.univ.filter fun i => FullCol a i).card = nCols a := by
      unfold nCols; rw [Nat.card_eq_fintype_card, Fintype.card_subtype]
    rw [e3, e4] at e2
    simp only [Finset.card_univ, Fintype.card_prod, Fintype.card_fin] at e2
    have : ((a.r * a.c : ℕ) : ℤ) = a.r * a.c := by push_cast; rfl
    rw [← this, ← e2]
    push_cast
    ring
  have main : estimateSimpleNdof a = max 0 ((nRows a : ℤ) * nCols a - a.r - a.c + 1) := by
    rw [estimate_simple_ndof_value h.pos.ne', hcard]
    congr 1
    ring
  refine ⟨main, fun hr hc => ?_⟩
  have e1 : nRows a = a.r := by
    unfold nRows
    rw [Nat.card_congr (Equiv.subtypeUnivEquiv hr), Nat.card_fin]
  have e2 : nCols a = a.c := by
    unfold nCols
    rw [Nat.card_congr (Equiv.subtypeUnivEquiv hc), Nat.card_fin]
  rw [main, e1, e2, max_eq_right]
  · ring
  · obtain ⟨h1, h2⟩ := size_pos h.pos.ne'
    nlinarith

theorem exTable_full : (∀ i, FullRow exTable i) ∧ ∀ j, FullCol exTable j := by
  constructor
  · intro i; change Fin 2 at i; fin_cases i
    · exact ⟨(0 : Fin 3), by simp [exTable]⟩
    · exact ⟨(0 : Fin 3), by simp [exTable]⟩
  · intro j; change Fin 3 at j; fin_cases j
    · exact ⟨(0 : Fin 2), by simp [exTable]⟩
    · exact ⟨(1 : Fin 2), by simp [exTable]⟩
    · exact ⟨(1 : Fin 2), by simp [exTable]⟩

example : estimateSimpleNdof exTable = 2 := by
  rw [(estimate_simple_ndof_full exTable_isCount).2 exTable_full.1 exTable_full.2]
  simp [exTable]

/-- The hypotheses of the two-by-three case are met. -/
example : nRows exTable = 2 ∧ nCols exTable = 3 ∧ ¬ (nRows exTable = 2 ∧ nCols exTable = 2) := by
  have e1 : nRows exTable = 2 := by
    unfold nRows; rw [Nat.card_congr (Equiv.subtypeUnivEquiv exTable_full.1), Nat.card_fin]; rfl
  have e2 : nCols exTable = 3 := by
    unfold nCols; rw [Nat.card_congr (Equiv.subtypeUnivEquiv exTable_full.2), Nat.card_fin]; rfl
  omega

/-! ### bounds -/

section Bounds
variable {a : Arr2 ℝ} (h : IsCount a)
include h

theorem rowSum_nonneg (i) : 0 ≤ a.rowSum i := Finset.sum_nonneg fun j _ => h.nonneg i j
theorem colSum_nonneg (j) : 0 ≤ a.colSum j := Finset.sum_nonneg fun i _ => h.nonneg i j
theorem le_rowSum (i j) : a.v i j ≤ a.rowSum i :=
  Finset.single_le_sum (f := fun j => a.v i j) (fun j _ => h.nonneg i j) (Finset.mem_univ j)
theorem le_colSum (i j) : a.v i j ≤ a.colSum j :=
  Finset.single_le_sum (f := fun i => a.v i j) (fun i _ => h.nonneg i j) (Finset.mem_univ i)

theorem expect_nonneg (i j) : 0 ≤ expect a i j :=
  div_nonneg (mul_nonneg (rowSum_nonneg h i) (colSum_nonneg h j)) h.pos.le

theorem zero_of_expect_zero {i j} (he : expect a i j = 0) : a.v i j = 0 := by
  have : a.rowSum i = 0 ∨ a.colSum j = 0 := by
    have h2 : a.rowSum i * a.colSum j / a.total = 0 := he
    rw [div_eq_zero_iff, mul_eq_zero] at h2
    exact h2.resolve_right h.pos.ne'
  apply le_antisymm _ (h.nonneg i j)
  rcases this with e | e
  · rw [← e]; exact le_rowSum h i j
  · rw [← e]; exact le_colSum h i j

theorem fullRow_iff (i) : FullRow a i ↔ a.rowSum i ≠ 0 := by
  unfold Arr2.rowSum FullRow
  rw [Ne, Finset.sum_eq_zero_iff_of_nonneg (fun j _ => h.nonneg i j)]
  simp

theorem fullCol_iff (j) : FullCol a j ↔ a.colSum j ≠ 0 := by
  unfold Arr2.colSum FullCol
  rw [Ne, Finset.sum_eq_zero_iff_of_nonneg (fun i _ => h.nonneg i j)]
  simp

theorem sum_expect : ∑ i, ∑ j, expect a i j = a.total := sum_expected h.pos.ne'

/-- Pearson's sum without correction. -/
theorem pearson_sum : ∑ i, ∑ j, pearsonCell (a.v i j) (expect a i j) =
    (∑ i, ∑ j, a.v i j ^ 2 / expect a i j) - a.total := by
  have : ∀ i j, pearsonCell (a.v i j) (expect a i j) =
      a.v i j ^ 2 / expect a i j - 2 * a.v i j + expect a i j := by
    intro i j
    unfold pearsonCell
    by_cases he : expect a i j = 0
    · rw [he, zero_of_expect_zero h he]; simp
    · field_simp; ring
  simp only [this, Finset.sum_add_distrib, Finset.sum_sub_distrib, ← Finset.mul_sum]
  rw [sum_expect h]
  change _ - 2 * a.total + a.total = _
  ring

theorem sq_div_le_row (i j) : a.v i j ^ 2 / expect a i j ≤ a.total * (a.v i j / a.rowSum i) := by
  by_cases he : expect a i j = 0
  · rw [zero_of_expect_zero h he]; simp
  have hR : a.rowSum i ≠ 0 := by
    intro e; apply he; change a.rowSum i * _ / _ = 0; rw [e]; simp
  have hC : a.colSum j ≠ 0 := by
    intro e; apply he; change a.rowSum i * a.colSum j / _ = 0; rw [e]; simp
  have e1 : a.v i j ^ 2 / expect a i j = a.total * (a.v i j / a.rowSum i) * (a.v i j / a.colSum j) := by
    change a.v i j ^ 2 / (a.rowSum i * a.colSum j / a.total) = _
    have := h.pos.ne'
    field_simp
  rw [e1]
  apply mul_le_of_le_one_right
  · exact mul_nonneg h.pos.le (div_nonneg (h.nonneg i j) (rowSum_nonneg h i))
  · exact div_le_one_of_le₀ (le_colSum h i j) (colSum_nonneg h j)

theorem sum_sq_le : ∑ i, ∑ j, a.v i j ^ 2 / expect a i j ≤ a.total * nRows a := by
  classical
  calc _ ≤ ∑ i, ∑ j, a.total * (a.v i j / a.rowSum i) :=
        Finset.sum_le_sum fun i _ => Finset.sum_le_sum fun j _ => sq_div_le_row h i j
    _ = a.total * ∑ i, if FullRow a i then 1 else 0 := by
        simp only [← Finset.mul_sum]
        congr 1
        refine Finset.sum_congr rfl fun i _ => ?_
        rw [← Finset.sum_div]
        change a.rowSum i / a.rowSum i = _
        split
        · next hf => exact div_self ((fullRow_iff h i).1 hf)
        · next hf => rw [not_not.1 (mt (fullRow_iff h i).2 hf)]; simp
    _ = a.total * nRows a := by
        congr 1
        rw [Finset.sum_boole]
        unfold nRows
        rw [Nat.card_eq_fintype_card, Fintype.card_subtype]

theorem isCount_transpose : IsCount a.transpose :=
  ⟨fun i j => h.nonneg j i, by
    have : a.transpose.total = a.total := Finset.sum_comm
    rw [this]; exact h.pos⟩

theorem sum_sq_le_cols : ∑ i, ∑ j, a.v i j ^ 2 / expect a i j ≤ a.total * nCols a := by
  have h1 := sum_sq_le (isCount_transpose h)
  have ht : a.transpose.total = a.total := Finset.sum_comm
  rw [ht] at h1
  refine le_trans (le_of_eq ?_) h1
  rw [Finset.sum_comm]
  refine Finset.sum_congr rfl fun j _ => Finset.sum_congr rfl fun i _ => ?_
  congr 1
  change _ * _ / a.total = _ * _ / a.transpose.total
  rw [ht, mul_comm]
  rfl

omit h in
theorem corrected_closer (o e : ℝ) : |corrected o e - e| ≤ |o - e| := by
  unfold corrected
  split_ifs with h1 h2
  · simp
  · rw [abs_of_neg (a := o - e) (by linarith)]
    have : 1 / 2 < e - o := by rw [abs_of_pos (by linarith)] at h1; linarith
    rw [abs_of_neg (by linarith)]; linarith
  · have : o ≠ e := by rintro rfl; simp at h1
    have h3 : e < o := lt_of_le_of_ne (not_lt.1 h2) (Ne.symm this)
    rw [abs_of_pos (a := o - e) (by linarith)]
    have : 1 / 2 < o - e := by rw [abs_of_neg (by linarith)] at h1; linarith
    rw [abs_of_pos (by linarith)]; linarith

omit h in
theorem pearsonCell_corrected_le {o e : ℝ} (he : 0 ≤ e) :
    pearsonCell (corrected o e) e ≤ pearsonCell o e := by
  unfold pearsonCell
  exact div_le_div_of_nonneg_right (sq_le_sq.2 (corrected_closer o e)) he

theorem pearson_statistic_le : statistic pearsonCell a ≤ ∑ i, ∑ j, pearsonCell (a.v i j) (expect a i j) := by
  have hp : ∀ o i j, 0 ≤ pearsonCell o (expect a i j) := fun o i j =>
    div_nonneg (sq_nonneg _) (expect_nonneg h i j)
  unfold statistic
  split
  · exact Finset.sum_nonneg fun i _ => Finset.sum_nonneg fun j _ => hp _ i j
  · refine Finset.sum_le_sum fun i _ => Finset.sum_le_sum fun j _ => ?_
    split
    · exact hp _ i j
    · split
      · exact pearsonCell_corrected_le (expect_nonneg h i j)
      · exact le_rfl

theorem nRows_pos : 1 ≤ nRows a := by
  obtain ⟨s⟩ := core_sub a
  rw [s.nRows]
  exact (size_pos (s.isCount h).pos.ne').1

theorem nCols_pos : 1 ≤ nCols a := by
  obtain ⟨s⟩ := core_sub a
  rw [s.nCols]
  exact (size_pos (s.isCount h).pos.ne').2

end Bounds

theorem nRows_le (a : Arr2 ℝ) : nRows a ≤ a.r := by
  unfold nRows; exact (Nat.card_le_card_of_injective _ Subtype.val_injective).trans_eq (Nat.card_fin _)

theorem nCols_le (a : Arr2 ℝ) : nCols a ≤ a.c := by
  unfold nCols; exact (Nat.card_le_card_of_injective _ Subtype.val_injective).trans_eq (Nat.card_fin _)

/-- **C18 (bounds).** The Pearson chi2 is non-negative and at most the number of records times the
smaller of (rows - 1) and (columns - 1), even when only non-empty rows and columns are counted. -/
theorem pearson_bounds {a : Arr2 ℝ} (h : IsCount a) {x : ℝ} (hx : getChi2 a "pearson" = .ok x) :
    0 ≤ x ∧ x ≤ a.total * (min (nRows a - 1) (nCols a - 1) : ℕ) ∧
      x ≤ a.total * (min (a.r - 1) (a.c - 1) : ℕ) := by
  rw [(get_chi2_value h).1] at hx
  cases hx
  have key : statistic pearsonCell a ≤ a.total * (min (nRows a - 1) (nCols a - 1) : ℕ) := by
    refine (pearson_statistic_le h).trans ?_
    rw [pearson_sum h]
    have e1 : ((nRows a - 1 : ℕ) : ℝ) = nRows a - 1 := by rw [Nat.cast_sub (nRows_pos h)]; simp
    have e2 : ((nCols a - 1 : ℕ) : ℝ) = nCols a - 1 := by rw [Nat.cast_sub (nCols_pos h)]; simp
    rcases le_total (nRows a - 1) (nCols a - 1) with hl | hl
    · rw [min_eq_left hl, e1]; have := sum_sq_le h; linarith
    · rw [min_eq_right hl, e2]; have := sum_sq_le_cols h; linarith
  refine ⟨?_, key, key.trans ?_⟩
  · unfold statistic
    split
    · exact le_rfl
    · refine Finset.sum_nonneg fun i _ => Finset.sum_nonneg fun j _ => ?_
      split
      · exact le_rfl
      · exact div_nonneg (sq_nonneg _) (expect_nonneg h i j)
  · apply mul_le_mul_of_nonneg_left _ h.pos.le
    have h1 := nRows_le a
    have h2 := nCols_le a
    exact_mod_cast min_le_min (Nat.sub_le_sub_right h1 1) (Nat.sub_le_sub_right h2 1)

theorem corrected_nonneg {o e : ℝ} (ho : 0 ≤ o) (he : 0 ≤ e) : 0 ≤ corrected o e := by
  unfold corrected
  split_ifs with h1 h2
  · exact he
  · linarith
  · push Not at h1 h2
    rw [abs_of_nonpos (by linarith)] at h1; linarith

theorem corrected_eq_iff (o e : ℝ) : corrected o e = e ↔ |o - e| ≤ 1 / 2 := by
  rw [abs_sub_comm]
  unfold corrected
  split_ifs with g1 g2
  · exact ⟨fun _ => g1, fun _ => rfl⟩
  · simp only [g1, iff_false]
    rw [abs_of_pos (by linarith)] at g1
    intro h; linarith
  · simp only [g1, iff_false]
    rw [abs_of_nonpos (by linarith)] at g1
    intro h; linarith

theorem statistic_zero_iff {a : Arr2 ℝ} (h : IsCount a) {cell : ℝ → ℝ → ℝ}
    (hpos : ∀ o e, 0 ≤ o → 0 < e → 0 ≤ cell o e)
    (hzero : ∀ o e, 0 ≤ o → 0 < e → (cell o e = 0 ↔ o = e)) :
    0 ≤ statistic cell a ∧
    (¬ (nRows a = 2 ∧ nCols a = 2) → (statistic cell a = 0 ↔ Independent a)) ∧
    ((nRows a = 2 ∧ nCols a = 2) →
      (statistic cell a = 0 ↔ ∀ i j, |a.v i j - expect a i j| ≤ 1 / 2)) := by
  have hz : ∀ f : Fin a.r → Fin a.c → ℝ, (∀ i j, 0 ≤ f i j) →
      ((∑ i, ∑ j, f i j) = 0 ↔ ∀ i j, f i j = 0) := by
    intro f hf
    rw [Finset.sum_eq_zero_iff_of_nonneg (fun i _ => Finset.sum_nonneg fun j _ => hf i j)]
    constructor
    · intro g i j
      have := g i (Finset.mem_univ i)
      rw [Finset.sum_eq_zero_iff_of_nonneg (fun j _ => hf i j)] at this
      exact this j (Finset.mem_univ j)
    · intro g i _
      exact Finset.sum_eq_zero fun j _ => g i j
  have hep : ∀ i j, ¬ expect a i j = 0 → 0 < expect a i j := fun i j he =>
    lt_of_le_of_ne (expect_nonneg h i j) (Ne.symm he)
  refine ⟨?_, ?_, ?_⟩
  · unfold statistic
    split
    · exact le_rfl
    · refine Finset.sum_nonneg fun i _ => Finset.sum_nonneg fun j _ => ?_
      split
      · exact le_rfl
      · next he =>
        apply hpos _ _ _ (hep i j he)
        split
        · exact corrected_nonneg (h.nonneg i j) (expect_nonneg h i j)
        · exact h.nonneg i j
  · intro h22
    unfold statistic
    simp only [h22, if_false]
    by_cases h1 : nRows a = 1 ∨ nCols a = 1
    · simp only [h1, if_true, true_iff]
      have key : ∀ a : Arr2 ℝ, IsCount a → nRows a = 1 → Independent a := by
        intro a h h1 i j
        have hu : ∀ i', a.rowSum i' ≠ 0 → a.rowSum i ≠ 0 → i' = i := by
          intro i' g1 g2
          unfold nRows at h1
          rw [Nat.card_eq_one_iff_unique] at h1
          have := h1.1.elim ⟨i', (fullRow_iff h i').2 g1⟩ ⟨i, (fullRow_iff h i).2 g2⟩
          exact congrArg Subtype.val this
        by_cases hi : a.rowSum i = 0
        · have : expect a i j = 0 := by
            change a.rowSum i * _ / _ = 0
            rw [hi]; simp
          rw [this, zero_of_expect_zero h this]
        · have hz : ∀ i', i' ≠ i → a.rowSum i' = 0 := fun i' hne => by
            by_contra hc; exact hne (hu i' hc hi)
          have ht : a.total = a.rowSum i :=
            Finset.sum_eq_single i (fun i' _ hne => hz i' hne) (by simp)
          have hc : a.colSum j = a.v i j :=
            Finset.sum_eq_single i (fun i' _ hne =>
              le_antisymm ((le_rowSum h i' j).trans_eq (hz i' hne)) (h.nonneg _ _)) (by simp)
          change _ = a.rowSum i * a.colSum j / a.total
          rw [ht, hc, mul_div_cancel_left₀ _ hi]
      rcases h1 with h1 | h1
      · exact key a h h1
      · have := key a.transpose (isCount_transpose h) h1
        intro i j
        have ht : a.transpose.total = a.total := Finset.sum_comm
        have e := this j i
        change a.v i j = _ * _ / a.transpose.total at e
        rw [e, ht, mul_comm]; rfl
    · simp only [h1, if_false]
      rw [hz]
      · refine forall_congr' fun i => forall_congr' fun j => ?_
        split
        · next he => simp [he, zero_of_expect_zero h he]
        · next he => rw [hzero _ _ (h.nonneg i j) (hep i j he)]
      · intro i j
        split
        · exact le_rfl
        · next he => exact hpos _ _ (h.nonneg i j) (hep i j he)
  · intro h22
    unfold statistic
    simp only [h22, and_self, if_true]
    rw [if_neg (by omega), hz]
    · refine forall_congr' fun i => forall_congr' fun j => ?_
      split
      · next he => simp [he, zero_of_expect_zero h he]
      · next he =>
        rw [hzero _ _ (corrected_nonneg (h.nonneg i j) (expect_nonneg h i j)) (hep i j he),
          corrected_eq_iff]
    · intro i j
      split
      · exact le_rfl
      · next he => exact hpos _ _ (corrected_nonneg (h.nonneg i j) (expect_nonneg h i j)) (hep i j he)

/-- **C18 (zero).** Except for two by two tables, the Pearson chi2 is zero exactly when the table is the
product of its margins; for two by two exactly when every cell is within one half of it. -/
theorem pearson_zero_iff {a : Arr2 ℝ} (h : IsCount a) :
    (¬ (nRows a = 2 ∧ nCols a = 2) → (getChi2 a "pearson" = .ok 0 ↔ Independent a)) ∧
    ((nRows a = 2 ∧ nCols a = 2) →
      (getChi2 a "pearson" = .ok 0 ↔ ∀ i j, |a.v i j - expect a i j| ≤ 1 / 2)) := by
  rw [(get_chi2_value h).1, Except.ok.injEq]
  refine (statistic_zero_iff h (cell := pearsonCell) ?_ ?_).2
  · intro o e _ he; exact div_nonneg (sq_nonneg _) he.le
  · intro o e _ he
    unfold pearsonCell
    rw [div_eq_zero_iff, sq_eq_zero_iff, sub_eq_zero]
    have := he.ne'
    tauto

/-- Gibbs' inequality for one cell. -/
theorem gibbs_cell {o e : ℝ} (ho : 0 ≤ o) (he : 0 < e) :
    0 ≤ gCell o e - 2 * (o - e) ∧ (gCell o e - 2 * (o - e) = 0 ↔ o = e) := by
  unfold gCell
  rcases ho.eq_or_lt with rfl | ho
  · simp only [zero_mul, mul_zero]
    constructor
    · linarith
    · constructor <;> intro h <;> linarith
  · have hx : 0 < e / o := div_pos he ho
    have e1 : Real.log (o / e) = - Real.log (e / o) := by
      rw [← Real.log_inv, inv_div]
    have e2 : o * (e / o) = e := by field_simp
    constructor
    · have := Real.log_le_sub_one_of_pos hx
      have := mul_le_mul_of_nonneg_left this ho.le
      rw [mul_sub, e2] at this
      rw [e1]; nlinarith
    · constructor
      · intro h
        by_contra hne
        have hne' : e / o ≠ 1 := by
          intro h1; rw [div_eq_one_iff_eq ho.ne'] at h1; exact hne h1.symm
        have := Real.log_lt_sub_one_of_pos hx hne'
        have := mul_lt_mul_of_pos_left this ho
        rw [mul_sub, e2] at this
        rw [e1] at h; nlinarith
      · rintro rfl; rw [div_self ho.ne']; simp

theorem sum_corrected {a : Arr2 ℝ} (h : IsCount a) (h2 : nRows a = 2 ∧ nCols a = 2) :
    ∑ i, ∑ j, (if expect a i j = 0 then 0 else corrected (a.v i j) (expect a i j)) = a.total := by
  obtain ⟨s⟩ := core_sub a
  generalize core a = b at s
  rw [s.nRows, s.nCols] at h2
  have hb := s.isCount h
  have hpos : ∀ i j, expected b i j ≠ 0 := fun i j =>
    (div_pos (mul_pos (s.rowSum_pos h i) (s.colSum_pos h j)) hb.pos).ne'
  rw [← s.sum_cells _ (fun i j => yates (b.v i j) (expected b i j))]
  · rw [← s.total, ← sum_expected hb.pos.ne']
    clear s hpos
    obtain ⟨r, c, v⟩ := b
    obtain ⟨rfl, rfl⟩ := h2
    refine sum_yates (v := v) (e := expected ⟨2, 2, v⟩) ?_
    intro i
    exact (row_expected hb.pos.ne' i).symm
  · intro i j hij
    rw [if_pos]
    change a.rowSum i * a.colSum j / a.total = 0
    rcases hij with e | e <;> rw [e] <;> simp
  · intro i j
    rw [expect_eq, ← s.expected, if_neg (hpos i j), yates_eq, s.val]

theorem g_statistic_eq {a : Arr2 ℝ} (h : IsCount a) :
    statistic gCell a = statistic (fun o e => gCell o e - 2 * (o - e)) a := by
  unfold statistic
  split
  · rfl
  · have : ∀ i j, (if expect a i j = 0 then (0 : ℝ) else
        gCell (if nRows a = 2 ∧ nCols a = 2 then corrected (a.v i j) (expect a i j) else a.v i j)
          (expect a i j)) =
        (if expect a i j = 0 then 0 else
        gCell (if nRows a = 2 ∧ nCols a = 2 then corrected (a.v i j) (expect a i j) else a.v i j)
          (expect a i j) -
          2 * ((if nRows a = 2 ∧ nCols a = 2 then corrected (a.v i j) (expect a i j) else a.v i j)
            - expect a i j)) +
        2 * ((if expect a i j = 0 then 0 else
          (if nRows a = 2 ∧ nCols a = 2 then corrected (a.v i j) (expect a i j) else a.v i j))
            - expect a i j) := by
      intro i j
      split
      · next he => rw [he]; ring
      · ring
    rw [Finset.sum_congr rfl fun i _ => Finset.sum_congr rfl fun j _ => this i j]
    simp only [Finset.sum_add_distrib, ← Finset.mul_sum, Finset.sum_sub_distrib]
    rw [sum_expect h]
    have e : ∑ i, ∑ j, (if expect a i j = 0 then 0 else
          (if nRows a = 2 ∧ nCols a = 2 then corrected (a.v i j) (expect a i j) else a.v i j)) = a.total := by
      by_cases h2 : nRows a = 2 ∧ nCols a = 2
      · simp only [h2, and_self, if_true]; exact sum_corrected h h2
      · simp only [h2, if_false]
        refine Finset.sum_congr rfl fun i _ => Finset.sum_congr rfl fun j _ => ?_
        split
        · next he => exact (zero_of_expect_zero h he).symm
        · rfl
    rw [e]; ring

/-- **C32.** The log-likelihood statistic is non-negative; except for two by two tables it is zero exactly
when the table is the product of its margins; for two by two (continuity correction) exactly when every
cell is within one half of it. -/
theorem log_likelihood_nonneg {a : Arr2 ℝ} (h : IsCount a) :
    ∃ g, getChi2 a "log-likelihood" = .ok g ∧ 0 ≤ g ∧
    (¬ (nRows a = 2 ∧ nCols a = 2) → (g = 0 ↔ Independent a)) ∧
    ((nRows a = 2 ∧ nCols a = 2) → (g = 0 ↔ ∀ i j, |a.v i j - expect a i j| ≤ 1 / 2)) := by
  refine ⟨_, (get_chi2_value h).2, ?_⟩
  rw [g_statistic_eq h]
  exact statistic_zero_iff h (fun o e ho he => (gibbs_cell ho he).1) (fun o e ho he => (gibbs_cell ho he).2)

end Phik.Props
