import Verif.Model.Stats
import Verif.Spec.Stats
import Mathlib.Data.List.NodupEquivFin
import Mathlib.Algebra.BigOperators.Field
import Mathlib.Tactic.Linarith
import Mathlib.Tactic.FieldSimp
import Mathlib.Tactic.Ring
import Mathlib.Tactic.NormNum

/-! # Facts about contingency tables -/

namespace Phik

open Spec

theorem nominalDof_eq (r c : ℕ) : nominalDof r c = ((r : ℤ) - 1) * ((c : ℤ) - 1) := by
  unfold nominalDof; push_cast; ring

/-! ### removal of empty rows and columns -/

theorem filterRows_map (a : Arr2 ℝ) (p : Fin a.r → Bool) :
    ∃ (r' : ℕ) (ρ : Fin r' → Fin a.r), Function.Injective ρ ∧ (∀ i, (∃ k, ρ k = i) ↔ p i = true) ∧
      a.filterRows p = ⟨r', a.c, fun i j => a.v (ρ i) j⟩ := by
  refine ⟨_, fun k => ((List.finRange a.r).filter p).get k, ?_, ?_, rfl⟩
  · exact List.nodup_iff_injective_get.1 ((List.nodup_finRange _).filter _)
  · intro i
    have : i ∈ (List.finRange a.r).filter p ↔ p i = true := by simp
    rw [← this, List.mem_iff_get]

/-- The table that reaches scipy. -/
noncomputable def core (a : Arr2 ℝ) : Arr2 ℝ := (dropZeroRows (dropZeroRows a).transpose).transpose

theorem getChi2_eq (a : Arr2 ℝ) (name : String) : getChi2 a name = chi2Contingency (core a) name := rfl

/-- A choice of rows and columns containing all non-empty ones. -/
structure Sub (a b : Arr2 ℝ) where
  ρ : Fin b.r → Fin a.r
  σ : Fin b.c → Fin a.c
  ρ_inj : Function.Injective ρ
  σ_inj : Function.Injective σ
  ρ_range : ∀ i, (∃ k, ρ k = i) ↔ FullRow a i
  σ_range : ∀ j, (∃ k, σ k = j) ↔ FullCol a j
  val : ∀ i j, b.v i j = a.v (ρ i) (σ j)

theorem core_sub (a : Arr2 ℝ) : Nonempty (Sub a (core a)) := by
  classical
  obtain ⟨r', ρ, h1, h2, h3⟩ := filterRows_map a (fun i => !decide (∀ j, a.v i j = 0))
  have e1 : dropZeroRows a = ⟨r', a.c, fun i j => a.v (ρ i) j⟩ := by
    rw [← h3]; unfold dropZeroRows; congr!
  have h2' : ∀ i, (∃ k, ρ k = i) ↔ FullRow a i := by
    intro i; rw [h2]; simp [FullRow]
  obtain ⟨c', σ, g1, g2, g3⟩ := filterRows_map (Arr2.transpose ⟨r', a.c, fun i j => a.v (ρ i) j⟩)
    (fun i => !decide (∀ j, (Arr2.transpose ⟨r', a.c, fun i j => a.v (ρ i) j⟩).v i j = 0))
  have e2 : core a = ⟨r', c', fun i j => a.v (ρ i) (σ j)⟩ := by
    unfold core
    rw [e1]
    have : dropZeroRows (Arr2.transpose ⟨r', a.c, fun i j => a.v (ρ i) j⟩) =
        ⟨c', r', fun j i => a.v (ρ i) (σ j)⟩ := by
      refine Eq.trans ?_ g3
      unfold dropZeroRows; congr!
    rw [this]; rfl
  rw [e2]
  refine ⟨⟨ρ, σ, h1, g1, h2', ?_, fun _ _ => rfl⟩⟩
  intro j
  refine (g2 j).trans ?_
  rw [Bool.not_eq_true', decide_eq_false_iff_not, not_forall]
  constructor
  · rintro ⟨k, hk⟩; exact ⟨_, hk⟩
  · rintro ⟨i, hi⟩
    obtain ⟨k, rfl⟩ := (h2' i).2 ⟨j, hi⟩
    exact ⟨k, hi⟩

namespace Sub
variable {a b : Arr2 ℝ} (s : Sub a b)
include s

theorem zero_row {i : Fin a.r} (h : ∀ k, s.ρ k ≠ i) (j : Fin a.c) : a.v i j = 0 := by
  by_contra hn
  obtain ⟨k, hk⟩ := (s.ρ_range i).2 ⟨j, hn⟩
  exact h k hk

theorem zero_col {j : Fin a.c} (h : ∀ k, s.σ k ≠ j) (i : Fin a.r) : a.v i j = 0 := by
  by_contra hn
  obtain ⟨k, hk⟩ := (s.σ_range j).2 ⟨i, hn⟩
  exact h k hk

theorem rowSum (i : Fin b.r) : b.rowSum i = a.rowSum (s.ρ i) := by
  unfold Arr2.rowSum
  exact Fintype.sum_of_injective s.σ s.σ_inj _ _
    (fun j hj => s.zero_col (fun k hk => hj ⟨k, hk⟩) _) (fun j => s.val _ _)

theorem colSum (j : Fin b.c) : b.colSum j = a.colSum (s.σ j) := by
  unfold Arr2.colSum
  exact Fintype.sum_of_injective s.ρ s.ρ_inj _ _
    (fun i hi => s.zero_row (fun k hk => hi ⟨k, hk⟩) _) (fun i => s.val _ _)

theorem rowSum_zero {i : Fin a.r} (h : ∀ k, s.ρ k ≠ i) : a.rowSum i = 0 :=
  Finset.sum_eq_zero fun j _ => s.zero_row h j

theorem colSum_zero {j : Fin a.c} (h : ∀ k, s.σ k ≠ j) : a.colSum j = 0 :=
  Finset.sum_eq_zero fun i _ => s.zero_col h i

theorem total : b.total = a.total :=
  Fintype.sum_of_injective s.ρ s.ρ_inj _ _ (fun i hi => s.rowSum_zero (fun k hk => hi ⟨k, hk⟩))
    (fun i => s.rowSum i)

theorem expected (i : Fin b.r) (j : Fin b.c) : expected b i j = Phik.expected a (s.ρ i) (s.σ j) := by
  change b.rowSum i * b.colSum j / b.total = a.rowSum _ * a.colSum _ / a.total
  rw [s.rowSum, s.colSum, s.total]

/-- A sum over the cells of the small table is the sum over the large one when empty rows and columns
contribute nothing. -/
theorem sum_cells (g : Fin a.r → Fin a.c → ℝ) (f : Fin b.r → Fin b.c → ℝ)
    (hg : ∀ i j, a.rowSum i = 0 ∨ a.colSum j = 0 → g i j = 0) (hf : ∀ i j, f i j = g (s.ρ i) (s.σ j)) :
    ∑ i, ∑ j, f i j = ∑ i, ∑ j, g i j := by
  apply Fintype.sum_of_injective s.ρ s.ρ_inj
  · intro i hi
    exact Finset.sum_eq_zero fun j _ => hg i j (Or.inl (s.rowSum_zero fun k hk => hi ⟨k, hk⟩))
  · intro i
    apply Fintype.sum_of_injective s.σ s.σ_inj
    · intro j hj
      exact hg _ j (Or.inr (s.colSum_zero fun k hk => hj ⟨k, hk⟩))
    · intro j; exact hf i j

noncomputable def rowEquiv : Fin b.r ≃ {i // FullRow a i} :=
  Equiv.ofBijective (fun k => ⟨s.ρ k, (s.ρ_range _).1 ⟨k, rfl⟩⟩)
    ⟨fun x y h => s.ρ_inj (by simpa using h), fun ⟨i, hi⟩ => by
      obtain ⟨k, hk⟩ := (s.ρ_range i).2 hi
      exact ⟨k, Subtype.ext hk⟩⟩

noncomputable def colEquiv : Fin b.c ≃ {j // FullCol a j} :=
  Equiv.ofBijective (fun k => ⟨s.σ k, (s.σ_range _).1 ⟨k, rfl⟩⟩)
    ⟨fun x y h => s.σ_inj (by simpa using h), fun ⟨i, hi⟩ => by
      obtain ⟨k, hk⟩ := (s.σ_range i).2 hi
      exact ⟨k, Subtype.ext hk⟩⟩

theorem nRows : Spec.nRows a = b.r := by
  unfold Spec.nRows; rw [← Nat.card_congr s.rowEquiv, Nat.card_fin]

theorem nCols : Spec.nCols a = b.c := by
  unfold Spec.nCols; rw [← Nat.card_congr s.colEquiv, Nat.card_fin]

theorem fullRow (i : Fin b.r) : ∃ j, b.v i j ≠ 0 := by
  obtain ⟨j, hj⟩ := (s.ρ_range (s.ρ i)).1 ⟨i, rfl⟩
  obtain ⟨k, rfl⟩ := (s.σ_range j).2 ⟨_, hj⟩
  exact ⟨k, by rwa [s.val]⟩

theorem fullCol (j : Fin b.c) : ∃ i, b.v i j ≠ 0 := by
  obtain ⟨i, hi⟩ := (s.σ_range (s.σ j)).1 ⟨j, rfl⟩
  obtain ⟨k, rfl⟩ := (s.ρ_range i).2 ⟨_, hi⟩
  exact ⟨k, by rwa [s.val]⟩

theorem isCount (h : IsCount a) : IsCount b :=
  ⟨fun i j => by rw [s.val]; exact h.nonneg _ _, by rw [s.total]; exact h.pos⟩

theorem rowSum_pos (h : IsCount a) (i : Fin b.r) : 0 < b.rowSum i := by
  obtain ⟨j, hj⟩ := s.fullRow i
  exact Finset.sum_pos' (fun j _ => (s.isCount h).nonneg i j)
    ⟨j, Finset.mem_univ _, lt_of_le_of_ne ((s.isCount h).nonneg i j) (Ne.symm hj)⟩

theorem colSum_pos (h : IsCount a) (j : Fin b.c) : 0 < b.colSum j := by
  obtain ⟨i, hi⟩ := s.fullCol j
  exact Finset.sum_pos' (fun i _ => (s.isCount h).nonneg i j)
    ⟨i, Finset.mem_univ _, lt_of_le_of_ne ((s.isCount h).nonneg i j) (Ne.symm hi)⟩

end Sub

/-! ### sums of a table -/

theorem Arr2.sum_rowSum (a : Arr2 ℝ) : ∑ i, a.rowSum i = a.total := rfl

theorem Arr2.sum_colSum (a : Arr2 ℝ) : ∑ j, a.colSum j = a.total := by
  unfold Arr2.colSum Arr2.total; exact Finset.sum_comm

theorem sum_expected {a : Arr2 ℝ} (h : a.total ≠ 0) : ∑ i, ∑ j, expected a i j = a.total := by
  have : ∀ i, ∑ j, expected a i j = a.rowSum i := by
    intro i
    change ∑ j, a.rowSum i * a.colSum j / a.total = _
    rw [← Finset.sum_div, ← Finset.mul_sum, a.sum_colSum, mul_div_cancel_right₀ _ h]
  change ∑ i, ∑ j, expected a i j = a.total
  simp only [this]
  exact a.sum_rowSum

theorem row_expected {a : Arr2 ℝ} (h : a.total ≠ 0) (i : Fin a.r) :
    ∑ j, expected a i j = a.rowSum i := by
  change ∑ j, a.rowSum i * a.colSum j / a.total = _
  rw [← Finset.sum_div, ← Finset.mul_sum, a.sum_colSum, mul_div_cancel_right₀ _ h]

theorem col_expected {a : Arr2 ℝ} (h : a.total ≠ 0) (j : Fin a.c) :
    ∑ i, expected a i j = a.colSum j := by
  change ∑ i, a.rowSum i * a.colSum j / a.total = _
  rw [← Finset.sum_div, ← Finset.sum_mul, a.sum_rowSum, mul_div_cancel_left₀ _ h]

theorem yates_eq (o e : ℝ) : yates o e = corrected o e := by
  unfold yates corrected
  rcases lt_trichotomy (e - o) 0 with h | h | h
  · rw [sign_neg h, abs_of_neg h]
    by_cases h2 : -(e - o) ≤ 1 / 2
    · rw [if_pos h2, min_eq_right h2]; simp <;> ring
    · rw [if_neg h2, min_eq_left (not_le.1 h2).le, if_neg (by linarith)]; simp <;> ring
  · rw [h]; simp; linarith
  · rw [sign_pos h, abs_of_pos h]
    by_cases h2 : e - o ≤ 1 / 2
    · rw [if_pos h2, min_eq_right h2]; simp <;> ring
    · rw [if_neg h2, min_eq_left (not_le.1 h2).le, if_pos (by linarith)]; simp <;> ring

/-- The correction of a deviation is odd. -/
theorem yates_sub_odd (o e o' e' : ℝ) (h : o - e = -(o' - e')) : yates o e - e = -(yates o' e' - e') := by
  have : e - o = -(e' - o') := by linarith
  unfold yates
  rw [this, abs_neg, Left.sign_neg]
  simp only [SignType.coe_neg]
  linarith

/-- Two by two: the correction keeps the sum. -/
theorem sum_yates {v e : Fin 2 → Fin 2 → ℝ} (hr : ∀ i, ∑ j, v i j = ∑ j, e i j) :
    ∑ i, ∑ j, yates (v i j) (e i j) = ∑ i, ∑ j, e i j := by
  have h0 := hr 0
  have h1 := hr 1
  simp only [Fin.sum_univ_two] at *
  have k0 := yates_sub_odd (v 0 0) (e 0 0) (v 0 1) (e 0 1) (by linarith)
  have k1 := yates_sub_odd (v 1 0) (e 1 0) (v 1 1) (e 1 1) (by linarith)
  linarith

theorem nominalDof_zero {r c : ℕ} : nominalDof r c = 0 ↔ r = 1 ∨ c = 1 := by
  rw [nominalDof_eq, mul_eq_zero]; omega

theorem nominalDof_one {r c : ℕ} (hr : 0 < r) (hc : 0 < c) : nominalDof r c = 1 ↔ r = 2 ∧ c = 2 := by
  rw [nominalDof_eq]
  obtain ⟨r, rfl⟩ := Nat.exists_eq_succ_of_ne_zero hr.ne'
  obtain ⟨c, rfl⟩ := Nat.exists_eq_succ_of_ne_zero hc.ne'
  have e1 : ((r.succ : ℕ) : ℤ) - 1 = r := by push_cast; ring
  have e2 : ((c.succ : ℕ) : ℤ) - 1 = c := by push_cast; ring
  rw [e1, e2]
  norm_cast
  rw [mul_eq_one]
  omega

end Phik
