import Mathlib.Data.Fintype.Perm
import Mathlib.Data.Real.Basic
import Mathlib.Algebra.BigOperators.Field
import Mathlib.Tactic

/-! # First and second moments of the counts of shuffled records -/

namespace Phik

open Finset

variable {N : ℕ}

/-- A permutation that moves one pair to another. -/
theorem exists_perm_pair {a b p q : Fin N} (hab : a ≠ b) (hpq : p ≠ q) : ∃ τ : Equiv.Perm (Fin N), τ a = p ∧ τ b = q := by
  refine ⟨(Equiv.swap a p).trans (Equiv.swap (Equiv.swap a p b) q), ?_, by simp⟩
  rw [Equiv.trans_apply, Equiv.swap_apply_left]
  refine Equiv.swap_apply_of_ne_of_ne (fun h => ?_) hpq
  have : Equiv.swap a p a = Equiv.swap a p b := by rw [Equiv.swap_apply_left]; exact h
  exact hab ((Equiv.swap a p).injective this)

/-- The sum over all permutations of a function of the image of one element. -/
theorem perm_sum_one (g : Fin N → ℝ) (a : Fin N) :
    (N : ℝ) * ∑ σ : Equiv.Perm (Fin N), g (σ a) = N.factorial * ∑ p, g p := by
  have h : ∀ b, ∑ σ : Equiv.Perm (Fin N), g (σ b) = ∑ σ : Equiv.Perm (Fin N), g (σ a) := by
    intro b
    refine Fintype.sum_equiv (Equiv.mulRight (Equiv.swap a b)) _ _ fun σ => ?_
    simp
  have h1 : ∑ b, ∑ σ : Equiv.Perm (Fin N), g (σ b) = ∑ σ : Equiv.Perm (Fin N), ∑ p, g p := by
    rw [Finset.sum_comm]
    exact Finset.sum_congr rfl fun σ _ => Equiv.sum_comp σ g
  simp only [h, sum_const, card_univ, Fintype.card_fin, nsmul_eq_mul, Fintype.card_perm] at h1
  exact h1

/-- The sum over all permutations of a function of the images of two elements. -/
theorem perm_sum_two (g : Fin N → Fin N → ℝ) {a b : Fin N} (hab : a ≠ b) :
    (N : ℝ) * (N - 1) * ∑ σ : Equiv.Perm (Fin N), g (σ a) (σ b) = N.factorial * ∑ p, ∑ q, if p = q then 0 else g p q := by
  have h : ∀ c d, c ≠ d → ∑ σ : Equiv.Perm (Fin N), g (σ c) (σ d) = ∑ σ : Equiv.Perm (Fin N), g (σ a) (σ b) := by
    intro c d hcd
    obtain ⟨τ, h1, h2⟩ := exists_perm_pair hab hcd
    refine Fintype.sum_equiv (Equiv.mulRight τ) _ _ fun σ => ?_
    simp [h1, h2]
  have h1 : ∑ c, ∑ d, (if c = d then 0 else ∑ σ : Equiv.Perm (Fin N), g (σ c) (σ d)) =
      ∑ σ : Equiv.Perm (Fin N), ∑ p, ∑ q, if p = q then 0 else g p q := by
    have : ∀ σ : Equiv.Perm (Fin N), ∑ p, ∑ q, (if p = q then 0 else g p q) = ∑ c, ∑ d, if c = d then 0 else g (σ c) (σ d) := by
      intro σ
      rw [← Equiv.sum_comp σ]
      refine Finset.sum_congr rfl fun c _ => ?_
      rw [← Equiv.sum_comp σ]
      refine Finset.sum_congr rfl fun d _ => ?_
      simp
    rw [show (∑ σ : Equiv.Perm (Fin N), ∑ p, ∑ q, if p = q then 0 else g p q) =
      ∑ σ : Equiv.Perm (Fin N), ∑ c, ∑ d, if c = d then 0 else g (σ c) (σ d) from Finset.sum_congr rfl fun σ _ => this σ]
    symm
    rw [Finset.sum_comm]
    refine Finset.sum_congr rfl fun c _ => ?_
    rw [Finset.sum_comm]
    refine Finset.sum_congr rfl fun d _ => ?_
    split <;> simp
  have h2 : ∀ c d, (if c = d then 0 else ∑ σ : Equiv.Perm (Fin N), g (σ c) (σ d)) =
      (1 - if c = d then (1 : ℝ) else 0) * ∑ σ : Equiv.Perm (Fin N), g (σ a) (σ b) := by
    intro c d
    split
    · simp
    · next hcd => rw [h c d hcd]; ring
  simp only [h2, ← Finset.sum_mul, sum_const, card_univ, Fintype.card_perm, Fintype.card_fin, nsmul_eq_mul] at h1
  rw [← h1]
  congr 1
  simp
  ring

/-- Records with the category `i`. -/
theorem card_ind {r : ℕ} (x : Fin N → Fin r) (i : Fin r) : (#{a | x a = i} : ℝ) = ∑ a, if x a = i then (1 : ℝ) else 0 := by
  rw [Finset.card_filter]; push_cast; rfl

theorem card_ind_pairs {r : ℕ} (x : Fin N → Fin r) (i : Fin r) :
    ∑ a, ∑ b, (if a = b then 0 else (if x a = i then (1 : ℝ) else 0) * if x b = i then (1 : ℝ) else 0) =
      (#{a | x a = i} : ℝ) * ((#{a | x a = i} : ℝ) - 1) := by
  have : ∀ a b : Fin N, (if a = b then 0 else (if x a = i then (1 : ℝ) else 0) * if x b = i then (1 : ℝ) else 0) =
      (if x a = i then (1 : ℝ) else 0) * (if x b = i then (1 : ℝ) else 0) - if a = b then (if x a = i then (1 : ℝ) else 0) else 0 := by
    intro a b
    by_cases h : a = b
    · subst h; by_cases h' : x a = i <;> simp [h']
    · simp [h]
  simp only [this, Finset.sum_sub_distrib, ← Finset.mul_sum, ← Finset.sum_mul, Finset.sum_ite_eq, Finset.mem_univ, if_true]
  rw [card_ind]
  ring

section
variable {r c : ℕ} (x : Fin N → Fin r) (y : Fin N → Fin c)

theorem count_ind (σ : Equiv.Perm (Fin N)) (i : Fin r) (j : Fin c) :
    (#{a | x a = i ∧ y (σ a) = j} : ℝ) = ∑ a, (if x a = i then (1 : ℝ) else 0) * if y (σ a) = j then (1 : ℝ) else 0 := by
  rw [Finset.card_filter]
  push_cast
  refine Finset.sum_congr rfl fun a _ => ?_
  by_cases h : x a = i <;> by_cases h' : y (σ a) = j <;> simp [h, h']

/-- First moment of the count of a cell. -/
theorem shuffle_moment_one (i : Fin r) (j : Fin c) :
    (N : ℝ) * ∑ σ : Equiv.Perm (Fin N), (#{a | x a = i ∧ y (σ a) = j} : ℝ) =
      N.factorial * ((#{a | x a = i} : ℝ) * #{a | y a = j}) := by
  simp only [count_ind]
  rw [Finset.sum_comm, Finset.mul_sum]
  have : ∀ a : Fin N, (N : ℝ) * ∑ σ : Equiv.Perm (Fin N), (if x a = i then (1 : ℝ) else 0) * (if y (σ a) = j then (1 : ℝ) else 0) =
      (if x a = i then (1 : ℝ) else 0) * (N.factorial * (#{a | y a = j} : ℝ)) := by
    intro a
    rw [← Finset.mul_sum, mul_left_comm, perm_sum_one (fun p => if y p = j then (1 : ℝ) else 0) a, card_ind y]
  simp only [this, ← Finset.sum_mul, ← card_ind]
  ring

/-- Second moment of the count of a cell. -/
theorem shuffle_moment_two (i : Fin r) (j : Fin c) :
    (N : ℝ) * (N - 1) * ∑ σ : Equiv.Perm (Fin N), (#{a | x a = i ∧ y (σ a) = j} : ℝ) ^ 2 =
      N.factorial * ((#{a | x a = i} : ℝ) * #{a | y a = j}) * ((N - 1) + ((#{a | x a = i} : ℝ) - 1) * ((#{a | y a = j} : ℝ) - 1)) := by
  set X : Fin N → ℝ := fun a => if x a = i then (1 : ℝ) else 0 with hX
  set Y : Fin N → ℝ := fun a => if y a = j then (1 : ℝ) else 0 with hY
  have hYY : ∀ p, Y p * Y p = Y p := fun p => by simp only [hY]; split <;> simp
  have hXX : ∀ p, X p * X p = X p := fun p => by simp only [hX]; split <;> simp
  have e1 : ∀ σ : Equiv.Perm (Fin N), (#{a | x a = i ∧ y (σ a) = j} : ℝ) ^ 2 =
      ∑ a, X a * Y (σ a) + ∑ a, ∑ b, if a = b then 0 else X a * X b * (Y (σ a) * Y (σ b)) := by
    intro σ
    rw [count_ind, sq, Finset.sum_mul_sum, ← Finset.sum_add_distrib]
    refine Finset.sum_congr rfl fun a _ => ?_
    have : ∀ b, (X a * Y (σ a)) * (X b * Y (σ b)) = (if a = b then X a * Y (σ a) else 0) +
        if a = b then 0 else X a * X b * (Y (σ a) * Y (σ b)) := by
      intro b
      by_cases h : a = b
      · subst h
        rw [if_pos rfl, if_pos rfl, add_zero]
        calc _ = (X a * X a) * (Y (σ a) * Y (σ a)) := by ring
          _ = _ := by rw [hXX, hYY]
      · rw [if_neg h, if_neg h]; ring
    change ∑ b, (X a * Y (σ a)) * (X b * Y (σ b)) = _
    simp only [this, Finset.sum_add_distrib, Finset.sum_ite_eq, Finset.mem_univ, if_true]
  simp only [e1, Finset.sum_add_distrib, mul_add]
  have m1 := shuffle_moment_one x y i j
  simp only [count_ind] at m1
  change (N : ℝ) * ∑ σ : Equiv.Perm (Fin N), ∑ a, X a * Y (σ a) = _ at m1
  have m2 : (N : ℝ) * (N - 1) * ∑ σ : Equiv.Perm (Fin N), ∑ a, ∑ b, (if a = b then 0 else X a * X b * (Y (σ a) * Y (σ b))) =
      N.factorial * (((#{a | x a = i} : ℝ) * ((#{a | x a = i} : ℝ) - 1)) * ((#{a | y a = j} : ℝ) * ((#{a | y a = j} : ℝ) - 1))) := by
    rw [Finset.sum_comm, Finset.mul_sum]
    have : ∀ a, (N : ℝ) * (N - 1) * ∑ σ : Equiv.Perm (Fin N), ∑ b, (if a = b then 0 else X a * X b * (Y (σ a) * Y (σ b))) =
        (∑ b, if a = b then 0 else X a * X b) * (N.factorial * ((#{a | y a = j} : ℝ) * ((#{a | y a = j} : ℝ) - 1))) := by
      intro a
      rw [Finset.sum_comm, Finset.mul_sum, Finset.sum_mul]
      refine Finset.sum_congr rfl fun b _ => ?_
      by_cases h : a = b
      · simp [h]
      · simp only [if_neg h]
        rw [← Finset.mul_sum, mul_left_comm, perm_sum_two (fun p q => Y p * Y q) h, card_ind_pairs y j]
    simp only [this, ← Finset.sum_mul]
    rw [card_ind_pairs x i]
    ring
  linear_combination (↑N - 1) * m1 + m2

end

end Phik
