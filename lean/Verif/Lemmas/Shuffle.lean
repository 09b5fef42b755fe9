import Verif.Spec.SamplerLaw
import Mathlib.GroupTheory.Perm.DomMulAct
import Mathlib.Data.Fintype.BigOperators

/-! # Counting the shuffles of the records that lead to a table -/

namespace Phik
open Finset

variable {α β γ : Type*} [Fintype α] [DecidableEq α] [Fintype β] [DecidableEq β] [Fintype γ] [DecidableEq γ]

theorem exists_perm {f g : α → β} (h : ∀ b, #{a | f a = b} = #{a | g a = b}) : ∃ σ : Equiv.Perm α, f ∘ σ = g := by
  have e : ∀ b, Nonempty ({a // g a = b} ≃ {a // f a = b}) := fun b => by
    refine ⟨Fintype.equivOfCardEq ?_⟩
    rw [Fintype.card_subtype, Fintype.card_subtype, h b]
  refine ⟨Equiv.ofFiberEquiv fun b => (e b).some, ?_⟩
  ext a
  exact Equiv.ofFiberEquiv_map _ a

/-- The permutations that carry `f` to `g`. -/
theorem card_perm {f g : α → β} (h : ∀ b, #{a | f a = b} = #{a | g a = b}) :
    #{σ : Equiv.Perm α | f ∘ σ = g} = ∏ b, (#{a | f a = b}).factorial := by
  obtain ⟨τ, hτ⟩ := exists_perm h
  have h1 : #{σ : Equiv.Perm α | f ∘ σ = g} = #{σ : Equiv.Perm α | f ∘ σ = f} := by
    refine Finset.card_bij (fun σ _ => σ * τ⁻¹) ?_ ?_ ?_
    · intro σ hσ
      simp only [mem_filter, mem_univ, true_and] at hσ ⊢
      rw [Equiv.Perm.coe_mul, ← Function.comp_assoc, hσ, ← hτ, Function.comp_assoc]
      ext a; simp
    · intro σ _ σ' _ h
      exact mul_right_cancel h
    · intro σ hσ
      simp only [mem_filter, mem_univ, true_and] at hσ
      refine ⟨σ * τ, ?_, by simp⟩
      simp only [mem_filter, mem_univ, true_and]
      rw [Equiv.Perm.coe_mul, ← Function.comp_assoc, hσ, hτ]
  rw [h1, ← Fintype.card_subtype, DomMulAct.stabilizer_card]
  refine Finset.prod_congr rfl fun b _ => ?_
  rw [Fintype.card_subtype]

/-- A column variable with a given table against `x`. -/
theorem exists_shuffled (x : α → β) (X : β → γ → ℕ) (h : ∀ i, ∑ j, X i j = #{a | x a = i}) :
    ∃ z : α → γ, ∀ i j, #{a | x a = i ∧ z a = j} = X i j := by
  have e : ∀ i, Nonempty ({a // x a = i} ≃ Σ j, Fin (X i j)) := fun i => by
    refine ⟨Fintype.equivOfCardEq ?_⟩
    rw [Fintype.card_subtype, Fintype.card_sigma]
    simp [h i]
  refine ⟨fun a => ((e (x a)).some ⟨a, rfl⟩).1, fun i j => ?_⟩
  have : X i j = Fintype.card {p : Σ j, Fin (X i j) // p.1 = j} := by
    rw [Fintype.card_congr (Equiv.sigmaSubtype j), Fintype.card_fin]
  rw [this, ← Fintype.card_subtype]
  refine Fintype.card_congr ?_
  refine Equiv.trans (β := {q : {a // x a = i} // ((e i).some q).1 = j}) ?_ ((e i).some.subtypeEquiv fun q => Iff.rfl)
  refine Equiv.trans ?_ (Equiv.subtypeSubtypeEquivSubtypeExists _ _).symm
  refine Equiv.subtypeEquivRight fun a => ?_
  constructor
  · rintro ⟨rfl, h⟩; exact ⟨rfl, h⟩
  · rintro ⟨rfl, h⟩; exact ⟨rfl, h⟩

/-- The number of shuffles that lead to a table. -/
theorem shuffle_count (x : α → β) (y : α → γ) (X : β → γ → ℕ) (hr : ∀ i, ∑ j, X i j = #{a | x a = i})
    (hc : ∀ j, ∑ i, X i j = #{a | y a = j}) :
    #{σ : Equiv.Perm α | ∀ i j, #{a | x a = i ∧ y (σ a) = j} = X i j} * ∏ i, ∏ j, (X i j).factorial =
      (∏ i, (#{a | x a = i}).factorial) * ∏ j, (#{a | y a = j}).factorial := by
  obtain ⟨z0, hz0⟩ := exists_shuffled x X hr
  set S : Finset (α → γ) := {z | ∀ i j, #{a | x a = i ∧ z a = j} = X i j} with hS
  have hcol : ∀ z ∈ S, ∀ j, #{a | y a = j} = #{a | z a = j} := by
    intro z hz j
    simp only [hS, mem_filter, mem_univ, true_and] at hz
    rw [← hc j, Finset.card_eq_sum_card_fiberwise (f := x) (t := univ) (fun _ _ => mem_coe.2 (mem_univ _))]
    refine Finset.sum_congr rfl fun i _ => ?_
    rw [← hz i j, Finset.filter_filter]
    congr 1; ext a; simp [and_comm]
  have h1 : #{σ : Equiv.Perm α | ∀ i j, #{a | x a = i ∧ y (σ a) = j} = X i j} = #S * ∏ j, (#{a | y a = j}).factorial := by
    rw [Finset.card_eq_sum_card_fiberwise (f := fun σ : Equiv.Perm α => y ∘ σ) (t := S), Finset.sum_const_nat]
    · intro z hz
      rw [← card_perm (hcol z hz), Finset.filter_filter]
      congr 1; ext σ
      simp only [mem_filter, mem_univ, true_and]
      refine ⟨fun h => h.2, fun h => ⟨?_, h⟩⟩
      simp only [hS, mem_filter, mem_univ, true_and] at hz
      intro i j
      rw [← hz i j, ← h]
      rfl
    · intro σ hσ
      simpa [hS] using hσ
  have h2 : (∏ i, (#{a | x a = i}).factorial) = #S * ∏ i, ∏ j, (X i j).factorial := by
    rw [← card_perm (f := x) (g := x) fun _ => rfl,
      Finset.card_eq_sum_card_fiberwise (f := fun σ : Equiv.Perm α => z0 ∘ σ) (t := S), Finset.sum_const_nat]
    · intro z hz
      simp only [hS, mem_filter, mem_univ, true_and] at hz
      have e := card_perm (f := fun a => (x a, z0 a)) (g := fun a => (x a, z a)) (fun b => by
        obtain ⟨i, j⟩ := b
        simp only [Prod.mk.injEq]
        rw [hz0, hz])
      rw [Fintype.prod_prod_type] at e
      simp only [Prod.mk.injEq, hz0] at e
      rw [← e, Finset.filter_filter]
      congr 1; ext σ
      simp only [mem_filter, mem_univ, true_and, funext_iff, Function.comp, Prod.mk.injEq, forall_and]
    · intro σ hσ
      simp only [coe_filter, mem_univ, true_and, Set.mem_ofPred_eq] at hσ
      simp only [hS, coe_filter, mem_univ, true_and, Set.mem_ofPred_eq]
      intro i j
      rw [← hz0 i j]
      refine Finset.card_bij (fun a _ => σ a) ?_ (fun _ _ _ _ h => σ.injective h) ?_
      · intro a ha
        simp only [mem_filter, mem_univ, true_and, Function.comp] at ha ⊢
        exact ⟨by rw [← ha.1, ← congrFun hσ a]; rfl, ha.2⟩
      · intro a ha
        simp only [mem_filter, mem_univ, true_and] at ha
        refine ⟨σ⁻¹ a, ?_, by simp⟩
        simp only [mem_filter, mem_univ, true_and, Function.comp]
        refine ⟨?_, by simpa using ha.2⟩
        rw [← ha.1, ← congrFun hσ (σ⁻¹ a)]
        simp
  rw [h1, h2]; ring

end Phik
