import Verif.Spec.Multinomial
import Mathlib.Probability.ProductMeasure
import Mathlib.MeasureTheory.Measure.Lebesgue.Basic
import Mathlib.Algebra.BigOperators.Intervals
import Mathlib.Data.Nat.Choose.Sum

/-! # An ideal binomial generator exists -/

namespace Phik
open Spec MeasureTheory Finset

theorem binomProb_nonneg (n k : ℕ) {p : ℝ} (h : 0 ≤ p ∧ p ≤ 1) : 0 ≤ binomProb n k p := by
  unfold binomProb
  have : 0 ≤ 1 - p := by linarith [h.2]
  have := h.1
  positivity

theorem binomProb_sum (n : ℕ) (p : ℝ) : ∑ k ∈ range (n + 1), binomProb n k p = 1 := by
  have := add_pow p (1 - p) n
  rw [show p + (1 - p) = 1 by ring, one_pow] at this
  rw [this]
  exact sum_congr rfl fun k _ => by unfold binomProb; ring

/-- Probability of fewer than `k` successes. -/
noncomputable def cumBinom (n : ℕ) (p : ℝ) (k : ℕ) : ℝ := ∑ m ∈ range k, binomProb n m p

theorem cumBinom_mono (n : ℕ) {p : ℝ} (h : 0 ≤ p ∧ p ≤ 1) : Monotone (cumBinom n p) := fun a b hab =>
  sum_le_sum_of_subset_of_nonneg (range_subset_range.2 hab) fun m _ _ => binomProb_nonneg n m h

theorem cumBinom_le_one (n : ℕ) {p : ℝ} (h : 0 ≤ p ∧ p ≤ 1) (k : ℕ) : cumBinom n p k ≤ 1 := by
  rcases le_total k (n + 1) with hk | hk
  · exact (cumBinom_mono n h hk).trans (binomProb_sum n p).le
  · have : cumBinom n p k = cumBinom n p (n + 1) := by
      unfold cumBinom
      symm
      refine sum_subset (range_subset_range.2 hk) fun m _ hm => ?_
      unfold binomProb
      rw [Nat.choose_eq_zero_of_lt (by simpa using hm)]
      simp
    rw [this]
    exact (binomProb_sum n p).le

/-- The quantile of a uniform number. -/
noncomputable def quant (n : ℕ) (p : ℝ) (u : ℝ) : ℕ :=
  open scoped Classical in if u ∈ Set.Ioc (0 : ℝ) 1 then sInf {l | u ≤ cumBinom n p (l + 1)} else 0

theorem quant_iff (n : ℕ) {p : ℝ} (h : 0 ≤ p ∧ p ≤ 1) {u : ℝ} (hu : u ∈ Set.Ioc (0 : ℝ) 1) (k : ℕ) :
    quant n p u = k ↔ u ∈ Set.Ioc (cumBinom n p k) (cumBinom n p (k + 1)) := by
  unfold quant
  rw [if_pos hu]
  have hne : {l | u ≤ cumBinom n p (l + 1)}.Nonempty := ⟨n, by
    change u ≤ cumBinom n p (n + 1)
    unfold cumBinom
    rw [binomProb_sum]; exact hu.2⟩
  constructor
  · rintro rfl
    refine ⟨?_, Nat.sInf_mem hne⟩
    rcases Nat.eq_zero_or_pos (sInf {l | u ≤ cumBinom n p (l + 1)}) with h0 | h0
    · rw [h0]
      simpa [cumBinom] using hu.1
    · by_contra hlt
      have hm : sInf {l | u ≤ cumBinom n p (l + 1)} - 1 ∈ {l | u ≤ cumBinom n p (l + 1)} := by
        change u ≤ cumBinom n p (sInf {l | u ≤ cumBinom n p (l + 1)} - 1 + 1)
        rw [Nat.sub_add_cancel h0]
        exact not_lt.1 hlt
      have := Nat.sInf_le hm
      omega
  · rintro ⟨h1, h2⟩
    refine le_antisymm (Nat.sInf_le h2) ?_
    by_contra hlt
    have hm : u ≤ cumBinom n p (sInf {l | u ≤ cumBinom n p (l + 1)} + 1) := Nat.sInf_mem hne
    have := cumBinom_mono n h (show sInf {l | u ≤ cumBinom n p (l + 1)} + 1 ≤ k by omega)
    linarith

theorem quant_inter (n : ℕ) {p : ℝ} (h : 0 ≤ p ∧ p ≤ 1) (k : ℕ) :
    {u | quant n p u = k} ∩ Set.Ioc 0 1 = Set.Ioc (cumBinom n p k) (cumBinom n p (k + 1)) := by
  ext u
  constructor
  · rintro ⟨h1, h2⟩
    exact (quant_iff n h h2 k).1 h1
  · intro hu
    have h2 : u ∈ Set.Ioc (0 : ℝ) 1 :=
      ⟨lt_of_le_of_lt (sum_nonneg fun m _ => binomProb_nonneg n m h) hu.1, hu.2.trans (cumBinom_le_one n h _)⟩
    exact ⟨(quant_iff n h h2 k).2 hu, h2⟩

theorem quant_measurable (n : ℕ) {p : ℝ} (h : 0 ≤ p ∧ p ≤ 1) (k : ℕ) : MeasurableSet {u | quant n p u = k} := by
  have : {u | quant n p u = k} = Set.Ioc (cumBinom n p k) (cumBinom n p (k + 1)) ∪
      (if k = 0 then (Set.Ioc (0 : ℝ) 1)ᶜ else ∅) := by
    rw [← quant_inter n h k]
    ext u
    by_cases hu : u ∈ Set.Ioc (0 : ℝ) 1
    · by_cases hk : k = 0 <;> simp [hu, hk]
    · have : quant n p u = 0 := by unfold quant; rw [if_neg hu]
      by_cases hk : k = 0
      · simp [hu, hk, this]
      · simp only [Set.mem_ofPred_eq, this, Set.mem_union, Set.mem_inter_iff, hu, and_false, hk, if_false,
          Set.mem_empty_iff_false, or_false, iff_false]
        exact fun h => hk h.symm
  rw [this]
  refine measurableSet_Ioc.union ?_
  split
  · exact measurableSet_Ioc.compl
  · exact MeasurableSet.empty

/-- Independent uniform numbers, one for each request. -/
noncomputable def uniforms (ι : Type) : Measure (ι × ℕ → ℝ) :=
  Measure.infinitePi fun _ => (volume : Measure ℝ).restrict (Set.Ioc 0 1)

instance : IsProbabilityMeasure ((volume : Measure ℝ).restrict (Set.Ioc 0 1)) := ⟨by simp⟩

/-- **Ideal binomial generators exist**: quantiles of independent uniform numbers. -/
theorem idealBinom_quant (ι : Type) : IdealBinom (uniforms ι) fun ω i j n p => quant n p (ω (i, j)) := by
  constructor
  · intro i j n k p hp
    have h : Measurable fun ω : ι × ℕ → ℝ => ω (i, j) := measurable_pi_apply (i, j)
    exact h (quant_measurable n hp k)
  intro s n k p hp
  have hset : {ω : ι × ℕ → ℝ | ∀ q ∈ s, quant (n q) (p q) (ω (q.1, q.2)) = k q} =
      Set.pi s fun q => {u | quant (n q) (p q) u = k q} := rfl
  rw [hset]
  unfold uniforms
  rw [Measure.infinitePi_pi _ fun q hq => quant_measurable (n q) (hp q hq) (k q),
    ENNReal.ofReal_prod_of_nonneg fun q hq => binomProb_nonneg _ _ (hp q hq)]
  refine prod_congr rfl fun q hq => ?_
  rw [Measure.restrict_apply (quant_measurable (n q) (hp q hq) (k q)), quant_inter (n q) (hp q hq), Real.volume_Ioc]
  congr 1
  unfold cumBinom
  rw [sum_range_succ]; ring

end Phik
