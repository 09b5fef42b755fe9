import Verif.Lemmas.OutlierLimit
import Verif.Lemmas.NegBinCLT

/-! # The outlier p-value of a cell in the limit of many records, close to the expectation -/

namespace Phik.Props
open Phik.Spec Phik.Out Phik.BetaCF MeasureTheory ProbabilityTheory Topology
open Filter (Tendsto atTop Eventually)

/-- The asymptotic variance of the difference of observation and expectation, per record. -/
noncomputable def cellVar (β γ δ : ℝ) : ℝ := β * γ / δ * (1 + 1 / cellTau β γ δ)

theorem cellVar_pos {β γ δ : ℝ} (hβ : 0 < β) (hγ : 0 < γ) (hδ : 0 < δ) : 0 < cellVar β γ δ := by
  unfold cellVar cellTau; positivity

theorem midTail_normal {σ : ℝ → ℝ} (hσu : GoodUnc σ) {A B C D N : ℕ → ℕ} {β γ δ x : ℝ} (hN : Tendsto (fun n => (N n : ℝ)) atTop atTop)
    (hB : Tendsto (fun n => (B n : ℝ) / N n) atTop (𝓝 β))
    (hC : Tendsto (fun n => (C n : ℝ) / N n) atTop (𝓝 γ)) (hD : Tendsto (fun n => (D n : ℝ) / N n) atTop (𝓝 δ))
    (hβ : 0 < β) (hγ : 0 < γ) (hδ : 0 < δ)
    (hx : Tendsto (fun n => ((A n : ℝ) - B n * C n / D n) / √(N n)) atTop (𝓝 x)) :
    Tendsto (fun n => midTail (abcd (B n) (C n) (D n)) (abcdErr σ (B n) (C n) (D n)) (A n)) atTop
      (𝓝 (normCdf (-(x / √(cellVar β γ δ))))) := by
  set α := β * γ / δ with hα
  have hα0 : 0 < α := by positivity
  set τ0 := cellTau β γ δ with hτ0d
  have hτ0 : 0 < τ0 := by rw [hτ0d]; unfold cellTau; positivity
  set V := cellVar β γ δ with hV
  have hV0 : 0 < V := cellVar_pos hβ hγ hδ
  have hVe : V = α * (1 + 1 / τ0) := rfl
  have good : ∀ᶠ n in atTop, 0 < N n ∧ 0 < B n ∧ 0 < C n ∧ 0 < D n := by
    filter_upwards [hN.eventually_gt_atTop 0, hB.eventually (lt_mem_nhds hβ), hC.eventually (lt_mem_nhds hγ), hD.eventually (lt_mem_nhds hδ)] with n h1 h2 h3 h4
    have pos : ∀ m : ℕ, 0 < (m : ℝ) / N n → 0 < m := by
      intro m hm
      rcases Nat.eq_zero_or_pos m with h | h
      · rw [h] at hm; simp at hm
      · exact h
    exact ⟨by exact_mod_cast h1, pos _ h2, pos _ h3, pos _ h4⟩
  obtain ⟨K, hK⟩ := Filter.eventually_atTop.1 good
  rw [← Filter.tendsto_add_atTop_iff_nat K]
  replace hN := (Filter.tendsto_add_atTop_iff_nat K).2 hN
  replace hB := (Filter.tendsto_add_atTop_iff_nat K).2 hB
  replace hC := (Filter.tendsto_add_atTop_iff_nat K).2 hC
  replace hD := (Filter.tendsto_add_atTop_iff_nat K).2 hD
  replace hx := (Filter.tendsto_add_atTop_iff_nat K).2 hx
  have hg := fun n => hK (n + K) (Nat.le_add_left K n)
  have hct := fun n => countTail_cell hσu (B := B (n + K)) (C := C (n + K)) (D := D (n + K)) (by have := (hg n).2.2.2; omega)
    (by have := (hg n).2.1; omega)
  have hτ : Tendsto (fun n => cellRatio σ (B (n + K)) (C (n + K)) (D (n + K))) atTop (𝓝 τ0) := by
    have grow : ∀ (X : ℕ → ℕ) (ξ : ℝ), 0 < ξ → Tendsto (fun n => (X (n + K) : ℝ) / N (n + K)) atTop (𝓝 ξ) →
        Tendsto (fun n => σ (X (n + K)) ^ 2 / X (n + K)) atTop (𝓝 1) := by
      intro X ξ hξ hX
      have h1 : Tendsto (fun n => (X (n + K) : ℝ)) atTop atTop := by
        refine (hX.pos_mul_atTop hξ hN).congr fun n => ?_
        have : (N (n + K) : ℝ) ≠ 0 := by exact_mod_cast (hg n).1.ne'
        field_simp
      exact hσu.ratio.comp (tendsto_natCast_atTop_iff.1 h1)
    have h1 := (((grow B β hβ hB).mul (hC.div hD hδ.ne')).add ((grow C γ hγ hC).mul (hB.div hD hδ.ne'))).add
      ((grow D δ hδ hD).mul ((hB.mul hC).div (hD.pow 2) (by positivity)))
    have h2 := h1.inv₀ (by positivity)
    have h3 : (1 * (γ / δ) + 1 * (β / δ) + 1 * (β * γ / δ ^ 2))⁻¹ = τ0 := by
      rw [hτ0d]; unfold cellTau; field_simp
    rw [h3] at h2
    refine h2.congr fun n => ?_
    obtain ⟨n1, n2, n3, n4⟩ := hg n
    rw [((hct n).2.2.2.2.1 n2.ne' n3.ne').2, one_div]
    have e0 : (N (n + K) : ℝ) ≠ 0 := by exact_mod_cast n1.ne'
    have e4 : (D (n + K) : ℝ) ≠ 0 := by exact_mod_cast n4.ne'
    congr 1
    simp only [Pi.div_apply, Pi.mul_apply, Pi.pow_apply]
    congr 1
    · congr 1
      · congr 1; field_simp
      · congr 1; field_simp
    · congr 1; field_simp
  have hE : Tendsto (fun n => (B (n + K) : ℝ) * C (n + K) / D (n + K) / N (n + K)) atTop (𝓝 α) := by
    refine ((hB.mul hC).div hD hδ.ne').congr fun n => ?_
    obtain ⟨n1, -, -, n2⟩ := hg n
    have : (N (n + K) : ℝ) ≠ 0 := by exact_mod_cast n1.ne'
    have : (D (n + K) : ℝ) ≠ 0 := by exact_mod_cast n2.ne'
    change (B (n + K) : ℝ) / N (n + K) * (C (n + K) / N (n + K)) / (D (n + K) / N (n + K)) = _
    field_simp
  have hEe : ∀ n, cellExp σ (B (n + K)) (C (n + K)) (D (n + K)) = (B (n + K) : ℝ) * C (n + K) / D (n + K) := by
    intro n
    obtain ⟨-, n1, n2, -⟩ := hg n
    exact ((hct n).2.2.2.2.1 n1.ne' n2.ne').1
  have hsq : Tendsto (fun n => √(N (n + K) : ℝ)) atTop atTop := Real.tendsto_sqrt_atTop.comp hN
  have hσ : Tendsto (fun n => √(N (n + K) : ℝ) * √V) atTop atTop := hsq.atTop_mul_const (Real.sqrt_pos.2 hV0)
  have hNi : Tendsto (fun n => ((N (n + K) : ℝ))⁻¹) atTop (𝓝 0) := tendsto_inv_atTop_zero.comp hN
  have hbl : Tendsto (fun n => (cellExp σ (B (n + K)) (C (n + K)) (D (n + K)) * cellRatio σ (B (n + K)) (C (n + K)) (D (n + K)) + 1) /
      (√(N (n + K) : ℝ) * √V) ^ 2) atTop (𝓝 (α * τ0 / V)) := by
    have := (((hE.mul hτ).add hNi).div_const V)
    rw [add_zero] at this
    refine this.congr fun n => ?_
    obtain ⟨n1, -, -, -⟩ := hg n
    have h1 : (N (n + K) : ℝ) ≠ 0 := by exact_mod_cast n1.ne'
    rw [mul_pow, Real.sq_sqrt (Nat.cast_nonneg _), Real.sq_sqrt hV0.le, hEe]
    field_simp
  have hκ : α * τ0 / V * (1 / τ0 + 1 / τ0 ^ 2) = 1 := by
    rw [hVe]; field_simp
  have hdev : ∀ j : ℕ, Tendsto (fun n => (((A (n + K) + j : ℕ) : ℝ) - (cellExp σ (B (n + K)) (C (n + K)) (D (n + K)) * cellRatio σ (B (n + K)) (C (n + K)) (D (n + K)) + 1) /
      cellRatio σ (B (n + K)) (C (n + K)) (D (n + K))) / (√(N (n + K) : ℝ) * √V)) atTop (𝓝 (x / √V)) := by
    intro j
    have h1 : Tendsto (fun n => ((j : ℝ) - 1 / cellRatio σ (B (n + K)) (C (n + K)) (D (n + K))) / (√(N (n + K) : ℝ) * √V)) atTop (𝓝 0) :=
      (tendsto_const_nhds.sub (tendsto_const_nhds.div hτ hτ0.ne')).div_atTop hσ
    have h2 := (hx.div_const √V).add h1
    rw [add_zero] at h2
    refine h2.congr fun n => ?_
    have ht : cellRatio σ (B (n + K)) (C (n + K)) (D (n + K)) ≠ 0 := (hct n).2.1.ne'
    rw [hEe, div_div, ← add_div]
    congr 1
    push_cast
    field_simp
    ring
  have hlim : ∀ j : ℕ, Tendsto (fun n => countTail (abcd (B (n + K)) (C (n + K)) (D (n + K)))
      (abcdErr σ (B (n + K)) (C (n + K)) (D (n + K))) (A (n + K) + j)) atTop (𝓝 (normCdf (-(x / √V)))) := by
    intro j
    refine (mixture_tail_limit (fun n => ?_) (fun n => (hct n).2.1) hτ0 hσ hτ hbl hκ (hdev j)).congr fun n => ((hct n).2.2.2.1 _).symm
    have := mul_pos (hct n).2.2.1 (hct n).2.1
    linarith
  have h0 := hlim 0
  have h1 := hlim 1
  have := (h0.add h1).div_const 2
  rw [← two_mul, mul_div_cancel_left₀ _ (two_ne_zero' ℝ)] at this
  exact this

end Phik.Props
