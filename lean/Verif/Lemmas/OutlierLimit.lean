import Verif.Props.OutlierTable
import Verif.Lemmas.BetaCheb
import Verif.Lemmas.GammaCLT

/-! # The outlier p-value of a cell as an incomplete beta function, and its limits -/

namespace Phik.Props
open Phik.Spec Phik.Out Phik.BetaCF MeasureTheory ProbabilityTheory Topology
open Filter (Tendsto atTop Eventually)

/-- A CI method of the outlier matrix: the square root, or the exact Poisson uncertainty with the true quantiles of the chi2 distribution. -/
def GoodCI (N : OutNum) (ci : String) : Prop := ci = "poisson" ∨ ci = "exact_poisson" ∧ ExactQuantiles N

theorem GoodCI.unc {N : OutNum} {ci : String} (h : GoodCI N ci) : GoodUnc (uncertaintyOf N ci) := by
  rcases h with rfl | ⟨rfl, h⟩
  · exact goodUnc_poisson
  · exact goodUnc_exact h

theorem goodCI_true {ci : String} (h : ci = "poisson" ∨ ci = "exact_poisson") : GoodCI trueOut ci := h.imp_right fun h => ⟨h, trueOut_quantiles⟩

/-- **C45.** The outlier matrix of a table with either CI method. -/
theorem outlier_table_any {N : OutNum} (h : OutExact N) {ci : String} (hci : GoodCI N ci) (t : Arr2 ℕ) :
    ∃ v, outlierFromHist2d N t ci = .ok ⟨t.r, t.c, v⟩ ∧ ∀ i j,
      let e := abcd (inRow t i j) (inCol t i j) (elsewhere t i j)
      let s := abcdErr (uncertaintyOf N ci) (inRow t i j) (inCol t i j) (elsewhere t i j)
      (elsewhere t i j = 0 → v i j = (none, none)) ∧
      (elsewhere t i j ≠ 0 → ¬ (inRow t i j = 0 ∧ inCol t i j = 0) →
        v i j = (some (midTail e s (t.v i j)), some (-normPpf (midTail e s (t.v i j)))) ∧
        0 < midTail e s (t.v i j) ∧ midTail e s (t.v i j) < 1 ∧
        ∃ z : ℝ, normCdf (-z) = midTail e s (t.v i j) ∧ (v i j).2 = some (z : EReal)) ∧
      (elsewhere t i j ≠ 0 → inRow t i j = 0 → inCol t i j = 0 →
        (t.v i j = 0 → v i j = (some (1 / 2), some 0)) ∧ (t.v i j ≠ 0 → v i j = (some 0, none))) :=
  outlier_table_ci h (hci.imp_right And.left) hci.unc.pos t

/-- The ratio `tau` of Linnemann's method for the expectation `B C / D` with the propagated uncertainty of square roots. -/
noncomputable def cellTau (B C D : ℝ) : ℝ := D ^ 2 / (C * D + B * D + B * C)

/-- The expectation used by Linnemann's method: `B C / D`, or the uncertainty if that is zero. -/
noncomputable def cellExp (σ : ℝ → ℝ) (B C D : ℝ) : ℝ := if 0 < abcd B C D then abcd B C D else abcdErr σ B C D

/-- The ratio `tau` of Linnemann's method. -/
noncomputable def cellRatio (σ : ℝ → ℝ) (B C D : ℝ) : ℝ := cellExp σ B C D / abcdErr σ B C D ^ 2

theorem GoodUnc.bounds {σ : ℝ → ℝ} (h : GoodUnc σ) : ∃ k K : ℝ, 0 < k ∧ 0 < K ∧ k ≤ σ 0 ∧ σ 0 ≤ K ∧ ∀ m : ℕ, m ≠ 0 → k * m ≤ σ m ^ 2 ∧ σ m ^ 2 ≤ K * m := by
  obtain ⟨M, hM⟩ := h.ratio.bddAbove_range
  have h2 := h.ratio.inv₀ one_ne_zero
  obtain ⟨L, hL⟩ := h2.bddAbove_range
  have h0 : 0 < σ 0 := by simpa using h.pos 0
  refine ⟨min (1 / max L 1) (σ 0), max (max M 1) (σ 0), by positivity, by positivity, min_le_right _ _, le_max_right _ _, fun m hm => ?_⟩
  have hm' : (0 : ℝ) < m := by exact_mod_cast Nat.pos_of_ne_zero hm
  have hs := h.pos m
  have a := hM ⟨m, rfl⟩
  have b := hL ⟨m, rfl⟩
  simp only [inv_div] at a b
  rw [div_le_iff₀ hm'] at a
  rw [div_le_iff₀ (by positivity)] at b
  constructor
  · calc min (1 / max L 1) (σ 0) * m ≤ 1 / max L 1 * m := by gcongr; exact min_le_left _ _
      _ ≤ 1 / max L 1 * (max L 1 * σ m ^ 2) := by
        gcongr
        exact b.trans (by gcongr; exact le_max_left _ _)
      _ = σ m ^ 2 := by field_simp
  · exact a.trans (by gcongr; exact (le_max_left M 1).trans (le_max_left _ _))

/-- The parameters of the gamma distribution of Linnemann's method. -/
theorem countTail_cell {σ : ℝ → ℝ} (hσ : GoodUnc σ) {B C D : ℕ} (hD : D ≠ 0) (hBC : ¬ (B = 0 ∧ C = 0)) :
    0 < abcdErr σ B C D ∧ 0 < cellRatio σ B C D ∧ 0 < cellExp σ B C D ∧
    (∀ n, countTail (abcd B C D) (abcdErr σ B C D) n =
      gammaPoissonTail n (cellExp σ B C D * cellRatio σ B C D + 1) (cellRatio σ B C D)) ∧
    (B ≠ 0 → C ≠ 0 → cellExp σ B C D = B * C / D ∧
      cellRatio σ B C D = 1 / (σ B ^ 2 / B * (C / D) + σ C ^ 2 / C * (B / D) + σ D ^ 2 / D * (B * C / D ^ 2))) ∧
    ((B = 0 ∨ C = 0) → cellExp σ B C D = σ 0 * (B + C) / D ∧ cellRatio σ B C D = cellTau B C D / σ 0) := by
  have hD' : (0 : ℝ) < D := by exact_mod_cast Nat.pos_of_ne_zero hD
  have hD0 : (D : ℝ) ≠ 0 := hD'.ne'
  have h0 : 0 < σ 0 := by simpa using hσ.pos 0
  have main : 0 < abcdErr σ B C D ∧ 0 ≤ abcd (B : ℝ) C D ∧
    (B ≠ 0 → C ≠ 0 → cellExp σ B C D = B * C / D ∧
      cellRatio σ B C D = 1 / (σ B ^ 2 / B * (C / D) + σ C ^ 2 / C * (B / D) + σ D ^ 2 / D * (B * C / D ^ 2))) ∧
    ((B = 0 ∨ C = 0) → cellExp σ B C D = σ 0 * (B + C) / D ∧ cellRatio σ B C D = cellTau B C D / σ 0) := by
    unfold cellRatio cellExp
    rw [← abcdErr_eq _ _ _ hD0]
    by_cases hB : B = 0
    · have hC : C ≠ 0 := fun h => hBC ⟨hB, h⟩
      have hC' : (0 : ℝ) < C := by exact_mod_cast Nat.pos_of_ne_zero hC
      subst hB
      have es : √((σ ((0 : ℕ) : ℝ) * C / D) ^ 2 + (σ C * ((0 : ℕ) : ℝ) / D) ^ 2 +
          (σ D * (((0 : ℕ) : ℝ) * C / D) / D) ^ 2) = σ 0 * C / D := by
        rw [Nat.cast_zero]
        simp only [mul_zero, zero_mul, zero_div, ne_eq, OfNat.ofNat_ne_zero, not_false_eq_true, zero_pow, add_zero]
        exact Real.sqrt_sq (by positivity)
      rw [es]
      have e1 : cellTau ((0 : ℕ) : ℝ) C D = D / C := by unfold cellTau; push_cast; field_simp; ring
      have e3 : abcd ((0 : ℕ) : ℝ) C D = 0 := by unfold abcd; simp
      rw [e1, e3, if_neg (lt_irrefl _)]
      refine ⟨by positivity, le_rfl, fun h => absurd rfl h, fun _ => ⟨by simp, ?_⟩⟩
      field_simp
    have hB' : (0 : ℝ) < B := by exact_mod_cast Nat.pos_of_ne_zero hB
    by_cases hC : C = 0
    · subst hC
      have es : √((σ B * ((0 : ℕ) : ℝ) / D) ^ 2 + (σ ((0 : ℕ) : ℝ) * B / D) ^ 2 +
          (σ D * (B * ((0 : ℕ) : ℝ) / D) / D) ^ 2) = σ 0 * B / D := by
        rw [Nat.cast_zero]
        simp only [mul_zero, zero_div, ne_eq, OfNat.ofNat_ne_zero, not_false_eq_true, zero_pow, add_zero, zero_add]
        exact Real.sqrt_sq (by positivity)
      rw [es]
      have e1 : cellTau B ((0 : ℕ) : ℝ) D = D / B := by unfold cellTau; push_cast; field_simp; ring
      have e3 : abcd B ((0 : ℕ) : ℝ) D = 0 := by unfold abcd; simp
      rw [e1, e3, if_neg (lt_irrefl _)]
      refine ⟨by positivity, le_rfl, fun _ h => absurd rfl h, fun _ => ⟨by simp, ?_⟩⟩
      field_simp
    have hC' : (0 : ℝ) < C := by exact_mod_cast Nat.pos_of_ne_zero hC
    have sB := hσ.pos B
    have sC := hσ.pos C
    have sD := hσ.pos D
    have hs2 : 0 < (σ B * C / D) ^ 2 + (σ C * B / D) ^ 2 + (σ D * (B * C / D) / D) ^ 2 := by positivity
    have ea : abcd (B : ℝ) C D = B * C / D := rfl
    have hEp : 0 < (B * C / D : ℝ) := by positivity
    rw [ea, if_pos hEp]
    refine ⟨Real.sqrt_pos.2 hs2, hEp.le, fun _ _ => ⟨rfl, ?_⟩, fun h => absurd h (by tauto)⟩
    rw [Real.sq_sqrt hs2.le]
    field_simp
  obtain ⟨m1, m2, m3, m4⟩ := main
  have hE : 0 < cellExp σ B C D := by
    unfold cellExp
    split
    · assumption
    · exact m1
  refine ⟨m1, by unfold cellRatio; positivity, hE, fun n => ?_, m3, m4⟩
  unfold countTail cellRatio cellExp
  rw [if_pos m1]
  split <;> rfl

/-- `tau` is of the size it has for square roots. -/
theorem cellRatio_bounds {σ : ℝ → ℝ} (hσ : GoodUnc σ) : ∃ k K : ℝ, 0 < k ∧ 0 < K ∧ ∀ B C D : ℕ, D ≠ 0 → ¬ (B = 0 ∧ C = 0) →
    k * cellTau B C D ≤ cellRatio σ B C D ∧ cellRatio σ B C D ≤ K * cellTau B C D := by
  obtain ⟨k, K, hk, hK, k0, K0, hb⟩ := hσ.bounds
  have h0 : 0 < σ 0 := by simpa using hσ.pos 0
  refine ⟨1 / K, 1 / k, by positivity, by positivity, fun B C D hD hBC => ?_⟩
  have hD' : (0 : ℝ) < D := by exact_mod_cast Nat.pos_of_ne_zero hD
  obtain ⟨-, -, -, -, h1, h2⟩ := countTail_cell hσ hD hBC
  by_cases hz : B = 0 ∨ C = 0
  · rw [(h2 hz).2]
    have ht : 0 ≤ cellTau B C D := by unfold cellTau; positivity
    constructor
    · rw [div_mul_eq_mul_div, one_mul]; gcongr
    · rw [div_mul_eq_mul_div, one_mul]; gcongr
  push Not at hz
  obtain ⟨hB, hC⟩ := hz
  have hB' : (0 : ℝ) < B := by exact_mod_cast Nat.pos_of_ne_zero hB
  have hC' : (0 : ℝ) < C := by exact_mod_cast Nat.pos_of_ne_zero hC
  rw [(h1 hB hC).2]
  have sB := hσ.pos B
  have sC := hσ.pos C
  have sD := hσ.pos D
  have r : ∀ m : ℕ, m ≠ 0 → k ≤ σ m ^ 2 / m ∧ σ m ^ 2 / m ≤ K := by
    intro m hm
    have hm' : (0 : ℝ) < m := by exact_mod_cast Nat.pos_of_ne_zero hm
    exact ⟨by rw [le_div_iff₀ hm']; exact (hb m hm).1, by rw [div_le_iff₀ hm']; exact (hb m hm).2⟩
  have e : ∀ c : ℝ, 0 < c → 1 / c * cellTau B C D = 1 / (c * (C / D) + c * (B / D) + c * (B * C / D ^ 2)) := by
    intro c hc
    unfold cellTau
    field_simp
  rw [e K hK, e k hk]
  constructor
  · gcongr
    · exact (r B hB).2
    · exact (r C hC).2
    · exact (r D hD).2
  · gcongr
    · exact (r B hB).1
    · exact (r C hC).1
    · exact (r D hD).1

/-- The mid-p value of a cell tends to 0 if the cell has more records than expected, to 1 if it has less. -/
theorem midTail_limit {σ : ℝ → ℝ} (hσ : GoodUnc σ) {A B C D N : ℕ → ℕ} {α β γ δ : ℝ} (hN : Tendsto (fun n => (N n : ℝ)) atTop atTop)
    (hA : Tendsto (fun n => (A n : ℝ) / N n) atTop (𝓝 α)) (hB : Tendsto (fun n => (B n : ℝ) / N n) atTop (𝓝 β))
    (hC : Tendsto (fun n => (C n : ℝ) / N n) atTop (𝓝 γ)) (hD : Tendsto (fun n => (D n : ℝ) / N n) atTop (𝓝 δ))
    (hα : 0 ≤ α) (hβ : 0 ≤ β) (hγ : 0 ≤ γ) (hδ : 0 < δ) (hβγ : 0 < β + γ) :
    (β * γ / δ < α → Tendsto (fun n => midTail (abcd (B n) (C n) (D n)) (abcdErr σ (B n) (C n) (D n)) (A n))
      atTop (𝓝 0)) ∧
    (α < β * γ / δ → Tendsto (fun n => midTail (abcd (B n) (C n) (D n)) (abcdErr σ (B n) (C n) (D n)) (A n))
      atTop (𝓝 1)) := by
  have hN0 : ∀ᶠ n in atTop, 0 < (N n : ℝ) := hN.eventually_gt_atTop 0
  have h0 : 0 < σ 0 := by simpa using hσ.pos 0
  have hden : 0 < γ * δ + β * δ + β * γ := by
    have : 0 < (β + γ) * δ := mul_pos hβγ hδ
    nlinarith [mul_nonneg hβ hγ]
  have good : ∀ᶠ n in atTop, D n ≠ 0 ∧ ¬ (B n = 0 ∧ C n = 0) := by
    filter_upwards [hD.eventually (lt_mem_nhds hδ), (hB.add hC).eventually (lt_mem_nhds hβγ)] with n h1 h2
    refine ⟨fun h => ?_, fun h => ?_⟩
    · rw [h] at h1; simp at h1
    · rw [h.1, h.2] at h2; simp at h2
  -- `tau`
  set E : ℕ → ℝ := fun n => cellExp σ (B n) (C n) (D n) with hEd
  set t : ℕ → ℝ := fun n => cellRatio σ (B n) (C n) (D n) with htd
  have hτ : Tendsto (fun n => cellTau (B n) (C n) (D n)) atTop (𝓝 (cellTau β γ δ)) := by
    have h1 : Tendsto (fun n => cellTau (B n / N n) (C n / N n) (D n / N n)) atTop (𝓝 (cellTau β γ δ)) := by
      unfold cellTau
      exact (hD.pow 2).div (((hC.mul hD).add (hB.mul hD)).add (hB.mul hC)) hden.ne'
    refine h1.congr' ?_
    filter_upwards [hN0] with n hn
    unfold cellTau
    field_simp
  have hτ0 : 0 < cellTau β γ δ := by unfold cellTau; positivity
  obtain ⟨c, T, hc, hT, hct⟩ : ∃ c T : ℝ, 0 < c ∧ 0 < T ∧ ∀ᶠ n in atTop, c ≤ t n ∧ t n ≤ T := by
    obtain ⟨k, K, hk, hK, hb⟩ := cellRatio_bounds hσ
    refine ⟨k * (cellTau β γ δ / 2), K * (2 * cellTau β γ δ), by positivity, by positivity, ?_⟩
    filter_upwards [good, hτ.eventually (lt_mem_nhds (show cellTau β γ δ / 2 < _ by linarith)),
      hτ.eventually (gt_mem_nhds (show cellTau β γ δ < 2 * cellTau β γ δ by linarith))] with n hg h1 h2
    obtain ⟨b1, b2⟩ := hb _ _ _ hg.1 hg.2
    exact ⟨le_trans (by gcongr) b1, b2.trans (by gcongr)⟩
  -- the expectation
  have hE : Tendsto (fun n => E n / N n) atTop (𝓝 (β * γ / δ)) := by
    have h1 : Tendsto (fun n => ((B n : ℝ) / N n) * (C n / N n) / (D n / N n)) atTop (𝓝 (β * γ / δ)) := (hB.mul hC).div hD hδ.ne'
    have h2 : Tendsto (fun n => σ 0 * (((B n : ℝ) / N n + C n / N n) / (D n / N n) * (N n : ℝ)⁻¹)) atTop (𝓝 0) := by
      have := (((hB.add hC).div hD hδ.ne').mul (tendsto_inv_atTop_zero.comp hN)).const_mul (σ 0)
      rwa [mul_zero, mul_zero] at this
    have hd : Tendsto (fun n => E n / N n - ((B n : ℝ) / N n) * (C n / N n) / (D n / N n)) atTop (𝓝 0) := by
      refine squeeze_zero_norm' ?_ h2
      filter_upwards [hN0, good] with n hn hg
      have hDp : 0 < (D n : ℝ) := by exact_mod_cast Nat.pos_of_ne_zero hg.1
      have hBn : (0 : ℝ) ≤ B n := Nat.cast_nonneg _
      have hCn : (0 : ℝ) ≤ C n := Nat.cast_nonneg _
      have hr : σ 0 * (((B n : ℝ) / N n + C n / N n) / (D n / N n) * (N n : ℝ)⁻¹) = σ 0 * (B n + C n) / D n / N n := by field_simp
      rw [hr]
      obtain ⟨-, -, -, -, g1, g2⟩ := countTail_cell hσ hg.1 hg.2
      by_cases hz : B n = 0 ∨ C n = 0
      · simp only [hEd]
        rw [(g2 hz).1]
        have hz' : (B n : ℝ) / N n * (C n / N n) / (D n / N n) = 0 := by
          rcases hz with h | h <;> rw [h] <;> simp
        rw [hz', sub_zero, Real.norm_of_nonneg (by positivity)]
      · push Not at hz
        simp only [hEd]
        rw [(g1 hz.1 hz.2).1]
        have : (B n : ℝ) * C n / D n / N n - (B n : ℝ) / N n * (C n / N n) / (D n / N n) = 0 := by field_simp; ring
        rw [this, norm_zero]; positivity
    have := h1.add hd
    simpa using this
  set ε := β * γ / δ with hεd
  have hε : 0 ≤ ε := by positivity
  have hNi : Tendsto (fun n => ((N n : ℝ))⁻¹) atTop (𝓝 0) := tendsto_inv_atTop_zero.comp hN
  have form : ∀ᶠ n in atTop, 0 < E n ∧ ∀ m, 
      countTail (abcd (B n) (C n) (D n)) (abcdErr σ (B n) (C n) (D n)) m =
      if m = 0 then 1 else regBeta m (E n * t n + 1) (1 / (1 + t n)) := by
    filter_upwards [good] with n hn
    obtain ⟨-, h2, h3, h4, -⟩ := countTail_cell hσ hn.1 hn.2
    refine ⟨h3, fun m => ?_⟩
    have hs : 0 < E n * t n + 1 := by positivity
    rw [h4]
    split
    · next h => subst h; exact gammaPoissonTail_zero hs h2
    · next h => exact (regBeta_eq_tail hs h2 h).symm
  -- a count that is near `A n`
  have near : ∀ k : ℕ, Tendsto (fun n => ((A n + k : ℕ) : ℝ) / N n) atTop (𝓝 α) := by
    intro k
    have := hA.add (hNi.const_mul (k : ℝ))
    rw [mul_zero, add_zero] at this
    refine this.congr' ?_
    filter_upwards with n
    push_cast; ring
  have small : ∀ k : ℕ, 0 < α + ε * c → ∀ d : ℝ, 0 < d → Tendsto (fun n => 1 / (4 * (((A n + k : ℕ) : ℝ) + (E n * c + 1)) * d ^ 2)) atTop (𝓝 0) := by
    intro k hpos d hd
    have h1 : Tendsto (fun n => (((A n + k : ℕ) : ℝ) + (E n * c + 1)) / N n) atTop (𝓝 (α + ε * c)) := by
      have := ((near k).add ((hE.mul_const c).add hNi))
      rw [add_zero] at this
      refine this.congr fun n => ?_
      ring
    have h2 : Tendsto (fun n => ((A n + k : ℕ) : ℝ) + (E n * c + 1)) atTop atTop := by
      refine (h1.pos_mul_atTop hpos hN).congr' ?_
      filter_upwards [hN0] with n hn
      field_simp
    have h3 : Tendsto (fun n => 4 * d ^ 2 * (((A n + k : ℕ) : ℝ) + (E n * c + 1))) atTop atTop :=
      h2.const_mul_atTop (by positivity)
    have := tendsto_inv_atTop_zero.comp h3
    refine this.congr fun n => ?_
    simp only [Function.comp, one_div]
    congr 1; ring
  -- the denominator of the difference of the mean and the argument
  have den : ∀ k : ℕ, ∀ᶠ n in atTop, (((A n + k : ℕ) : ℝ) + (E n * t n + 1)) * (1 + t n) ≤ N n * ((α + 1 + ((ε + 1) * T + 1)) * (1 + T)) := by
    intro k
    filter_upwards [hN.eventually_ge_atTop 1, form, hct, (near k).eventually (gt_mem_nhds (show α < α + 1 by linarith)),
      hE.eventually (gt_mem_nhds (show ε < ε + 1 by linarith))] with n h1 hf ht ha he
    have hn : 0 < (N n : ℝ) := by linarith
    rw [div_lt_iff₀ hn] at ha he
    have hE0 := hf.1
    have ht0 : 0 < t n := by linarith [ht.1]
    have b1 : E n * t n ≤ (ε + 1) * N n * T := by gcongr; exact ht.2
    have b2 : (((A n + k : ℕ) : ℝ) + (E n * t n + 1)) ≤ N n * (α + 1 + ((ε + 1) * T + 1)) := by nlinarith
    calc _ ≤ N n * (α + 1 + ((ε + 1) * T + 1)) * (1 + T) := by gcongr; exact ht.2
      _ = _ := by ring
  set Q := (α + 1 + ((ε + 1) * T + 1)) * (1 + T) with hQ
  have hQ0 : 0 < Q := by positivity
  constructor
  · intro hlt
    have hα0 : 0 < α := lt_of_le_of_lt hε hlt
    have hpos : 0 < α + ε * c := by positivity
    set d := (α - ε) / 4 * c / Q with hdd
    have hd : 0 < d := by
      have : 0 < α - ε := by linarith
      positivity
    have hApos : ∀ᶠ n in atTop, A n ≠ 0 := by
      filter_upwards [hA.eventually (lt_mem_nhds hα0)] with n hn h
      rw [h] at hn; simp at hn
    have one : ∀ k : ℕ, Tendsto (fun n => countTail (abcd (B n) (C n) (D n)) (abcdErr σ (B n) (C n) (D n)) (A n + k))
        atTop (𝓝 0) := by
      intro k
      have hdiff : Tendsto (fun n => ((A n + k : ℕ) : ℝ) / N n - E n / N n) atTop (𝓝 (α - ε)) := (near k).sub hE
      refine squeeze_zero' ?_ ?_ (small k hpos d hd)
      · filter_upwards [good] with n hn
        exact (countTail_facts (countTail_cell hσ hn.1 hn.2).1 _).1.le
      · filter_upwards [form, hApos, hct, den k, hN0, hdiff.eventually (lt_mem_nhds (show (α - ε) / 2 < α - ε by linarith)),
          hN.eventually_ge_atTop (4 / ((α - ε) * c))] with n hf ha ht hdn hn hdf hN4
        obtain ⟨hE0, h3⟩ := hf
        have ht0 : 0 < t n := by linarith [ht.1]
        have hAp : 0 < ((A n + k : ℕ) : ℝ) := by exact_mod_cast (by omega : 0 < A n + k)
        rw [h3, if_neg (by omega)]
        refine (regBeta_le hAp (by positivity) (by positivity) hd ?_).trans ?_
        · have hg : ((A n + k : ℕ) : ℝ) / ((A n + k : ℕ) + (E n * t n + 1)) - 1 / (1 + t n) =
              ((((A n + k : ℕ) : ℝ) - E n) * t n - 1) / ((((A n + k : ℕ) : ℝ) + (E n * t n + 1)) * (1 + t n)) := by
            field_simp; ring
          have hae : 0 < α - ε := by linarith
          have hdf' : (α - ε) / 2 * N n < ((A n + k : ℕ) : ℝ) - E n := by
            rw [← sub_div, lt_div_iff₀ hn] at hdf; exact hdf
          have hnum : (α - ε) / 4 * c * N n ≤ (((A n + k : ℕ) : ℝ) - E n) * t n - 1 := by
            rw [div_le_iff₀ (by positivity)] at hN4
            have : (α - ε) / 2 * N n * c ≤ (((A n + k : ℕ) : ℝ) - E n) * t n := mul_le_mul hdf'.le ht.1 hc.le (by
              have : 0 ≤ (α - ε) / 2 * N n := by positivity
              linarith)
            nlinarith
          have : d ≤ ((((A n + k : ℕ) : ℝ) - E n) * t n - 1) / ((((A n + k : ℕ) : ℝ) + (E n * t n + 1)) * (1 + t n)) := by
            rw [le_div_iff₀ (by positivity)]
            calc d * ((((A n + k : ℕ) : ℝ) + (E n * t n + 1)) * (1 + t n)) ≤ d * (N n * Q) := by gcongr
              _ = (α - ε) / 4 * c * N n := by rw [hdd]; field_simp
              _ ≤ _ := hnum
          linarith
        · have := ht.1
          gcongr
    have := ((one 0).add (one 1)).div_const 2
    simpa [midTail] using this
  · intro hlt
    have hε0 : 0 < ε := lt_of_le_of_lt hα hlt
    have hpos : 0 < α + ε * c := by positivity
    set d := (ε - α) / 4 * c / Q with hdd
    have hd : 0 < d := by
      have : 0 < ε - α := by linarith
      positivity
    have one : ∀ k : ℕ, Tendsto (fun n => countTail (abcd (B n) (C n) (D n)) (abcdErr σ (B n) (C n) (D n)) (A n + k))
        atTop (𝓝 1) := by
      intro k
      have hdiff : Tendsto (fun n => E n / N n - ((A n + k : ℕ) : ℝ) / N n) atTop (𝓝 (ε - α)) := hE.sub (near k)
      have hl : Tendsto (fun n => 1 - 1 / (4 * (((A n + k : ℕ) : ℝ) + (E n * c + 1)) * d ^ 2)) atTop (𝓝 1) := by
        have := (small k hpos d hd).const_sub 1
        rwa [sub_zero] at this
      refine tendsto_of_tendsto_of_tendsto_of_le_of_le' hl tendsto_const_nhds ?_ ?_
      · filter_upwards [form, hct, den k, hN0, hdiff.eventually (lt_mem_nhds (show (ε - α) / 2 < ε - α by linarith))] with n hf ht hdn hn hdf
        obtain ⟨hE0, h3⟩ := hf
        have ht0 : 0 < t n := by linarith [ht.1]
        rw [h3]
        split
        · have : 0 ≤ 1 / (4 * (((A n + k : ℕ) : ℝ) + (E n * c + 1)) * d ^ 2) := by positivity
          linarith
        · next h =>
          have hAp : 0 < ((A n + k : ℕ) : ℝ) := by exact_mod_cast Nat.pos_of_ne_zero h
          refine le_trans ?_ (regBeta_ge hAp (by positivity) (by rw [div_le_one (by positivity)]; linarith) hd ?_)
          · have := ht.1
            gcongr
          · have hg : 1 / (1 + t n) - ((A n + k : ℕ) : ℝ) / ((A n + k : ℕ) + (E n * t n + 1)) =
                ((E n - ((A n + k : ℕ) : ℝ)) * t n + 1) / ((((A n + k : ℕ) : ℝ) + (E n * t n + 1)) * (1 + t n)) := by
              field_simp; ring
            have hae : 0 < ε - α := by linarith
            have hdf' : (ε - α) / 2 * N n < E n - ((A n + k : ℕ) : ℝ) := by
              rw [← sub_div, lt_div_iff₀ hn] at hdf; exact hdf
            have hnum : (ε - α) / 4 * c * N n ≤ (E n - ((A n + k : ℕ) : ℝ)) * t n + 1 := by
              have h5 : (ε - α) / 2 * N n * c ≤ (E n - ((A n + k : ℕ) : ℝ)) * t n := mul_le_mul hdf'.le ht.1 hc.le (by
                have : 0 ≤ (ε - α) / 2 * N n := by positivity
                linarith)
              have : 0 ≤ (ε - α) * N n * c := by positivity
              nlinarith
            have : d ≤ ((E n - ((A n + k : ℕ) : ℝ)) * t n + 1) / ((((A n + k : ℕ) : ℝ) + (E n * t n + 1)) * (1 + t n)) := by
              rw [le_div_iff₀ (by positivity)]
              calc d * ((((A n + k : ℕ) : ℝ) + (E n * t n + 1)) * (1 + t n)) ≤ d * (N n * Q) := by gcongr
                _ = (ε - α) / 4 * c * N n := by rw [hdd]; field_simp
                _ ≤ _ := hnum
            linarith
      · filter_upwards [good] with n hn
        exact (countTail_facts (countTail_cell hσ hn.1 hn.2).1 _).2.1
    have := ((one 0).add (one 1)).div_const 2
    norm_num at this
    simpa [midTail] using this

end Phik.Props
