import Verif.Lemmas.Quadratic
import Verif.Props.Consistency

/-! # The statistics of tables whose counts differ from the frequencies of independent variables by multiples of the square root of the number of records -/

namespace Phik.Props

open Spec Topology
open Filter (Tendsto atTop Eventually)

variable {r c : ℕ}

/-- What is left of the deviations `w` after the margins are accounted for. -/
noncomputable def residual (p w : Fin r → Fin c → ℝ) (i : Fin r) (j : Fin c) : ℝ :=
  w i j - (∑ j', p i j') * ∑ i', w i' j - (∑ i', p i' j) * ∑ j', w i j' + (∑ j', p i j') * (∑ i', p i' j) * ∑ i', ∑ j', w i' j'

/-- The limit of all statistics. -/
noncomputable def quadForm (q : ℝ) (p w : Fin r → Fin c → ℝ) : ℝ :=
  ∑ i, ∑ j, residual p w i j ^ 2 / (q * ((∑ j', p i j') * ∑ i', p i' j))

/-- The deviations of counts from the frequencies of `n` records, scaled. -/
noncomputable def deviation (q : ℝ) (p : Fin r → Fin c → ℝ) (n : ℝ) (t : Fin r → Fin c → ℕ) (i : Fin r) (j : Fin c) : ℝ :=
  ((t i j : ℝ) - n * (q * p i j)) / √n

theorem residual_continuous (p : Fin r → Fin c → ℝ) (i : Fin r) (j : Fin c) : Continuous fun w => residual p w i j := by
  unfold residual
  fun_prop

theorem quadForm_continuous (q : ℝ) (p : Fin r → Fin c → ℝ) : Continuous (quadForm q p) := by
  unfold quadForm
  have := residual_continuous p
  fun_prop

/-- The difference of counts and expected frequencies. -/
theorem sub_expect_cell {p : Fin r → Fin c → ℝ} (hp : IsJoint p) {q n : ℝ} (hn : 0 < n) (t : Fin r → Fin c → ℕ)
    (ht : (countArr t).total ≠ 0) {i : Fin r} {j : Fin c} (hij : p i j = (∑ j', p i j') * ∑ i', p i' j) :
    ((t i j : ℝ) - expect (countArr t) i j) / √n =
      (q * residual p (deviation q p n t) i j + (deviation q p n t i j * (∑ i', ∑ j', deviation q p n t i' j') -
        (∑ j', deviation q p n t i j') * ∑ i', deviation q p n t i' j) / √n) / ((countArr t).total / n) := by
  have hs : 0 < √n := Real.sqrt_pos.2 hn
  have hsn : √n * √n = n := Real.mul_self_sqrt hn.le
  set s := √n with hsdef
  have e0 : ∀ i j, (t i j : ℝ) = s * s * (q * p i j) + s * deviation q p n t i j := by
    intro i j
    unfold deviation
    rw [← hsdef, mul_div_cancel₀ _ hs.ne', hsn]
    ring
  have e1 : ∀ i, (∑ j', (t i j' : ℝ)) = s * s * (q * ∑ j', p i j') + s * ∑ j', deviation q p n t i j' := by
    intro i
    rw [Finset.sum_congr rfl fun j' _ => e0 i j', Finset.sum_add_distrib, ← Finset.mul_sum, ← Finset.mul_sum, ← Finset.mul_sum]
  have e2 : (∑ i', (t i' j : ℝ)) = s * s * (q * ∑ i', p i' j) + s * ∑ i', deviation q p n t i' j := by
    rw [Finset.sum_congr rfl fun i' _ => e0 i' j, Finset.sum_add_distrib, ← Finset.mul_sum, ← Finset.mul_sum, ← Finset.mul_sum]
  have e3 : (countArr t).total = s * s * q + s * ∑ i', ∑ j', deviation q p n t i' j' := by
    rw [countArr_total, Finset.sum_congr rfl fun i' _ => e1 i', Finset.sum_add_distrib, ← Finset.mul_sum, ← Finset.mul_sum, ← Finset.mul_sum, hp.total]
    ring
  have hexp : expect (countArr t) i j = (∑ j', (t i j' : ℝ)) * (∑ i', (t i' j : ℝ)) / (countArr t).total := rfl
  rw [hexp, e0 i j, hij, e1, e2]
  unfold residual
  rw [e3] at ht ⊢
  generalize (∑ i', ∑ j', deviation q p n t i' j') = W at *
  generalize (∑ j', deviation q p n t i j') = R at *
  generalize (∑ i', deviation q p n t i' j) = C at *
  generalize deviation q p n t i j = D at *
  generalize (∑ j', p i j') = A at *
  generalize (∑ i', p i' j) = B at *
  have hne : s * q + W ≠ 0 := by
    intro h; apply ht
    have : s * s * q + s * W = s * (s * q + W) := by ring
    rw [this, h, mul_zero]
  have : s * s * q + s * W = s * (s * q + W) := by ring
  rw [this, ← hsn]
  field_simp
  ring

theorem sub_expect {p : Fin r → Fin c → ℝ} (hp : IsJoint p) (hi : IndepJoint p) {q n : ℝ} (hn : 0 < n) (t : Fin r → Fin c → ℕ)
    (ht : (countArr t).total ≠ 0) (i : Fin r) (j : Fin c) :
    ((t i j : ℝ) - expect (countArr t) i j) / √n =
      (q * residual p (deviation q p n t) i j + (deviation q p n t i j * (∑ i', ∑ j', deviation q p n t i' j') -
        (∑ j', deviation q p n t i j') * ∑ i', deviation q p n t i' j) / √n) / ((countArr t).total / n) :=
  sub_expect_cell hp hn t ht (hi i j)

section
variable {p : Fin r → Fin c → ℝ} {q : ℝ} {n : ℕ → ℝ} {T : ℕ → Fin r → Fin c → ℕ} {w : Fin r → Fin c → ℝ}

theorem scaled_counts (hn : Tendsto n atTop atTop) (hw : ∀ i j, Tendsto (fun k => deviation q p (n k) (T k) i j) atTop (𝓝 (w i j))) (i : Fin r) (j : Fin c) :
    Tendsto (fun k => (T k i j : ℝ) / n k) atTop (𝓝 (q * p i j)) := by
  have h1 : Tendsto (fun k => √(n k)) atTop atTop := Real.tendsto_sqrt_atTop.comp hn
  have h2 := (hw i j).div_atTop h1
  have h3 := h2.const_add (q * p i j)
  rw [add_zero] at h3
  refine h3.congr' ?_
  filter_upwards [hn.eventually_gt_atTop 0] with k hk
  have hs : 0 < √(n k) := Real.sqrt_pos.2 hk
  unfold deviation
  rw [div_div, Real.mul_self_sqrt hk.le]
  field_simp
  ring

theorem scaled_total (hp : IsJoint p) (hn : Tendsto n atTop atTop) (hw : ∀ i j, Tendsto (fun k => deviation q p (n k) (T k) i j) atTop (𝓝 (w i j))) :
    Tendsto (fun k => (countArr (T k)).total / n k) atTop (𝓝 q) := by
  have := tendsto_finsetSum Finset.univ fun i _ => tendsto_finsetSum Finset.univ fun j _ => scaled_counts hn hw i j
  simp only [← Finset.mul_sum, hp.total, mul_one] at this
  refine this.congr fun k => ?_
  rw [countArr_total, Finset.sum_div]
  exact Finset.sum_congr rfl fun i _ => by rw [Finset.sum_div]

theorem scaled_approaches (hp : IsJoint p) (hq : 0 < q) (hn : Tendsto n atTop atTop)
    (hw : ∀ i j, Tendsto (fun k => deviation q p (n k) (T k) i j) atTop (𝓝 (w i j))) : Approaches T p := by
  have hsum := scaled_total hp hn hw
  constructor
  · rw [← tendsto_natCast_atTop_iff (R := ℝ)]
    have := hsum.pos_mul_atTop hq hn
    refine this.congr' ?_
    filter_upwards [hn.eventually_gt_atTop 0] with k hk
    rw [div_mul_cancel₀ _ hk.ne', countArr_total]
    push_cast
    rfl
  · intro i j
    have := (scaled_counts hn hw i j).div hsum hq.ne'
    rw [mul_div_cancel_left₀ _ hq.ne'] at this
    refine this.congr' ?_
    filter_upwards [hn.eventually_gt_atTop 0] with k hk
    exact div_div_div_cancel_right₀ hk.ne' _ _

/-- The difference of a count and its expected frequency, for a cell whose probability is that of independent variables. -/
theorem scaled_excess (hp : IsJoint p) (hq : 0 < q) (hn : Tendsto n atTop atTop)
    (hw : ∀ i j, Tendsto (fun k => deviation q p (n k) (T k) i j) atTop (𝓝 (w i j))) {i : Fin r} {j : Fin c}
    (hij : p i j = (∑ j', p i j') * ∑ i', p i' j) :
    Tendsto (fun k => ((T k i j : ℝ) - expect (countArr (T k)) i j) / √(n k)) atTop (𝓝 (residual p w i j)) := by
  have hT := scaled_approaches hp hq hn hw
  have htot := scaled_total hp hn hw
  have hsq : Tendsto (fun k => √(n k)) atTop atTop := Real.tendsto_sqrt_atTop.comp hn
  have hwv : Tendsto (fun k => deviation q p (n k) (T k)) atTop (𝓝 w) := tendsto_pi_nhds.2 fun i => tendsto_pi_nhds.2 fun j => hw i j
  have h1 := ((residual_continuous p i j).tendsto w).comp hwv
  have hcont : Continuous fun w : Fin r → Fin c → ℝ => w i j * (∑ i', ∑ j', w i' j') - (∑ j', w i j') * ∑ i', w i' j := by fun_prop
  have h2 := ((hcont.tendsto w).comp hwv).div_atTop hsq
  have h3 := ((h1.const_mul q).add h2).div htot hq.ne'
  rw [add_zero, mul_div_cancel_left₀ _ hq.ne'] at h3
  refine h3.congr' ?_
  filter_upwards [hn.eventually_gt_atTop 0, (approaches_total hT).eventually_gt_atTop 0] with k hk hk2
  rw [sub_expect_cell hp (q := q) hk (T k) hk2.ne' hij]
  rfl

/-- The statistics tend to the quadratic form. -/
theorem statistic_limit (hr : 2 ≤ r) (hc : 2 ≤ c) (hp : IsJoint p) (hi : IndepJoint p) (hq : 0 < q) (hn : Tendsto n atTop atTop)
    (hw : ∀ i j, Tendsto (fun k => deviation q p (n k) (T k) i j) atTop (𝓝 (w i j))) {cell : ℝ → ℝ → ℝ} (hcell : Quadratic cell) :
    Tendsto (fun k => statistic cell (countArr (T k))) atTop (𝓝 (quadForm q p w)) ∧
      ∀ᶠ k in atTop, DataTable (countArr (T k)) ∧ ∀ i j, 0 < T k i j := by
  have hT := scaled_approaches hp hq hn hw
  have htot := scaled_total hp hn hw
  have hsq : Tendsto (fun k => √(n k)) atTop atTop := Real.tendsto_sqrt_atTop.comp hn
  have hab : ∀ i j, 0 < (∑ j', p i j') * ∑ i', p i' j := fun i j => mul_pos (hp.rows i) (hp.cols j)
  have hexp : ∀ i j, Tendsto (fun k => expect (countArr (T k)) i j / n k) atTop (𝓝 (q * ((∑ j', p i j') * ∑ i', p i' j))) := by
    intro i j
    have := htot.mul (approaches_expect hT i j)
    refine this.congr' ?_
    filter_upwards [(approaches_total hT).eventually_gt_atTop 0] with k hk
    field_simp
  have hdiff : ∀ i j, Tendsto (fun k => ((T k i j : ℝ) - expect (countArr (T k)) i j) / √(n k)) atTop (𝓝 (residual p w i j)) := by
    exact fun i j => scaled_excess hp hq hn hw (hi i j)
  set obs : ℕ → Fin r → Fin c → ℝ := fun k i j =>
    if r = 2 ∧ c = 2 then corrected (T k i j) (expect (countArr (T k)) i j) else T k i j with hobs
  have hobs1 : ∀ i j, Tendsto (fun k => (obs k i j - expect (countArr (T k)) i j) / √(n k)) atTop (𝓝 (residual p w i j)) := by
    intro i j
    have h0 : Tendsto (fun k => 1 / 2 / √(n k)) atTop (𝓝 0) := hsq.const_div_atTop _
    have h1 : Tendsto (fun k => (obs k i j - T k i j) / √(n k)) atTop (𝓝 0) := by
      refine squeeze_zero_norm' ?_ h0
      filter_upwards [hsq.eventually_gt_atTop 0] with k hk
      rw [Real.norm_eq_abs, abs_div, abs_of_pos hk]
      apply div_le_div_of_nonneg_right _ hk.le
      rw [hobs]
      dsimp only
      split
      · exact corrected_near _ _
      · simp
    have := h1.add (hdiff i j)
    rw [zero_add] at this
    refine this.congr fun k => ?_
    ring
  have hepos : ∀ᶠ k in atTop, ∀ (i : Fin r) (j : Fin c), 0 < expect (countArr (T k)) i j := by
    refine Filter.eventually_all.2 fun i : Fin r => Filter.eventually_all.2 fun j : Fin c => ?_
    filter_upwards [(hexp i j).eventually_const_lt (mul_pos hq (hab i j)), hn.eventually_gt_atTop 0] with k h1 h2
    exact (div_pos_iff_of_pos_right h2).1 h1
  have hrel : ∀ i j, Tendsto (fun k => (obs k i j - expect (countArr (T k)) i j) / expect (countArr (T k)) i j) atTop (𝓝 0) := by
    intro i j
    have := (((hobs1 i j).div_atTop hsq)).div (hexp i j) (mul_pos hq (hab i j)).ne'
    rw [zero_div] at this
    refine this.congr' ?_
    filter_upwards [hn.eventually_gt_atTop 0, hepos] with k hk he
    have := he i j
    simp only [Pi.div_apply]
    rw [div_div (_ - _) (√(n k)) (√(n k)), Real.mul_self_sqrt hk.le]
    field_simp
  have hTpos : ∀ᶠ k in atTop, ∀ i j, 0 < T k i j := by
    refine Filter.eventually_all.2 fun i => Filter.eventually_all.2 fun j => ?_
    have hpij : 0 < q * p i j := by rw [hi i j]; exact mul_pos hq (hab i j)
    filter_upwards [(scaled_counts hn hw i j).eventually_const_lt hpij, hn.eventually_gt_atTop 0] with k h1 h2
    have := (div_pos_iff_of_pos_right h2).1 h1
    exact_mod_cast this
  have hopos : ∀ᶠ k in atTop, ∀ i j, 0 < obs k i j := by
    refine Filter.eventually_all.2 fun i => Filter.eventually_all.2 fun j => ?_
    filter_upwards [(hrel i j).eventually_const_lt (by norm_num : (-1 : ℝ) < 0), hepos] with k h1 h2
    rw [lt_div_iff₀ (h2 i j)] at h1
    linarith
  have hdata := approaches_data hT hp
  refine ⟨?_, hdata.and hTpos⟩
  obtain ⟨κ, h, hh, hcell⟩ := hcell
  have hterm : ∀ i j, Tendsto (fun k => pearsonCell (obs k i j) (expect (countArr (T k)) i j) *
      h ((obs k i j - expect (countArr (T k)) i j) / expect (countArr (T k)) i j)) atTop
      (𝓝 (residual p w i j ^ 2 / (q * ((∑ j', p i j') * ∑ i', p i' j)))) := by
    intro i j
    have h1 := ((hobs1 i j).pow 2).div (hexp i j) (mul_pos hq (hab i j)).ne'
    have h2 := h1.mul (hh.comp (hrel i j))
    rw [mul_one] at h2
    refine h2.congr' ?_
    filter_upwards [hn.eventually_gt_atTop 0, hepos] with k hk he
    have := he i j
    unfold pearsonCell
    simp only [Function.comp, Pi.div_apply]
    rw [div_pow, Real.sq_sqrt hk.le]
    congr 1
    field_simp
  refine (tendsto_finsetSum Finset.univ fun i _ => tendsto_finsetSum Finset.univ fun j _ => hterm i j).congr' ?_
  filter_upwards [hdata, hepos, hopos] with k hd he ho
  have e1 : nRows (countArr (T k)) = r := by
    unfold nRows; rw [Nat.card_congr (Equiv.subtypeUnivEquiv hd.rows), Nat.card_fin]; rfl
  have e2 : nCols (countArr (T k)) = c := by
    unfold nCols; rw [Nat.card_congr (Equiv.subtypeUnivEquiv hd.cols), Nat.card_fin]; rfl
  have htk : (countArr (T k)).total ≠ 0 := (data_isCount hd hr).pos.ne'
  have hzero : ∑ i, ∑ j, (obs k i j - expect (countArr (T k)) i j) = 0 := by
    have hsumE : ∑ i, ∑ j, expect (countArr (T k)) i j = ∑ i, ∑ j, (T k i j : ℝ) := sum_expected htk
    have aux : ∀ f g : Fin r → Fin c → ℝ, ∑ i, ∑ j, f i j = ∑ i, ∑ j, g i j → ∑ i, ∑ j, (f i j - g i j) = 0 := by
      intro f g hfg
      simp only [Finset.sum_sub_distrib]
      rw [hfg, sub_self]
    refine aux (obs k) (fun i j => expect (countArr (T k)) i j) ?_
    by_cases h22 : r = 2 ∧ c = 2
    · obtain ⟨rfl, rfl⟩ := h22
      simp only [hobs, and_self, if_true]
      simp only [← yates_eq]
      exact sum_yates (v := fun i j => (T k i j : ℝ)) (e := expected (countArr (T k))) fun i => (row_expected htk i).symm
    · simp only [hobs, if_neg h22]
      exact hsumE.symm
  unfold statistic
  rw [e1, e2, if_neg (by omega)]
  have : ∀ i : Fin r, ∀ j : Fin c, (if expect (countArr (T k)) i j = 0 then 0 else
      cell (if r = 2 ∧ c = 2 then corrected ((countArr (T k)).v i j) (expect (countArr (T k)) i j) else (countArr (T k)).v i j)
        (expect (countArr (T k)) i j)) = pearsonCell (obs k i j) (expect (countArr (T k)) i j) *
      h ((obs k i j - expect (countArr (T k)) i j) / expect (countArr (T k)) i j) + κ * (obs k i j - expect (countArr (T k)) i j) := by
    intro i j
    rw [if_neg (he i j).ne', ← hcell _ _ (ho i j) (he i j)]
    rfl
  rw [show (∑ i, ∑ j, pearsonCell (obs k i j) (expect (countArr (T k)) i j) *
      h ((obs k i j - expect (countArr (T k)) i j) / expect (countArr (T k)) i j)) =
    ∑ i, ∑ j, (pearsonCell (obs k i j) (expect (countArr (T k)) i j) *
      h ((obs k i j - expect (countArr (T k)) i j) / expect (countArr (T k)) i j) + κ * (obs k i j - expect (countArr (T k)) i j)) by
    have aux : ∀ f g : Fin r → Fin c → ℝ, ∑ i, ∑ j, g i j = 0 → ∑ i, ∑ j, f i j = ∑ i, ∑ j, (f i j + κ * g i j) := by
      intro f g hg
      simp only [Finset.sum_add_distrib, ← Finset.mul_sum]
      rw [hg, mul_zero, add_zero]
    exact aux _ _ hzero]
  exact Finset.sum_congr rfl fun i _ => Finset.sum_congr rfl fun j _ => (this i j).symm

end

/-- The statistics are close to the quadratic form of the deviations, for all tables of many records with deviations up to a bound. -/
theorem statistic_near (hr : 2 ≤ r) (hc : 2 ≤ c) {p : Fin r → Fin c → ℝ} (hp : IsJoint p) (hi : IndepJoint p) {q : ℝ} (hq : 0 < q) {cell : ℝ → ℝ → ℝ}
    (hcell : Quadratic cell) (M : ℝ) {ε : ℝ} (hε : 0 < ε) :
    ∀ᶠ n : ℕ in atTop, ∀ t : Fin r → Fin c → ℕ, (∀ i j, |deviation q p n t i j| ≤ M) →
      |statistic cell (countArr t) - quadForm q p (deviation q p n t)| < ε ∧ DataTable (countArr t) ∧ ∀ i j, 0 < t i j := by
  by_contra hcon
  rw [Filter.eventually_atTop] at hcon
  push Not at hcon
  choose n hn T hM hbad using hcon
  have hK : IsCompact (Set.pi Set.univ fun _ : Fin r => Set.pi Set.univ fun _ : Fin c => Set.Icc (-M) M) :=
    isCompact_univ_pi fun _ => isCompact_univ_pi fun _ => isCompact_Icc
  obtain ⟨w, -, φ, hφ, hlim⟩ := hK.tendsto_subseq (x := fun k => deviation q p (n k) (T k)) fun k i _ j _ => abs_le.1 (hM k i j)
  have hn' : Tendsto (fun k => ((n (φ k) : ℕ) : ℝ)) atTop atTop :=
    tendsto_natCast_atTop_atTop.comp ((Filter.tendsto_atTop_mono hn Filter.tendsto_id).comp hφ.tendsto_atTop)
  obtain ⟨h1, h2⟩ := statistic_limit (T := fun k => T (φ k)) hr hc hp hi hq hn'
    (fun i j => tendsto_pi_nhds.1 (tendsto_pi_nhds.1 hlim i) j) hcell
  have h3 := h1.sub (((quadForm_continuous q p).tendsto w).comp hlim)
  rw [sub_self] at h3
  obtain ⟨k, hk1, hk2, hk3⟩ := ((Metric.tendsto_nhds.1 h3 ε hε).and h2).exists
  rw [Real.dist_eq, sub_zero] at hk1
  obtain ⟨i, j, hij⟩ := hbad (φ k) hk1 hk2
  exact absurd (hk3 i j) (by omega)

end Phik.Props
