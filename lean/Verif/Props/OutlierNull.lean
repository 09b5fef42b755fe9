import Verif.Lemmas.OutlierNormal
import Verif.Props.OutlierConsistency

/-! # Property C95: the outlier significances of a combination that is as frequent as for independent variables are standard normal for large samples -/

namespace Phik.Props
open Phik.Spec Phik.Out MeasureTheory ProbabilityTheory Topology
open Filter (Tendsto atTop Eventually)

variable {r c : ℕ} {N : OutNum}

/-- The standard deviation of the residual of a cell. -/
noncomputable def cellScale (q : ℝ) (p : Fin r → Fin c → ℝ) (i : Fin r) (j : Fin c) : ℝ :=
  √(q * ((∑ l, p i l) * (1 - ∑ l, p i l) * ((∑ k, p k j) * (1 - ∑ k, p k j))))

section
variable {p : Fin r → Fin c → ℝ}

theorem row_lt_one (hr : 2 ≤ r) (hp : IsJoint p) (i : Fin r) : ∑ l, p i l < 1 := by
  obtain ⟨k, hk⟩ : ∃ k : Fin r, k ≠ i := by
    have : Nontrivial (Fin r) := Fin.nontrivial_iff_two_le.2 hr
    exact exists_ne i
  have h1 := hp.rows k
  have h2 : (∑ l, p i l) + ∑ l, p k l ≤ ∑ i', ∑ l, p i' l := by
    rw [← Finset.sum_pair hk.symm (f := fun x => ∑ l, p x l)]
    exact Finset.sum_le_sum_of_subset_of_nonneg (Finset.subset_univ _) fun x _ _ => (hp.rows x).le
  have := hp.total
  linarith

theorem col_lt_one (hc : 2 ≤ c) (hp : IsJoint p) (j : Fin c) : ∑ k, p k j < 1 := by
  obtain ⟨k, hk⟩ : ∃ k : Fin c, k ≠ j := by
    have : Nontrivial (Fin c) := Fin.nontrivial_iff_two_le.2 hc
    exact exists_ne j
  have h1 := hp.cols k
  have h2 : (∑ l, p l j) + ∑ l, p l k ≤ ∑ j', ∑ l, p l j' := by
    rw [← Finset.sum_pair hk.symm (f := fun x => ∑ l, p l x)]
    exact Finset.sum_le_sum_of_subset_of_nonneg (Finset.subset_univ _) fun x _ _ => (hp.cols x).le
  have := hp.total
  rw [Finset.sum_comm] at this
  linarith

theorem cellScale_pos (hr : 2 ≤ r) (hc : 2 ≤ c) (hp : IsJoint p) {q : ℝ} (hq : 0 < q) (i : Fin r) (j : Fin c) : 0 < cellScale q p i j := by
  unfold cellScale
  have h1 := hp.rows i
  have h2 := hp.cols j
  have h3 := sub_pos.2 (row_lt_one hr hp i)
  have h4 := sub_pos.2 (col_lt_one hc hp j)
  positivity

/-- The p-value of a cell whose probability is that of independent variables. -/
theorem midTail_null {σ : ℝ → ℝ} (hσ : GoodUnc σ) (hr : 2 ≤ r) (hc : 2 ≤ c) (hp : IsJoint p) {q : ℝ} (hq : 0 < q) {n : ℕ → ℝ} {T : ℕ → Fin r → Fin c → ℕ} {w : Fin r → Fin c → ℝ}
    (hn : Tendsto n atTop atTop) (hw : ∀ i j, Tendsto (fun k => deviation q p (n k) (T k) i j) atTop (𝓝 (w i j))) {i : Fin r} {j : Fin c}
    (hij : p i j = (∑ j', p i j') * ∑ i', p i' j) :
    Tendsto (fun k => midTail (abcd (inRow ⟨r, c, T k⟩ i j) (inCol ⟨r, c, T k⟩ i j) (elsewhere ⟨r, c, T k⟩ i j))
      (abcdErr σ (inRow ⟨r, c, T k⟩ i j) (inCol ⟨r, c, T k⟩ i j) (elsewhere ⟨r, c, T k⟩ i j)) (T k i j)) atTop
      (𝓝 (normCdf (-(residual p w i j / cellScale q p i j)))) ∧
    ∀ᶠ k in atTop, DataTable (countArr (T k)) ∧ elsewhere ⟨r, c, T k⟩ i j ≠ 0 ∧ inRow ⟨r, c, T k⟩ i j ≠ 0 := by
  have hT := scaled_approaches hp hq hn hw
  obtain ⟨b1, b2, b3, b4, b5⟩ := approaches_blocks hT i j
  set a := ∑ l, p i l with ha
  set b := ∑ k, p k j with hb
  have pa : 0 < a := hp.rows i
  have pb : 0 < b := hp.cols j
  have ga : 0 < 1 - a := sub_pos.2 (row_lt_one hr hp i)
  have gb : 0 < 1 - b := sub_pos.2 (col_lt_one hc hp j)
  have eβ : ∑ l ∈ Finset.univ.erase j, p i l = a * (1 - b) := by rw [law_row, hij]; ring
  have eγ : ∑ k ∈ Finset.univ.erase i, p k j = b * (1 - a) := by rw [law_col, hij]; ring
  have eδ : ∑ k ∈ Finset.univ.erase i, ∑ l ∈ Finset.univ.erase j, p k l = (1 - a) * (1 - b) := by rw [law_rest hp, hij]; ring
  rw [eβ] at b3; rw [eγ] at b4; rw [eδ] at b5
  have pβ : 0 < a * (1 - b) := by positivity
  have pγ : 0 < b * (1 - a) := by positivity
  have pδ : 0 < (1 - a) * (1 - b) := by positivity
  have htot := scaled_total hp hn hw
  have htt : ∀ k, (((⟨r, c, T k⟩ : Arr2 ℕ).total : ℕ) : ℝ) = (countArr (T k)).total := by
    intro k; rw [countArr_total]; unfold Arr2.total; push_cast; rfl
  have hpos : ∀ {m : ℕ → ℕ} {l : ℝ}, 0 < l → Tendsto (fun k => (m k : ℝ) / ((⟨r, c, T k⟩ : Arr2 ℕ).total : ℕ)) atTop (𝓝 l) → ∀ᶠ k in atTop, m k ≠ 0 := by
    intro m l hl h
    filter_upwards [h.eventually (lt_mem_nhds hl)] with k hk h0
    rw [h0] at hk; simp at hk
  have hx : Tendsto (fun k => ((T k i j : ℝ) - (inRow ⟨r, c, T k⟩ i j : ℕ) * (inCol ⟨r, c, T k⟩ i j : ℕ) / (elsewhere ⟨r, c, T k⟩ i j : ℕ)) /
      √(((⟨r, c, T k⟩ : Arr2 ℕ).total : ℕ) : ℝ)) atTop (𝓝 (residual p w i j / √q / ((1 - a) * (1 - b)))) := by
    have h1 := scaled_excess hp hq hn hw hij
    have h2 : Tendsto (fun k => √((countArr (T k)).total / n k)) atTop (𝓝 (√q)) := (Real.continuous_sqrt.tendsto q).comp htot
    refine ((h1.div h2 (Real.sqrt_pos.2 hq).ne').div b5 pδ.ne').congr' ?_
    filter_upwards [hn.eventually_gt_atTop 0, b1.eventually_gt_atTop 0, hpos pδ b5] with k k1 k2 k3
    have t1 : (elsewhere ⟨r, c, T k⟩ i j : ℝ) ≠ 0 := by exact_mod_cast k3
    have e1 : (∑ l, (T k i l : ℝ)) = inRow ⟨r, c, T k⟩ i j + T k i j := by
      unfold inRow; push_cast; rw [Finset.sum_erase_add _ _ (Finset.mem_univ j)]
    have e2 : (∑ l, (T k l j : ℝ)) = inCol ⟨r, c, T k⟩ i j + T k i j := by
      unfold inCol; push_cast; rw [Finset.sum_erase_add _ (fun l => (T k l j : ℝ)) (Finset.mem_univ i)]
    have e3 : (countArr (T k)).total = elsewhere ⟨r, c, T k⟩ i j + inRow ⟨r, c, T k⟩ i j + inCol ⟨r, c, T k⟩ i j + T k i j := by
      rw [countArr_total, ← Finset.add_sum_erase _ _ (Finset.mem_univ i), e1]
      have : ∀ l, (∑ m, (T k l m : ℝ)) = T k l j + ∑ m ∈ Finset.univ.erase j, (T k l m : ℝ) := fun l => by
        rw [Finset.add_sum_erase _ (fun m => (T k l m : ℝ)) (Finset.mem_univ j)]
      simp only [this]
      rw [Finset.sum_add_distrib]
      unfold elsewhere inCol
      push_cast
      ring
    have hex : expect (countArr (T k)) i j = (∑ j', (T k i j' : ℝ)) * (∑ i', (T k i' j : ℝ)) / (countArr (T k)).total := rfl
    rw [htt] at k2 ⊢
    have s1 : √(countArr (T k)).total ≠ 0 := (Real.sqrt_pos.2 k2).ne'
    have s2 : √(n k) ≠ 0 := (Real.sqrt_pos.2 k1).ne'
    simp only [Pi.div_apply]
    rw [hex, e1, e2, Real.sqrt_div k2.le]
    have t2 : (countArr (T k)).total ≠ 0 := k2.ne'
    rw [htt]
    field_simp
    rw [e3]
    ring
  refine ⟨?_, ?_⟩
  · have := midTail_normal hσ b1 b3 b4 b5 pβ pγ pδ hx
    have e : residual p w i j / √q / ((1 - a) * (1 - b)) / √(cellVar (a * (1 - b)) (b * (1 - a)) ((1 - a) * (1 - b))) = residual p w i j / cellScale q p i j := by
      have h1 : cellVar (a * (1 - b)) (b * (1 - a)) ((1 - a) * (1 - b)) = (a * (1 - a) * (b * (1 - b))) / ((1 - a) * (1 - b)) ^ 2 := by
        unfold cellVar cellTau
        field_simp
        ring
      unfold cellScale
      rw [h1, Real.sqrt_div (by positivity), Real.sqrt_sq pδ.le, Real.sqrt_mul hq.le, ← ha, ← hb]
      have s1 : √q ≠ 0 := (Real.sqrt_pos.2 hq).ne'
      have s2 : √(a * (1 - a) * (b * (1 - b))) ≠ 0 := (Real.sqrt_pos.2 (by positivity)).ne'
      field_simp
    rwa [e] at this
  · filter_upwards [approaches_data hT hp, hpos pδ b5, hpos pβ b3] with k k1 k2 k3
    exact ⟨k1, k2, k3⟩

/-- The same for all tables of many records with deviations up to a bound. -/
theorem midTail_near {σ : ℝ → ℝ} (hσ : GoodUnc σ) (hr : 2 ≤ r) (hc : 2 ≤ c) (hp : IsJoint p) {q : ℝ} (hq : 0 < q) {i : Fin r} {j : Fin c}
    (hij : p i j = (∑ j', p i j') * ∑ i', p i' j) (M : ℝ) {ε : ℝ} (hε : 0 < ε) :
    ∀ᶠ n : ℕ in atTop, ∀ t : Fin r → Fin c → ℕ, (∀ i j, |deviation q p n t i j| ≤ M) →
      |midTail (abcd (inRow ⟨r, c, t⟩ i j) (inCol ⟨r, c, t⟩ i j) (elsewhere ⟨r, c, t⟩ i j))
        (abcdErr σ (inRow ⟨r, c, t⟩ i j) (inCol ⟨r, c, t⟩ i j) (elsewhere ⟨r, c, t⟩ i j)) (t i j) -
        normCdf (-(residual p (deviation q p n t) i j / cellScale q p i j))| < ε ∧
      DataTable (countArr t) ∧ elsewhere ⟨r, c, t⟩ i j ≠ 0 ∧ inRow ⟨r, c, t⟩ i j ≠ 0 := by
  by_contra hcon
  rw [Filter.eventually_atTop] at hcon
  push Not at hcon
  choose n hn T hM hbad using hcon
  have hK : IsCompact (Set.pi Set.univ fun _ : Fin r => Set.pi Set.univ fun _ : Fin c => Set.Icc (-M) M) :=
    isCompact_univ_pi fun _ => isCompact_univ_pi fun _ => isCompact_Icc
  obtain ⟨w, -, φ, hφ, hlim⟩ := hK.tendsto_subseq (x := fun k => deviation q p (n k) (T k)) fun k i _ j _ => abs_le.1 (hM k i j)
  have hn' : Tendsto (fun k => ((n (φ k) : ℕ) : ℝ)) atTop atTop :=
    tendsto_natCast_atTop_atTop.comp ((Filter.tendsto_atTop_mono hn Filter.tendsto_id).comp hφ.tendsto_atTop)
  obtain ⟨h1, h2⟩ := midTail_null hσ (T := fun k => T (φ k)) hr hc hp hq hn'
    (fun i j => tendsto_pi_nhds.1 (tendsto_pi_nhds.1 hlim i) j) hij
  have hcont : Continuous fun w => normCdf (-(residual p w i j / cellScale q p i j)) :=
    normCdf_cont.comp ((residual_continuous p i j).div_const _).neg
  have h3 := h1.sub ((hcont.tendsto w).comp hlim)
  rw [sub_self] at h3
  obtain ⟨k, hk1, hk2, hk3, hk4⟩ := ((Metric.tendsto_nhds.1 h3 ε hε).and h2).exists
  rw [Real.dist_eq, sub_zero] at hk1
  exact hk4 (hbad (φ k) hk1 hk2 hk3)

end

/-- The residual as a sum over all cells. -/
theorem residual_eq_sum (p w : Fin r → Fin c → ℝ) (i : Fin r) (j : Fin c) :
    residual p w i j = ∑ k, ∑ l, w k l * (((if k = i then 1 else 0) - ∑ l', p i l') * ((if l = j then 1 else 0) - ∑ k', p k' j)) := by
  unfold residual
  generalize (∑ l', p i l') = a
  generalize (∑ k', p k' j) = b
  have e : ∀ k l, w k l * (((if k = i then 1 else 0) - a) * ((if l = j then 1 else 0) - b)) =
      (if k = i then (if l = j then w k l else 0) else 0) - a * (if l = j then w k l else 0) - b * (if k = i then w k l else 0) + a * b * w k l := by
    intro k l
    split <;> split <;> ring
  simp only [e, Finset.sum_add_distrib, Finset.sum_sub_distrib, ← Finset.mul_sum]
  have e1 : ∑ k, ∑ l, (if k = i then (if l = j then w k l else 0) else 0) = w i j := by
    rw [Finset.sum_eq_single i (fun k _ hk => by simp [hk]) (by simp)]
    simp
  have e2 : ∑ k, ∑ l, (if k = i then w k l else 0) = ∑ l, w i l := by
    rw [Finset.sum_eq_single i (fun k _ hk => by simp [hk]) (by simp)]
    simp
  rw [e1, e2]
  simp

theorem residual_self {p : Fin r → Fin c → ℝ} (hp : IsJoint p) {i : Fin r} {j : Fin c} (hij : p i j = (∑ j', p i j') * ∑ i', p i' j) :
    residual p p i j = 0 := by
  unfold residual
  rw [hp.total, hij]
  ring

theorem residual_square {p : Fin r → Fin c → ℝ} (hp : IsJoint p) {i : Fin r} {j : Fin c} (hij : p i j = (∑ j', p i j') * ∑ i', p i' j) :
    ∑ k, ∑ l, p k l * (((if k = i then 1 else 0) - ∑ l', p i l') * ((if l = j then 1 else 0) - ∑ k', p k' j)) ^ 2 =
      (∑ l, p i l) * (1 - ∑ l, p i l) * ((∑ k, p k j) * (1 - ∑ k, p k j)) := by
  have ht := hp.total
  set a := ∑ l', p i l' with ha
  set b := ∑ k', p k' j with hb
  have e : ∀ k l, p k l * (((if k = i then 1 else 0) - a) * ((if l = j then 1 else 0) - b)) ^ 2 =
      (1 - 2 * a) * (1 - 2 * b) * (if k = i then (if l = j then p k l else 0) else 0) + a ^ 2 * (1 - 2 * b) * (if l = j then p k l else 0) +
        b ^ 2 * (1 - 2 * a) * (if k = i then p k l else 0) + a ^ 2 * b ^ 2 * p k l := by
    intro k l
    split <;> split <;> ring
  simp only [e, Finset.sum_add_distrib, ← Finset.mul_sum]
  have e1 : ∑ k, ∑ l, (if k = i then (if l = j then p k l else 0) else 0) = p i j := by
    rw [Finset.sum_eq_single i (fun k _ hk => by simp [hk]) (by simp)]
    simp
  have e2 : ∑ k, ∑ l, (if k = i then p k l else 0) = ∑ l, p i l := by
    rw [Finset.sum_eq_single i (fun k _ hk => by simp [hk]) (by simp)]
    simp
  rw [e1, e2, ht, hij]
  simp only [Finset.sum_ite_eq', Finset.mem_univ, if_true, ← ha, ← hb]
  ring

section
variable {p : Fin r → Fin c → ℝ} {α β : Type} [BEq α] [LawfulBEq α] [BEq β] [LawfulBEq β] [Countable α] [Countable β]
  {law : Option α × Option β → ℝ} {q : ℝ} {u : Fin r → α} {v : Fin c → β}
  {Ω : Type} [MeasurableSpace Ω] {μ : Measure Ω} {R : ℕ → Ω → Option α × Option β}

/-- The scaled residual of the counts tends to a standard normal variable in distribution. -/
theorem residual_clt (hr : 2 ≤ r) (hc : 2 ≤ c) (hp : IsJoint p) (hl : CompleteLaw law q p u v) (hR : IndepRecords μ R law)
    [IsProbabilityMeasure μ] {i : Fin r} {j : Fin c} (hij : p i j = (∑ j', p i j') * ∑ i', p i' j) :
    TendstoInDistribution (fun (n : ℕ) ω => residual p (deviation q p n (firstCounts (R · ω) u v n)) i j / cellScale q p i j) atTop
      (id : ℝ → ℝ) (fun _ => μ) (gaussianReal 0 1) := by
  classical
  set σ := cellScale q p i j with hσ
  have hσ0 : 0 < σ := cellScale_pos hr hc hp hl.pos i j
  have hσ2 : σ ^ 2 = q * ((∑ l, p i l) * (1 - ∑ l, p i l) * ((∑ k, p k j) * (1 - ∑ k, p k j))) := by
    rw [hσ]; unfold cellScale
    refine Real.sq_sqrt ?_
    have h1 := hp.rows i
    have h2 := hp.cols j
    have h3 := sub_pos.2 (row_lt_one hr hp i)
    have h4 := sub_pos.2 (col_lt_one hc hp j)
    have := hl.pos
    positivity
  let g : Fin r × Fin c → ℝ := fun kl => (((if kl.1 = i then 1 else 0) - ∑ l', p i l') * ((if kl.2 = j then 1 else 0) - ∑ k', p k' j))
  let z : Fin r × Fin c → Option α × Option β := fun ij => (some (u ij.1), some (v ij.2))
  have hz : Function.Injective z := by
    rintro ⟨i, j⟩ ⟨i', j'⟩ h
    simp only [z, Prod.mk.injEq, Option.some.injEq] at h
    rw [hl.u_inj h.1, hl.v_inj h.2]
  let y : Option α × Option β → ℝ := fun x => ∑ ij, if x = z ij then g ij / σ else 0
  have hyz : ∀ ij, y (z ij) = g ij / σ := by
    intro ij
    simp only [y]
    rw [Finset.sum_eq_single ij]
    · rw [if_pos rfl]
    · intro ij' _ hne
      rw [if_neg fun h => hne (hz h).symm]
    · simp
  have hy0 : ∀ x, x ∉ Set.range z → y x = 0 := by
    intro x hx
    exact Finset.sum_eq_zero fun ij _ => if_neg fun h => hx ⟨ij, h.symm⟩
  let mα : MeasurableSpace (Option α × Option β) := ⊤
  have : MeasurableSingletonClass (Option α × Option β) := ⟨fun _ => trivial⟩
  have hmeas : ∀ k, Measurable (R k) := fun k => measurable_to_countable' fun z => hR.meas k z
  have hym : Measurable y := fun _ _ => trivial
  have hident : ∀ k, IdentDistrib (fun ω => y (R k ω)) (fun ω => y (R 0 ω)) μ μ := by
    intro k
    have h0 : IdentDistrib (R k) (R 0) μ μ := by
      refine ⟨(hmeas k).aemeasurable, (hmeas 0).aemeasurable, Measure.ext_of_singleton fun x => ?_⟩
      rw [Measure.map_apply (hmeas k) (measurableSet_singleton x), Measure.map_apply (hmeas 0) (measurableSet_singleton x)]
      exact (hR.iid.dist k x).trans (hR.iid.dist 0 x).symm
    exact h0.comp hym
  have hmean : ∫ ω, y (R 0 ω) ∂μ = 0 := by
    rw [hR.mean hz y hy0 0]
    simp_rw [hyz]
    rw [Fintype.sum_prod_type]
    simp_rw [z, hl.value]
    have := residual_self hp hij
    rw [residual_eq_sum] at this
    calc _ = q / σ * ∑ k, ∑ l, p k l * g (k, l) := by
            simp only [Finset.mul_sum]
            refine Finset.sum_congr rfl fun k _ => Finset.sum_congr rfl fun l _ => ?_
            ring
      _ = 0 := by simp only [g]; rw [this, mul_zero]
  have hsq : ∫ ω, y (R 0 ω) ^ 2 ∂μ = 1 := by
    rw [hR.mean hz (fun x => y x ^ 2) (fun x hx => by rw [hy0 x hx, zero_pow two_ne_zero]) 0]
    simp_rw [hyz]
    rw [Fintype.sum_prod_type]
    simp_rw [z, hl.value]
    calc _ = q / σ ^ 2 * ∑ k, ∑ l, p k l * g (k, l) ^ 2 := by
            simp only [Finset.mul_sum]
            refine Finset.sum_congr rfl fun k _ => Finset.sum_congr rfl fun l _ => ?_
            ring
      _ = 1 := by
            simp only [g]
            rw [residual_square hp hij, hσ2]
            have : q * ((∑ l, p i l) * (1 - ∑ l, p i l) * ((∑ k, p k j) * (1 - ∑ k, p k j))) ≠ 0 := by
              rw [← hσ2]; positivity
            rw [div_mul_eq_mul_div, div_self this]
  have hclt := tendstoInDistribution_inv_sqrt_mul_sum (X := fun k ω => y (R k ω)) (P := μ) (Y := (id : ℝ → ℝ)) (P' := gaussianReal 0 1)
    ⟨aemeasurable_id, by simp⟩ hmean hsq (hR.iIndepFun.comp (fun _ => y) fun _ => hym) hident
  have hsum : ∀ n : ℕ, 0 < n → ∀ ω, (√(n : ℝ))⁻¹ * ∑ k ∈ Finset.range n, y (R k ω) = residual p (deviation q p n (firstCounts (R · ω) u v n)) i j / σ := by
    intro n hn ω
    have hs : 0 < √(n : ℝ) := Real.sqrt_pos.2 (by exact_mod_cast hn)
    have e1 : ∑ k ∈ Finset.range n, y (R k ω) = ∑ k, ∑ l, (firstCounts (R · ω) u v n k l : ℝ) * (g (k, l) / σ) := by
      simp only [y]
      rw [Finset.sum_comm, Fintype.sum_prod_type]
      refine Finset.sum_congr rfl fun i _ => Finset.sum_congr rfl fun j _ => ?_
      rw [show firstCounts (R · ω) u v n i j = _ from count_eq_sum (R · ω) _ n]
      push_cast
      rw [Finset.sum_mul]
      refine Finset.sum_congr rfl fun k _ => ?_
      simp only [z]
      split <;> simp
    have e2 : ∀ k l, (firstCounts (R · ω) u v n k l : ℝ) = √n * deviation q p n (firstCounts (R · ω) u v n) k l + n * q * p k l := by
      intro k l
      unfold deviation
      field_simp
      ring
    have h0 := residual_self hp hij
    rw [residual_eq_sum] at h0 ⊢
    rw [e1]
    simp only [e2]
    have e3 : ∑ k, ∑ l, (√n * deviation q p n (firstCounts (R · ω) u v n) k l + n * q * p k l) * (g (k, l) / σ) =
        √n / σ * (∑ k, ∑ l, deviation q p n (firstCounts (R · ω) u v n) k l * g (k, l)) + n * q / σ * ∑ k, ∑ l, p k l * g (k, l) := by
      simp only [Finset.mul_sum, ← Finset.sum_add_distrib]
      refine Finset.sum_congr rfl fun k _ => Finset.sum_congr rfl fun l _ => ?_
      ring
    rw [e3, show ∑ k, ∑ l, p k l * g (k, l) = 0 from h0, mul_zero, add_zero]
    simp only [g]
    generalize (∑ k, ∑ l, deviation q p n (firstCounts (R · ω) u v n) k l * (((if k = i then 1 else 0) - ∑ l', p i l') *
      ((if l = j then 1 else 0) - ∑ k', p k' j))) = S
    field_simp
  refine hclt.congr (fun n => Filter.Eventually.of_forall fun ω => ?_) (Filter.EventuallyEq.refl _ _)
  rcases Nat.eq_zero_or_pos n with rfl | hn
  · simp [residual, deviation]
  · exact hsum n hn ω

/-- The p-value of a cell of a table, as the outlier matrix has it (where it is defined). -/
noncomputable def cellTail (σ : ℝ → ℝ) (t : Fin r → Fin c → ℕ) (i : Fin r) (j : Fin c) : ℝ :=
  midTail (abcd (inRow ⟨r, c, t⟩ i j) (inCol ⟨r, c, t⟩ i j) (elsewhere ⟨r, c, t⟩ i j))
    (abcdErr σ (inRow ⟨r, c, t⟩ i j) (inCol ⟨r, c, t⟩ i j) (elsewhere ⟨r, c, t⟩ i j)) (t i j)

theorem small_bound (r c : ℕ) {δ : ENNReal} (hδ : 0 < δ) : ∃ M : ℝ, 0 < M ∧ ENNReal.ofReal (r * c / M ^ 2) ≤ δ := by
  have h1 : Tendsto (fun M : ℝ => ENNReal.ofReal (r * c / M ^ 2)) atTop (𝓝 0) := by
    rw [← ENNReal.ofReal_zero]
    exact ENNReal.tendsto_ofReal (Tendsto.const_div_atTop (Filter.tendsto_pow_atTop two_ne_zero) _)
  obtain ⟨M, h2, h3⟩ := ((ENNReal.tendsto_nhds_zero.1 h1 δ hδ).and (Filter.eventually_gt_atTop 0)).exists
  exact ⟨M, h3, h2⟩

/-- The p-values tend to a uniform variable in distribution. -/
theorem tail_convergence {σ : ℝ → ℝ} (hσ : GoodUnc σ) (hr : 2 ≤ r) (hc : 2 ≤ c) (hp : IsJoint p) (hl : CompleteLaw law q p u v) (hR : IndepRecords μ R law)
    [IsProbabilityMeasure μ] {i : Fin r} {j : Fin c} (hij : p i j = (∑ j', p i j') * ∑ i', p i' j) :
    TendstoInDistribution (fun (n : ℕ) ω => cellTail σ (firstCounts (R · ω) u v n) i j) atTop
      (fun x : ℝ => normCdf (-x)) (fun _ => μ) (gaussianReal 0 1) := by
  have h1 := (residual_clt hr hc hp hl hR hij).continuous_comp (g := fun x => normCdf (-x)) (normCdf_cont.comp continuous_neg)
  refine tendstoInDistribution_of_tendstoInMeasure_sub _ _ h1 ?_ fun n => (counts_comp_measurable hR n fun t => cellTail σ t i j).aemeasurable
  rw [tendstoInMeasure_iff_norm]
  intro ε hε
  rw [ENNReal.tendsto_nhds_zero]
  intro δ hδ
  obtain ⟨M, hM, hMδ⟩ := small_bound r c hδ
  filter_upwards [midTail_near hσ hr hc hp hl.pos hij M hε, Filter.eventually_gt_atTop 0] with n hn hn0
  refine (measure_mono ?_).trans ((deviation_tight hl hR hn0 hM).trans hMδ)
  intro ω hω hall
  have h1 := (hn _ hall).1
  have hω : ε ≤ ‖(cellTail σ (firstCounts (R · ω) u v n) i j - normCdf (-(residual p (deviation q p n (firstCounts (R · ω) u v n)) i j / cellScale q p i j))) - 0‖ := hω
  rw [sub_zero, Real.norm_eq_abs] at hω
  exact absurd h1 (not_lt.2 hω)

/-- The probability that the p-value is below that of `z0`. -/
theorem tail_level {σ : ℝ → ℝ} (hσ : GoodUnc σ) (hr : 2 ≤ r) (hc : 2 ≤ c) (hp : IsJoint p) (hl : CompleteLaw law q p u v) (hR : IndepRecords μ R law)
    {i : Fin r} {j : Fin c} (hij : p i j = (∑ j', p i j') * ∑ i', p i' j) (z0 : ℝ) :
    Tendsto (fun n => μ {ω | cellTail σ (firstCounts (R · ω) u v n) i j < normCdf (-z0)}) atTop (𝓝 (gaussianReal 0 1 (Set.Ioi z0))) := by
  have := hR.prob
  have hconv := tail_convergence hσ hr hc hp hl hR hij
  have hm : Measurable fun x : ℝ => normCdf (-x) := (normCdf_cont.comp continuous_neg).measurable
  have hinj : ∀ x : ℝ, normCdf (-x) = normCdf (-z0) → x = z0 := by
    intro x hx
    have h1 := normCdf_le_iff.1 hx.le
    have h2 := normCdf_le_iff.1 hx.ge
    linarith
  have h1 := ProbabilityMeasure.tendsto_measure_of_null_frontier_of_tendsto' hconv.tendsto (E := Set.Iio (normCdf (-z0))) (by
    simp only [ProbabilityMeasure.coe_mk]
    rw [frontier_Iio, Measure.map_apply hm (measurableSet_singleton _)]
    refine measure_mono_null (t := {z0}) (fun x hx => hinj x hx) ?_
    exact (noAtoms_gaussianReal (μ := 0) (v := 1) (by norm_num)).measure_singleton z0)
  simp only [ProbabilityMeasure.coe_mk] at h1
  rw [Measure.map_apply hm measurableSet_Iio] at h1
  have e : (fun x : ℝ => normCdf (-x)) ⁻¹' Set.Iio (normCdf (-z0)) = Set.Ioi z0 := by
    ext x
    simp only [Set.mem_preimage, Set.mem_Iio, Set.mem_Ioi]
    rw [← not_le, normCdf_le_iff, not_le]
    exact neg_lt_neg_iff
  rw [e] at h1
  refine h1.congr fun n => ?_
  rw [Measure.map_apply (counts_comp_measurable hR n fun t => cellTail σ t i j) measurableSet_Iio]
  rfl

/-- The cell has neighbours with counts, with a probability that tends to one. -/
theorem tail_regular {σ : ℝ → ℝ} (hσ : GoodUnc σ) (hr : 2 ≤ r) (hc : 2 ≤ c) (hp : IsJoint p) (hl : CompleteLaw law q p u v) (hR : IndepRecords μ R law)
    {i : Fin r} {j : Fin c} (hij : p i j = (∑ j', p i j') * ∑ i', p i' j) :
    Tendsto (fun n => μ {ω | ¬ (elsewhere ⟨r, c, firstCounts (R · ω) u v n⟩ i j ≠ 0 ∧ inRow ⟨r, c, firstCounts (R · ω) u v n⟩ i j ≠ 0)}) atTop (𝓝 0) := by
  rw [ENNReal.tendsto_nhds_zero]
  intro δ hδ
  obtain ⟨M, hM, hMδ⟩ := small_bound r c hδ
  filter_upwards [midTail_near hσ hr hc hp hl.pos hij M one_pos, Filter.eventually_gt_atTop 0] with n hn hn0
  refine (measure_mono ?_).trans ((deviation_tight hl hR hn0 hM).trans hMδ)
  intro ω hω hall
  exact hω (hn _ hall).2.2

/-- The significance of a cell of a table, as the outlier matrix has it (where it is defined). -/
noncomputable def cellZ (σ : ℝ → ℝ) (t : Fin r → Fin c → ℕ) (i : Fin r) (j : Fin c) : ℝ := (-normPpf (cellTail σ t i j)).toReal

theorem cellZ_table (h : OutExact N) {ci : String} (hci : GoodCI N ci) (t : Fin r → Fin c → ℕ) : ∃ w, outlierFromHist2d N ⟨r, c, t⟩ ci = .ok ⟨r, c, w⟩ ∧
    ∀ i j, elsewhere ⟨r, c, t⟩ i j ≠ 0 → inRow ⟨r, c, t⟩ i j ≠ 0 ∨ inCol ⟨r, c, t⟩ i j ≠ 0 → (w i j).2 = some (cellZ (uncertaintyOf N ci) t i j : EReal) := by
  obtain ⟨w, hw, g⟩ := outlier_table_any h hci ⟨r, c, t⟩
  refine ⟨w, hw, fun i j h1 h2 => ?_⟩
  obtain ⟨g1, -, -, z, g2, g3⟩ := (g i j).2.1 h1 (by tauto)
  rw [g3]
  have : some (-normPpf (cellTail (uncertaintyOf N ci) t i j)) = some (z : EReal) := by
    rw [← g3, g1]; rfl
  unfold cellZ
  rw [Option.some.inj this]
  rfl

theorem lt_cellZ (h : OutExact N) {ci : String} (hci : GoodCI N ci) {t : Fin r → Fin c → ℕ} {i : Fin r} {j : Fin c} (h1 : elsewhere ⟨r, c, t⟩ i j ≠ 0) (h2 : inRow ⟨r, c, t⟩ i j ≠ 0) (z0 : ℝ) :
    z0 < cellZ (uncertaintyOf N ci) t i j ↔ cellTail (uncertaintyOf N ci) t i j < normCdf (-z0) := by
  obtain ⟨w, hw, g⟩ := outlier_table_any h hci ⟨r, c, t⟩
  obtain ⟨g1, -, -, z, g2, g3⟩ := (g i j).2.1 h1 (by tauto)
  have e : -normPpf (cellTail (uncertaintyOf N ci) t i j) = (z : EReal) := by
    have : some (-normPpf (cellTail (uncertaintyOf N ci) t i j)) = some (z : EReal) := by
      rw [← g3, g1]; rfl
    exact Option.some.inj this
  rw [← tail_key, e]
  unfold cellZ
  rw [e, EReal.toReal_coe, EReal.coe_lt_coe_iff]

/-- The significance of a cell exceeds `z0` with a probability that tends to the normal tail probability. -/
theorem cellZ_level (h : OutExact N) {ci : String} (hci : GoodCI N ci) (hr : 2 ≤ r) (hc : 2 ≤ c) (hp : IsJoint p) (hl : CompleteLaw law q p u v) (hR : IndepRecords μ R law)
    {i : Fin r} {j : Fin c} (hij : p i j = (∑ j', p i j') * ∑ i', p i' j) (z0 : ℝ) :
    Tendsto (fun n => μ {ω | z0 < cellZ (uncertaintyOf N ci) (firstCounts (R · ω) u v n) i j}) atTop (𝓝 (gaussianReal 0 1 (Set.Ioi z0))) := by
  have hB := tail_level hci.unc hr hc hp hl hR hij z0
  have hbad := tail_regular hci.unc hr hc hp hl hR hij
  have h1 := ENNReal.Tendsto.sub hB hbad (.inr ENNReal.zero_ne_top)
  have h2 := hB.add hbad
  rw [tsub_zero] at h1
  rw [add_zero] at h2
  refine tendsto_of_tendsto_of_tendsto_of_le_of_le h1 h2 (fun n => tsub_le_iff_right.2 ?_) fun n => ?_
  · refine le_trans (measure_mono ?_) (measure_union_le _ _)
    intro ω hω
    by_cases hreg : elsewhere ⟨r, c, firstCounts (R · ω) u v n⟩ i j ≠ 0 ∧ inRow ⟨r, c, firstCounts (R · ω) u v n⟩ i j ≠ 0
    · exact .inl ((lt_cellZ h hci hreg.1 hreg.2 z0).2 hω)
    · exact .inr hreg
  · refine le_trans (measure_mono ?_) (measure_union_le _ _)
    intro ω hω
    by_cases hreg : elsewhere ⟨r, c, firstCounts (R · ω) u v n⟩ i j ≠ 0 ∧ inRow ⟨r, c, firstCounts (R · ω) u v n⟩ i j ≠ 0
    · exact .inl ((lt_cellZ h hci hreg.1 hreg.2 z0).1 hω)
    · exact .inr hreg

end

section
variable {p : Fin r → Fin c → ℝ} {law : Option Category × Option Category → ℝ} {q : ℝ} {u : Fin r → Category} {v : Fin c → Category}
  {Ω : Type} [MeasurableSpace Ω] {μ : Measure Ω} {A B : ℕ → Ω → Cell} {K : ℕ → Ω → Option Category × Option Category}
  {pf : String → Option (Option ℚ)} {dropna du dof : Bool} {ea eb : Option (List ℚ)}

/-- The outlier matrices of large samples have the significances of the table of counts. -/
theorem outlier_shown (h : OutExact N) {ci : String} (hci : GoodCI N ci) (fmt : ℚ → String) (hr : 2 ≤ r) (hc : 2 ≤ c) (hp : IsJoint p)
    (hl : CompleteLaw law q p u v) (hR : IndepRecords μ K law) (hK : ∀ ω, CategoriesOf pf dropna du dof ea eb (A · ω) (B · ω) (K · ω))
    (i : Fin r) (j : Fin c) (hij : p i j = (∑ l, p i l) * ∑ k, p k j) :
    ∀ᵐ ω ∂μ, ∀ᶠ n in atTop, ∀ res,
      OutlierCall N ci fmt pf dropna du dof ea eb ((List.range n).map (A · ω)) ((List.range n).map (B · ω)) res →
      ∃ (o : OutTab) (x : Fin o.rows.length) (y : Fin o.cols.length), res = .ok (some o) ∧
        o.rows[x] = (u i).name fmt ∧ o.cols[y] = (v j).name fmt ∧
          o.v x y = some (cellZ (uncertaintyOf N ci) (firstCounts (K · ω) u v n) i j : EReal) := by
  filter_upwards [outlier_calls h hci fmt hr hc hp hl hR.iid hK] with ω ⟨hT, h2⟩
  obtain ⟨b1, -, b3, -, b5⟩ := approaches_blocks hT i j
  have ga : 0 < 1 - ∑ l, p i l := sub_pos.2 (row_lt_one hr hp i)
  have gb : 0 < 1 - ∑ k, p k j := sub_pos.2 (col_lt_one hc hp j)
  have pβ : 0 < ∑ l ∈ Finset.univ.erase j, p i l := by
    rw [law_row, hij, show (∑ l, p i l) - (∑ l, p i l) * ∑ k, p k j = (∑ l, p i l) * (1 - ∑ k, p k j) by ring]
    exact mul_pos (hp.rows i) gb
  have pδ : 0 < ∑ k ∈ Finset.univ.erase i, ∑ l ∈ Finset.univ.erase j, p k l := by
    rw [law_rest hp, hij, show 1 - (∑ l, p i l) - (∑ k, p k j) + (∑ l, p i l) * ∑ k, p k j = (1 - ∑ l, p i l) * (1 - ∑ k, p k j) by ring]
    exact mul_pos ga gb
  have hpos : ∀ {m : ℕ → ℕ} {l : ℝ}, 0 < l →
      Tendsto (fun k => (m k : ℝ) / ((⟨r, c, firstCounts (K · ω) u v k⟩ : Arr2 ℕ).total : ℕ)) atTop (𝓝 l) → ∀ᶠ k in atTop, m k ≠ 0 := by
    intro m l hl h
    filter_upwards [h.eventually (lt_mem_nhds hl)] with k hk h0
    rw [h0] at hk; simp at hk
  filter_upwards [h2, hpos pβ b3, hpos pδ b5] with n hn k1 k2 res hres
  obtain ⟨w, g1, g2⟩ := cellZ_table h hci (firstCounts (K · ω) u v n)
  obtain ⟨o, ho, hij'⟩ := hn w g1 res hres
  obtain ⟨x, y, k3, k4, k5⟩ := hij' i j
  exact ⟨o, x, y, ho, k3, k4, by rw [k5, g2 i j k2 (.inl k1)]⟩

/-- **C95.** Of independent draws of records, binned with given edges or not: almost surely, when the sample is large enough, the calls return an outlier matrix
with a number `Z n ω i j` for every combination of categories that is as frequent among the complete records as for independent variables, and this number
exceeds `z0` with a probability that tends to that of a standard normal variable, for every `z0`. -/
theorem outlier_null (h : OutExact N) {ci : String} (hci : GoodCI N ci) (fmt : ℚ → String) (hr : 2 ≤ r) (hc : 2 ≤ c) (hp : IsJoint p) (hl : CompleteLaw law q p u v)
    (hR : IndepRecords μ K law) (hK : ∀ ω, CategoriesOf pf dropna du dof ea eb (A · ω) (B · ω) (K · ω)) :
    ∃ Z : ℕ → Ω → Fin r → Fin c → ℝ, ∀ i j, p i j = (∑ l, p i l) * ∑ k, p k j →
      (∀ᵐ ω ∂μ, ∀ᶠ n in atTop, ∀ res,
        OutlierCall N ci fmt pf dropna du dof ea eb ((List.range n).map (A · ω)) ((List.range n).map (B · ω)) res →
        ∃ (o : OutTab) (x : Fin o.rows.length) (y : Fin o.cols.length), res = .ok (some o) ∧
          o.rows[x] = (u i).name fmt ∧ o.cols[y] = (v j).name fmt ∧ o.v x y = some (Z n ω i j : EReal)) ∧
      ∀ z0 : ℝ, Tendsto (fun n => μ {ω | z0 < Z n ω i j}) atTop (𝓝 (gaussianReal 0 1 (Set.Ioi z0))) := by
  exact ⟨fun n ω i j => cellZ (uncertaintyOf N ci) (firstCounts (K · ω) u v n) i j,
    fun i j hij => ⟨outlier_shown h hci fmt hr hc hp hl hR hK i j hij, cellZ_level h hci hr hc hp hl hR hij⟩⟩

/-- **C95 (all cells).** For independent variables, the probability that any combination of categories has an outlier significance above `z0` is in the limit
at most the number of combinations times the normal tail probability. -/
theorem outlier_null_any (h : OutExact N) {ci : String} (hci : GoodCI N ci) (fmt : ℚ → String) (hr : 2 ≤ r) (hc : 2 ≤ c) (hp : IsJoint p) (hi : IndepJoint p) (hl : CompleteLaw law q p u v)
    (hR : IndepRecords μ K law) (hK : ∀ ω, CategoriesOf pf dropna du dof ea eb (A · ω) (B · ω) (K · ω)) :
    ∃ Z : ℕ → Ω → Fin r → Fin c → ℝ,
      (∀ᵐ ω ∂μ, ∀ᶠ n in atTop, ∀ res,
        OutlierCall N ci fmt pf dropna du dof ea eb ((List.range n).map (A · ω)) ((List.range n).map (B · ω)) res → ∀ i j,
        ∃ (o : OutTab) (x : Fin o.rows.length) (y : Fin o.cols.length), res = .ok (some o) ∧
          o.rows[x] = (u i).name fmt ∧ o.cols[y] = (v j).name fmt ∧ o.v x y = some (Z n ω i j : EReal)) ∧
      ∀ z0 : ℝ, Filter.limsup (fun n => μ {ω | ∃ i j, z0 < Z n ω i j}) atTop ≤ r * c * gaussianReal 0 1 (Set.Ioi z0) := by
  obtain ⟨Z, hZ⟩ := outlier_null h hci fmt hr hc hp hl hR hK
  refine ⟨Z, ?_, fun z0 => ?_⟩
  · filter_upwards [ae_all_iff.2 fun i => ae_all_iff.2 fun j => (hZ i j (hi i j)).1] with ω hω
    filter_upwards [Filter.eventually_all.2 fun i => Filter.eventually_all.2 fun j => hω i j] with n hn res hres i j
    exact hn i j res hres
  · have h1 := tendsto_finsetSum (Finset.univ : Finset (Fin r × Fin c)) fun ij _ => (hZ ij.1 ij.2 (hi ij.1 ij.2)).2 z0
    have h2 : ∑ _ij : Fin r × Fin c, gaussianReal 0 1 (Set.Ioi z0) = r * c * gaussianReal 0 1 (Set.Ioi z0) := by
      rw [Finset.sum_const, Finset.card_univ, Fintype.card_prod, Fintype.card_fin, Fintype.card_fin, nsmul_eq_mul]
      push_cast
      rfl
    rw [h2] at h1
    rw [← h1.limsup_eq]
    refine Filter.limsup_le_limsup (Filter.Eventually.of_forall fun n => ?_)
    refine le_trans (measure_mono ?_) (measure_iUnion_fintype_le μ fun ij : Fin r × Fin c => {ω | z0 < Z n ω ij.1 ij.2})
    rintro ω ⟨i, j, hij⟩
    exact Set.mem_iUnion.2 ⟨(i, j), hij⟩

end

/-! ### a case -/

/-- Two independent variables with three values each, all equally frequent. -/
noncomputable def evenLaw : Fin 3 → Fin 3 → ℝ := fun _ _ => 1 / 9

theorem evenLaw_joint : IsJoint evenLaw := by
  refine ⟨fun i j => ?_, ?_, fun i => ?_, fun j => ?_⟩ <;> norm_num [evenLaw, Fin.sum_univ_three]

/-- A column of the numbers 1, 2, 3, binned with the edges 0, 1, 2, 3, and an independent column of the texts "a", "b", "c", a quarter of the records incomplete:
the outlier significance of the interval from 0 to 1 with "a" is asymptotically standard normal. -/
example {ci : String} (hci : ci = "poisson" ∨ ci = "exact_poisson") (fmt : ℚ → String) (pf : String → Option (Option ℚ)) : ∃ (Ω : Type) (_ : MeasurableSpace Ω) (μ : Measure Ω) (A B : ℕ → Ω → Cell) (Z : ℕ → Ω → ℝ),
    (∀ᵐ ω ∂μ, ∀ᶠ n in atTop, ∀ res,
      OutlierCall trueOut ci fmt pf true true true (some [0, 1, 2, 3]) none ((List.range n).map (A · ω)) ((List.range n).map (B · ω)) res →
      ∃ (o : OutTab) (x : Fin o.rows.length) (y : Fin o.cols.length), res = .ok (some o) ∧
        o.rows[x] = .str (fmt 0 ++ "_" ++ fmt 1) ∧ o.cols[y] = .str "a" ∧ o.v x y = some (Z n ω : EReal)) ∧
    ∀ z0 : ℝ, Tendsto (fun n => μ {ω | z0 < Z n ω}) atTop (𝓝 (gaussianReal 0 1 (Set.Ioi z0))) := by
  obtain ⟨Ω, _, μ, D, hD⟩ := draws_exist evenLaw_joint (q := 3 / 4) (by norm_num) (by norm_num)
  let u : Fin 3 → Category := ![.interval 0 1, .interval 1 2, .interval 2 3]
  let v : Fin 3 → Category := ![.value (.str "a"), .value (.str "b"), .value (.str "c")]
  have hu : Function.Injective u := by decide
  have hv : Function.Injective v := by decide
  obtain ⟨law, hl, hR⟩ := hD u v hu hv
  let A : ℕ → Ω → Cell := fun k ω => match D k ω with
    | none => .nan
    | some z => .num ((z.1 : ℕ) + 1 : ℕ)
  let B : ℕ → Ω → Cell := fun k ω => match D k ω with
    | none => .nan
    | some z => ![.str "a", .str "b", .str "c"] z.2
  have ha : ∀ (i : Fin 3) x, some (u i) = some x ↔ Belongs pf true true true (some [0, 1, 2, 3]) (.num ((i : ℕ) + 1 : ℕ)) x := by
    intro i x
    rw [belongs_bin true true true (by norm_num) (by simp) (a := some (((i : ℕ) + 1 : ℕ) : ℚ)) rfl]
    have hb : binCell [0, 1, 2, 3] (some (((i : ℕ) + 1 : ℕ) : ℚ)) = .num ((i : ℕ) + 1 : ℕ) := by
      rw [binCell_num_iff _ (by norm_num)]
      fin_cases i <;> exact ⟨_, rfl, by norm_num⟩
    rw [hb]
    fin_cases i <;> simp [view, binCat, edgePair, u]
  have hb : ∀ (i : Fin 3) x, some (v i) = some x ↔ Belongs pf true true true none (![.str "a", .str "b", .str "c"] i) x := by
    intro i x
    have hw : view true true true (![.str "a", .str "b", .str "c"] i) = some (![.str "a", .str "b", .str "c"] i) := by fin_cases i <;> rfl
    have hvi : v i = .value (![.str "a", .str "b", .str "c"] i) := by fin_cases i <;> rfl
    rw [hvi, Option.some.injEq]
    constructor
    · rintro rfl; exact .value hw
    · intro h
      cases h with
      | value h => rw [hw] at h; cases h; rfl
  have hK : ∀ ω, CategoriesOf pf true true true (some [0, 1, 2, 3]) none (A · ω) (B · ω)
      fun k => ((D k ω).map fun z => u z.1, (D k ω).map fun z => v z.2) := by
    intro ω k
    dsimp only [A, B]
    cases hz : D k ω with
    | none =>
      constructor
      · intro x
        simp only [Option.map_none, reduceCtorEq, false_iff]
        intro h
        cases h <;> simp_all [toFloat]
      · intro x
        simp only [Option.map_none, reduceCtorEq, false_iff]
        intro h
        cases h with
        | value h => simp [view] at h
    | some z => exact ⟨fun x => ha z.1 x, fun x => hb z.2 x⟩
  obtain ⟨Z, hZ⟩ := outlier_null trueOut_exact (goodCI_true hci) fmt (by norm_num) (by norm_num) evenLaw_joint hl hR hK
  exact ⟨Ω, _, μ, A, B, fun n ω => Z n ω 0 0, hZ 0 0 (by norm_num [evenLaw, Fin.sum_univ_three])⟩

end Phik.Props
