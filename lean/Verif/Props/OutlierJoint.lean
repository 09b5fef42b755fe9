import Verif.Lemmas.VectorLimit
import Verif.Props.OutlierAuto

/-! # Property C95: the joint distribution of the outlier significances of a large sample -/

namespace Phik.Props
open Phik.Spec Phik.Out MeasureTheory ProbabilityTheory Topology
open Filter (Tendsto atTop Eventually)
open scoped RealInnerProductSpace

variable {r c : ℕ} {N : OutNum}

/-- The combination of `i` and `j` is as frequent as for independent variables. -/
def Ordinary (p : Fin r → Fin c → ℝ) (ij : Fin r × Fin c) : Prop := p ij.1 ij.2 = (∑ l, p ij.1 l) * ∑ k, p k ij.2

/-- The weight of the combination `kl` in the significance of the combination `ij`. -/
noncomputable def cellWeight (p : Fin r → Fin c → ℝ) (ij kl : Fin r × Fin c) : ℝ :=
  (((if kl.1 = ij.1 then 1 else 0) - ∑ l, p ij.1 l) * ((if kl.2 = ij.2 then 1 else 0) - ∑ k, p k ij.2)) /
    √((∑ l, p ij.1 l) * (1 - ∑ l, p ij.1 l) * ((∑ k, p k ij.2) * (1 - ∑ k, p k ij.2)))

/-- The limit of the significance of the combination `ij`: a combination of independent standard normal variables `g`, one for every combination. -/
noncomputable def cellLimit (p : Fin r → Fin c → ℝ) (g : Fin r × Fin c → ℝ) (ij : Fin r × Fin c) : ℝ :=
  ∑ kl, √(p kl.1 kl.2) * cellWeight p ij kl * g kl

/-- The measure of independent standard normal variables, one for every combination. -/
noncomputable def normals (r c : ℕ) : Measure (Fin r × Fin c → ℝ) := Measure.pi fun _ => gaussianReal 0 1

instance : IsProbabilityMeasure (normals r c) := by unfold normals; infer_instance

section
variable {p : Fin r → Fin c → ℝ} {α β : Type} [BEq α] [LawfulBEq α] [BEq β] [LawfulBEq β] [Countable α] [Countable β]
  {law : Option α × Option β → ℝ} {q : ℝ} {u : Fin r → α} {v : Fin c → β}
  {Ω : Type} [MeasurableSpace Ω] {μ : Measure Ω} {R : ℕ → Ω → Option α × Option β}

theorem cellScale_split {q : ℝ} (hq : 0 < q) (p : Fin r → Fin c → ℝ) (i : Fin r) (j : Fin c) :
    cellScale q p i j = √q * √((∑ l, p i l) * (1 - ∑ l, p i l) * ((∑ k, p k j) * (1 - ∑ k, p k j))) := by
  unfold cellScale
  rw [Real.sqrt_mul hq.le]

open Classical in
/-- The scaled residuals of all ordinary combinations tend in distribution to combinations of standard normal variables. -/
theorem residual_joint (hr : 2 ≤ r) (hc : 2 ≤ c) (hp : IsJoint p) (hl : CompleteLaw law q p u v) (hR : IndepRecords μ R law) [IsProbabilityMeasure μ] :
    TendstoInDistribution (fun (n : ℕ) ω => (WithLp.toLp 2 fun ij : {ij // Ordinary p ij} =>
        residual p (deviation q p n (firstCounts (R · ω) u v n)) ij.1.1 ij.1.2 / cellScale q p ij.1.1 ij.1.2 : EuclideanSpace ℝ {ij // Ordinary p ij})) atTop
      (combine fun (ij : {ij // Ordinary p ij}) (kl : Fin r × Fin c) => √(p kl.1 kl.2) * cellWeight p ij.1 kl) (fun _ => μ) (normals r c) := by
  have hq := hl.pos
  have hs : ∀ ij : {ij // Ordinary p ij}, 0 < cellScale q p ij.1.1 ij.1.2 := fun ij => cellScale_pos hr hc hp hq _ _
  let g : {ij // Ordinary p ij} → Fin r × Fin c → ℝ := fun ij kl =>
    ((if kl.1 = ij.1.1 then 1 else 0) - ∑ l', p ij.1.1 l') * ((if kl.2 = ij.1.2 then 1 else 0) - ∑ k', p k' ij.1.2)
  let vec : Fin r × Fin c → EuclideanSpace ℝ {ij // Ordinary p ij} := fun kl => WithLp.toLp 2 fun ij => g ij kl / cellScale q p ij.1.1 ij.1.2
  let z : Fin r × Fin c → Option α × Option β := fun ij => (some (u ij.1), some (v ij.2))
  have hz : Function.Injective z := by
    rintro ⟨i, j⟩ ⟨i', j'⟩ h
    simp only [z, Prod.mk.injEq, Option.some.injEq] at h
    rw [hl.u_inj h.1, hl.v_inj h.2]
  let y : Option α × Option β → EuclideanSpace ℝ {ij // Ordinary p ij} := fun x => ∑ kl, if x = z kl then vec kl else 0
  have hyz : ∀ kl, y (z kl) = vec kl := by
    intro ij
    simp only [y]
    rw [Finset.sum_eq_single ij]
    · rw [if_pos rfl]
    · intro ij' _ hne
      rw [if_neg fun h => hne (hz h).symm]
    · simp
  have hy0 : ∀ x, x ∉ Set.range z → y x = 0 := by
    intro x hx
    exact Finset.sum_eq_zero fun ij _ => if_neg fun h => hx ⟨ij, h.symm⟩
  let mα : MeasurableSpace (Option α × Option β) := ⊤
  have : MeasurableSingletonClass (Option α × Option β) := ⟨fun _ => trivial⟩
  have hmeas : ∀ k, Measurable (R k) := fun k => measurable_to_countable' fun z => hR.meas k z
  have hym : Measurable y := fun _ _ => trivial
  have hident : ∀ k, IdentDistrib (fun ω => y (R k ω)) (fun ω => y (R 0 ω)) μ μ := by
    intro k
    have h0 : IdentDistrib (R k) (R 0) μ μ := by
      refine ⟨(hmeas k).aemeasurable, (hmeas 0).aemeasurable, Measure.ext_of_singleton fun x => ?_⟩
      rw [Measure.map_apply (hmeas k) (measurableSet_singleton x), Measure.map_apply (hmeas 0) (measurableSet_singleton x)]
      exact (hR.iid.dist k x).trans (hR.iid.dist 0 x).symm
    exact h0.comp hym
  have hin : ∀ (t : EuclideanSpace ℝ {ij // Ordinary p ij}) kl, ⟪t, vec kl⟫ = ∑ ij, t ij * (g ij kl / cellScale q p ij.1.1 ij.1.2) := by
    intro t kl
    simp only [vec, PiLp.inner_apply, RCLike.inner_apply, conj_trivial]
    exact Finset.sum_congr rfl fun ij _ => mul_comm _ _
  have hg0 : ∀ ij, ∑ kl : Fin r × Fin c, p kl.1 kl.2 * g ij kl = 0 := by
    intro ij
    have := residual_self hp ij.2
    rw [residual_eq_sum] at this
    rw [Fintype.sum_prod_type]
    exact this
  have hclt := vector_clt_combine (Y := fun k ω => y (R k ω)) (hR.iIndepFun.comp (fun _ => y) fun _ => hym) hident
    (fun t => MemLp.of_bound (by
      have : Measurable fun x => ⟪t, y x⟫ := fun _ _ => trivial
      exact (this.comp (hmeas 0)).aestronglyMeasurable) (∑ kl : Fin r × Fin c, |⟪t, vec kl⟫|) (Filter.Eventually.of_forall fun ω => by
        rw [Real.norm_eq_abs]
        by_cases hx : R 0 ω ∈ Set.range z
        · obtain ⟨ij, hij⟩ := hx
          rw [← hij, hyz]
          exact Finset.single_le_sum (f := fun kl : Fin r × Fin c => |⟪t, vec kl⟫|) (fun _ _ => abs_nonneg _) (Finset.mem_univ ij)
        · rw [hy0 _ hx, inner_zero_right, abs_zero]
          exact Finset.sum_nonneg fun _ _ => abs_nonneg _))
    (fun t => by
      rw [hR.mean hz (fun x => ⟪t, y x⟫) (fun x hx => by rw [hy0 x hx, inner_zero_right]) 0]
      simp_rw [hyz, hin]
      simp_rw [z, hl.value]
      calc _ = ∑ ij, t ij / cellScale q p ij.1.1 ij.1.2 * q * ∑ kl : Fin r × Fin c, p kl.1 kl.2 * g ij kl := by
            simp only [Finset.mul_sum]
            rw [Finset.sum_comm]
            refine Finset.sum_congr rfl fun k _ => Finset.sum_congr rfl fun l _ => ?_
            ring
        _ = 0 := by simp only [hg0, mul_zero, Finset.sum_const_zero])
    (fun (ij : {ij // Ordinary p ij}) (kl : Fin r × Fin c) => √(p kl.1 kl.2) * cellWeight p ij.1 kl)
    (fun t => by
      rw [hR.mean hz (fun x => ⟪t, y x⟫ ^ 2) (fun x hx => by rw [hy0 x hx, inner_zero_right, zero_pow two_ne_zero]) 0]
      simp_rw [hyz, hin]
      simp_rw [z, hl.value]
      refine Finset.sum_congr rfl fun kl _ => ?_
      have hw : ∀ ij : {ij // Ordinary p ij}, t ij * (g ij kl / cellScale q p ij.1.1 ij.1.2) = (√q)⁻¹ * (t ij * cellWeight p ij.1 kl) := by
        intro ij
        rw [cellScale_split hq]
        simp only [cellWeight, g]
        rw [div_mul_eq_div_div_swap]
        ring
      have hm : ∀ ij : {ij // Ordinary p ij}, t ij * (√(p kl.1 kl.2) * cellWeight p ij.1 kl) = √(p kl.1 kl.2) * (t ij * cellWeight p ij.1 kl) := fun ij => by ring
      simp_rw [hw, hm, ← Finset.mul_sum]
      rw [mul_pow, mul_pow, inv_pow, Real.sq_sqrt hq.le, Real.sq_sqrt (hp.nonneg _ _)]
      field_simp)
  refine hclt.congr (fun n => Filter.Eventually.of_forall fun ω => ?_) (Filter.EventuallyEq.refl _ _)
  rcases Nat.eq_zero_or_pos n with rfl | hn
  · ext ij
    simp [residual, deviation]
  have hs0 : 0 < √(n : ℝ) := Real.sqrt_pos.2 (by exact_mod_cast hn)
  have e1 : ∑ k ∈ Finset.range n, y (R k ω) = ∑ kl : Fin r × Fin c, (firstCounts (R · ω) u v n kl.1 kl.2 : ℝ) • vec kl := by
    simp only [y]
    rw [Finset.sum_comm]
    refine Finset.sum_congr rfl fun ij _ => ?_
    rw [show firstCounts (R · ω) u v n ij.1 ij.2 = _ from count_eq_sum (R · ω) _ n]
    push_cast
    rw [Finset.sum_smul]
    refine Finset.sum_congr rfl fun k _ => ?_
    simp only [z]
    split <;> simp
  have e2 : ∀ k l, (firstCounts (R · ω) u v n k l : ℝ) = √n * deviation q p n (firstCounts (R · ω) u v n) k l + n * q * p k l := by
    intro k l
    unfold deviation
    field_simp
    ring
  simp only [e1]
  ext ij
  have hs1 := (hs ij).ne'
  simp only [PiLp.smul_apply, WithLp.ofLp_sum, Finset.sum_apply, WithLp.ofLp_smul, Pi.smul_apply, smul_eq_mul, vec, e2]
  rw [residual_eq_sum]
  have e3 : ∑ kl : Fin r × Fin c, (√n * deviation q p n (firstCounts (R · ω) u v n) kl.1 kl.2 + n * q * p kl.1 kl.2) * (g ij kl / cellScale q p ij.1.1 ij.1.2) =
      √n / cellScale q p ij.1.1 ij.1.2 * (∑ kl : Fin r × Fin c, deviation q p n (firstCounts (R · ω) u v n) kl.1 kl.2 * g ij kl) +
        n * q / cellScale q p ij.1.1 ij.1.2 * ∑ kl : Fin r × Fin c, p kl.1 kl.2 * g ij kl := by
    simp only [Finset.mul_sum, ← Finset.sum_add_distrib]
    refine Finset.sum_congr rfl fun k _ => ?_
    ring
  rw [e3, hg0, mul_zero, add_zero, Fintype.sum_prod_type]
  simp only [g]
  generalize (∑ k, ∑ l, deviation q p n (firstCounts (R · ω) u v n) k l * (((if k = ij.1.1 then 1 else 0) - ∑ l', p ij.1.1 l') *
    ((if l = ij.1.2 then 1 else 0) - ∑ k', p k' ij.1.2))) = S
  field_simp

/-- The limit of every ordinary combination is standard normal. -/
theorem cellLimit_normal (hr : 2 ≤ r) (hc : 2 ≤ c) (hp : IsJoint p) {ij : Fin r × Fin c} (hij : Ordinary p ij) :
    (normals r c).map (cellLimit p · ij) = gaussianReal 0 1 := by
  refine law_combination (fun kl => √(p kl.1 kl.2) * cellWeight p ij kl) ?_
  have h1 := hp.rows ij.1
  have h2 := hp.cols ij.2
  have h3 := sub_pos.2 (row_lt_one hr hp ij.1)
  have h4 := sub_pos.2 (col_lt_one hc hp ij.2)
  have hpos : 0 < (∑ l, p ij.1 l) * (1 - ∑ l, p ij.1 l) * ((∑ k, p k ij.2) * (1 - ∑ k, p k ij.2)) := by positivity
  have hsq := residual_square hp hij
  rw [Fintype.sum_prod_type]
  have e : ∀ k l, (√(p k l) * cellWeight p ij (k, l)) ^ 2 = p k l * (((if k = ij.1 then 1 else 0) - ∑ l', p ij.1 l') * ((if l = ij.2 then 1 else 0) - ∑ k', p k' ij.2)) ^ 2 /
      ((∑ l, p ij.1 l) * (1 - ∑ l, p ij.1 l) * ((∑ k, p k ij.2) * (1 - ∑ k, p k ij.2))) := by
    intro k l
    unfold cellWeight
    rw [mul_pow, Real.sq_sqrt (hp.nonneg _ _), div_pow, Real.sq_sqrt hpos.le]
    ring
  simp only [e, ← Finset.sum_div]
  rw [hsq, div_self hpos.ne']

theorem cellLimit_continuous (p : Fin r → Fin c → ℝ) (ij : Fin r × Fin c) : Continuous (cellLimit p · ij) := by
  unfold cellLimit; fun_prop

open Classical in
/-- The p-values of all ordinary combinations together. -/
theorem tail_joint {σ : ℝ → ℝ} (hσ : GoodUnc σ) (hr : 2 ≤ r) (hc : 2 ≤ c) (hp : IsJoint p) (hl : CompleteLaw law q p u v) (hR : IndepRecords μ R law)
    [IsProbabilityMeasure μ] :
    TendstoInDistribution (fun (n : ℕ) ω (ij : {ij // Ordinary p ij}) => cellTail σ (firstCounts (R · ω) u v n) ij.1.1 ij.1.2) atTop
      (fun g (ij : {ij // Ordinary p ij}) => normCdf (-cellLimit p g ij.1)) (fun _ => μ) (normals r c) := by
  have h1 := (residual_joint hr hc hp hl hR).continuous_comp (g := fun (x : EuclideanSpace ℝ {ij // Ordinary p ij}) (ij : {ij // Ordinary p ij}) => normCdf (-(x ij)))
    (continuous_pi fun ij => normCdf_cont.comp (by fun_prop))
  refine tendstoInDistribution_of_tendstoInMeasure_sub _ _ h1 ?_ fun n =>
    (counts_comp_measurable hR n fun t (ij : {ij // Ordinary p ij}) => cellTail σ t ij.1.1 ij.1.2).aemeasurable
  rw [tendstoInMeasure_iff_norm]
  intro ε hε
  rw [ENNReal.tendsto_nhds_zero]
  intro δ hδ
  obtain ⟨M, hM, hMδ⟩ := small_bound r c hδ
  have near : ∀ᶠ n : ℕ in atTop, ∀ (ij : {ij // Ordinary p ij}) (t : Fin r → Fin c → ℕ), (∀ i j, |deviation q p n t i j| ≤ M) →
      |cellTail σ t ij.1.1 ij.1.2 - normCdf (-(residual p (deviation q p n t) ij.1.1 ij.1.2 / cellScale q p ij.1.1 ij.1.2))| < ε := by
    refine Filter.eventually_all.2 fun ij => ?_
    filter_upwards [midTail_near hσ hr hc hp hl.pos ij.2 M hε] with n hn t ht
    exact (hn t ht).1
  filter_upwards [near, Filter.eventually_gt_atTop 0] with n hn hn0
  refine (measure_mono ?_).trans ((deviation_tight hl hR hn0 hM).trans hMδ)
  intro ω hω hall
  have hω := Set.mem_setOf_eq ▸ hω
  refine absurd hω (not_le.2 ?_)
  rw [Pi.sub_apply, Pi.zero_apply, sub_zero, pi_norm_lt_iff hε]
  intro ij
  rw [Real.norm_eq_abs]
  exact hn ij _ hall

/-- The probability that no p-value of an ordinary combination is below that of a bound. -/
theorem tail_joint_level {σ : ℝ → ℝ} (hσ : GoodUnc σ) (hr : 2 ≤ r) (hc : 2 ≤ c) (hp : IsJoint p) (hl : CompleteLaw law q p u v) (hR : IndepRecords μ R law)
    (z : Fin r × Fin c → ℝ) :
    Tendsto (fun n => μ {ω | ∀ ij, Ordinary p ij → normCdf (-z ij) ≤ cellTail σ (firstCounts (R · ω) u v n) ij.1 ij.2}) atTop
      (𝓝 (normals r c {g | ∀ ij, Ordinary p ij → cellLimit p g ij ≤ z ij})) := by
  classical
  have := hR.prob
  have hconv := tail_joint hσ hr hc hp hl hR
  have hm : Measurable fun g (ij : {ij // Ordinary p ij}) => normCdf (-cellLimit p g ij.1) :=
    measurable_pi_lambda _ fun ij => normCdf_cont.measurable.comp (cellLimit_continuous p ij.1).measurable.neg
  have h1 := orthant_limit hconv (fun n => counts_comp_measurable hR n fun t (ij : {ij // Ordinary p ij}) => cellTail σ t ij.1.1 ij.1.2)
    hm (fun ij => normCdf (-z ij.1)) (fun ij => by
      have hsub : {g | normCdf (-cellLimit p g ij.1) = normCdf (-z ij.1)} ⊆ (cellLimit p · ij.1) ⁻¹' {z ij.1} := by
        intro g hg
        have hg : normCdf (-cellLimit p g ij.1) = normCdf (-z ij.1) := hg
        have h1 := normCdf_le_iff.1 hg.le
        have h2 := normCdf_le_iff.1 hg.ge
        exact le_antisymm (by linarith) (by linarith)
      refine measure_mono_null hsub ?_
      rw [← Measure.map_apply (cellLimit_continuous p ij.1).measurable (measurableSet_singleton _), cellLimit_normal hr hc hp ij.2]
      exact (noAtoms_gaussianReal (μ := 0) (v := 1) (by norm_num)).measure_singleton _)
  have e : {g | ∀ ij : {ij // Ordinary p ij}, normCdf (-z ij.1) ≤ normCdf (-cellLimit p g ij.1)} = {g | ∀ ij, Ordinary p ij → cellLimit p g ij ≤ z ij} := by
    ext g
    simp only [Set.mem_setOf_eq, Subtype.forall]
    refine forall_congr' fun ij => forall_congr' fun _ => ?_
    rw [normCdf_le_iff, neg_le_neg_iff]
  rw [e] at h1
  refine h1.congr fun n => ?_
  simp only [Subtype.forall]

/-- The probability that all significances of ordinary combinations stay below given bounds. -/
theorem cellZ_joint_level (h : OutExact N) {ci : String} (hci : GoodCI N ci) (hr : 2 ≤ r) (hc : 2 ≤ c) (hp : IsJoint p) (hl : CompleteLaw law q p u v)
    (hR : IndepRecords μ R law) (z : Fin r × Fin c → ℝ) :
    Tendsto (fun n => μ {ω | ∀ ij, Ordinary p ij → cellZ (uncertaintyOf N ci) (firstCounts (R · ω) u v n) ij.1 ij.2 ≤ z ij}) atTop
      (𝓝 (normals r c {g | ∀ ij, Ordinary p ij → cellLimit p g ij ≤ z ij})) := by
  classical
  have hB := tail_joint_level hci.unc hr hc hp hl hR z
  have hbad : Tendsto (fun n => ∑ ij : {ij // Ordinary p ij}, μ {ω | ¬ (elsewhere ⟨r, c, firstCounts (R · ω) u v n⟩ ij.1.1 ij.1.2 ≠ 0 ∧
      inRow ⟨r, c, firstCounts (R · ω) u v n⟩ ij.1.1 ij.1.2 ≠ 0)}) atTop (𝓝 0) := by
    have := tendsto_finsetSum (Finset.univ : Finset {ij // Ordinary p ij}) fun ij _ => tail_regular hci.unc hr hc hp hl hR ij.2
    rwa [Finset.sum_const_zero] at this
  have h1 := ENNReal.Tendsto.sub hB hbad (.inr ENNReal.zero_ne_top)
  have h2 := hB.add hbad
  rw [tsub_zero] at h1
  rw [add_zero] at h2
  have key : ∀ n ω, (∀ ij, Ordinary p ij → elsewhere ⟨r, c, firstCounts (R · ω) u v n⟩ ij.1 ij.2 ≠ 0 ∧ inRow ⟨r, c, firstCounts (R · ω) u v n⟩ ij.1 ij.2 ≠ 0) →
      ((∀ ij, Ordinary p ij → cellZ (uncertaintyOf N ci) (firstCounts (R · ω) u v n) ij.1 ij.2 ≤ z ij) ↔
        ∀ ij, Ordinary p ij → normCdf (-z ij) ≤ cellTail (uncertaintyOf N ci) (firstCounts (R · ω) u v n) ij.1 ij.2) := by
    intro n ω hreg
    refine forall_congr' fun ij => forall_congr' fun hij => ?_
    rw [← not_lt, lt_cellZ h hci (hreg ij hij).1 (hreg ij hij).2, not_lt]
  have cover : ∀ n ω, (∀ ij, Ordinary p ij → elsewhere ⟨r, c, firstCounts (R · ω) u v n⟩ ij.1 ij.2 ≠ 0 ∧ inRow ⟨r, c, firstCounts (R · ω) u v n⟩ ij.1 ij.2 ≠ 0) ∨
      ω ∈ ⋃ ij : {ij // Ordinary p ij}, {ω | ¬ (elsewhere ⟨r, c, firstCounts (R · ω) u v n⟩ ij.1.1 ij.1.2 ≠ 0 ∧
      inRow ⟨r, c, firstCounts (R · ω) u v n⟩ ij.1.1 ij.1.2 ≠ 0)} := by
    intro n ω
    by_cases hreg : ∀ ij, Ordinary p ij → elsewhere ⟨r, c, firstCounts (R · ω) u v n⟩ ij.1 ij.2 ≠ 0 ∧ inRow ⟨r, c, firstCounts (R · ω) u v n⟩ ij.1 ij.2 ≠ 0
    · exact .inl hreg
    · push Not at hreg
      obtain ⟨ij, h1, h2⟩ := hreg
      exact .inr (Set.mem_iUnion.2 ⟨⟨ij, h1⟩, fun hn => hn.2 (h2 hn.1)⟩)
  refine tendsto_of_tendsto_of_tendsto_of_le_of_le h1 h2 (fun n => tsub_le_iff_right.2 ?_) fun n => ?_
  · refine le_trans (measure_mono (t := _ ∪ _) ?_) ((measure_union_le _ _).trans (add_le_add_right (measure_iUnion_fintype_le μ _) _))
    intro ω hω
    rcases cover n ω with hreg | hbad
    · exact .inl ((key n ω hreg).2 hω)
    · exact .inr hbad
  · refine le_trans (measure_mono (t := _ ∪ _) ?_) ((measure_union_le _ _).trans (add_le_add_right (measure_iUnion_fintype_le μ _) _))
    intro ω hω
    rcases cover n ω with hreg | hbad
    · exact .inl ((key n ω hreg).1 hω)
    · exact .inr hbad

end

section
variable {p : Fin r → Fin c → ℝ} {law : Option Category × Option Category → ℝ} {q : ℝ} {u : Fin r → Category} {v : Fin c → Category}
  {Ω : Type} [MeasurableSpace Ω] {μ : Measure Ω} {A B : ℕ → Ω → Cell} {K : ℕ → Ω → Option Category × Option Category}
  {pf : String → Option (Option ℚ)} {dropna du dof : Bool} {ea eb : Option (List ℚ)}

/-- **C95 (joint law).** Records drawn independently: the outlier significances of all combinations of categories that are as frequent as for independent variables
are jointly asymptotically normal, with the law of explicit combinations of independent standard normal variables. -/
theorem outlier_joint (h : OutExact N) {ci : String} (hci : GoodCI N ci) (fmt : ℚ → String) (hr : 2 ≤ r) (hc : 2 ≤ c) (hp : IsJoint p) (hl : CompleteLaw law q p u v)
    (hR : IndepRecords μ K law) (hK : ∀ ω, CategoriesOf pf dropna du dof ea eb (A · ω) (B · ω) (K · ω)) :
    ∃ Z : ℕ → Ω → Fin r → Fin c → ℝ,
      (∀ᵐ ω ∂μ, ∀ᶠ n in atTop, ∀ res,
        OutlierCall N ci fmt pf dropna du dof ea eb ((List.range n).map (A · ω)) ((List.range n).map (B · ω)) res →
        ∀ i j, Ordinary p (i, j) → ∃ (o : OutTab) (x : Fin o.rows.length) (y : Fin o.cols.length), res = .ok (some o) ∧
          o.rows[x] = (u i).name fmt ∧ o.cols[y] = (v j).name fmt ∧ o.v x y = some (Z n ω i j : EReal)) ∧
      ∀ z : Fin r × Fin c → ℝ, Tendsto (fun n => μ {ω | ∀ ij, Ordinary p ij → Z n ω ij.1 ij.2 ≤ z ij}) atTop
        (𝓝 (normals r c {g | ∀ ij, Ordinary p ij → cellLimit p g ij ≤ z ij})) := by
  refine ⟨fun n ω i j => cellZ (uncertaintyOf N ci) (firstCounts (K · ω) u v n) i j, ?_, fun z => cellZ_joint_level h hci hr hc hp hl hR z⟩
  have h1 : ∀ᵐ ω ∂μ, ∀ i j, ∀ hij : Ordinary p (i, j), ∀ᶠ n in atTop, ∀ res,
      OutlierCall N ci fmt pf dropna du dof ea eb ((List.range n).map (A · ω)) ((List.range n).map (B · ω)) res →
      ∃ (o : OutTab) (x : Fin o.rows.length) (y : Fin o.cols.length), res = .ok (some o) ∧
        o.rows[x] = (u i).name fmt ∧ o.cols[y] = (v j).name fmt ∧
          o.v x y = some (cellZ (uncertaintyOf N ci) (firstCounts (K · ω) u v n) i j : EReal) :=
    ae_all_iff.2 fun i => ae_all_iff.2 fun j => ae_all_iff.2 fun hij => outlier_shown h hci fmt hr hc hp hl hR hK i j hij
  filter_upwards [h1] with ω hω
  filter_upwards [Filter.eventually_all.2 fun i => Filter.eventually_all.2 fun j => Filter.eventually_all.2 fun hij => hω i j hij] with n hn res hres i j hij
  exact hn i j hij res hres

/-- The event that no significance is above a bound, as the complement of the event that some significance is. -/
theorem exceed_limit {ν : Measure (Fin r × Fin c → ℝ)} [IsProbabilityMeasure ν] [IsProbabilityMeasure μ] {X : ℕ → Ω → Fin r × Fin c → ℝ}
    (hX : ∀ n ij z0, MeasurableSet {ω | X n ω ij ≤ z0}) {L : (Fin r × Fin c → ℝ) → Fin r × Fin c → ℝ} (hL : ∀ ij, Continuous (L · ij)) (z0 : ℝ)
    (h : Tendsto (fun n => μ {ω | ∀ ij, X n ω ij ≤ z0}) atTop (𝓝 (ν {g | ∀ ij, L g ij ≤ z0}))) :
    Tendsto (fun n => μ {ω | ∃ ij, z0 < X n ω ij}) atTop (𝓝 (ν {g | ∃ ij, z0 < L g ij})) := by
  have e1 : ∀ n, μ {ω | ∃ ij, z0 < X n ω ij} = 1 - μ {ω | ∀ ij, X n ω ij ≤ z0} := by
    intro n
    rw [← prob_compl_eq_one_sub (by rw [Set.setOf_forall]; exact MeasurableSet.iInter fun ij => hX n ij z0)]
    congr 1
    ext ω
    simp
  have e2 : ν {g | ∃ ij, z0 < L g ij} = 1 - ν {g | ∀ ij, L g ij ≤ z0} := by
    rw [← prob_compl_eq_one_sub (by rw [Set.setOf_forall]; exact MeasurableSet.iInter fun ij => (isClosed_le (hL ij) continuous_const).measurableSet)]
    congr 1
    ext g
    simp
  simp only [e1, e2]
  exact ENNReal.Tendsto.sub tendsto_const_nhds h (.inl ENNReal.one_ne_top)

/-- **C95 (any cell).** For independent variables, the exact limit of the probability that any combination of categories has an outlier significance above `z0`. -/
theorem outlier_joint_any (h : OutExact N) {ci : String} (hci : GoodCI N ci) (fmt : ℚ → String) (hr : 2 ≤ r) (hc : 2 ≤ c) (hp : IsJoint p) (hi : IndepJoint p)
    (hl : CompleteLaw law q p u v) (hR : IndepRecords μ K law) (hK : ∀ ω, CategoriesOf pf dropna du dof ea eb (A · ω) (B · ω) (K · ω)) :
    ∃ Z : ℕ → Ω → Fin r → Fin c → ℝ,
      (∀ᵐ ω ∂μ, ∀ᶠ n in atTop, ∀ res,
        OutlierCall N ci fmt pf dropna du dof ea eb ((List.range n).map (A · ω)) ((List.range n).map (B · ω)) res →
        ∀ i j, ∃ (o : OutTab) (x : Fin o.rows.length) (y : Fin o.cols.length), res = .ok (some o) ∧
          o.rows[x] = (u i).name fmt ∧ o.cols[y] = (v j).name fmt ∧ o.v x y = some (Z n ω i j : EReal)) ∧
      ∀ z0 : ℝ, Tendsto (fun n => μ {ω | ∃ ij : Fin r × Fin c, z0 < Z n ω ij.1 ij.2}) atTop (𝓝 (normals r c {g | ∃ ij, z0 < cellLimit p g ij})) := by
  have := hR.prob
  have ho : ∀ ij, Ordinary p ij := fun ij => hi ij.1 ij.2
  refine ⟨fun n ω i j => cellZ (uncertaintyOf N ci) (firstCounts (K · ω) u v n) i j, ?_, fun z0 => ?_⟩
  · have h1 : ∀ᵐ ω ∂μ, ∀ i j, ∀ᶠ n in atTop, ∀ res,
        OutlierCall N ci fmt pf dropna du dof ea eb ((List.range n).map (A · ω)) ((List.range n).map (B · ω)) res →
        ∃ (o : OutTab) (x : Fin o.rows.length) (y : Fin o.cols.length), res = .ok (some o) ∧
          o.rows[x] = (u i).name fmt ∧ o.cols[y] = (v j).name fmt ∧
            o.v x y = some (cellZ (uncertaintyOf N ci) (firstCounts (K · ω) u v n) i j : EReal) :=
      ae_all_iff.2 fun i => ae_all_iff.2 fun j => outlier_shown h hci fmt hr hc hp hl hR hK i j (hi i j)
    filter_upwards [h1] with ω hω
    filter_upwards [Filter.eventually_all.2 fun i => Filter.eventually_all.2 fun j => hω i j] with n hn res hres i j
    exact hn i j res hres
  · refine exceed_limit (X := fun n ω ij => cellZ (uncertaintyOf N ci) (firstCounts (K · ω) u v n) ij.1 ij.2) (fun n ij z => ?_)
      (fun ij => cellLimit_continuous p ij) z0 ?_
    · exact (counts_comp_measurable hR n fun t => cellZ (uncertaintyOf N ci) t ij.1 ij.2) measurableSet_Iic
    · have := cellZ_joint_level h hci hr hc hp hl hR fun _ => z0
      simpa only [ho, true_implies] using this

end

/-- The largest of the four limits of a table of two by two independent categories is the absolute value of a standard normal variable. -/
theorem cellLimit_two {p : Fin 2 → Fin 2 → ℝ} (hp : IsJoint p) (hi : IndepJoint p) {z0 : ℝ} :
    normals 2 2 {g | ∃ ij, z0 < cellLimit p g ij} = gaussianReal 0 1 {x | z0 < |x|} := by
  have ho : Ordinary p ((0 : Fin 2), (0 : Fin 2)) := hi 0 0
  have hm : MeasurableSet {x : ℝ | z0 < |x|} := (isOpen_lt continuous_const continuous_abs).measurableSet
  rw [← cellLimit_normal (le_refl 2) (le_refl 2) hp ho, Measure.map_apply (cellLimit_continuous p _).measurable hm]
  congr 1
  ext g
  have ht : p 0 0 + p 0 1 + (p 1 0 + p 1 1) = 1 := by have := hp.total; simpa [Fin.sum_univ_two] using this
  have r1 : ∑ l, p 1 l = 1 - ∑ l, p 0 l := by simp only [Fin.sum_univ_two]; linarith
  have c1 : ∑ k, p k 1 = 1 - ∑ k, p k 0 := by simp only [Fin.sum_univ_two]; linarith
  have w : ∀ kl, cellWeight p (0, 1) kl = -cellWeight p (0, 0) kl ∧ cellWeight p (1, 0) kl = -cellWeight p (0, 0) kl ∧
      cellWeight p (1, 1) kl = cellWeight p (0, 0) kl := by
    intro kl
    unfold cellWeight
    simp only [r1, c1]
    generalize (∑ l, p 0 l) = a
    generalize (∑ k, p k 0) = b
    have s1 : a * (1 - a) * ((1 - b) * (1 - (1 - b))) = a * (1 - a) * (b * (1 - b)) := by ring
    have s2 : (1 - a) * (1 - (1 - a)) * (b * (1 - b)) = a * (1 - a) * (b * (1 - b)) := by ring
    have s3 : (1 - a) * (1 - (1 - a)) * ((1 - b) * (1 - (1 - b))) = a * (1 - a) * (b * (1 - b)) := by ring
    rw [s1, s2, s3, ← neg_div]
    obtain ⟨k, l⟩ := kl
    fin_cases k <;> fin_cases l <;> simp <;> (try refine ⟨?_, ?_, ?_⟩) <;> ring_nf <;> exact ⟨trivial, trivial⟩
  have l01 : cellLimit p g (0, 1) = -cellLimit p g (0, 0) := by
    unfold cellLimit; rw [← Finset.sum_neg_distrib]; exact Finset.sum_congr rfl fun kl _ => by rw [(w kl).1]; ring
  have l10 : cellLimit p g (1, 0) = -cellLimit p g (0, 0) := by
    unfold cellLimit; rw [← Finset.sum_neg_distrib]; exact Finset.sum_congr rfl fun kl _ => by rw [(w kl).2.1]; ring
  have l11 : cellLimit p g (1, 1) = cellLimit p g (0, 0) := by
    unfold cellLimit; exact Finset.sum_congr rfl fun kl _ => by rw [(w kl).2.2]
  simp only [Set.mem_setOf_eq, Set.mem_preimage, Prod.exists, Fin.exists_fin_two, l01, l10, l11, lt_abs]
  tauto

/-- **C95 (two by two).** Two independent variables with two categories each: the probability that any of the four outlier significances is above `z0` tends to
the probability that a standard normal variable is above `z0` in absolute value: the four significances are in the limit one number and its opposite. -/
theorem outlier_two_by_two {p : Fin 2 → Fin 2 → ℝ} {law : Option Category × Option Category → ℝ} {q : ℝ} {u v : Fin 2 → Category}
    {Ω : Type} [MeasurableSpace Ω] {μ : Measure Ω} {A B : ℕ → Ω → Cell} {K : ℕ → Ω → Option Category × Option Category}
    {pf : String → Option (Option ℚ)} {dropna du dof : Bool} {ea eb : Option (List ℚ)}
    (h : OutExact N) {ci : String} (hci : GoodCI N ci) (fmt : ℚ → String) (hp : IsJoint p) (hi : IndepJoint p)
    (hl : CompleteLaw law q p u v) (hR : IndepRecords μ K law) (hK : ∀ ω, CategoriesOf pf dropna du dof ea eb (A · ω) (B · ω) (K · ω)) :
    ∃ Z : ℕ → Ω → Fin 2 → Fin 2 → ℝ,
      (∀ᵐ ω ∂μ, ∀ᶠ n in atTop, ∀ res,
        OutlierCall N ci fmt pf dropna du dof ea eb ((List.range n).map (A · ω)) ((List.range n).map (B · ω)) res →
        ∀ i j, ∃ (o : OutTab) (x : Fin o.rows.length) (y : Fin o.cols.length), res = .ok (some o) ∧
          o.rows[x] = (u i).name fmt ∧ o.cols[y] = (v j).name fmt ∧ o.v x y = some (Z n ω i j : EReal)) ∧
      ∀ z0 : ℝ, Tendsto (fun n => μ {ω | ∃ ij : Fin 2 × Fin 2, z0 < Z n ω ij.1 ij.2}) atTop (𝓝 (gaussianReal 0 1 {x | z0 < |x|})) := by
  obtain ⟨Z, h1, h2⟩ := outlier_joint_any h hci fmt (le_refl 2) (le_refl 2) hp hi hl hR hK
  exact ⟨Z, h1, fun z0 => by simpa only [cellLimit_two hp hi] using h2 z0⟩

section
variable {p : Fin r → Fin c → ℝ} {raw : Cell × Cell → ℝ} {S : Finset (Cell × Cell)} {q : ℝ} {u : Fin r → Category} {v : Fin c → Category}
  {Ω : Type} [MeasurableSpace Ω] {μ : Measure Ω} {A B : ℕ → Ω → Cell} {pf : String → Option (Option ℚ)} {dropna du dof : Bool} {ea eb : Option (List ℚ)}
  {ka kb : Cell → Option Category} {fl : ℚ → ℚ} {e : ℚ} {quantile : Bool} {oa ob : Option BinSpec}

/-- **C95 (joint law, automatic bins).** The same for columns binned in equal bins or at the quantiles of the sample. -/
theorem outlier_auto_joint (h : OutExact N) {ci : String} (hci : GoodCI N ci) (fmt : ℚ → String) (hr : 2 ≤ r) (hc : 2 ≤ c) (hp : IsJoint p) (hS : ∀ x, raw x ≠ 0 → x ∈ S)
    (hfl : fl = (fun x => x) ∨ fl = rne53) (he : ∀ x, |fl x - x| ≤ e * |x|) (hA : LimitEdges S raw Prod.fst fl e quantile oa ea)
    (hB : LimitEdges S raw Prod.snd fl e quantile ob eb) (repA : ∀ z y, raw z ≠ 0 → z.1 = .num y → fl y = y)
    (repB : ∀ z y, raw z ≠ 0 → z.2 = .num y → fl y = y) (numA : oa ≠ none → ∀ z s, raw z ≠ 0 → z.1 ≠ .str s)
    (numB : ob ≠ none → ∀ z s, raw z ≠ 0 → z.2 ≠ .str s) (hka : ∀ cell x, ka cell = some x ↔ Belongs pf dropna du dof ea cell x)
    (hkb : ∀ cell x, kb cell = some x ↔ Belongs pf dropna du dof eb cell x) (hl : CompleteLaw (pushLaw S raw fun z => (ka z.1, kb z.2)) q p u v)
    (hR : IndepRecords μ (fun k ω => (A k ω, B k ω)) raw) :
    ∃ Z : ℕ → Ω → Fin r → Fin c → ℝ,
      (∀ᵐ ω ∂μ, ∀ᶠ n in atTop, ∀ res,
        AutoCall N ci fmt fl pf quantile dropna du dof oa ob ((List.range n).map (A · ω)) ((List.range n).map (B · ω)) res →
        ∀ i j, Ordinary p (i, j) → ∃ (o : OutTab) (x : Fin o.rows.length) (y : Fin o.cols.length), res = .ok (some o) ∧
          o.rows[x] = (u i).name fmt ∧ o.cols[y] = (v j).name fmt ∧ o.v x y = some (Z n ω i j : EReal)) ∧
      ∀ z : Fin r × Fin c → ℝ, Tendsto (fun n => μ {ω | ∀ ij, Ordinary p ij → Z n ω ij.1 ij.2 ≤ z ij}) atTop
        (𝓝 (normals r c {g | ∀ ij, Ordinary p ij → cellLimit p g ij ≤ z ij})) := by
  have hm := hR.map hS fun z => (ka z.1, kb z.2)
  obtain ⟨Z, h1, h2⟩ := outlier_joint h hci fmt hr hc hp hl hm (A := A) (B := B) (fun ω k => ⟨hka _, hkb _⟩)
  refine ⟨Z, ?_, h2⟩
  filter_upwards [h1, hR.iid.typical] with ω h1 h2
  filter_upwards [h1, auto_calls (N := N) h2 hR.nonneg hS hfl he hA hB repA repB numA numB fmt pf dropna du dof] with n hn hcall res hres
  exact hn res (hcall res hres)

end

/-! ### a case -/

/-- Two independent variables with two values each. -/
noncomputable def coinLaw : Fin 2 → Fin 2 → ℝ := ![![1 / 6, 1 / 2], ![1 / 12, 1 / 4]]

theorem coinLaw_joint : IsJoint coinLaw := by
  refine ⟨fun i j => ?_, ?_, fun i => ?_, fun j => ?_⟩
  · fin_cases i <;> fin_cases j <;> norm_num [coinLaw]
  · norm_num [coinLaw, Fin.sum_univ_two]
  · fin_cases i <;> norm_num [coinLaw, Fin.sum_univ_two]
  · fin_cases j <;> norm_num [coinLaw, Fin.sum_univ_two]

theorem coinLaw_indep : IndepJoint coinLaw := by
  intro i j
  fin_cases i <;> fin_cases j <;> norm_num [coinLaw, Fin.sum_univ_two]

/-- Two columns of texts, a fifth of the records incomplete: the probability that any of the four significances is above 2 tends to the probability of a standard
normal variable above 2 in absolute value. -/
example {ci : String} (hci : ci = "poisson" ∨ ci = "exact_poisson") (fmt : ℚ → String) (pf : String → Option (Option ℚ)) :
    ∃ (Ω : Type) (_ : MeasurableSpace Ω) (μ : Measure Ω) (A B : ℕ → Ω → Cell) (Z : ℕ → Ω → Fin 2 → Fin 2 → ℝ),
    (∀ᵐ ω ∂μ, ∀ᶠ n in atTop, ∀ res,
      OutlierCall trueOut ci fmt pf true true true none none ((List.range n).map (A · ω)) ((List.range n).map (B · ω)) res →
      ∀ i j, ∃ (o : OutTab) (x : Fin o.rows.length) (y : Fin o.cols.length), res = .ok (some o) ∧
        o.rows[x] = .str (![ "x", "y"] i) ∧ o.cols[y] = .str (![ "a", "b"] j) ∧ o.v x y = some (Z n ω i j : EReal)) ∧
    Tendsto (fun n => μ {ω | ∃ ij : Fin 2 × Fin 2, 2 < Z n ω ij.1 ij.2}) atTop (𝓝 (gaussianReal 0 1 {x | 2 < |x|})) := by
  obtain ⟨Ω, _, μ, D, hD⟩ := draws_exist coinLaw_joint (q := 4 / 5) (by norm_num) (by norm_num)
  let s : Fin 2 → Cell := fun i => .str (![ "x", "y"] i)
  let t : Fin 2 → Cell := fun i => .str (![ "a", "b"] i)
  let u : Fin 2 → Category := fun i => .value (s i)
  let v : Fin 2 → Category := fun i => .value (t i)
  have hu : Function.Injective u := by decide
  have hv : Function.Injective v := by decide
  obtain ⟨law, hl, hR⟩ := hD u v hu hv
  let A : ℕ → Ω → Cell := fun k ω => match D k ω with
    | none => .nan
    | some z => s z.1
  let B : ℕ → Ω → Cell := fun k ω => match D k ω with
    | none => .nan
    | some z => t z.2
  have hs : ∀ (w : Cell), view true true true w = some w → ∀ x, some (Category.value w) = some x ↔ Belongs pf true true true none w x := by
    intro w hw x
    rw [Option.some.injEq]
    constructor
    · rintro rfl; exact .value hw
    · intro h
      cases h with
      | value h => rw [hw] at h; cases h; rfl
  have hn : ∀ x, none = some x ↔ Belongs pf true true true none .nan x := by
    intro x
    constructor
    · intro h; cases h
    · intro h
      cases h with
      | value h => simp [view] at h
  have hK : ∀ ω, CategoriesOf pf true true true none none (A · ω) (B · ω)
      fun k => ((D k ω).map fun z => u z.1, (D k ω).map fun z => v z.2) := by
    intro ω k
    simp only [A, B]
    cases D k ω with
    | none => exact ⟨hn, hn⟩
    | some z => exact ⟨hs _ (by obtain ⟨i, j⟩ := z; fin_cases i <;> rfl), hs _ (by obtain ⟨i, j⟩ := z; fin_cases j <;> rfl)⟩
  obtain ⟨Z, h1, h2⟩ := outlier_two_by_two trueOut_exact (goodCI_true hci) fmt coinLaw_joint coinLaw_indep hl hR hK
  exact ⟨Ω, _, μ, A, B, Z, h1, h2 2⟩

/-- The columns of `Props/OutlierAuto.lean`, independent, the first binned at its quartiles: the joint law of the nine significances. -/
example {ci : String} (hci : ci = "poisson" ∨ ci = "exact_poisson") (fmt : ℚ → String) (pf : String → Option (Option ℚ)) :
    ∃ (Ω : Type) (_ : MeasurableSpace Ω) (μ : Measure Ω) (A B : ℕ → Ω → Cell) (Z : ℕ → Ω → Fin 3 → Fin 3 → ℝ),
    (∀ᵐ ω ∂μ, ∀ᶠ n in atTop, ∀ res,
      AutoCall trueOut ci fmt (fun x => x) pf true true true true (some (.num 4)) none ((List.range n).map (A · ω)) ((List.range n).map (B · ω)) res →
      ∀ i j, ∃ (o : OutTab) (x : Fin o.rows.length) (y : Fin o.cols.length), res = .ok (some o) ∧
        o.rows[x] = (quartileCats i).name fmt ∧ o.cols[y] = (textCats j).name fmt ∧ o.v x y = some (Z n ω i j : EReal)) ∧
    ∀ z : Fin 3 × Fin 3 → ℝ, Tendsto (fun n => μ {ω | ∀ ij, Z n ω ij.1 ij.2 ≤ z ij}) atTop (𝓝 (normals 3 3 {g | ∀ ij, cellLimit evenLaw g ij ≤ z ij})) := by
  obtain ⟨Ω, _, μ, D, raw, S, hR, hS, hraw, hl⟩ := raw_draws_exist evenLaw_joint (q := 3 / 4) (by norm_num) (by norm_num) mixed_inj
    (φ := fun x => (categoryOf pf true true true (some quartileEdges) x.1, categoryOf pf true true true none x.2)) (u := quartileCats) (v := textCats)
    (by decide +kernel) (by decide) (mixed_categories pf)
  have hq := mixed_quartiles (p := evenLaw) (fun i => by norm_num [evenLaw]) (by norm_num) hS hraw
  have ho : ∀ ij, Ordinary evenLaw ij := fun ij => by norm_num [Ordinary, evenLaw]
  obtain ⟨Z, h1, h2⟩ := outlier_auto_joint (ea := some quartileEdges) (eb := none) (oa := some (.num 4)) (ob := none) trueOut_exact (goodCI_true hci) fmt (by norm_num) (by norm_num)
      evenLaw_joint (fun x hx => (hS x hx).1) (.inl rfl) (e := 0) (by simp) hq trivial (fun _ _ _ _ => rfl) (fun _ _ _ _ => rfl)
      (fun _ z s => mixed_no_text hS z s) (fun h => absurd rfl h) (categoryOf_iff pf true true true quartileEdges_good) (categoryOf_iff pf true true true trivial)
      hl (A := fun k ω => (mixed (D k ω)).1) (B := fun k ω => (mixed (D k ω)).2) hR
  simp only [ho, true_implies] at h1 h2
  exact ⟨Ω, _, μ, _, _, Z, h1, h2⟩

end Phik.Props
