import Verif.Lemmas.ChiSquare
import Verif.Lemmas.VectorCLT
import Verif.Lemmas.NullVectors
import Verif.Props.Power

/-! # Property C86: the asymptotic p-values of independent variables are right -/

namespace Phik.Props

open Spec MeasureTheory ProbabilityTheory Topology
open Filter (Tendsto atTop Eventually)

section
variable {Ω α : Type} [MeasurableSpace Ω] {μ : Measure Ω} {R : ℕ → Ω → α} {law : α → ℝ}

variable [Countable α]

theorem _root_.Phik.Spec.IndepRecords.iIndepFun (h : IndepRecords μ R law) : ProbabilityTheory.iIndepFun (m := fun _ => (⊤ : MeasurableSpace α)) R μ := by
  letI : MeasurableSpace α := ⊤
  have : MeasurableSingletonClass α := ⟨fun _ => trivial⟩
  have := h.prob
  have hmeas : ∀ k, Measurable (R k) := fun k => measurable_to_countable' fun z => h.meas k z
  rw [iIndepFun_iff_finset]
  intro s
  refine (iIndepFun_iff_map_fun_eq_pi_map (f := s.restrict R) fun k : s => (hmeas k).aemeasurable).2 ?_
  have hpm : ∀ k : s, IsProbabilityMeasure (μ.map (s.restrict R k)) := fun k => Measure.isProbabilityMeasure_map (hmeas k).aemeasurable
  refine Measure.ext_of_singleton fun z => ?_
  classical
  have hm2 : Measurable fun ω (k : s) => s.restrict R k ω := measurable_pi_lambda _ fun k : s => hmeas k
  rw [Measure.pi_singleton, Measure.map_apply hm2 (measurableSet_singleton z)]
  by_cases hne : Nonempty α
  · obtain ⟨z0⟩ := hne
    have h1 := h.joint s fun k => if hk : k ∈ s then z ⟨k, hk⟩ else z0
    have h2 : (fun ω k => s.restrict R k ω) ⁻¹' {z} = {ω | ∀ k ∈ s, R k ω = if hk : k ∈ s then z ⟨k, hk⟩ else z0} := by
      ext ω
      simp only [Set.mem_preimage, Set.mem_singleton_iff, Set.mem_ofPred_eq, funext_iff, Finset.restrict, Subtype.forall]
      exact forall_congr' fun k => forall_congr' fun hk => by rw [dif_pos hk]
    rw [h2, h1, ← Finset.prod_coe_sort]
    refine Finset.prod_congr rfl fun k _ => ?_
    rw [dif_pos k.2, show s.restrict R k = R k from rfl, Measure.map_apply (hmeas k) (measurableSet_singleton _)]
    exact (h.iid.dist k (z k)).symm
  · rw [not_nonempty_iff] at hne
    have : IsEmpty Ω := ⟨fun ω => hne.elim (R 0 ω)⟩
    have := measure_univ (μ := μ)
    rw [Set.univ_eq_empty_iff.2 ‹IsEmpty Ω›, measure_empty] at this
    exact absurd this zero_ne_one

omit [Countable α] in
/-- The mean of a function of a record that vanishes but for finitely many records. -/
theorem _root_.Phik.Spec.IndepRecords.mean (h : IndepRecords μ R law) {ι : Type} [Fintype ι] {z : ι → α} (hz : Function.Injective z) (f : α → ℝ)
    (hf : ∀ x, x ∉ Set.range z → f x = 0) (k : ℕ) : ∫ ω, f (R k ω) ∂μ = ∑ i, law (z i) * f (z i) := by
  classical
  have := h.prob
  have e : ∀ ω, f (R k ω) = ∑ i, {ω | R k ω = z i}.indicator (fun _ => f (z i)) ω := by
    intro ω
    by_cases hx : R k ω ∈ Set.range z
    · obtain ⟨i, hi⟩ := hx
      rw [Finset.sum_eq_single i]
      · rw [Set.indicator_of_mem (by exact hi.symm), hi]
      · intro j _ hj
        rw [Set.indicator_of_notMem]
        intro hm
        exact hj (hz ((show R k ω = z j from hm).symm.trans hi.symm))
      · simp
    · rw [hf _ hx, Finset.sum_eq_zero]
      intro i _
      rw [Set.indicator_of_notMem]
      exact fun hm => hx ⟨i, (show R k ω = z i from hm).symm⟩
  simp_rw [e]
  rw [integral_finsetSum _ fun i _ => (integrable_const _).indicator (h.meas k (z i))]
  refine Finset.sum_congr rfl fun i _ => ?_
  rw [integral_indicator_const _ (h.meas k (z i)), measureReal_def, h.iid.dist, ENNReal.toReal_ofReal (h.nonneg _), smul_eq_mul]

omit [Countable α] in
theorem count_eq_sum [BEq α] [LawfulBEq α] [DecidableEq α] (R : ℕ → α) (z : α) (n : ℕ) :
    ((List.range n).map R).count z = ∑ k ∈ Finset.range n, if R k = z then 1 else 0 := by
  induction n with
  | zero => simp
  | succ n ih =>
    rw [Finset.sum_range_succ, ← ih, List.range_succ, List.map_append, List.count_append]
    congr 1
    simp only [List.map_cons, List.map_nil, List.count_singleton]
    by_cases hz : R n = z <;> simp [hz]

end

variable {r c : ℕ} {p : Fin r → Fin c → ℝ} {α β : Type} [BEq α] [LawfulBEq α] [BEq β] [LawfulBEq β] [Countable α] [Countable β]
  {law : Option α × Option β → ℝ} {q : ℝ} {u : Fin r → α} {v : Fin c → β}
  {Ω : Type} [MeasurableSpace Ω] {μ : Measure Ω} {R : ℕ → Ω → Option α × Option β}

theorem counts_measurable (hR : IndepRecords μ R law) (n : ℕ) : Measurable fun ω => firstCounts (R · ω) u v n := by
  classical
  refine measurable_pi_lambda _ fun i => measurable_pi_lambda _ fun j => ?_
  have : (fun ω => firstCounts (R · ω) u v n i j) = fun ω => ∑ k ∈ Finset.range n, if R k ω = (some (u i), some (v j)) then 1 else 0 := by
    funext ω
    exact count_eq_sum (R · ω) _ n
  rw [this]
  exact Finset.measurable_fun_sum _ fun k _ => Measurable.ite (hR.meas k _) measurable_const measurable_const

/-- A function of the counts. -/
theorem counts_comp_measurable {γ : Type} [MeasurableSpace γ] (hR : IndepRecords μ R law) (n : ℕ) (f : (Fin r → Fin c → ℕ) → γ) :
    Measurable fun ω => f (firstCounts (R · ω) u v n) :=
  (Measurable.of_discrete (f := f)).comp (counts_measurable hR n)

/-- The counts of many records rarely deviate much from their means. -/
theorem deviation_tight (hl : CompleteLaw law q p u v) (hR : IndepRecords μ R law) {n : ℕ} (hn : 0 < n) {M : ℝ} (hM : 0 < M) :
    μ {ω | ¬ ∀ i j, |deviation q p n (firstCounts (R · ω) u v n) i j| ≤ M} ≤ ENNReal.ofReal (r * c / M ^ 2) := by
  classical
  have := hR.prob
  have hs : (0 : ℝ) < √n := Real.sqrt_pos.2 (by exact_mod_cast hn)
  have hcell : ∀ i j, μ {ω | M < |deviation q p n (firstCounts (R · ω) u v n) i j|} ≤ ENNReal.ofReal (1 / M ^ 2) := by
    intro i j
    let X : ℕ → Ω → ℝ := fun k ω => if R k ω = (some (u i), some (v j)) then 1 else 0
    have hXm : ∀ k, Measurable (X k) := fun k => Measurable.ite (hR.meas k _) measurable_const measurable_const
    have hX2 : ∀ k, MemLp (X k) 2 μ := fun k => MemLp.of_bound (hXm k).aestronglyMeasurable 1 (Filter.Eventually.of_forall fun ω => by
      simp only [X]; split <;> simp)
    have hmean : ∀ k, ∫ ω, X k ω ∂μ = q * p i j := by
      intro k
      have := hR.mean (ι := Unit) (z := fun _ => (some (u i), some (v j))) (fun _ _ _ => rfl)
        (fun x => if x = (some (u i), some (v j)) then 1 else 0) (fun x hx => if_neg fun h => hx ⟨(), h.symm⟩) k
      rw [show (∫ ω, X k ω ∂μ) = _ from this]
      simp [hl.value]
    have hind : Set.Pairwise (↑(Finset.range n)) fun k l => X k ⟂ᵢ[μ] X l := by
      intro k _ l _ hkl
      let _ : MeasurableSpace (Option α × Option β) := ⊤
      exact (hR.iIndepFun.indepFun hkl).comp (φ := fun x => if x = (some (u i), some (v j)) then (1 : ℝ) else 0)
        (ψ := fun x => if x = (some (u i), some (v j)) then (1 : ℝ) else 0) (fun _ _ => trivial) (fun _ _ => trivial)
    have hvar1 : ∀ k, Var[X k; μ] ≤ 1 := by
      intro k
      have := variance_le_sq_of_bounded (X := X k) (μ := μ) (a := 0) (b := 1) (Filter.Eventually.of_forall fun ω => by
        simp only [X]; split <;> simp) (hXm k).aemeasurable
      refine this.trans (by norm_num)
    have hvar : Var[∑ k ∈ Finset.range n, X k; μ] ≤ n := by
      rw [IndepFun.variance_sum (fun k _ => hX2 k) hind]
      refine (Finset.sum_le_sum fun k _ => hvar1 k).trans ?_
      simp
    have hsumMean : ∫ ω, (∑ k ∈ Finset.range n, X k) ω ∂μ = n * (q * p i j) := by
      simp only [Finset.sum_apply]
      rw [integral_finsetSum _ fun k _ => (hX2 k).integrable (by norm_num)]
      simp [hmean]
    have hcheb := meas_ge_le_variance_div_sq (memLp_finsetSum' (Finset.range n) fun k _ => hX2 k) (mul_pos hM hs)
    refine (measure_mono ?_).trans (hcheb.trans (ENNReal.ofReal_le_ofReal ?_))
    · intro ω hω
      have hω : M < |deviation q p n (firstCounts (R · ω) u v n) i j| := hω
      change M * √n ≤ |(∑ k ∈ Finset.range n, X k) ω - _|
      rw [hsumMean]
      have e : (∑ k ∈ Finset.range n, X k) ω = firstCounts (R · ω) u v n i j := by
        rw [show firstCounts (R · ω) u v n i j = _ from count_eq_sum (R · ω) _ n, Finset.sum_apply]
        push_cast
        rfl
      rw [e]
      unfold deviation at hω
      rw [abs_div, abs_of_pos hs, lt_div_iff₀ hs] at hω
      exact hω.le
    · rw [mul_pow, Real.sq_sqrt (by positivity), div_le_div_iff₀ (by positivity) (by positivity)]
      have : (0 : ℝ) < n := by exact_mod_cast hn
      nlinarith [mul_le_mul_of_nonneg_right hvar (sq_nonneg M)]
  have hsub : {ω | ¬ ∀ i j, |deviation q p n (firstCounts (R · ω) u v n) i j| ≤ M} ⊆
      ⋃ ij : Fin r × Fin c, {ω | M < |deviation q p n (firstCounts (R · ω) u v n) ij.1 ij.2|} := by
    intro ω hω
    have hω : ¬ ∀ i j, |deviation q p n (firstCounts (R · ω) u v n) i j| ≤ M := hω
    push Not at hω
    obtain ⟨i, j, hij⟩ := hω
    exact Set.mem_iUnion.2 ⟨(i, j), hij⟩
  refine (measure_mono hsub).trans ((measure_iUnion_fintype_le μ _).trans ?_)
  refine (Finset.sum_le_sum fun ij _ => hcell ij.1 ij.2).trans ?_
  rw [Finset.sum_const, Finset.card_univ, Fintype.card_prod, Fintype.card_fin, Fintype.card_fin, nsmul_eq_mul]
  rw [← ENNReal.ofReal_natCast, ← ENNReal.ofReal_mul (by positivity)]
  refine ENNReal.ofReal_le_ofReal ?_
  push_cast
  rw [mul_one_div]

open scoped RealInnerProductSpace in
/-- The statistics of independent variables tend in distribution to the squared length of a standard Gaussian vector with `(r - 1) (c - 1)` coordinates. -/
theorem null_convergence (hr : 2 ≤ r) (hc : 2 ≤ c) (hp : IsJoint p) (hi : IndepJoint p) (hl : CompleteLaw law q p u v) (hR : IndepRecords μ R law)
    [IsProbabilityMeasure μ] {cell : ℝ → ℝ → ℝ} (hcell : Quadratic cell) :
    TendstoInDistribution (fun n ω => statistic cell (countArr (firstCounts (R · ω) u v n))) atTop
      (fun x : EuclideanSpace ℝ ({m : Fin r // m ≠ ⟨0, by omega⟩} × {n : Fin c // n ≠ ⟨0, by omega⟩}) => ‖x‖ ^ 2) (fun _ => μ) (stdGaussian _) := by
  classical
  obtain ⟨U, hU⟩ := rotation_exists (⟨0, by omega⟩ : Fin r) (x := fun i => √(∑ j, p i j)) (by
    simp_rw [fun i => Real.mul_self_sqrt (hp.rows i).le]; exact hp.total)
  obtain ⟨V, hV⟩ := rotation_exists (⟨0, by omega⟩ : Fin c) (x := fun j => √(∑ i, p i j)) (by
    simp_rw [fun j => Real.mul_self_sqrt (hp.cols j).le]; rw [Finset.sum_comm]; exact hp.total)
  set vec := cellVec q p U V ⟨0, by omega⟩ ⟨0, by omega⟩ with hvec
  let z : Fin r × Fin c → Option α × Option β := fun ij => (some (u ij.1), some (v ij.2))
  have hz : Function.Injective z := by
    rintro ⟨i, j⟩ ⟨i', j'⟩ h
    simp only [z, Prod.mk.injEq, Option.some.injEq] at h
    rw [hl.u_inj h.1, hl.v_inj h.2]
  let y : Option α × Option β → EuclideanSpace ℝ ({m : Fin r // m ≠ ⟨0, by omega⟩} × {n : Fin c // n ≠ ⟨0, by omega⟩}) :=
    fun x => ∑ ij, if x = z ij then vec ij.1 ij.2 else 0
  have hyz : ∀ ij, y (z ij) = vec ij.1 ij.2 := by
    intro ij
    simp only [y]
    rw [Finset.sum_eq_single ij]
    · rw [if_pos rfl]
    · intro ij' _ hne
      rw [if_neg fun h => hne (hz h).symm]
    · simp
  have hy0 : ∀ x, x ∉ Set.range z → y x = 0 := by
    intro x hx
    exact Finset.sum_eq_zero fun ij _ => if_neg fun h => hx ⟨ij, h.symm⟩
  let mα : MeasurableSpace (Option α × Option β) := ⊤
  have : MeasurableSingletonClass (Option α × Option β) := ⟨fun _ => trivial⟩
  have hmeas : ∀ k, Measurable (R k) := fun k => measurable_to_countable' fun z => hR.meas k z
  have hym : Measurable y := fun _ _ => trivial
  have hident : ∀ k, IdentDistrib (fun ω => y (R k ω)) (fun ω => y (R 0 ω)) μ μ := by
    intro k
    have h0 : IdentDistrib (R k) (R 0) μ μ := by
      refine ⟨(hmeas k).aemeasurable, (hmeas 0).aemeasurable, Measure.ext_of_singleton fun x => ?_⟩
      rw [Measure.map_apply (hmeas k) (measurableSet_singleton x), Measure.map_apply (hmeas 0) (measurableSet_singleton x)]
      exact (hR.iid.dist k x).trans (hR.iid.dist 0 x).symm
    exact h0.comp hym
  have hclt := vector_clt (Y := fun k ω => y (R k ω)) (hR.iIndepFun.comp (fun _ => y) fun _ => hym) hident
    (fun t => MemLp.of_bound (by
      have : Measurable fun x => ⟪t, y x⟫ := fun _ _ => trivial
      exact (this.comp (hmeas 0)).aestronglyMeasurable) (∑ ij : Fin r × Fin c, |⟪t, vec ij.1 ij.2⟫|) (Filter.Eventually.of_forall fun ω => by
        rw [Real.norm_eq_abs]
        by_cases hx : R 0 ω ∈ Set.range z
        · obtain ⟨ij, hij⟩ := hx
          rw [← hij, hyz]
          exact Finset.single_le_sum (f := fun ij : Fin r × Fin c => |⟪t, vec ij.1 ij.2⟫|) (fun _ _ => abs_nonneg _) (Finset.mem_univ ij)
        · rw [hy0 _ hx, inner_zero_right, abs_zero]
          exact Finset.sum_nonneg fun _ _ => abs_nonneg _))
    (fun t => by
      rw [hR.mean hz (fun x => ⟪t, y x⟫) (fun x hx => by rw [hy0 x hx, inner_zero_right]) 0]
      simp_rw [hyz]
      rw [Fintype.sum_prod_type]
      simp_rw [z, hl.value]
      exact cellVec_mean hp hi hl.pos hU hV t)
    (fun t => by
      rw [hR.mean hz (fun x => ⟪t, y x⟫ ^ 2) (fun x hx => by rw [hy0 x hx, inner_zero_right, zero_pow two_ne_zero]) 0]
      simp_rw [hyz]
      rw [Fintype.sum_prod_type]
      simp_rw [z, hl.value]
      exact cellVec_var hp hi hl.pos hU hV t)
  have hq2 := hclt.continuous_comp (g := fun x => ‖x‖ ^ 2) (by fun_prop)
  have hsum : ∀ n ω, ∑ k ∈ Finset.range n, y (R k ω) = ∑ i, ∑ j, (firstCounts (R · ω) u v n i j : ℝ) • vec i j := by
    intro n ω
    simp only [y]
    rw [Finset.sum_comm, Fintype.sum_prod_type]
    refine Finset.sum_congr rfl fun i _ => Finset.sum_congr rfl fun j _ => ?_
    rw [show firstCounts (R · ω) u v n i j = _ from count_eq_sum (R · ω) _ n]
    push_cast
    rw [Finset.sum_smul]
    refine Finset.sum_congr rfl fun k _ => ?_
    simp only [z]
    split <;> simp
  refine tendstoInDistribution_of_tendstoInMeasure_sub _ _ hq2 ?_ fun n => (counts_comp_measurable hR n fun t => statistic cell (countArr t)).aemeasurable
  rw [tendstoInMeasure_iff_norm]
  intro ε hε
  rw [ENNReal.tendsto_nhds_zero]
  intro δ hδ
  obtain ⟨M, hM, hMδ⟩ : ∃ M : ℝ, 0 < M ∧ ENNReal.ofReal (r * c / M ^ 2) ≤ δ := by
    have h1 : Tendsto (fun M : ℝ => ENNReal.ofReal (r * c / M ^ 2)) atTop (𝓝 0) := by
      rw [← ENNReal.ofReal_zero]
      exact ENNReal.tendsto_ofReal (Tendsto.const_div_atTop (Filter.tendsto_pow_atTop two_ne_zero) _)
    obtain ⟨M, h2, h3⟩ := ((ENNReal.tendsto_nhds_zero.1 h1 δ hδ).and (Filter.eventually_gt_atTop 0)).exists
    exact ⟨M, h3, h2⟩
  filter_upwards [statistic_near hr hc hp hi hl.pos hcell M hε, Filter.eventually_gt_atTop 0] with n hn hn0
  refine (measure_mono ?_).trans ((deviation_tight hl hR hn0 hM).trans hMδ)
  intro ω hω hall
  have h1 := (hn _ hall).1
  have hω : ε ≤ ‖(statistic cell (countArr (firstCounts (R · ω) u v n)) - ‖(√(n : ℝ))⁻¹ • ∑ k ∈ Finset.range n, y (R k ω)‖ ^ 2) - 0‖ := hω
  rw [sub_zero, hsum, hvec, quadForm_eq_norm hp hi hl.pos hU hV (by exact_mod_cast hn0), Real.norm_eq_abs] at hω
  exact absurd h1 (not_lt.2 hω)

end Phik.Props
