import Verif.Props.NullLevel
import Verif.Props.OutlierCI

/-! # Property C86: the level of the asymptotic significance -/

namespace Phik.Props

open Spec MeasureTheory ProbabilityTheory Topology
open Filter (Tendsto atTop Eventually)

/-! ### the p-value of a chi2 variable is uniformly distributed -/

section
variable {k : ℝ} (hk : 0 < k)
include hk

/-- The probability of a larger value. -/
noncomputable def chi2Tail (k x : ℝ) : ℝ := (chi2Law k).real (Set.Ioi x)

theorem chi2Tail_eq (x : ℝ) : chi2Tail k x = 1 - chi2Cdf k x := by
  have : Fact (0 < k) := ⟨hk⟩
  unfold chi2Tail chi2Cdf
  rw [← Set.compl_Iic, probReal_compl_eq_one_sub measurableSet_Iic]

theorem chi2Tail_cont : Continuous (chi2Tail k) := by
  have : chi2Tail k = fun x => 1 - chi2Cdf k x := funext (chi2Tail_eq hk)
  rw [this]
  exact continuous_const.sub (chi2Cdf_cont hk)

theorem chi2Tail_anti : Antitone (chi2Tail k) := by
  intro x y h
  rw [chi2Tail_eq hk, chi2Tail_eq hk]
  have := chi2Cdf_mono hk h
  linarith

theorem chi2Tail_pos (x : ℝ) : 0 < chi2Tail k x := by
  have : Fact (0 < k) := ⟨hk⟩
  have hmax : chi2Tail k (max x 0) ≤ chi2Tail k x := chi2Tail_anti hk (le_max_left _ _)
  refine lt_of_lt_of_le ?_ hmax
  unfold chi2Tail
  rw [measureReal_def]
  refine ENNReal.toReal_pos ?_ (measure_ne_top _ _)
  rw [chi2Law_eq k measurableSet_Ioi]
  intro h0
  rw [lintegral_eq_zero_iff (by exact (measurable_gammaPDFReal _ _).ennreal_ofReal), Filter.EventuallyEq,
    ae_restrict_iff' measurableSet_Ioi] at h0
  have h1 : volume (Set.Ioi (max x 0)) = 0 := by
    refine measure_mono_null ?_ h0
    intro y hy
    have hy : max x 0 < y := hy
    change ¬ (y ∈ Set.Ioi (max x 0) → gammaPDF (k / 2) (1 / 2) y = 0)
    intro h
    have := h hy
    unfold gammaPDF at this
    rw [ENNReal.ofReal_eq_zero] at this
    exact absurd (gammaPDFReal_pos (by linarith) (by norm_num : (0 : ℝ) < 1 / 2) ((le_max_right x 0).trans_lt hy)) (not_lt.2 this)
  rw [Real.volume_Ioi] at h1
  exact ENNReal.top_ne_zero h1

/-- The probability that the p-value is at most `α` is `α`. -/
theorem chi2Tail_uniform {α : ℝ} (h0 : 0 < α) (h1 : α < 1) : chi2Law k {x | chi2Tail k x ≤ α} = ENNReal.ofReal α := by
  have : Fact (0 < k) := ⟨hk⟩
  set S := {x | chi2Tail k x ≤ α} with hS
  obtain ⟨y, hy0, hy⟩ := exists_chi2Cdf hk (p := 1 - α) (by linarith) (by linarith)
  have hyS : chi2Tail k y = α := by rw [chi2Tail_eq hk, hy]; ring
  have hne : S.Nonempty := ⟨y, hyS.le⟩
  have hbd : BddBelow S := by
    refine ⟨0, fun x hx => ?_⟩
    by_contra hcon
    have hx : chi2Tail k x ≤ α := hx
    rw [chi2Tail_eq hk, chi2Cdf_zero (not_le.1 hcon).le] at hx
    linarith
  have hcl : IsClosed S := isClosed_le (chi2Tail_cont hk) continuous_const
  have hmem := hcl.csInf_mem hne hbd
  have heq : S = Set.Ici (sInf S) := by
    ext x
    constructor
    · exact fun hx => csInf_le hbd hx
    · intro hx
      have : chi2Tail k (sInf S) ≤ α := hmem
      exact (chi2Tail_anti hk hx).trans this
  have hval : chi2Tail k (sInf S) = α := by
    refine le_antisymm hmem ?_
    rw [← hyS]
    exact chi2Tail_anti hk (csInf_le hbd hyS.le)
  rw [heq, ← Set.Ioi_union_left, measure_union (by simp) (measurableSet_singleton _), chi2Law_noAtom, add_zero, ← hval, chi2Tail,
    measureReal_def, ENNReal.ofReal_toReal (measure_ne_top _ _)]

theorem chi2Tail_uniform_lt {α : ℝ} (h0 : 0 < α) (h1 : α < 1) : chi2Law k {x | chi2Tail k x < α} = ENNReal.ofReal α := by
  apply le_antisymm
  · rw [← chi2Tail_uniform hk h0 h1]
    exact measure_mono fun x hx => (show chi2Tail k x < α from hx).le
  · refine le_of_forall_lt fun b hb => ?_
    have hbt : b ≠ ⊤ := ne_top_of_lt hb
    have hb' : b.toReal < α := (ENNReal.lt_ofReal_iff_toReal_lt hbt).1 hb
    obtain ⟨a, ha1, ha2⟩ := exists_between (max_lt hb' h0)
    have ha0 : 0 < a := (le_max_right _ _).trans_lt ha1
    calc b < ENNReal.ofReal a := (ENNReal.lt_ofReal_iff_toReal_lt hbt).2 ((le_max_left _ _).trans_lt ha1)
      _ = chi2Law k {x | chi2Tail k x ≤ a} := (chi2Tail_uniform hk ha0 (ha2.trans h1)).symm
      _ ≤ _ := measure_mono fun x hx => (show chi2Tail k x ≤ a from hx).trans_lt ha2

theorem chi2Tail_level {α : ℝ} (h0 : 0 < α) (h1 : α < 1) : chi2Law k {x | chi2Tail k x = α} = 0 := by
  have : Fact (0 < k) := ⟨hk⟩
  have e : {x | chi2Tail k x = α} = {x | chi2Tail k x ≤ α} \ {x | chi2Tail k x < α} := by
    ext x
    exact ⟨fun h => ⟨(show chi2Tail k x = α from h).le, fun h' => (show chi2Tail k x < α from h').ne h⟩,
      fun h => le_antisymm h.1 (not_lt.1 h.2)⟩
  have hsub : {x | chi2Tail k x < α} ⊆ {x | chi2Tail k x ≤ α} := fun x hx => (show chi2Tail k x < α from hx).le
  rw [e, measure_sdiff hsub (measurableSet_lt (chi2Tail_cont hk).measurable measurable_const).nullMeasurableSet
    (measure_ne_top _ _), chi2Tail_uniform hk h0 h1, chi2Tail_uniform_lt hk h0 h1, tsub_self]

end

/-! ### probabilities of events in the limit -/

variable {r c : ℕ} {p : Fin r → Fin c → ℝ} {law : Option Cell × Option Cell → ℝ} {q : ℝ} {u : Fin r → Cell} {v : Fin c → Cell}
  {Ω : Type} [MeasurableSpace Ω] {μ : Measure Ω} {R : ℕ → Ω → Option Cell × Option Cell}

/-- With many records all cells of the table are filled, with high probability. -/
theorem null_regular (hr : 2 ≤ r) (hc : 2 ≤ c) (hp : IsJoint p) (hi : IndepJoint p) (hl : CompleteLaw law q p u v) (hR : IndepRecords μ R law) :
    Tendsto (fun n => μ {ω | ¬ (DataTable (countArr (firstCounts (R · ω) u v n)) ∧ ∀ i j, 0 < firstCounts (R · ω) u v n i j)}) atTop (𝓝 0) := by
  rw [ENNReal.tendsto_nhds_zero]
  intro δ hδ
  obtain ⟨M, hM, hMδ⟩ : ∃ M : ℝ, 0 < M ∧ ENNReal.ofReal (r * c / M ^ 2) ≤ δ := by
    have h1 : Tendsto (fun M : ℝ => ENNReal.ofReal (r * c / M ^ 2)) atTop (𝓝 0) := by
      rw [← ENNReal.ofReal_zero]
      exact ENNReal.tendsto_ofReal (Tendsto.const_div_atTop (Filter.tendsto_pow_atTop two_ne_zero) _)
    obtain ⟨M, h2, h3⟩ := ((ENNReal.tendsto_nhds_zero.1 h1 δ hδ).and (Filter.eventually_gt_atTop 0)).exists
    exact ⟨M, h3, h2⟩
  filter_upwards [statistic_near hr hc hp hi hl.pos pearson_quadratic M one_pos, Filter.eventually_gt_atTop 0] with n hn hn0
  refine (measure_mono ?_).trans ((deviation_tight hl hR hn0 hM).trans hMδ)
  intro ω hω hall
  exact hω (hn _ hall).2

/-- Events that amount to a condition on the statistic, as soon as all cells of the table are filled, off sets `E n` whose
probability vanishes. -/
theorem null_event_off (hr : 2 ≤ r) (hc : 2 ≤ c) (hp : IsJoint p) (hi : IndepJoint p) (hl : CompleteLaw law q p u v) (hR : IndepRecords μ R law)
    {cell : ℝ → ℝ → ℝ} (hcell : Quadratic cell) {S : Set ℝ} (hS : MeasurableSet S) (hfr : chi2Law ((r - 1) * (c - 1) : ℕ) (frontier S) = 0) {A E : ℕ → Set Ω}
    (hE : Tendsto (fun n => μ (E n)) atTop (𝓝 0))
    (hA : ∀ᵐ ω ∂μ, ∀ n, ω ∉ E n → DataTable (countArr (firstCounts (R · ω) u v n)) → (∀ i j, 0 < firstCounts (R · ω) u v n i j) →
      (ω ∈ A n ↔ statistic cell (countArr (firstCounts (R · ω) u v n)) ∈ S)) :
    Tendsto (fun n => μ (A n)) atTop (𝓝 (chi2Law ((r - 1) * (c - 1) : ℕ) S)) := by
  have := hR.prob
  have hconv := null_convergence hr hc hp hi hl hR hcell
  have hlim : (stdGaussian (EuclideanSpace ℝ ({m : Fin r // m ≠ ⟨0, by omega⟩} × {n : Fin c // n ≠ ⟨0, by omega⟩}))).map (fun x => ‖x‖ ^ 2) =
      chi2Law ((r - 1) * (c - 1) : ℕ) := by
    have n1 : Nonempty {m : Fin r // m ≠ ⟨0, by omega⟩} := ⟨⟨⟨1, by omega⟩, by simp⟩⟩
    have n2 : Nonempty {m : Fin c // m ≠ ⟨0, by omega⟩} := ⟨⟨⟨1, by omega⟩, by simp⟩⟩
    rw [norm_sq_law]
    congr 2
    rw [Fintype.card_prod]
    simp [Fintype.card_subtype_compl]
  have hB : Tendsto (fun n => μ {ω | statistic cell (countArr (firstCounts (R · ω) u v n)) ∈ S}) atTop (𝓝 (chi2Law ((r - 1) * (c - 1) : ℕ) S)) := by
    have h1 := ProbabilityMeasure.tendsto_measure_of_null_frontier_of_tendsto' hconv.tendsto (E := S) (by
      simp only [ProbabilityMeasure.coe_mk]
      rw [hlim]
      exact hfr)
    simp only [ProbabilityMeasure.coe_mk] at h1
    rw [hlim] at h1
    refine h1.congr fun n => ?_
    rw [Measure.map_apply (counts_comp_measurable hR n fun t => statistic cell (countArr t)) hS]
    rfl
  have hbad := (null_regular hr hc hp hi hl hR).add hE
  rw [add_zero] at hbad
  have up : ∀ n, μ (A n) ≤ μ {ω | statistic cell (countArr (firstCounts (R · ω) u v n)) ∈ S} +
      (μ {ω | ¬ (DataTable (countArr (firstCounts (R · ω) u v n)) ∧ ∀ i j, 0 < firstCounts (R · ω) u v n i j)} + μ (E n)) := by
    intro n
    refine le_trans (measure_mono_ae ?_) ((measure_union_le _ (_ ∪ E n)).trans (add_le_add le_rfl (measure_union_le _ _)))
    filter_upwards [hA] with ω hω hmem
    by_cases hreg : DataTable (countArr (firstCounts (R · ω) u v n)) ∧ ∀ i j, 0 < firstCounts (R · ω) u v n i j
    · by_cases hb : ω ∈ E n
      · exact .inr (.inr hb)
      · exact .inl ((hω n hb hreg.1 hreg.2).1 hmem)
    · exact .inr (.inl hreg)
  have lo : ∀ n, μ {ω | statistic cell (countArr (firstCounts (R · ω) u v n)) ∈ S} ≤ μ (A n) +
      (μ {ω | ¬ (DataTable (countArr (firstCounts (R · ω) u v n)) ∧ ∀ i j, 0 < firstCounts (R · ω) u v n i j)} + μ (E n)) := by
    intro n
    refine le_trans (measure_mono_ae ?_) ((measure_union_le _ (_ ∪ E n)).trans (add_le_add le_rfl (measure_union_le _ _)))
    filter_upwards [hA] with ω hω hmem
    by_cases hreg : DataTable (countArr (firstCounts (R · ω) u v n)) ∧ ∀ i j, 0 < firstCounts (R · ω) u v n i j
    · by_cases hb : ω ∈ E n
      · exact .inr (.inr hb)
      · exact .inl ((hω n hb hreg.1 hreg.2).2 hmem)
    · exact .inr (.inl hreg)
  have h1 := ENNReal.Tendsto.sub hB hbad (.inr ENNReal.zero_ne_top)
  have h2 := hB.add hbad
  rw [tsub_zero] at h1
  rw [add_zero] at h2
  exact tendsto_of_tendsto_of_tendsto_of_le_of_le h1 h2 (fun n => tsub_le_iff_right.2 (lo n)) up

/-- Events that amount to a condition on the statistic, as soon as all cells of the table are filled. -/
theorem null_event (hr : 2 ≤ r) (hc : 2 ≤ c) (hp : IsJoint p) (hi : IndepJoint p) (hl : CompleteLaw law q p u v) (hR : IndepRecords μ R law)
    {cell : ℝ → ℝ → ℝ} (hcell : Quadratic cell) {S : Set ℝ} (hS : MeasurableSet S) (hfr : chi2Law ((r - 1) * (c - 1) : ℕ) (frontier S) = 0) {A : ℕ → Set Ω}
    (hA : ∀ᵐ ω ∂μ, ∀ n, DataTable (countArr (firstCounts (R · ω) u v n)) → (∀ i j, 0 < firstCounts (R · ω) u v n i j) →
      (ω ∈ A n ↔ statistic cell (countArr (firstCounts (R · ω) u v n)) ∈ S)) :
    Tendsto (fun n => μ (A n)) atTop (𝓝 (chi2Law ((r - 1) * (c - 1) : ℕ) S)) :=
  null_event_off hr hc hp hi hl hR hcell hS hfr (E := fun _ => ∅) (by simp) (hA.mono fun _ h n _ => h n)

theorem dof_pos (hr : 2 ≤ r) (hc : 2 ≤ c) : (0 : ℝ) < ((r - 1) * (c - 1) : ℕ) := by
  exact_mod_cast Nat.mul_pos (by omega) (by omega)

theorem filled_no_empty {t : Fin r → Fin c → ℕ} (h : ∀ i j, 0 < t i j) : ¬ EmptyCell (countArr t) := by
  rintro ⟨i, j, -, -, h0⟩
  have h0 : (t i j : ℝ) = 0 := h0
  have := h i j
  have : t i j = 0 := by exact_mod_cast h0
  omega

/-- **C86 (the statistics).** For independent draws of records with independent variables, the distribution of each of the six statistics `get_chi2` offers
tends to the chi2 distribution with `(r - 1) (c - 1)` degrees of freedom. -/
theorem null_statistic (hr : 2 ≤ r) (hc : 2 ≤ c) (hp : IsJoint p) (hi : IndepJoint p) (hl : CompleteLaw law q p u v) (hR : IndepRecords μ R law)
    {lam : String} (hlam : lam ∈ ["pearson", "log-likelihood", "cressie-read", "freeman-tukey", "neyman", "mod-log-likelihood"]) (x : ℝ) :
    Tendsto (fun n => μ {ω | ∃ y, getChi2 (countArr (firstCounts (R · ω) u v n)) lam = .ok y ∧ x < y}) atTop
      (𝓝 (chi2Law ((r - 1) * (c - 1) : ℕ) (Set.Ioi x))) := by
  obtain ⟨cell, hcell⟩ : ∃ cell, cellOf lam = some cell := by
    simp only [List.mem_cons, List.not_mem_nil, or_false] at hlam
    rcases hlam with rfl | rfl | rfl | rfl | rfl | rfl <;> exact ⟨_, rfl⟩
  refine null_event hr hc hp hi hl hR (cellOf_quadratic hcell) measurableSet_Ioi (by rw [frontier_Ioi]; exact chi2Law_noAtom _ _) ?_
  refine Filter.Eventually.of_forall fun ω n hd hpos => ?_
  have e := get_chi2_cellOf (data_isCount hd hr) (filled_no_empty hpos) hcell
  constructor
  · rintro ⟨y, hy, hxy⟩
    rw [e] at hy
    cases hy
    exact hxy
  · intro h
    exact ⟨_, e, h⟩

theorem asymptotic_eval {F : Type} (hr : 2 ≤ r) (hc : 2 ≤ c) {t : Fin r → Fin c → ℕ} {cell : ℝ → ℝ → ℝ} (rn : SimRun F) (hcell : cellOf rn.lambda = some cell)
    (hd : DataTable (countArr t)) (hpos : ∀ i j, 0 < t i j) :
    sigFromHist2d trueSig rn (countArr t) "asymptotic" = .ok (some (chi2Tail ((r - 1) * (c - 1) : ℕ) (statistic cell (countArr t))),
      some (-normPpf (chi2Tail ((r - 1) * (c - 1) : ℕ) (statistic cell (countArr t))))) := by
  have e := get_chi2_cellOf (data_isCount hd hr) (filled_no_empty hpos) hcell
  have hk := dof_pos hr hc
  unfold sigFromHist2d
  rw [e]
  change sigAsymptotic trueSig (countArr t) _ = _
  unfold sigAsymptotic
  rw [theoretical_ndof_value]
  have ed : ((((r : ℤ) - 1) * ((c : ℤ) - 1) : ℤ) : ℝ) = ((r - 1) * (c - 1) : ℕ) := by
    have h1 : ((r - 1 : ℕ) : ℤ) = r - 1 := by omega
    have h2 : ((c - 1 : ℕ) : ℤ) = c - 1 := by omega
    rw [← h1, ← h2]
    push_cast
    rfl
  change sigFromNdof trueSig _ ((((r : ℤ) - 1) * ((c : ℤ) - 1) : ℤ) : ℝ) = _
  rw [ed]
  unfold sigFromNdof
  have hp : trueSig.chi2sf (statistic cell (countArr t)) ((r - 1) * (c - 1) : ℕ) = some (chi2Tail ((r - 1) * (c - 1) : ℕ) (statistic cell (countArr t))) := by
    simp only [trueSig]
    rw [if_neg (not_le.2 hk)]
    rfl
  rw [hp]
  have hne : ¬ (some (chi2Tail ((r - 1) * (c - 1) : ℕ) (statistic cell (countArr t))) = some 0) := by
    rw [Option.some.injEq]
    exact (chi2Tail_pos hk _).ne'
  simp only [hne, if_false]
  rfl

/-- **C86 (p-values).** With the exact chi2 distribution, the asymptotic p-value of independent variables is at most `α` with a probability that tends to
`α`, for each of the six statistics. -/
theorem null_p_value {F : Type} (hr : 2 ≤ r) (hc : 2 ≤ c) (hp : IsJoint p) (hi : IndepJoint p) (hl : CompleteLaw law q p u v) (hR : IndepRecords μ R law)
    (rn : SimRun F) (hlam : rn.lambda ∈ ["pearson", "log-likelihood", "cressie-read", "freeman-tukey", "neyman", "mod-log-likelihood"])
    {α : ℝ} (h0 : 0 < α) (h1 : α < 1) :
    Tendsto (fun n => μ {ω | ∃ P z, sigFromHist2d trueSig rn (countArr (firstCounts (R · ω) u v n)) "asymptotic" = .ok (some P, z) ∧ P ≤ α}) atTop
      (𝓝 (ENNReal.ofReal α)) := by
  obtain ⟨cell, hcell⟩ : ∃ cell, cellOf rn.lambda = some cell := by
    simp only [List.mem_cons, List.not_mem_nil, or_false] at hlam
    rcases hlam with h | h | h | h | h | h <;> rw [h] <;> exact ⟨_, rfl⟩
  have hk := dof_pos hr hc
  rw [← chi2Tail_uniform hk h0 h1]
  refine null_event hr hc hp hi hl hR (cellOf_quadratic hcell) (measurableSet_le (chi2Tail_cont hk).measurable measurable_const)
    (measure_mono_null (frontier_le_subset_eq (chi2Tail_cont hk) continuous_const) (chi2Tail_level hk h0 h1)) ?_
  refine Filter.Eventually.of_forall fun ω n hd hpos => ?_
  have e := asymptotic_eval hr hc rn hcell hd hpos
  constructor
  · rintro ⟨P, z, hy, hxy⟩
    rw [e] at hy
    cases hy
    exact hxy
  · intro h
    exact ⟨_, _, e, h⟩

theorem ppf_lt_iff {P z : ℝ} : normPpf P < ((-z : ℝ) : EReal) ↔ P < normCdf (-z) := by
  constructor
  · intro h
    unfold normPpf at h
    rw [sInf_lt_iff] at h
    obtain ⟨_, ⟨x, hx, rfl⟩, hlt⟩ := h
    have hlt' : ((x : ℝ) : EReal) < ((-z : ℝ) : EReal) := hlt
    have hlt : x < -z := EReal.coe_lt_coe_iff.1 hlt'
    exact lt_of_le_of_lt hx (normCdf_lt hlt)
  · intro h
    rcases le_or_gt P 0 with hP | hP
    · refine lt_of_le_of_lt (normPpf_mono hP) ?_
      rw [normPpf_zero]
      exact EReal.bot_lt_coe _
    · obtain ⟨x, rfl⟩ := normCdf_surj hP (h.trans (normCdf_lt_one _))
      rw [normPpf_cdf]
      exact_mod_cast lt_of_not_ge fun hle => absurd h (not_lt.2 (normCdf_le_iff.2 hle))

/-- The upper tail of the normal distribution. -/
theorem normal_tail {z0 : ℝ} : gaussianReal 0 1 (Set.Ioi z0) = ENNReal.ofReal (normCdf (-z0)) := by
  have h1 : gaussianReal 0 1 (Set.Ioi z0) = gaussianReal 0 1 (Set.Iio (-z0)) := by
    have h := gaussianReal_map_neg (μ := 0) (v := 1)
    rw [neg_zero] at h
    conv_lhs => rw [← h]
    rw [Measure.map_apply (by fun_prop) measurableSet_Ioi]
    congr 1
    ext x
    simp only [Set.mem_preimage, Set.mem_Ioi, Set.mem_Iio]
    constructor <;> intro h <;> linarith
  have hna := nullSingletonClass_gaussianReal (μ := 0) (v := 1) one_ne_zero
  rw [h1, normCdf, measureReal_def, ENNReal.ofReal_toReal (measure_ne_top _ _)]
  exact measure_congr Iio_ae_eq_Iic

theorem tail_key {P z0 : ℝ} : (z0 : EReal) < -normPpf P ↔ P < normCdf (-z0) := by
  rw [EReal.lt_neg_comm, ← ppf_lt_iff, EReal.coe_neg]

/-- **C86 (records).** The asymptotic significance of independent variables exceeds `z0` with a probability that tends to the normal tail probability. -/
theorem null_significance {F : Type} (hr : 2 ≤ r) (hc : 2 ≤ c) (hp : IsJoint p) (hi : IndepJoint p) (hl : CompleteLaw law q p u v) (hR : IndepRecords μ R law)
    (rn : SimRun F) (hlam : rn.lambda ∈ ["pearson", "log-likelihood", "cressie-read", "freeman-tukey", "neyman", "mod-log-likelihood"]) (z0 : ℝ) :
    Tendsto (fun n => μ {ω | ∃ z, IsSig trueSig rn "asymptotic" ((List.range n).map (R · ω)) (some z) ∧ (z0 : EReal) < z}) atTop
      (𝓝 (gaussianReal 0 1 (Set.Ioi z0))) := by
  obtain ⟨cell, hcell⟩ : ∃ cell, cellOf rn.lambda = some cell := by
    simp only [List.mem_cons, List.not_mem_nil, or_false] at hlam
    rcases hlam with h | h | h | h | h | h <;> rw [h] <;> exact ⟨_, rfl⟩
  have hk := dof_pos hr hc
  rw [normal_tail, ← chi2Tail_uniform_lt hk (normCdf_pos _) (normCdf_lt_one _)]
  refine null_event hr hc hp hi hl hR (cellOf_quadratic hcell) (measurableSet_lt (chi2Tail_cont hk).measurable measurable_const)
    (measure_mono_null (frontier_lt_subset_eq (chi2Tail_cont hk) continuous_const) (chi2Tail_level hk (normCdf_pos _) (normCdf_lt_one _))) ?_
  filter_upwards [hR.iid.frequency] with ω hω n hd hpos
  have hlab : ∀ k a b, R k ω = (some a, some b) → a ∈ Set.range u ∧ b ∈ Set.range v := by
    intro k a b hk
    have := hω.1 k
    rw [hk] at this
    exact hl.other a b this
  have e := sig_of_labelled trueSig rn hr hc hl.u_inj hl.v_inj hlab hd (asymptotic_eval hr hc rn hcell hd hpos)
  constructor
  · rintro ⟨z, h1, h2⟩
    have := isSig_unique h1 e
    rw [Option.some.injEq] at this
    rw [this] at h2
    exact tail_key.1 h2
  · intro h
    exact ⟨_, e, tail_key.2 h⟩

end Phik.Props
