import Verif.Props.Significance
import Verif.Spec.FalseAlarm
import Mathlib.MeasureTheory.Constructions.Pi
import Mathlib.MeasureTheory.Integral.Lebesgue.Add
import Mathlib.Data.Fintype.BigOperators
import Mathlib.Tactic.Positivity
import Mathlib.MeasureTheory.Measure.Lebesgue.Basic

/-! # Property C69: false alarms of the Monte-Carlo method -/

namespace Phik

open Spec MeasureTheory Finset

/-! ### counting -/

section
variable {n : ℕ} (v : Fin (n + 1) → ℝ)

/-- How many values are larger. -/
noncomputable def nAbove (i : Fin (n + 1)) : ℕ := #{j | v i < v j}

/-- How many values are equal (the value itself included). -/
noncomputable def nTies (i : Fin (n + 1)) : ℕ := #{j | v j = v i}

/-- The p-value of the `i`-th value among the other ones. -/
noncomputable def pAmong (i : Fin (n + 1)) : ℝ := (nAbove v i + ((nTies v i - 2 : ℕ) : ℝ) / 2) / n

theorem nTies_pos (i : Fin (n + 1)) : 1 ≤ nTies v i := Finset.card_pos.2 ⟨i, by simp⟩

theorem countP_ofFn {α : Type} (m : ℕ) (f : Fin m → α) (p : α → Bool) : (List.ofFn f).countP p = #{i | p (f i) = true} := by
  induction m with
  | zero => simp
  | succ m ih =>
    rw [List.ofFn_succ, List.countP_cons, ih, Fin.card_filter_univ_succ]
    by_cases h : p (f 0) = true <;> simp [h]

theorem pAmong_zero : mcP (List.ofFn fun j : Fin n => v j.succ) (v 0) = pAmong v 0 := by
  have e1 : above (List.ofFn fun j : Fin n => v j.succ) (v 0) = nAbove v 0 := by
    unfold above nAbove
    rw [countP_ofFn, Fin.card_filter_univ_succ, if_neg (lt_irrefl _)]
    simp
  have e2 : ties (List.ofFn fun j : Fin n => v j.succ) (v 0) + 1 = nTies v 0 := by
    unfold ties nTies
    rw [countP_ofFn, Fin.card_filter_univ_succ, if_pos rfl]
    simp
  unfold mcP pAmong
  rw [e1, ← e2, List.length_ofFn]
  rfl

theorem pAmong_comp (σ : Equiv.Perm (Fin (n + 1))) (i : Fin (n + 1)) : pAmong (v ∘ σ) i = pAmong v (σ i) := by
  have e : ∀ q : Fin (n + 1) → Prop, ∀ [DecidablePred q], #{j | q (σ j)} = #{j | q j} := by
    intro q _
    exact Finset.card_bij (fun j _ => σ j) (by simp) (by simp) (fun b hb => ⟨σ.symm b, by simpa using hb, by simp⟩)
  unfold pAmong nAbove nTies
  simp only [Function.comp]
  rw [e (fun j => v (σ i) < v j), e (fun j => v j = v (σ i))]

/-- At most `2 α n + 2` of `n + 1` values have a p-value of at most `α` among the other ones. -/
theorem few_small {α : ℝ} (hα : 0 ≤ α) : (#{i | pAmong v i ≤ α} : ℝ) ≤ 2 * α * n + 2 := by
  classical
  rcases (Finset.univ.filter fun i => pAmong v i ≤ α).eq_empty_or_nonempty with h | h
  · rw [h]; simp; positivity
  obtain ⟨i, hi, hmin⟩ := Finset.exists_min_image _ v h
  have hi' : pAmong v i ≤ α := by simpa using hi
  have hsub : (Finset.univ.filter fun i => pAmong v i ≤ α) ⊆
      (Finset.univ.filter fun j => v i < v j) ∪ Finset.univ.filter fun j => v j = v i := by
    intro j hj
    have := hmin j hj
    rcases eq_or_lt_of_le this with h | h
    · simp [h]
    · simp [h]
  have hc : #{i | pAmong v i ≤ α} ≤ nAbove v i + nTies v i :=
    (Finset.card_le_card hsub).trans (Finset.card_union_le _ _)
  have hc' : (#{i | pAmong v i ≤ α} : ℝ) ≤ nAbove v i + nTies v i := by exact_mod_cast hc
  have hp : (nAbove v i : ℝ) + ((nTies v i - 2 : ℕ) : ℝ) / 2 ≤ α * n := by
    unfold pAmong at hi'
    rcases Nat.eq_zero_or_pos n with h0 | h0
    · subst h0
      have h1 : nAbove v i = 0 := by
        unfold nAbove
        rw [Finset.card_eq_zero, Finset.filter_eq_empty_iff]
        intro j _
        rw [show j = i by apply Fin.ext; omega]; exact lt_irrefl _
      have h2 : nTies v i ≤ 1 := by
        unfold nTies
        exact (Finset.card_le_univ _).trans (by simp)
      rw [h1, show nTies v i - 2 = 0 by omega]; simp
    · rwa [div_le_iff₀ (by exact_mod_cast h0)] at hi'
  have ht : (nTies v i : ℝ) ≤ ((nTies v i - 2 : ℕ) : ℝ) + 2 := by
    have : nTies v i ≤ (nTies v i - 2) + 2 := by omega
    exact_mod_cast this
  have h0 : (0 : ℝ) ≤ nAbove v i := Nat.cast_nonneg _
  linarith

/-- If the values differ, exactly `k + 1` of `n + 1` values have a p-value of at most `k / n` among the other ones. -/
theorem small_of_distinct (hv : Function.Injective v) {k : ℕ} (hk : k ≤ n) (hn : 0 < n) : #{i | pAmong v i ≤ (k : ℝ) / n} = k + 1 := by
  classical
  have h1 : ∀ i, nTies v i = 1 := by
    intro i
    unfold nTies
    rw [Finset.card_eq_one]
    exact ⟨i, by ext j; simp [hv.eq_iff]⟩
  have hp : ∀ i, (pAmong v i ≤ (k : ℝ) / n ↔ nAbove v i ≤ k) := by
    intro i
    unfold pAmong
    rw [h1 i]
    have : (0 : ℝ) < n := by exact_mod_cast hn
    rw [div_le_div_iff_of_pos_right this]
    simp
  simp only [hp]
  -- the number of larger values is a bijection onto `0, …, n`
  have hlt : ∀ i j, v i < v j → nAbove v j < nAbove v i := by
    intro i j h
    refine Finset.card_lt_card ⟨fun m hm => ?_, fun hsub => ?_⟩
    · simp only [Finset.mem_filter, Finset.mem_univ, true_and] at hm ⊢; exact h.trans hm
    · have := hsub (by simpa using h : j ∈ Finset.univ.filter fun m => v i < v m)
      simp at this
  have hinj : Function.Injective (nAbove v) := by
    intro i j h
    rcases lt_trichotomy (v i) (v j) with h' | h' | h'
    · exact absurd h (hlt i j h').ne'
    · exact hv h'
    · exact absurd h (hlt j i h').ne
  have hle : ∀ i, nAbove v i < n + 1 := by
    intro i
    have : nAbove v i < #(Finset.univ : Finset (Fin (n + 1))) :=
      Finset.card_lt_card ⟨Finset.filter_subset _ _, fun h => by simpa using h (Finset.mem_univ i)⟩
    simpa using this
  let f : Fin (n + 1) → Fin (n + 1) := fun i => ⟨nAbove v i, hle i⟩
  have hf : Function.Bijective f := Finite.injective_iff_bijective.1 fun i j h => hinj (by simpa [f] using h)
  have : #{i | nAbove v i ≤ k} = #{j : Fin (n + 1) | j.1 ≤ k} := by
    refine Finset.card_bij (fun i _ => f i) (by simp [f]) (fun a _ b _ h => hf.1 h) fun b hb => ?_
    obtain ⟨a, rfl⟩ := hf.2 b
    exact ⟨a, by simpa [f] using hb, rfl⟩
  rw [this]
  have : (Finset.univ.filter fun j : Fin (n + 1) => j.1 ≤ k) = Finset.Iic (⟨k, by omega⟩ : Fin (n + 1)) := by
    ext j; simp [Fin.le_def]
  rw [this, Fin.card_Iic]

end

/-! ### probability -/

theorem measurable_pAmong {n : ℕ} (i : Fin (n + 1)) : Measurable fun v : Fin (n + 1) → ℝ => pAmong v i := by
  classical
  have h1 : Measurable fun v : Fin (n + 1) → ℝ => nAbove v i := by
    have : (fun v : Fin (n + 1) → ℝ => nAbove v i) = fun v => ∑ j, if v i < v j then 1 else 0 := by
      funext v; unfold nAbove; rw [Finset.card_filter]
    rw [this]
    exact Finset.measurable_sum _ fun j _ => Measurable.ite (measurableSet_lt (measurable_pi_apply i) (measurable_pi_apply j))
      measurable_const measurable_const
  have h2 : Measurable fun v : Fin (n + 1) → ℝ => nTies v i := by
    have : (fun v : Fin (n + 1) → ℝ => nTies v i) = fun v => ∑ j, if v j = v i then 1 else 0 := by
      funext v; unfold nTies; rw [Finset.card_filter]
    rw [this]
    exact Finset.measurable_sum _ fun j _ => Measurable.ite (measurableSet_eq_fun (measurable_pi_apply j) (measurable_pi_apply i))
      measurable_const measurable_const
  unfold pAmong
  exact (((measurable_of_countable (fun k : ℕ => (k : ℝ))).comp h1).add
    (((measurable_of_countable (fun k : ℕ => ((k - 2 : ℕ) : ℝ))).comp h2).div_const 2)).div_const _

theorem sum_events {n : ℕ} {μ : Measure (Fin (n + 1) → ℝ)} (hμ : Exchangeable μ) (α : ℝ) :
    ((n + 1 : ℕ) : ENNReal) * μ {v | pAmong v 0 ≤ α} = ∫⁻ v, (#{i | pAmong v i ≤ α} : ENNReal) ∂μ := by
  classical
  have hm : ∀ i, MeasurableSet {v : Fin (n + 1) → ℝ | pAmong v i ≤ α} := fun i => measurableSet_le (measurable_pAmong i) measurable_const
  have he : ∀ i, μ {v | pAmong v i ≤ α} = μ {v | pAmong v 0 ≤ α} := by
    intro i
    have h := hμ (Equiv.swap 0 i)
    conv_rhs => rw [← h]
    rw [Measure.map_apply (f := fun v : Fin (n + 1) → ℝ => v ∘ Equiv.swap 0 i) (measurable_pi_lambda _ fun j => measurable_pi_apply _) (hm 0)]
    congr 1
    ext v
    simp only [Set.mem_ofPred_eq, Set.mem_preimage, pAmong_comp, Equiv.swap_apply_left]
  have hc : ∀ v : Fin (n + 1) → ℝ, (#{i | pAmong v i ≤ α} : ENNReal) = ∑ i, Set.indicator {v | pAmong v i ≤ α} 1 v := by
    intro v
    rw [Finset.card_filter]
    push_cast
    refine Finset.sum_congr rfl fun i _ => ?_
    by_cases h : pAmong v i ≤ α <;> simp [h]
  simp only [hc]
  rw [lintegral_finset_sum _ fun i _ => (measurable_one.indicator (hm i))]
  simp only [lintegral_indicator_one (hm _), he]
  simp

theorem exchangeable_iid {n : ℕ} (ν : Measure ℝ) [IsProbabilityMeasure ν] : Exchangeable (Measure.pi fun _ : Fin (n + 1) => ν) := by
  intro σ
  have h := (measurePreserving_piCongrLeft (fun _ : Fin (n + 1) => ν) σ.symm).map_eq
  have e : (fun v : Fin (n + 1) → ℝ => v ∘ σ) = (MeasurableEquiv.piCongrLeft (fun _ : Fin (n + 1) => ℝ) σ.symm) := by
    funext v i
    rw [MeasurableEquiv.coe_piCongrLeft]
    simp [Equiv.piCongrLeft, Equiv.piCongrLeft', Function.comp]
  rw [e]
  exact h

theorem ae_injective_iid {n : ℕ} (ν : Measure ℝ) [IsProbabilityMeasure ν] [NullSingletonClass ν] :
    ∀ᵐ v ∂(Measure.pi fun _ : Fin (n + 1) => ν), Function.Injective v := by
  have key : ∀ i j : Fin (n + 1), i ≠ j → ∀ᵐ v ∂(Measure.pi fun _ : Fin (n + 1) => ν), v i ≠ v j := by
    intro i j hij
    obtain ⟨k, rfl⟩ := Fin.exists_succAbove_eq hij.symm
    have hp := measurePreserving_piFinSuccAbove (fun _ : Fin (n + 1) => ν) i
    have hs : MeasurableSet {q : ℝ × (Fin n → ℝ) | q.1 = q.2 k} :=
      measurableSet_eq_fun measurable_fst ((measurable_pi_apply k).comp measurable_snd)
    have h0 : (ν.prod (Measure.pi fun _ : Fin n => ν)) {q : ℝ × (Fin n → ℝ) | q.1 = q.2 k} = 0 := by
      rw [Measure.prod_apply_symm hs]
      have : ∀ r : Fin n → ℝ, (fun x : ℝ => (x, r)) ⁻¹' {q : ℝ × (Fin n → ℝ) | q.1 = q.2 k} = {r k} := by
        intro r; ext x; simp
      simp [this]
    have h1 := hp.measure_preimage hs.nullMeasurableSet
    rw [h0] at h1
    rw [ae_iff]
    refine le_antisymm (le_trans (measure_mono fun v hv => ?_) h1.le) zero_le
    simp only [Set.mem_ofPred_eq, not_not] at hv
    simpa [MeasurableEquiv.piFinSuccAbove, Fin.insertNthEquiv, Fin.removeNth] using hv
  have : ∀ᵐ v ∂(Measure.pi fun _ : Fin (n + 1) => ν), ∀ i j : Fin (n + 1), i ≠ j → v i ≠ v j := by
    rw [ae_all_iff]; intro i
    rw [ae_all_iff]; intro j
    by_cases h : i = j
    · exact .of_forall fun v h' => absurd h h'
    · exact (key i j h).mono fun v hv _ => hv
  exact this.mono fun v hv i j h => by by_contra hc; exact hv i j hc h

/-- The Monte-Carlo p-value of the value `v 0` among the simulated values `v 1, …, v n` is at most `α`. -/
def Alarm {F : Type} (S : SigNum) (R : SimRun F) (values : Arr2 ℝ) {n : ℕ} (α : ℝ) (v : Fin (n + 1) → ℝ) : Prop :=
  ∃ p z, sigMC S R (v 0) values (some (List.ofFn fun j : Fin n => v j.succ)) = .ok (some p, z) ∧ p ≤ α

theorem alarm_iff {F : Type} (S : SigNum) (R : SimRun F) (values : Arr2 ℝ) {n : ℕ} (hn : 0 < n) (α : ℝ) (v : Fin (n + 1) → ℝ) :
    Alarm S R values α v ↔ pAmong v 0 ≤ α := by
  have hne : (List.ofFn fun j : Fin n => v j.succ) ≠ [] := by
    rw [← List.length_pos_iff, List.length_ofFn]; exact hn
  unfold Alarm
  rw [Props.mc_value S R _ values hne, pAmong_zero]
  constructor
  · rintro ⟨p, z, h, hp⟩
    simp only [Except.ok.injEq, Prod.mk.injEq, Option.some.injEq] at h
    rw [h.1]; exact hp
  · exact fun h => ⟨_, _, rfl, h⟩

namespace Props

/-- **C69.** If the observed value and the `n` simulated values are exchangeable (their joint law does not depend on the order; in
particular if they are independent with the same law, `exchangeable_iid`), the
probability that the Monte-Carlo method reports a p-value of at most `α` is at most `(2 α n + 2) / (n + 1)`. -/
theorem mc_false_alarm {F : Type} (S : SigNum) (R : SimRun F) (values : Arr2 ℝ) {n : ℕ} (hn : 0 < n)
    {μ : Measure (Fin (n + 1) → ℝ)} [IsProbabilityMeasure μ] (hμ : Exchangeable μ) {α : ℝ} (hα : 0 ≤ α) :
    μ {v | Alarm S R values α v} ≤ ENNReal.ofReal ((2 * α * n + 2) / (n + 1)) := by
  simp only [alarm_iff S R values hn]
  have h := sum_events hμ α
  have hb : ∫⁻ v, (#{i | pAmong v i ≤ α} : ENNReal) ∂μ ≤ ENNReal.ofReal (2 * α * n + 2) := by
    calc ∫⁻ v, (#{i | pAmong v i ≤ α} : ENNReal) ∂μ ≤ ∫⁻ _, ENNReal.ofReal (2 * α * n + 2) ∂μ := by
          refine lintegral_mono fun v => ?_
          rw [← ENNReal.ofReal_natCast]
          exact ENNReal.ofReal_le_ofReal (few_small v hα)
      _ = _ := by simp
  rw [← h] at hb
  rw [ENNReal.ofReal_div_of_pos (by positivity), ENNReal.le_div_iff_mul_le (.inl (by simp; positivity)) (.inl (by simp)), mul_comm]
  refine le_trans (le_of_eq ?_) hb
  congr 1
  rw [← ENNReal.ofReal_natCast]; push_cast; rfl

/-- **C69 (exact).** If moreover two of the values are equal with probability zero only, the probability of a p-value of at most
`k / n` is exactly `(k + 1) / (n + 1)`, for every `k ≤ n`. -/
theorem mc_false_alarm_exact {F : Type} (S : SigNum) (R : SimRun F) (values : Arr2 ℝ) {n : ℕ} (hn : 0 < n)
    {μ : Measure (Fin (n + 1) → ℝ)} [IsProbabilityMeasure μ] (hμ : Exchangeable μ)
    (hd : ∀ᵐ v ∂μ, Function.Injective v) {k : ℕ} (hk : k ≤ n) :
    μ {v | Alarm S R values ((k : ℝ) / n) v} = ENNReal.ofReal (((k : ℝ) + 1) / (n + 1)) := by
  simp only [alarm_iff S R values hn]
  have h := sum_events hμ ((k : ℝ) / n)
  have hb : ∫⁻ v, (#{i | pAmong v i ≤ (k : ℝ) / n} : ENNReal) ∂μ = ((k + 1 : ℕ) : ENNReal) := by
    calc ∫⁻ v, (#{i | pAmong v i ≤ (k : ℝ) / n} : ENNReal) ∂μ = ∫⁻ _, ((k + 1 : ℕ) : ENNReal) ∂μ := by
          refine lintegral_congr_ae (hd.mono fun v hv => ?_)
          simp only [small_of_distinct v hv hk hn]
      _ = _ := by simp
  rw [hb] at h
  rw [ENNReal.ofReal_div_of_pos (by positivity), ENNReal.eq_div_iff (by simp; positivity) (by simp)]
  rw [show ENNReal.ofReal ((n : ℝ) + 1) = ((n + 1 : ℕ) : ENNReal) by rw [← ENNReal.ofReal_natCast]; push_cast; rfl, h,
    ← ENNReal.ofReal_natCast]
  push_cast; rfl

/-- **C69 (violated: not a valid p-value).** A p-value should be at most `α` with probability at most `α` when there is no
correlation.  The Monte-Carlo p-value is 0 with probability `1 / (n + 1)`, for every number `n` of simulations, and generally
falls below `k / n < 1` more often than that. -/
theorem mc_not_conservative {F : Type} (S : SigNum) (R : SimRun F) (values : Arr2 ℝ) {n : ℕ} (hn : 0 < n)
    {μ : Measure (Fin (n + 1) → ℝ)} [IsProbabilityMeasure μ] (hμ : Exchangeable μ)
    (hd : ∀ᵐ v ∂μ, Function.Injective v) {k : ℕ} (hk : k < n) :
    ENNReal.ofReal ((k : ℝ) / n) < μ {v | Alarm S R values ((k : ℝ) / n) v} := by
  rw [mc_false_alarm_exact S R values hn hμ hd hk.le]
  have h0 : (0 : ℝ) < n := by exact_mod_cast hn
  have h1 : (k : ℝ) < n := by exact_mod_cast hk
  rw [ENNReal.ofReal_lt_ofReal_iff (by positivity), div_lt_div_iff₀ h0 (by positivity)]
  nlinarith

/-- The bound of `mc_false_alarm` is reached: if all values are equal, the p-value is `(n - 1) / (2 n)`, below one half, with certainty. -/
theorem mc_all_ties {F : Type} (S : SigNum) (R : SimRun F) (values : Arr2 ℝ) {n : ℕ} (hn : 0 < n) (x : ℝ) :
    Alarm S R values (((n : ℝ) - 1) / (2 * n)) (fun _ : Fin (n + 1) => x) ∧
      (2 * (((n : ℝ) - 1) / (2 * n)) * n + 2) / (n + 1) = 1 := by
  have h0 : (0 : ℝ) < n := by exact_mod_cast hn
  constructor
  · rw [alarm_iff S R values hn]
    have h1 : nAbove (fun _ : Fin (n + 1) => x) 0 = 0 := by simp [nAbove]
    have h2 : nTies (fun _ : Fin (n + 1) => x) 0 = n + 1 := by simp [nTies]
    unfold pAmong
    rw [h1, h2, show n + 1 - 2 = n - 1 by omega, Nat.cast_sub hn]
    apply le_of_eq
    field_simp
    simp
  · field_simp
    ring

/-- Non-vacuity: independent values with the uniform law on (0, 1]. -/
example {F : Type} (S : SigNum) (R : SimRun F) (values : Arr2 ℝ) :
    (Measure.pi fun _ : Fin (999 + 1) => (volume : Measure ℝ).restrict (Set.Ioc 0 1)) {v | Alarm S R values 0 v} =
      ENNReal.ofReal (1 / 1000) := by
  have : IsProbabilityMeasure ((volume : Measure ℝ).restrict (Set.Ioc 0 1)) := ⟨by simp⟩
  have h := mc_false_alarm_exact S R values (n := 999) (by norm_num) (exchangeable_iid ((volume : Measure ℝ).restrict (Set.Ioc 0 1)))
    (ae_injective_iid _) (k := 0) (by norm_num)
  norm_num at h ⊢
  exact h

end Props

end Phik
