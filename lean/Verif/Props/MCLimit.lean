import Verif.Props.MCLaw
import Mathlib.Probability.StrongLaw
import Mathlib.Data.Pi.Interval
import Mathlib.MeasureTheory.Integral.Bochner.SumMeasure

/-! # Property C76: more and more simulations -/

namespace Phik.Props
open Spec MeasureTheory Finset ProbabilityTheory Topology
open Filter (Tendsto atTop)

variable {F Ω : Type} [MeasurableSpace Ω]

/-- The simulated tables as random variables. -/
theorem RowForm.process {a : Arr2 ℝ} {run P} (f : RowForm F a run P) {μ : Measure Ω} {d : Ω → ℕ → Draws F}
    (hd : IdealBinom μ fun ω (q : ℕ × ℕ) => (d ω q.1).binom q.2) :
    IsProbabilityMeasure μ ∧ ∃ T : ℕ → Ω → Fin a.r → Fin a.c → ℕ, (∀ s, Measurable (T s)) ∧
      (∀ ω s, run (d ω s) = .ok ⟨a.r, a.c, fun i j => (T s ω i j : ℤ)⟩) ∧
      (∀ s X, μ.map (T s) {X} = ENNReal.ofReal (P X)) ∧ Pairwise fun s t => IndepFun (T s) (T t) μ := by
  classical
  have hprob : IsProbabilityMeasure μ := ⟨by simpa using hd.law ∅ (fun _ => 0) (fun _ => 0) (fun _ => 0) (by simp)⟩
  refine ⟨hprob, fun s ω => (f.run_ok (d ω s)).choose, ?_⟩
  generalize hTdef : (fun (s : ℕ) (ω : Ω) => (f.run_ok (d ω s)).choose) = T
  have hT : ∀ ω s, run (d ω s) = .ok ⟨a.r, a.c, fun i j => (T s ω i j : ℤ)⟩ :=
    fun ω s => by rw [← hTdef]; exact (f.run_ok (d ω s)).choose_spec
  have hTX : ∀ ω s X, T s ω = X ↔ run (d ω s) = .ok ⟨a.r, a.c, fun i j => (X i j : ℤ)⟩ := by
    intro ω s X
    constructor
    · rintro rfl; exact hT ω s
    · intro h
      rw [hT ω s] at h
      simp only [Except.ok.injEq, Arr2.mk.injEq, heq_eq_eq, true_and] at h
      funext i j
      exact_mod_cast congrFun (congrFun h i) j
  have hpre : ∀ s X, T s ⁻¹' {X} = {ω | ∀ t : Fin 1,
      run (d ω ((⟨fun _ => s, fun _ _ _ => Subsingleton.elim _ _⟩ : Fin 1 ↪ ℕ) t)) =
      .ok ⟨a.r, a.c, fun i j => (X i j : ℤ)⟩} := by
    intro s X
    ext ω
    simp only [Set.mem_preimage, Set.mem_singleton_iff, Set.mem_ofPred_eq, hTX, Fin.forall_fin_one]
    rfl
  have hmeas : ∀ s, Measurable (T s) := fun s => measurable_to_countable' fun X => by
    rw [hpre]; exact (f.joint hd _ fun _ => X).1
  have hν : ∀ s X, μ.map (T s) {X} = ENNReal.ofReal (P X) := by
    intro s X
    rw [Measure.map_apply (hmeas s) (measurableSet_singleton X), hpre, (f.joint hd _ fun _ => X).2, Fin.prod_univ_one]
  refine ⟨hmeas, hT, hν, fun s t hst => ?_⟩
  change IndepFun (T s) (T t) μ
  rw [indepFun_iff_map_prod_eq_prod_map_map (hmeas s).aemeasurable (hmeas t).aemeasurable]
  refine Measure.ext_of_singleton fun ⟨X, Y⟩ => ?_
  rw [Measure.map_apply ((hmeas s).prodMk (hmeas t)) (measurableSet_singleton _), ← Set.singleton_prod_singleton,
    Measure.prod_prod, hν, hν]
  let g : Fin 2 ↪ ℕ := ⟨![s, t], by
    intro i j h
    fin_cases i <;> fin_cases j <;> simp_all⟩
  have hev : (fun ω => (T s ω, T t ω)) ⁻¹' ({X} ×ˢ {Y}) = {ω | ∀ i : Fin 2, run (d ω (g i)) =
      .ok ⟨a.r, a.c, fun k l => ((![X, Y] : Fin 2 → _) i k l : ℤ)⟩} := by
    ext ω
    simp only [Set.mem_preimage, Set.mem_prod, Set.mem_singleton_iff, Set.mem_ofPred_eq, hTX, Fin.forall_fin_two]
    rfl
  rw [hev, (f.joint hd g ![X, Y]).2, Fin.prod_univ_two, ENNReal.ofReal_mul (f.nonneg _)]
  rfl

/-- Law of large numbers for functions of the simulated tables. -/
theorem RowForm.average {a : Arr2 ℝ} {run P} (f : RowForm F a run P) {μ : Measure Ω} {d : Ω → ℕ → Draws F}
    (hd : IdealBinom μ fun ω (q : ℕ × ℕ) => (d ω q.1).binom q.2) (hfin : {X | P X ≠ 0}.Finite)
    {ι : Type} [Countable ι] (φ : ι → (Fin a.r → Fin a.c → ℕ) → ℝ) :
    ∀ᵐ ω ∂μ, ∃ T : ℕ → Fin a.r → Fin a.c → ℕ,
      (∀ s, run (d ω s) = .ok ⟨a.r, a.c, fun i j => (T s i j : ℤ)⟩) ∧ (∀ s, P (T s) ≠ 0) ∧
      ∀ k, Tendsto (fun n : ℕ => (∑ s ∈ range n, φ k (T s)) / n) atTop (𝓝 (∑' X, P X * φ k X)) := by
  obtain ⟨hprob, T, hmeas, hT, hν, hind⟩ := f.process hd
  have hφ : ∀ k, Measurable (φ k) := fun k => Measurable.of_discrete
  have hpm : ∀ s, IsProbabilityMeasure (μ.map (T s)) := fun s => Measure.isProbabilityMeasure_map (hmeas s).aemeasurable
  have hae : ∀ s, ∀ᵐ X ∂(μ.map (T s)), P X ≠ 0 := by
    intro s
    rw [ae_iff_of_countable]
    intro X hX h
    rw [hν, h, ENNReal.ofReal_zero] at hX
    exact hX rfl
  have hint : ∀ k, Integrable (φ k) (μ.map (T 0)) := by
    intro k
    obtain ⟨M, hM⟩ := (hfin.image fun X => ‖φ k X‖).bddAbove
    refine Integrable.of_bound (hφ k).aestronglyMeasurable M ?_
    filter_upwards [hae 0] with X hX
    exact hM ⟨X, hX, rfl⟩
  have hmap : ∀ s, μ.map (T s) = μ.map (T 0) := fun s => Measure.ext_of_singleton fun X => by rw [hν, hν]
  have hslln : ∀ k, _ := fun k => strong_law_ae_real (fun s ω => φ k (T s ω)) ((hint k).comp_measurable (hmeas 0))
    (fun s t hst => (hind hst).comp (hφ k) (hφ k)) fun s => ⟨((hφ k).comp (hmeas s)).aemeasurable,
      ((hφ k).comp (hmeas 0)).aemeasurable, by
        rw [show (fun ω => φ k (T s ω)) = φ k ∘ T s from rfl, show (fun ω => φ k (T 0 ω)) = φ k ∘ T 0 from rfl,
          ← Measure.map_map (hφ k) (hmeas s), ← Measure.map_map (hφ k) (hmeas 0), hmap s]⟩
  have hmean : ∀ k, ∫ ω, φ k (T 0 ω) ∂μ = ∑' X, P X * φ k X := by
    intro k
    rw [← integral_map (hmeas 0).aemeasurable (hφ k).aestronglyMeasurable, integral_countable (hint k)]
    refine tsum_congr fun X => ?_
    rw [measureReal_def, hν, ENNReal.toReal_ofReal (f.nonneg X), smul_eq_mul]
  have hsupp : ∀ᵐ ω ∂μ, ∀ s, P (T s ω) ≠ 0 := ae_all_iff.2 fun s =>
    ae_of_ae_map (hmeas s).aemeasurable (hae s)
  filter_upwards [ae_all_iff.2 hslln, hsupp] with ω h1 h2
  refine ⟨fun s => T s ω, fun s => hT ω s, h2, fun k => ?_⟩
  have := h1 k
  rwa [hmean] at this

theorem multinomProb_le {ι : Type} [Fintype ι] {n : ℕ} {p : ι → ℝ} {X : ι → ℕ} (h : multinomProb n p X ≠ 0) (c : ι) :
    X c ≤ n := by
  unfold multinomProb at h
  split at h
  · next hs => rw [← hs]; exact single_le_sum (f := X) (fun _ _ => Nat.zero_le _) (mem_univ c)
  · exact absurd rfl h

/-- Only finitely many tables can be sampled. -/
theorem sampleProb_finite (method : String) (e : Arr2 ℝ) : {X | sampleProb method e X ≠ 0}.Finite := by
  let K : ℕ := ⌊∑ i, ∑ j, e.v i j⌋₊ + ∑ i, ⌊∑ j, e.v i j⌋₊ + ∑ j, ⌊∑ i, e.v i j⌋₊
  refine (Set.finite_Icc (fun (_ : Fin e.r) (_ : Fin e.c) => 0) fun _ _ => K).subset fun X hX => ⟨fun _ _ => Nat.zero_le _, ?_⟩
  intro i j
  have h1 := single_le_sum (f := fun i => ⌊∑ j, e.v i j⌋₊) (fun _ _ => Nat.zero_le _) (mem_univ i)
  have h2 := single_le_sum (f := fun j => ⌊∑ i, e.v i j⌋₊) (fun _ _ => Nat.zero_le _) (mem_univ j)
  have hX : sampleProb method e X ≠ 0 := hX
  unfold sampleProb at hX
  change X i j ≤ K
  split at hX
  · have := multinomProb_le hX (i, j)
    simp only at this
    omega
  · split at hX
    · have := multinomProb_le (prod_ne_zero_iff.1 hX i (mem_univ i)) j
      omega
    · have := multinomProb_le (prod_ne_zero_iff.1 hX j (mem_univ j)) i
      omega

/-- Value of the statistic of a table of counts (0 if it is not defined). -/
noncomputable def statVal (lambda : String) {r c : ℕ} (X : Fin r → Fin c → ℕ) : ℝ :=
  match getChi2 ⟨r, c, fun i j => (X i j : ℝ)⟩ lambda with
  | .ok x => x
  | .error _ => 0

theorem statVal_ok {lambda : String} (hlam : lambda ∈ ["pearson", "log-likelihood", "cressie-read"]) {r c : ℕ}
    {X : Fin r → Fin c → ℕ} (hc : IsCount (⟨r, c, fun i j => (X i j : ℝ)⟩ : Arr2 ℝ)) :
    getChi2 ⟨r, c, fun i j => (X i j : ℝ)⟩ lambda = .ok (statVal lambda X) := by
  obtain ⟨x, hx, -⟩ := get_chi2_three hc hlam
  unfold statVal
  rw [hx]

open scoped Classical in
theorem statIn_real {a : Arr2 ℝ} (ha : DataTable a) (hr : 2 ≤ a.r) (method : String) {lambda : String}
    (hlam : lambda ∈ ["pearson", "log-likelihood", "cressie-read"]) (hnn : ∀ X, 0 ≤ sampleProb method (expTable a) X)
    (C : Set ℝ) : (statIn method lambda (expTable a) C).toReal =
      ∑' X, sampleProb method (expTable a) X * if statVal lambda X ∈ C then 1 else 0 := by
  unfold statIn
  rw [ENNReal.tsum_toReal_eq (fun X => by split <;> simp)]
  refine tsum_congr fun X => ?_
  by_cases h0 : sampleProb method (expTable a) X = 0
  · simp [h0]
  have hx := statVal_ok hlam (sample_count ha hr h0)
  have hiff : (∃ x ∈ C, getChi2 ⟨(expTable a).r, (expTable a).c, fun i j => (X i j : ℝ)⟩ lambda = .ok x) ↔
      statVal lambda X ∈ C := by
    rw [hx]
    constructor
    · rintro ⟨y, hy, h⟩; rw [Except.ok.inj h]; exact hy
    · intro h; exact ⟨_, h, rfl⟩
  by_cases h : statVal lambda X ∈ C
  · rw [if_pos (hiff.2 h), if_pos h, ENNReal.toReal_ofReal (hnn X), mul_one]
  · rw [if_neg (fun h' => h (hiff.1 h')), if_neg h, ENNReal.toReal_zero, mul_zero]

open scoped Classical in
/-- Almost surely every simulation succeeds, and averages of functions of the simulated values converge. -/
theorem sims_average {μ : Measure Ω} {d : Ω → ℕ → Draws F}
    (hd : IdealBinom μ fun ω (q : ℕ × ℕ) => (d ω q.1).binom q.2) (env : SimEnv F) {a : Arr2 ℝ} (ha : DataTable a)
    (hr : 2 ≤ a.r) {method : String}
    (hm : method ∈ ["multinominal", "row_product_multinominal", "col_product_multinominal"]) {lambda : String}
    (hlam : lambda ∈ ["pearson", "log-likelihood", "cressie-read"]) {sched : ℕ → Option (List ℕ)}
    (hs : ∀ n, ValidSched n (sched n)) {ι : Type} [Countable ι] (φ : ι → ℝ → ℝ) :
    ∀ᵐ ω ∂μ, ∃ y : ℕ → ℝ,
      (∀ n, simChi2 env (d ω) (sched n) a n lambda method false = .ok ((List.range n).map y)) ∧
      ∀ k, Tendsto (fun n : ℕ => (∑ s ∈ range n, φ k (y s)) / n) atTop
        (𝓝 (∑' X, sampleProb method (expTable a) X * φ k (statVal lambda X))) := by
  obtain ⟨f⟩ := null_form (F := F) env ha hr hm
  filter_upwards [f.average hd (sampleProb_finite method (expTable a)) fun k X => φ k (statVal lambda X)] with ω hω
  obtain ⟨T, hT, hP, hlim⟩ := hω
  refine ⟨fun s => statVal lambda (T s), fun n => ?_, hlim⟩
  rw [simChi2_null_iff env (d ω) (data_count ha hr) method lambda (hs n), List.map_map]
  refine List.map_congr_left fun s _ => ?_
  exact (simulateAndFit_iff env f (d ω s) _).2 ⟨T s, statVal_ok hlam (sample_count ha hr (hP s)), hT s⟩

theorem countP_range (y : ℕ → ℝ) (n : ℕ) (p : ℝ → Prop) [DecidablePred p] :
    (((List.range n).map y).countP fun v => decide (p v) : ℝ) = ∑ s ∈ range n, if p (y s) then 1 else 0 := by
  induction n with
  | zero => simp
  | succ n ih =>
    rw [List.range_succ, List.map_append, List.countP_append, sum_range_succ, Nat.cast_add, ih]
    congr 1
    by_cases h : p (y n) <;> simp [h]

/-- **C76, the limit of the Monte-Carlo p-value.** With an ideal binomial generator the 'MC' p-value of a table of data
exists for every number of simulations and converges almost surely, as this number grows, to the probability of a
statistic above the observed one, plus half the probability of one equal to it. -/
theorem mc_pvalue_limit {μ : Measure Ω} {d : Ω → ℕ → Draws F}
    (hd : IdealBinom μ fun ω (q : ℕ × ℕ) => (d ω q.1).binom q.2) (env : SimEnv F) (S : SigNum) {a : Arr2 ℝ}
    (ha : DataTable a) (hr : 2 ≤ a.r) {method : String}
    (hm : method ∈ ["multinominal", "row_product_multinominal", "col_product_multinominal"]) {lambda : String}
    (hlam : lambda ∈ ["pearson", "log-likelihood", "cressie-read"]) {sched : ℕ → Option (List ℕ)}
    (hs : ∀ n, ValidSched n (sched n)) {x : ℝ} (hx : getChi2 a lambda = .ok x) :
    ∀ᵐ ω ∂μ, ∃ p : ℕ → ℝ,
      (∀ n, 0 < n → ∃ z, sigFromHist2d S ⟨env, d ω, sched n, n, lambda, method⟩ a "MC" = .ok (some (p n), z)) ∧
      Tendsto p atTop (𝓝 ((statIn method lambda (expTable a) (Set.Ioi x)).toReal +
        (statIn method lambda (expTable a) {x}).toReal / 2)) := by
  classical
  obtain ⟨f⟩ := null_form (F := F) env ha hr hm
  have hreal := statIn_real ha hr method hlam f.nonneg
  filter_upwards [sims_average hd env ha hr hm hlam hs fun (k : Bool) y =>
    if y ∈ (bif k then Set.Ioi x else {x} : Set ℝ) then (1 : ℝ) else 0] with ω hω
  obtain ⟨y, hy, hlim⟩ := hω
  refine ⟨fun n => mcP ((List.range n).map y) x, fun n hn => ?_, ?_⟩
  · have : sigFromHist2d S ⟨env, d ω, sched n, n, lambda, method⟩ a "MC" =
        sigMC S ⟨env, d ω, sched n, n, lambda, method⟩ x a none := by
      unfold sigFromHist2d
      rw [hx]
      simp [bind, Except.bind]
    rw [this, mc_simulated]
    have hl0 : (List.range n).map y ≠ [] := by
      simp only [ne_eq, List.map_eq_nil_iff, List.range_eq_nil]; omega
    simp only [hy n, bind, Except.bind, mc_value S _ x a hl0]
    exact ⟨_, rfl⟩
  · have h1 := hlim true
    have h2 := hlim false
    simp only [cond_true, cond_false] at h1 h2
    rw [← hreal] at h1 h2
    have h3 : Tendsto (fun n : ℕ => (1 : ℝ) / n) atTop (𝓝 0) := tendsto_one_div_atTop_nhds_zero_nat
    have hA : ∀ n, (above ((List.range n).map y) x : ℝ) = ∑ s ∈ range n, if y s ∈ Set.Ioi x then (1 : ℝ) else 0 := by
      intro n
      rw [← countP_range y n fun v => v ∈ Set.Ioi x]
      unfold above
      congr!
    have hB : ∀ n, (ties ((List.range n).map y) x : ℝ) = ∑ s ∈ range n, if y s ∈ ({x} : Set ℝ) then (1 : ℝ) else 0 := by
      intro n
      rw [← countP_range y n fun v => v ∈ ({x} : Set ℝ)]
      unfold ties
      simp only [Set.mem_singleton_iff]
    replace h1 : Tendsto (fun n : ℕ => (above ((List.range n).map y) x : ℝ) / n) atTop _ :=
      h1.congr fun n => by rw [hA n]; congr!
    replace h2 : Tendsto (fun n : ℕ => (ties ((List.range n).map y) x : ℝ) / n) atTop _ :=
      h2.congr fun n => by rw [hB n]; congr!
    have hlo := (h1.add (h2.div_const 2)).sub (h3.div_const 2)
    have hhi := h1.add (h2.div_const 2)
    rw [zero_div, sub_zero] at hlo
    refine tendsto_of_tendsto_of_tendsto_of_le_of_le hlo hhi (fun n => ?_) fun n => ?_
    · unfold mcP
      rw [List.length_map, List.length_range]
      have ht : (ties ((List.range n).map y) x : ℝ) - 1 ≤ ((ties ((List.range n).map y) x - 1 : ℕ) : ℝ) := by
        rw [sub_le_iff_le_add]
        exact_mod_cast (by omega : ties ((List.range n).map y) x ≤ ties ((List.range n).map y) x - 1 + 1)
      have : (above ((List.range n).map y) x : ℝ) / n + ties ((List.range n).map y) x / n / 2 - 1 / n / 2 =
          (above ((List.range n).map y) x + ((ties ((List.range n).map y) x : ℝ) - 1) / 2) / n := by ring
      rw [this]
      refine div_le_div_of_nonneg_right ?_ (Nat.cast_nonneg _)
      linarith
    · unfold mcP
      rw [List.length_map, List.length_range]
      have ht : ((ties ((List.range n).map y) x - 1 : ℕ) : ℝ) ≤ ties ((List.range n).map y) x := by
        exact_mod_cast Nat.sub_le _ _
      have : (above ((List.range n).map y) x : ℝ) / n + ties ((List.range n).map y) x / n / 2 =
          (above ((List.range n).map y) x + (ties ((List.range n).map y) x : ℝ) / 2) / n := by ring
      rw [this]
      refine div_le_div_of_nonneg_right ?_ (Nat.cast_nonneg _)
      linarith

/-- **C76, the limit of the estimated number of degrees of freedom.** The average of the simulated values converges
almost surely to the expectation of the statistic of a sample of the expected frequencies. -/
theorem ndof_limit {μ : Measure Ω} {d : Ω → ℕ → Draws F}
    (hd : IdealBinom μ fun ω (q : ℕ × ℕ) => (d ω q.1).binom q.2) (env : SimEnv F) {a : Arr2 ℝ}
    (ha : DataTable a) (hr : 2 ≤ a.r) {method : String}
    (hm : method ∈ ["multinominal", "row_product_multinominal", "col_product_multinominal"]) {lambda : String}
    (hlam : lambda ∈ ["pearson", "log-likelihood", "cressie-read"]) {sched : ℕ → Option (List ℕ)}
    (hs : ∀ n, ValidSched n (sched n)) :
    ∀ᵐ ω ∂μ, ∃ m : ℕ → ℝ,
      (∀ n, 0 < n → ∃ l, simChi2 env (d ω) (sched n) a n lambda method false = .ok l ∧ estimateNdof l = some (m n)) ∧
      Tendsto m atTop (𝓝 (∑' X, sampleProb method (expTable a) X * statVal lambda X)) := by
  filter_upwards [sims_average hd env ha hr hm hlam hs fun (_ : Unit) y => y] with ω hω
  obtain ⟨y, hy, hlim⟩ := hω
  refine ⟨fun n => (∑ s ∈ range n, y s) / n, fun n hn => ⟨_, hy n, ?_⟩, hlim ()⟩
  unfold estimateNdof
  have : ((List.range n).map y).isEmpty = false := by
    cases n with
    | zero => omega
    | succ n => simp [List.range_succ]
  rw [this]
  simp only [Bool.false_eq_true, if_false, List.length_map, List.length_range, Option.some.injEq]
  congr 1

/-- The hypotheses hold for the table of ones and the generator made of independent uniform numbers. -/
example (S : SigNum) : ∃ x, getChi2 ones "pearson" = .ok x ∧ ∀ᵐ ω ∂(uniforms (ℕ × ℕ)), ∃ p : ℕ → ℝ,
    (∀ n, 0 < n → ∃ z, sigFromHist2d S ⟨exactEnv, uniformDraws ω, none, n, "pearson", "multinominal"⟩ ones "MC" =
      .ok (some (p n), z)) ∧
    Tendsto p atTop (𝓝 ((statIn "multinominal" "pearson" (expTable ones) (Set.Ioi x)).toReal +
      (statIn "multinominal" "pearson" (expTable ones) {x}).toReal / 2)) :=
  ⟨_, (get_chi2_value (data_count ones_data le_rfl)).1, mc_pvalue_limit (lambda := "pearson") uniformDraws_ideal exactEnv S ones_data le_rfl
    (by simp) (by simp) (sched := fun _ => none) (fun n o h => by cases h) (get_chi2_value (data_count ones_data le_rfl)).1⟩

/-- The same, workers returning the simulations in reverse order. -/
example : ∀ᵐ ω ∂(uniforms (ℕ × ℕ)), ∃ m : ℕ → ℝ,
    (∀ n, 0 < n → ∃ l, simChi2 exactEnv (uniformDraws ω) (some (List.range n).reverse) ones n "log-likelihood"
      "row_product_multinominal" false = .ok l ∧ estimateNdof l = some (m n)) ∧
    Tendsto m atTop (𝓝 (∑' X, sampleProb "row_product_multinominal" (expTable ones) X * statVal "log-likelihood" X)) :=
  ndof_limit (lambda := "log-likelihood") uniformDraws_ideal exactEnv ones_data le_rfl (by simp) (by simp)
    (sched := fun n => some (List.range n).reverse)
    (fun n o h => by cases h; exact List.reverse_perm _)

end Phik.Props
