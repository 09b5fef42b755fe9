import Verif.Props.MultinomialIID
import Verif.Props.Significance

/-! # Property C75: the distribution of the Monte-Carlo p-value -/

namespace Phik.Props
open Spec MeasureTheory Finset

variable {F Ω : Type} [MeasurableSpace Ω]

open scoped Classical in
theorem countP_card (l : List ℝ) (C : Set ℝ) :
    #{s : Fin l.length | l[s] ∈ C} = l.countP fun y => decide (y ∈ C) := by
  induction l with
  | nil => simp
  | cons y l ih =>
    have := Fin.card_filter_univ_succ (n := l.length) fun s : Fin (l.length + 1) => (y :: l)[s] ∈ C
    refine this.trans ?_
    rw [List.countP_cons, ← ih]
    simp only [Fin.getElem_fin, Fin.val_zero, List.getElem_cons_zero, Fin.val_succ, List.getElem_cons_succ,
      decide_eq_true_eq, Function.comp_def]
    split <;> rfl

open scoped Classical in
theorem fits_count {μ : Measure Ω} {d : Ω → ℕ → Draws F}
    (hd : IdealBinom μ fun ω (q : ℕ × ℕ) => (d ω q.1).binom q.2) (env : SimEnv F) {e : Arr2 ℝ} {method lambda : String}
    (f : RowForm F e (fun d => simData env d e method) (sampleProb method e)) (C : Set ℝ) (n k : ℕ) :
    MeasurableSet {ω | ∃ l : List ℝ, (List.range n).map (fun s => simulateAndFit env e method lambda (d ω s)) =
        l.map .ok ∧ l.countP (fun y => decide (y ∈ C)) = k} ∧
    μ {ω | ∃ l : List ℝ, (List.range n).map (fun s => simulateAndFit env e method lambda (d ω s)) = l.map .ok ∧
        l.countP (fun y => decide (y ∈ C)) = k} =
      n.choose k * statIn method lambda e C ^ k * statIn method lambda e Cᶜ ^ (n - k) := by
  let A : Set ℝ → Set (Fin e.r → Fin e.c → ℕ) := fun C =>
    {X | ∃ x ∈ C, getChi2 ⟨e.r, e.c, fun i j => (X i j : ℝ)⟩ lambda = .ok x}
  have hA : ∀ (C : Set ℝ) (d : Draws F), (∃ X ∈ A C, simData env d e method = .ok ⟨e.r, e.c, fun i j => (X i j : ℤ)⟩) ↔
      ∃ x ∈ C, simulateAndFit env e method lambda d = .ok x := by
    intro C d
    simp only [simulateAndFit_iff env f]
    constructor
    · rintro ⟨X, ⟨x, hx, h1⟩, h2⟩; exact ⟨x, hx, X, h1, h2⟩
    · rintro ⟨x, hx, X, h1, h2⟩; exact ⟨X, ⟨x, hx, h1⟩, h2⟩
  let E : Finset (Fin n) → Set Ω := fun S => {ω | ∀ s : Fin n, ∃ X ∈ A (if s ∈ S then C else Cᶜ),
    simData env (d ω s) e method = .ok ⟨e.r, e.c, fun i j => (X i j : ℤ)⟩}
  have hE : ∀ S ω, ω ∈ E S ↔ ∀ s : Fin n, ∃ x ∈ (if s ∈ S then C else Cᶜ),
      simulateAndFit env e method lambda (d ω s) = .ok x := by
    intro S ω
    exact forall_congr' fun s => hA _ _
  have hev : {ω | ∃ l : List ℝ, (List.range n).map (fun s => simulateAndFit env e method lambda (d ω s)) = l.map .ok ∧
        l.countP (fun y => decide (y ∈ C)) = k} = ⋃ S ∈ powersetCard k univ, E S := by
    ext ω
    simp only [Set.mem_ofPred_eq, Set.mem_iUnion, mem_powersetCard, subset_univ, true_and, exists_prop, hE]
    constructor
    · rintro ⟨l, hl, hk⟩
      have hn : n = l.length := by simpa using congrArg List.length hl
      subst hn
      refine ⟨({s : Fin l.length | l[s] ∈ C} : Finset _), by rw [countP_card]; exact hk, fun s => ?_⟩
      have hs := congrArg (fun l => l[s.val]?) hl
      simp only [List.getElem?_map, List.getElem?_range s.isLt, Option.map_some, List.getElem?_eq_getElem s.isLt,
        Option.some.injEq] at hs
      refine ⟨_, ?_, hs⟩
      simp only [mem_filter, mem_univ, true_and]
      split
      · assumption
      · assumption
    · rintro ⟨S, hS, h⟩
      choose y hy hy2 using h
      refine ⟨List.ofFn y, List.ext_getElem (by simp) fun s h1 h2 => ?_, ?_⟩
      · have hs : s < n := by simpa using h1
        simpa using hy2 ⟨s, hs⟩
      · have hc := countP_card (List.ofFn y) C
        rw [← hc, ← hS]
        have hlen : (List.ofFn y).length = n := by simp
        refine card_bij (fun s _ => Fin.cast hlen s) ?_ ?_ ?_
        · intro s hs
          have hs' : y (Fin.cast hlen s) ∈ C := by
            simp only [mem_filter, mem_univ, true_and, Fin.getElem_fin, List.getElem_ofFn] at hs
            exact hs
          by_contra hns
          have := hy (Fin.cast hlen s)
          rw [if_neg hns] at this
          exact this hs'
        · intro s _ t _ h
          simpa [Fin.ext_iff] using h
        · intro s hs
          refine ⟨Fin.cast hlen.symm s, ?_, by simp⟩
          have := hy s
          rw [if_pos hs] at this
          simpa using this
  rw [hev]
  refine ⟨Finset.measurableSet_biUnion _ fun S _ => (f.iid hd fun s : Fin n => A (if s ∈ S then C else Cᶜ)).1, ?_⟩
  rw [measure_biUnion_finset]
  · have hm : ∀ S ∈ powersetCard k (univ : Finset (Fin n)), μ (E S) =
        statIn method lambda e C ^ k * statIn method lambda e Cᶜ ^ (n - k) := by
      intro S hS
      have hk : #S = k := (mem_powersetCard.1 hS).2
      rw [(f.iid hd fun s : Fin n => A (if s ∈ S then C else Cᶜ)).2]
      have hin : ∀ s : Fin n, ∑' X, (A (if s ∈ S then C else Cᶜ)).indicator
          (fun X => ENNReal.ofReal (sampleProb method e X)) X =
          if s ∈ S then statIn method lambda e C else statIn method lambda e Cᶜ := by
        intro s
        unfold statIn
        split <;> exact tsum_congr fun X => by simp only [Set.indicator_apply]; rfl
      simp only [hin]
      rw [prod_ite, prod_const, prod_const]
      congr 2
      · rw [← hk]; congr 1; ext s; simp
      · rw [filter_not, card_sdiff_of_subset (filter_subset _ _), card_univ, Fintype.card_fin]
        congr 1
        rw [← hk]; congr 1; ext s; simp
    rw [sum_congr rfl hm, sum_const, card_powersetCard, card_univ, Fintype.card_fin, nsmul_eq_mul, mul_assoc]
  · intro S _ S' _ hne
    rw [Function.onFun, Set.disjoint_left]
    intro ω h1 h2
    apply hne
    rw [hE] at h1 h2
    ext s
    obtain ⟨x, hx, hx2⟩ := h1 s
    obtain ⟨y, hy, hy2⟩ := h2 s
    rw [hx2] at hy2
    rw [← Except.ok.inj hy2] at hy
    by_cases a1 : s ∈ S <;> by_cases a2 : s ∈ S' <;> simp_all
  · intro S _
    exact (f.iid hd fun s : Fin n => A (if s ∈ S then C else Cᶜ)).1

theorem multinomProb_empty {ι : Type} [Fintype ι] {n : ℕ} (hn : 0 < n) (p : ι → ℝ) {X : ι → ℕ} (hX : ∀ c, X c = 0) :
    multinomProb n p X = 0 := by
  unfold multinomProb
  rw [if_neg]
  simp only [hX, sum_const_zero]
  omega

theorem sampleProb_empty {a : Arr2 ℝ} (ha : DataTable a) (hr : 2 ≤ a.r) (method : String)
    {X : Fin (expTable a).r → Fin (expTable a).c → ℕ} (hX : ∀ i j, X i j = 0) : sampleProb method (expTable a) X = 0 := by
  have hc := data_count ha hr
  obtain ⟨hwr, hwc⟩ := data_whole ha
  let i₀ : Fin a.r := ⟨0, by omega⟩
  obtain ⟨j₀, -⟩ := ha.rows i₀
  have hrow : 0 < ⌊∑ j, (expTable a).v i₀ j⌋₊ := by
    obtain ⟨k, hk, h⟩ := hwr i₀
    rw [(expTable_row hc i₀).trans h, Nat.floor_natCast]; exact hk
  have hcol : 0 < ⌊∑ i, (expTable a).v i j₀⌋₊ := by
    obtain ⟨k, hk, h⟩ := hwc j₀
    rw [(expTable_col hc j₀).trans h, Nat.floor_natCast]; exact hk
  have htot : 0 < ⌊∑ i, ∑ j, (expTable a).v i j⌋₊ := by
    refine hrow.trans_le (Nat.floor_le_floor ?_)
    exact single_le_sum (f := fun i => ∑ j, (expTable a).v i j)
      (fun i _ => sum_nonneg fun j _ => (expTable_count hc).nonneg i j) (mem_univ i₀)
  unfold sampleProb
  split
  · exact multinomProb_empty htot _ fun q => hX _ _
  · split
    · exact prod_eq_zero (mem_univ i₀) (multinomProb_empty hrow _ fun j => hX _ _)
    · exact prod_eq_zero (mem_univ j₀) (multinomProb_empty hcol _ fun i => hX _ _)

theorem sample_count {a : Arr2 ℝ} (ha : DataTable a) (hr : 2 ≤ a.r) {method : String}
    {X : Fin (expTable a).r → Fin (expTable a).c → ℕ} (h0 : sampleProb method (expTable a) X ≠ 0) :
    IsCount (⟨(expTable a).r, (expTable a).c, fun i j => (X i j : ℝ)⟩ : Arr2 ℝ) := by
  refine ⟨fun i j => Nat.cast_nonneg _, ?_⟩
  by_contra hneg
  apply h0
  have hz : ∀ i j, X i j = 0 := by
    have hle : ∑ i, ∑ j, (X i j : ℝ) ≤ 0 := not_lt.1 hneg
    intro i j
    have h1 := single_le_sum (f := fun i => ∑ j, (X i j : ℝ)) (fun i _ => sum_nonneg fun j _ => Nat.cast_nonneg _)
      (mem_univ i)
    have h2 := single_le_sum (f := fun j => (X i j : ℝ)) (fun j _ => Nat.cast_nonneg _) (mem_univ j)
    have : (X i j : ℝ) ≤ 0 := (h2.trans h1).trans hle
    exact Nat.le_zero.1 (by exact_mod_cast this)
  exact sampleProb_empty ha hr method hz

/-- The statistic of a sample (Pearson's, log-likelihood ratio or Cressie-Read) is defined with probability one: the probabilities of a set of
values and of its complement add up to one. -/
theorem statIn_compl {a : Arr2 ℝ} (ha : DataTable a) (hr : 2 ≤ a.r) {method : String}
    (hm : method ∈ ["multinominal", "row_product_multinominal", "col_product_multinominal"]) {lambda : String}
    (hlam : lambda ∈ ["pearson", "log-likelihood", "cressie-read"]) (C : Set ℝ) :
    statIn method lambda (expTable a) C + statIn method lambda (expTable a) Cᶜ = 1 := by
  classical
  -- a generator to compute with
  obtain ⟨f⟩ := null_form exactEnv ha hr hm
  let st : Statics ℚ := ⟨none, 0⟩
  have hq := idealBinom_quant (ℕ × ℕ)
  have htot := (f.iid (μ := uniforms (ℕ × ℕ)) (d := fun ω s => ⟨fun i j n p => quant n p (ω ((s, i), j)), 0, st⟩)
    hq (m := 1) fun _ => Set.univ).2
  have huniv : uniforms (ℕ × ℕ) Set.univ = 1 := by
    have := hq.law ∅ (fun _ => 0) (fun _ => 0) (fun _ => 0) (by simp)
    simpa using this
  have hall : ∑' X, ENNReal.ofReal (sampleProb method (expTable a) X) = 1 := by
    rw [Fin.prod_univ_one] at htot
    simp only [Set.indicator_univ] at htot
    rw [← htot, ← huniv]
    congr 1
    ext ω
    simp only [Set.mem_ofPred_eq, Set.mem_univ, true_and, iff_true]
    exact fun s => f.run_ok _
  rw [← hall]
  unfold statIn
  rw [← ENNReal.tsum_add]
  refine tsum_congr fun X => ?_
  by_cases h0 : sampleProb method (expTable a) X = 0
  · simp [h0]
  have hc := sample_count ha hr h0
  obtain ⟨x, hx⟩ : ∃ x, getChi2 (⟨(expTable a).r, (expTable a).c, fun i j => (X i j : ℝ)⟩ : Arr2 ℝ) lambda = .ok x := by
    obtain ⟨x, hx, -⟩ := get_chi2_three hc hlam
    exact ⟨x, hx⟩
  have hiff : ∀ C : Set ℝ, (∃ y ∈ C, getChi2 (⟨(expTable a).r, (expTable a).c, fun i j => (X i j : ℝ)⟩ : Arr2 ℝ) lambda =
      .ok y) ↔ x ∈ C := by
    intro C
    rw [hx]
    constructor
    · rintro ⟨y, hy, h⟩; rw [Except.ok.inj h]; exact hy
    · intro h; exact ⟨x, h, rfl⟩
  by_cases hxC : x ∈ C
  · rw [if_pos ((hiff C).2 hxC), if_neg (fun h => (hiff Cᶜ).1 h hxC), add_zero]
  · rw [if_neg (fun h => hxC ((hiff C).1 h)), if_pos ((hiff Cᶜ).2 hxC), zero_add]

theorem binom_ennreal {q q' : ENNReal} (h : q + q' = 1) (n k : ℕ) :
    (n.choose k : ENNReal) * q ^ k * q' ^ (n - k) = ENNReal.ofReal (binomProb n k q.toReal) := by
  have hq : q ≤ 1 := h ▸ le_self_add
  have hq' : q' ≤ 1 := h ▸ le_add_self
  have hqt : q ≠ ⊤ := ne_top_of_le_ne_top ENNReal.one_ne_top hq
  have hqt' : q' ≠ ⊤ := ne_top_of_le_ne_top ENNReal.one_ne_top hq'
  have h1 : 1 - q.toReal = q'.toReal := by
    have := congrArg ENNReal.toReal h
    rw [ENNReal.toReal_add hqt hqt', ENNReal.toReal_one] at this
    linarith
  unfold binomProb
  rw [h1, ENNReal.ofReal_mul (by positivity), ENNReal.ofReal_mul (by positivity), ENNReal.ofReal_natCast,
    ENNReal.ofReal_pow ENNReal.toReal_nonneg, ENNReal.ofReal_pow ENNReal.toReal_nonneg, ENNReal.ofReal_toReal hqt,
    ENNReal.ofReal_toReal hqt']

theorem sim_count_both {μ : Measure Ω} {d : Ω → ℕ → Draws F}
    (hd : IdealBinom μ fun ω (q : ℕ × ℕ) => (d ω q.1).binom q.2) (env : SimEnv F) {a : Arr2 ℝ} (ha : DataTable a)
    (hr : 2 ≤ a.r) {method : String}
    (hm : method ∈ ["multinominal", "row_product_multinominal", "col_product_multinominal"]) {lambda : String}
    (hlam : lambda ∈ ["pearson", "log-likelihood", "cressie-read"])
    {nsim : ℕ} {sched : Option (List ℕ)} (hs : ValidSched nsim sched) (C : Set ℝ) [DecidablePred (· ∈ C)] (k : ℕ) :
    MeasurableSet {ω | ∃ l, simChi2 env (d ω) sched a nsim lambda method false = .ok l ∧
      l.countP (fun y => decide (y ∈ C)) = k} ∧
    μ {ω | ∃ l, simChi2 env (d ω) sched a nsim lambda method false = .ok l ∧ l.countP (fun y => decide (y ∈ C)) = k} =
      ENNReal.ofReal (binomProb nsim k (statIn method lambda (expTable a) C).toReal) := by
  obtain ⟨f⟩ := null_form (F := F) env ha hr hm
  simp only [fun ω l => simChi2_null_iff env (d ω) (data_count ha hr) method lambda hs l]
  rw [← binom_ennreal (statIn_compl ha hr hm hlam C) nsim k]
  convert fits_count hd env f C nsim k

/-- **C75, numbers of simulated values.** With an ideal binomial generator, the number of simulated values in any set
`C` is binomial: `nsim` trials with the probability that the statistic of a sample of the expected frequencies is
in `C`. -/
theorem sim_count_binomial {μ : Measure Ω} {d : Ω → ℕ → Draws F}
    (hd : IdealBinom μ fun ω (q : ℕ × ℕ) => (d ω q.1).binom q.2) (env : SimEnv F) {a : Arr2 ℝ} (ha : DataTable a)
    (hr : 2 ≤ a.r) {method : String}
    (hm : method ∈ ["multinominal", "row_product_multinominal", "col_product_multinominal"]) {lambda : String}
    (hlam : lambda ∈ ["pearson", "log-likelihood", "cressie-read"])
    {nsim : ℕ} {sched : Option (List ℕ)} (hs : ValidSched nsim sched) (C : Set ℝ) [DecidablePred (· ∈ C)] (k : ℕ) :
    μ {ω | ∃ l, simChi2 env (d ω) sched a nsim lambda method false = .ok l ∧ l.countP (fun y => decide (y ∈ C)) = k} =
      ENNReal.ofReal (binomProb nsim k (statIn method lambda (expTable a) C).toReal) :=
  (sim_count_both hd env ha hr hm hlam hs C k).2

theorem sim_count_le {μ : Measure Ω} {d : Ω → ℕ → Draws F}
    (hd : IdealBinom μ fun ω (q : ℕ × ℕ) => (d ω q.1).binom q.2) (env : SimEnv F) {a : Arr2 ℝ} (ha : DataTable a)
    (hr : 2 ≤ a.r) {method : String}
    (hm : method ∈ ["multinominal", "row_product_multinominal", "col_product_multinominal"]) {lambda : String}
    (hlam : lambda ∈ ["pearson", "log-likelihood", "cressie-read"])
    {nsim : ℕ} {sched : Option (List ℕ)} (hs : ValidSched nsim sched) (C : Set ℝ) [DecidablePred (· ∈ C)] (k : ℕ) :
    μ {ω | ∃ l, simChi2 env (d ω) sched a nsim lambda method false = .ok l ∧ l.countP (fun y => decide (y ∈ C)) ≤ k} =
      ∑ j ∈ range (k + 1), ENNReal.ofReal (binomProb nsim j (statIn method lambda (expTable a) C).toReal) := by
  have hev : {ω | ∃ l, simChi2 env (d ω) sched a nsim lambda method false = .ok l ∧
      l.countP (fun y => decide (y ∈ C)) ≤ k} = ⋃ j ∈ range (k + 1),
      {ω | ∃ l, simChi2 env (d ω) sched a nsim lambda method false = .ok l ∧
        l.countP (fun y => decide (y ∈ C)) = j} := by
    ext ω
    simp only [Set.mem_ofPred_eq, Set.mem_iUnion, mem_range, exists_prop]
    constructor
    · rintro ⟨l, h1, h2⟩; exact ⟨_, by omega, l, h1, rfl⟩
    · rintro ⟨j, hj, l, h1, h2⟩; exact ⟨l, h1, by omega⟩
  rw [hev, measure_biUnion_finset]
  · exact sum_congr rfl fun j _ => (sim_count_both hd env ha hr hm hlam hs C j).2
  · intro j _ j' _ hne
    rw [Function.onFun, Set.disjoint_left]
    rintro ω ⟨l, h1, h2⟩ ⟨l', h1', h2'⟩
    rw [h1] at h1'
    rw [← Except.ok.inj h1'] at h2'
    exact hne (h2.symm.trans h2')
  · exact fun j _ => (sim_count_both hd env ha hr hm hlam hs C j).1

/-- The p-value lies between the fractions of simulated values above, and not below, the observed value. -/
theorem mcP_between (l : List ℝ) (x : ℝ) :
    (l.countP (fun y => decide (y ∈ Set.Ioi x)) : ℝ) / l.length ≤ mcP l x ∧
      mcP l x ≤ l.countP (fun y => decide (y ∈ Set.Ici x)) / l.length := by
  have h1 : l.countP (fun y => decide (y ∈ Set.Ioi x)) = above l x := rfl
  have h2 : l.countP (fun y => decide (y ∈ Set.Ici x)) = above l x + ties l x := by
    unfold above ties
    clear h1
    induction l with
    | nil => rfl
    | cons y l ih =>
      simp only [List.countP_cons, decide_eq_true_eq, Set.mem_Ici] at ih ⊢
      rcases lt_trichotomy y x with h | h | h
      · simp [h.ne, not_lt.2 h.le, not_le.2 h]; omega
      · simp [h]; omega
      · simp [h, h.ne', h.le]; omega
  rw [h1, h2]
  unfold mcP
  have h3 : ((ties l x - 1 : ℕ) : ℝ) ≤ ties l x := by exact_mod_cast Nat.sub_le _ _
  have h4 : (0 : ℝ) ≤ ((ties l x - 1 : ℕ) : ℝ) := Nat.cast_nonneg _
  constructor
  · refine div_le_div_of_nonneg_right ?_ (Nat.cast_nonneg _)
    linarith
  · refine div_le_div_of_nonneg_right ?_ (Nat.cast_nonneg _)
    push_cast
    linarith

/-- **C75, Monte-Carlo p-value.** For a table of data with observed statistic `x`, the chance that the Monte-Carlo
p-value is at most `k / nsim` lies between those that binomial variables with the true probabilities of a statistic
of at least `x`, and of more than `x`, under independence are at most `k`. -/
theorem mc_pvalue_law {μ : Measure Ω} {d : Ω → ℕ → Draws F}
    (hd : IdealBinom μ fun ω (q : ℕ × ℕ) => (d ω q.1).binom q.2) (env : SimEnv F) (S : SigNum) {a : Arr2 ℝ}
    (ha : DataTable a) (hr : 2 ≤ a.r) {method : String}
    (hm : method ∈ ["multinominal", "row_product_multinominal", "col_product_multinominal"]) {lambda : String}
    (hlam : lambda ∈ ["pearson", "log-likelihood", "cressie-read"])
    {nsim : ℕ} (hn : 0 < nsim) {sched : Option (List ℕ)} (hs : ValidSched nsim sched) {x : ℝ}
    (hx : getChi2 a lambda = .ok x) (k : ℕ) :
    ∑ j ∈ range (k + 1), ENNReal.ofReal (binomProb nsim j (statIn method lambda (expTable a) (Set.Ici x)).toReal) ≤
      μ {ω | ∃ p z, sigFromHist2d S ⟨env, d ω, sched, nsim, lambda, method⟩ a "MC" = .ok (some p, z) ∧
        p ≤ (k : ℝ) / nsim} ∧
    μ {ω | ∃ p z, sigFromHist2d S ⟨env, d ω, sched, nsim, lambda, method⟩ a "MC" = .ok (some p, z) ∧
        p ≤ (k : ℝ) / nsim} ≤
      ∑ j ∈ range (k + 1), ENNReal.ofReal (binomProb nsim j (statIn method lambda (expTable a) (Set.Ioi x)).toReal) := by
  have hn' : (0 : ℝ) < nsim := by exact_mod_cast hn
  have hlen : ∀ ω l, simChi2 env (d ω) sched a nsim lambda method false = .ok l → l.length = nsim := by
    intro ω l h
    rw [simChi2_null_iff env (d ω) (data_count ha hr) method lambda hs] at h
    simpa using (congrArg List.length h).symm
  have hsig : ∀ ω p z, sigFromHist2d S ⟨env, d ω, sched, nsim, lambda, method⟩ a "MC" = .ok (some p, z) ↔
      ∃ l, simChi2 env (d ω) sched a nsim lambda method false = .ok l ∧ p = mcP l x ∧ z = some (-S.ppf (mcP l x)) := by
    intro ω p z
    have : sigFromHist2d S ⟨env, d ω, sched, nsim, lambda, method⟩ a "MC" =
        sigMC S ⟨env, d ω, sched, nsim, lambda, method⟩ x a none := by
      unfold sigFromHist2d
      rw [hx]
      simp [bind, Except.bind]
    rw [this, mc_simulated]
    cases hl : simChi2 env (d ω) sched a nsim lambda method false with
    | error e => simp [bind, Except.bind]
    | ok l =>
      have hl0 : l ≠ [] := by
        intro h
        have := hlen ω l hl
        rw [h] at this
        simp at this; omega
      simp only [bind, Except.bind, mc_value S _ x a hl0, Except.ok.injEq, Prod.mk.injEq, Option.some.injEq,
        exists_eq_left']
      constructor
      · rintro ⟨h1, h2⟩; exact ⟨h1.symm, h2.symm⟩
      · rintro ⟨h1, h2⟩; exact ⟨h1.symm, h2.symm⟩
  rw [← sim_count_le hd env ha hr hm hlam hs (Set.Ici x) k, ← sim_count_le hd env ha hr hm hlam hs (Set.Ioi x) k]
  constructor
  · refine measure_mono ?_
    rintro ω ⟨l, h1, h2⟩
    refine ⟨mcP l x, _, (hsig ω _ _).2 ⟨l, h1, rfl, rfl⟩, ?_⟩
    refine (mcP_between l x).2.trans ?_
    rw [hlen ω l h1]
    refine div_le_div_of_nonneg_right ?_ hn'.le
    exact_mod_cast h2
  · refine measure_mono ?_
    rintro ω ⟨p, z, h1, h2⟩
    obtain ⟨l, h3, rfl, -⟩ := (hsig ω _ _).1 h1
    refine ⟨l, h3, ?_⟩
    have h4 := (mcP_between l x).1.trans h2
    rw [hlen ω l h3, div_le_div_iff_of_pos_right hn'] at h4
    exact_mod_cast h4

/-! ### the hypotheses can be met -/

/-- Simulations driven by independent uniform numbers. -/
noncomputable def uniformDraws (ω : (ℕ × ℕ) × ℕ → ℝ) (s : ℕ) : Draws ℚ :=
  ⟨fun i j n p => quant n p (ω ((s, i), j)), 0, ⟨none, 0⟩⟩

theorem uniformDraws_ideal :
    IdealBinom (uniforms (ℕ × ℕ)) fun ω (q : ℕ × ℕ) => (uniformDraws ω q.1).binom q.2 := idealBinom_quant (ℕ × ℕ)

noncomputable def uniformDraw (ω : ℕ × ℕ → ℝ) : Draws ℚ :=
  ⟨fun i j n p => quant n p (ω (i, j)), 0, ⟨none, 0⟩⟩

theorem uniformDraw_ideal : IdealBinom (uniforms ℕ) fun ω => (uniformDraw ω).binom := idealBinom_quant ℕ

/-- With one record in each of four cells: the chance to sample this table again is 4! / 4^4. -/
example : uniforms ℕ {ω | simData exactEnv (uniformDraw ω) ones "multinominal" =
    .ok ⟨ones.r, ones.c, fun _ _ => ((1 : ℕ) : ℤ)⟩} = ENNReal.ofReal (3 / 32) := by
  rw [multinominal_law uniformDraw_ideal exactEnv (data_count ones_data le_rfl) fun _ _ => 1]
  have hN : ∑ i, ∑ j, ones.v i j = 4 := ones_total
  rw [hN]
  congr 1
  unfold multinomProb
  rw [show (⌊(4 : ℝ)⌋₊ : ℕ) = 4 by norm_num]
  have hcard : Fintype.card (Fin ones.r × Fin ones.c) = 4 := by
    rw [Fintype.card_prod, Fintype.card_fin, Fintype.card_fin]; rfl
  have hv : ∀ q : Fin ones.r × Fin ones.c, ones.v q.1 q.2 = 1 := fun q => rfl
  simp only [hv, sum_const, prod_const, card_univ, hcard]
  norm_num [Nat.factorial]

/-- The same for rows and columns: (2! / 2^2)^2. -/
example : uniforms ℕ {ω | simData exactEnv (uniformDraw ω) ones "col_product_multinominal" =
    .ok ⟨ones.r, ones.c, fun _ _ => ((1 : ℕ) : ℤ)⟩} = ENNReal.ofReal (1 / 4) := by
  have hv : ∀ (i : Fin ones.r) (j : Fin ones.c), ones.v i j = 1 := fun _ _ => rfl
  have hrow : ∀ i : Fin ones.r, ∑ j, ones.v i j = 2 := fun i => by
    simp only [hv, sum_const, card_univ, Fintype.card_fin]
    norm_num [ones]
  rw [col_product_law uniformDraw_ideal exactEnv (fun i j => by rw [hv]; norm_num) (fun i => by rw [hrow]; norm_num)
    fun _ _ => 1]
  congr 1
  simp only [hrow]
  simp only [hv]
  rw [prod_const, card_univ, Fintype.card_fin, show ones.r = 2 from rfl]
  unfold multinomProb
  rw [show (⌊(2 : ℝ)⌋₊ : ℕ) = 2 by norm_num]
  simp only [sum_const, prod_const, card_univ, Fintype.card_fin]
  rw [show ones.c = 2 from rfl]
  norm_num [Nat.factorial]

/-- The average of 'row_product_multinominal' for the table of ones. -/
example (i : Fin ones.r) (j : Fin ones.c) :
    ∑ X ∈ Fintype.piFinset fun _ : Fin ones.c => (univ : Finset (Fin ones.r)).piAntidiag (2 : ℕ),
      (uniforms ℕ {ω | simData exactEnv (uniformDraw ω) ones "row_product_multinominal" =
        .ok ⟨ones.r, ones.c, fun i j => (X j i : ℤ)⟩}).toReal * X j i = 1 := by
  have hv : ∀ (i : Fin ones.r) (j : Fin ones.c), ones.v i j = 1 := fun _ _ => rfl
  refine (row_product_mean uniformDraw_ideal exactEnv (fun i j => by rw [hv]; norm_num) (n := fun _ => 2) (fun j => ?_)
    fun _ => by norm_num).2 i j
  simp only [hv, sum_const, card_univ, Fintype.card_fin]
  norm_num [ones]

/-- Four simulations on three workers, for the table of ones: the law of the number of values above 1, and the bounds
for the p-value. -/
example (S : SigNum) : ∃ x, getChi2 ones "pearson" = .ok x ∧
    uniforms (ℕ × ℕ) {ω | ∃ p z, sigFromHist2d S ⟨exactEnv, uniformDraws ω, some [2, 0, 1, 3], 4, "pearson",
      "multinominal"⟩ ones "MC" = .ok (some p, z) ∧ p ≤ ((1 : ℕ) : ℝ) / (4 : ℕ)} ≤
      ∑ j ∈ range 2, ENNReal.ofReal
        (binomProb 4 j (statIn "multinominal" "pearson" (expTable ones) (Set.Ioi x)).toReal) := by
  refine ⟨_, (get_chi2_value (data_count ones_data le_rfl)).1, ?_⟩
  exact (mc_pvalue_law (lambda := "pearson") uniformDraws_ideal exactEnv S ones_data le_rfl (by simp) (by simp) (by norm_num)
    (fun o h => by cases h; decide) (get_chi2_value (data_count ones_data le_rfl)).1 1).2

end Phik.Props
