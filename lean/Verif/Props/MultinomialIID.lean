import Verif.Props.MultinomialLaw
import Verif.Lemmas.IdealBinom
import Mathlib.Data.Nat.Choose.Multinomial
import Mathlib.Probability.Independence.Basic
import Mathlib.Analysis.Calculus.Deriv.Pow
import Mathlib.Analysis.Calculus.Deriv.Mul
import Mathlib.Analysis.Calculus.Deriv.Add

/-! # Property C74: averages of the multinomial samplers, independent simulations -/

namespace Phik.Props
open Spec MeasureTheory Finset

variable {F Ω : Type} [MeasurableSpace Ω]

/-! ### averages -/

section Mean
variable {ι : Type} [Fintype ι] [DecidableEq ι]

theorem multinomProb_eq (n : ℕ) (p : ι → ℝ) {X : ι → ℕ} (h : X ∈ univ.piAntidiag n) :
    multinomProb n p X = Nat.multinomial univ X * ∏ c, p c ^ X c := by
  have hs : ∑ c, X c = n := (mem_piAntidiag.1 h).1
  unfold multinomProb
  rw [if_pos hs]
  congr 1
  have := Nat.multinomial_spec (s := univ) (f := X)
  rw [hs] at this
  have hp : (∏ c, ((X c).factorial : ℝ)) ≠ 0 := prod_ne_zero_iff.2 fun c _ => by
    exact_mod_cast Nat.factorial_ne_zero _
  rw [div_eq_iff hp, mul_comm]
  exact_mod_cast this.symm

theorem multinom_total (n : ℕ) (p : ι → ℝ) :
    ∑ X ∈ univ.piAntidiag n, multinomProb n p X = (∑ c, p c) ^ n := by
  rw [Finset.sum_pow_eq_sum_piAntidiag]
  exact sum_congr rfl fun X hX => multinomProb_eq n p hX

theorem multinom_mean (n : ℕ) (p : ι → ℝ) (hp : ∑ c, p c = 1) (c : ι) :
    ∑ X ∈ univ.piAntidiag n, multinomProb n p X * X c = n * p c := by
  have h1 : HasDerivAt (fun t : ℝ => (∑ x, Function.update p c t x) ^ n) (n * (∑ x, p x) ^ (n - 1) * 1) (p c) := by
    have hs : ∀ t, ∑ x, Function.update p c t x = t + ∑ x ∈ univ.erase c, p x := by
      intro t
      rw [← add_sum_erase _ _ (mem_univ c), Function.update_self]
      congr 1
      exact sum_congr rfl fun x hx => Function.update_of_ne (ne_of_mem_erase hx) _ _
    simp only [hs]
    have h0 : HasDerivAt (fun t : ℝ => t + ∑ x ∈ univ.erase c, p x) 1 (p c) := (hasDerivAt_id _).add_const _
    have := h0.pow n
    rwa [add_sum_erase _ _ (mem_univ c)] at this
  have h2 : HasDerivAt (fun t : ℝ => (∑ x, Function.update p c t x) ^ n)
      (∑ X ∈ univ.piAntidiag n, Nat.multinomial univ X * ((X c * p c ^ (X c - 1)) * ∏ x ∈ univ.erase c, p x ^ X x))
      (p c) := by
    have : (fun t : ℝ => (∑ x, Function.update p c t x) ^ n) = fun t => ∑ X ∈ univ.piAntidiag n,
        (Nat.multinomial univ X : ℝ) * (t ^ X c * ∏ x ∈ univ.erase c, p x ^ X x) := by
      funext t
      rw [Finset.sum_pow_eq_sum_piAntidiag]
      refine sum_congr rfl fun X _ => ?_
      congr 1
      rw [← mul_prod_erase _ _ (mem_univ c), Function.update_self]
      congr 1
      exact prod_congr rfl fun x hx => by rw [Function.update_of_ne (ne_of_mem_erase hx)]
    rw [this]
    refine HasDerivAt.fun_sum fun X _ => ?_
    exact ((hasDerivAt_pow (X c) (p c)).mul_const _).const_mul _
  have h3 := h1.unique h2
  rw [hp, one_pow, mul_one, mul_one] at h3
  rw [h3, sum_mul]
  refine sum_congr rfl fun X hX => ?_
  rw [multinomProb_eq n p hX, ← mul_prod_erase _ _ (mem_univ c)]
  rcases Nat.eq_zero_or_pos (X c) with h | h
  · simp [h]
  · rw [show p c ^ X c = p c ^ (X c - 1) * p c by rw [← pow_succ, Nat.sub_add_cancel h]]
    ring

end Mean

theorem multinomProb_nonneg {ι : Type} [Fintype ι] (n : ℕ) {p : ι → ℝ} (hp : ∀ c, 0 ≤ p c) (X : ι → ℕ) :
    0 ≤ multinomProb n p X := by
  unfold multinomProb
  split
  · exact mul_nonneg (div_nonneg (Nat.cast_nonneg _) (prod_nonneg fun c _ => Nat.cast_nonneg _))
      (prod_nonneg fun c _ => pow_nonneg (hp c) _)
  · exact le_rfl

/-- **C74, averages of 'multinominal'.** The probabilities of the tables with `N` records add up to one, and the
average content of every cell is its content in the given table of `N` records. -/
theorem multinominal_mean {μ : Measure Ω} {d : Ω → Draws F} (hd : IdealBinom μ fun ω => (d ω).binom) (env : SimEnv F)
    {a : Arr2 ℝ} (ha : IsCount a) {N : ℕ} (hN : ∑ i, ∑ j, a.v i j = N) :
    ∑ X ∈ (univ : Finset (Fin a.r × Fin a.c)).piAntidiag N,
      (μ {ω | simData env (d ω) a "multinominal" = .ok ⟨a.r, a.c, fun i j => (X (i, j) : ℤ)⟩}).toReal = 1 ∧
    ∀ i j, ∑ X ∈ (univ : Finset (Fin a.r × Fin a.c)).piAntidiag N,
      (μ {ω | simData env (d ω) a "multinominal" = .ok ⟨a.r, a.c, fun i j => (X (i, j) : ℤ)⟩}).toReal * X (i, j) =
        a.v i j := by
  have hpos : (0 : ℝ) < N := by rw [← hN]; exact ha.pos
  have hlaw : ∀ X : Fin a.r × Fin a.c → ℕ,
      (μ {ω | simData env (d ω) a "multinominal" = .ok ⟨a.r, a.c, fun i j => (X (i, j) : ℤ)⟩}).toReal =
        multinomProb N (fun q : Fin a.r × Fin a.c => a.v q.1 q.2 / N) X := by
    intro X
    rw [multinominal_law hd env ha fun i j => X (i, j), hN, Nat.floor_natCast, ENNReal.toReal_ofReal]
    exact multinomProb_nonneg _ (fun c => div_nonneg (ha.nonneg _ _) hpos.le) _
  have hone : ∑ q : Fin a.r × Fin a.c, a.v q.1 q.2 / (N : ℝ) = 1 := by
    rw [← sum_div, Fintype.sum_prod_type, hN, div_self hpos.ne']
  simp only [hlaw]
  refine ⟨by rw [multinom_total, hone, one_pow], fun i j => ?_⟩
  rw [multinom_mean N _ hone (i, j)]
  field_simp

/-! ### averages of independent draws -/

theorem product_mean {κ ι : Type} [Fintype κ] [DecidableEq κ] [Fintype ι] [DecidableEq ι] (n : κ → ℕ)
    (p : κ → ι → ℝ) (hp : ∀ k, ∑ c, p k c = 1) :
    ∑ X ∈ Fintype.piFinset fun k => (univ : Finset ι).piAntidiag (n k), ∏ k, multinomProb (n k) (p k) (X k) = 1 ∧
    ∀ k c, ∑ X ∈ Fintype.piFinset fun k => (univ : Finset ι).piAntidiag (n k),
      (∏ k, multinomProb (n k) (p k) (X k)) * X k c = n k * p k c := by
  constructor
  · rw [← prod_univ_sum (fun k => (univ : Finset ι).piAntidiag (n k)) fun k X => multinomProb (n k) (p k) X]
    simp only [multinom_total, hp, one_pow, prod_const_one]
  · intro k c
    have h := prod_univ_sum (fun k => (univ : Finset ι).piAntidiag (n k))
      fun l X => multinomProb (n l) (p l) X * if l = k then (X c : ℝ) else 1
    have hL : ∏ l, ∑ X ∈ (univ : Finset ι).piAntidiag (n l), multinomProb (n l) (p l) X *
        (if l = k then (X c : ℝ) else 1) = n k * p k c := by
      rw [← mul_prod_erase _ _ (mem_univ k)]
      simp only [if_true]
      rw [multinom_mean (n k) (p k) (hp k) c, prod_eq_one, mul_one]
      intro l hl
      simp only [if_neg (ne_of_mem_erase hl), mul_one]
      rw [multinom_total, hp, one_pow]
    rw [← hL, h]
    refine sum_congr rfl fun X _ => ?_
    rw [prod_mul_distrib, prod_ite_eq' univ k fun l => ((X l c : ℕ) : ℝ)]
    simp

/-- **C74, averages of 'col_product_multinominal'.** For whole row totals `n i`: the probabilities of the tables with
these row totals add up to one, and the average content of every cell is its content in the given table. -/
theorem col_product_mean {μ : Measure Ω} {d : Ω → Draws F} (hd : IdealBinom μ fun ω => (d ω).binom) (env : SimEnv F)
    {a : Arr2 ℝ} (hnn : ∀ i j, 0 ≤ a.v i j) {n : Fin a.r → ℕ} (hn : ∀ i, ∑ j, a.v i j = n i) (hpos : ∀ i, 0 < n i) :
    ∑ X ∈ Fintype.piFinset fun i => (univ : Finset (Fin a.c)).piAntidiag (n i),
      (μ {ω | simData env (d ω) a "col_product_multinominal" = .ok ⟨a.r, a.c, fun i j => (X i j : ℤ)⟩}).toReal = 1 ∧
    ∀ i j, ∑ X ∈ Fintype.piFinset fun i => (univ : Finset (Fin a.c)).piAntidiag (n i),
      (μ {ω | simData env (d ω) a "col_product_multinominal" = .ok ⟨a.r, a.c, fun i j => (X i j : ℤ)⟩}).toReal * X i j =
        a.v i j := by
  have hpos' : ∀ i, (0 : ℝ) < n i := fun i => by exact_mod_cast hpos i
  have hlaw : ∀ X : Fin a.r → Fin a.c → ℕ,
      (μ {ω | simData env (d ω) a "col_product_multinominal" = .ok ⟨a.r, a.c, fun i j => (X i j : ℤ)⟩}).toReal =
        ∏ i, multinomProb (n i) (fun j => a.v i j / n i) (X i) := by
    intro X
    rw [col_product_law hd env hnn (fun i => by rw [hn]; exact hpos' i) X, ENNReal.toReal_ofReal]
    · simp only [hn, Nat.floor_natCast]
    · exact prod_nonneg fun i _ => multinomProb_nonneg _
        (fun c => div_nonneg (hnn _ _) (by rw [hn]; exact (hpos' i).le)) _
  have hone : ∀ i, ∑ j, a.v i j / (n i : ℝ) = 1 := fun i => by rw [← sum_div, hn, div_self (hpos' i).ne']
  simp only [hlaw]
  obtain ⟨h1, h2⟩ := product_mean n (fun i j => a.v i j / n i) hone
  refine ⟨h1, fun i j => ?_⟩
  rw [h2 i j]
  have := (hpos' i).ne'
  field_simp

/-- **C74, averages of 'row_product_multinominal'.** The same for whole column totals `n j`. -/
theorem row_product_mean {μ : Measure Ω} {d : Ω → Draws F} (hd : IdealBinom μ fun ω => (d ω).binom) (env : SimEnv F)
    {a : Arr2 ℝ} (hnn : ∀ i j, 0 ≤ a.v i j) {n : Fin a.c → ℕ} (hn : ∀ j, ∑ i, a.v i j = n j) (hpos : ∀ j, 0 < n j) :
    ∑ X ∈ Fintype.piFinset fun j => (univ : Finset (Fin a.r)).piAntidiag (n j),
      (μ {ω | simData env (d ω) a "row_product_multinominal" = .ok ⟨a.r, a.c, fun i j => (X j i : ℤ)⟩}).toReal = 1 ∧
    ∀ i j, ∑ X ∈ Fintype.piFinset fun j => (univ : Finset (Fin a.r)).piAntidiag (n j),
      (μ {ω | simData env (d ω) a "row_product_multinominal" = .ok ⟨a.r, a.c, fun i j => (X j i : ℤ)⟩}).toReal * X j i =
        a.v i j := by
  have hpos' : ∀ i, (0 : ℝ) < n i := fun i => by exact_mod_cast hpos i
  have hlaw : ∀ X : Fin a.c → Fin a.r → ℕ,
      (μ {ω | simData env (d ω) a "row_product_multinominal" = .ok ⟨a.r, a.c, fun i j => (X j i : ℤ)⟩}).toReal =
        ∏ j, multinomProb (n j) (fun i => a.v i j / n j) (X j) := by
    intro X
    rw [row_product_law hd env hnn (fun i => by rw [hn]; exact hpos' i) fun i j => X j i, ENNReal.toReal_ofReal]
    · simp only [hn, Nat.floor_natCast]
    · exact prod_nonneg fun i _ => multinomProb_nonneg _
        (fun c => div_nonneg (hnn _ _) (by rw [hn]; exact (hpos' i).le)) _
  have hone : ∀ j, ∑ i, a.v i j / (n j : ℝ) = 1 := fun i => by rw [← sum_div, hn, div_self (hpos' i).ne']
  simp only [hlaw]
  obtain ⟨h1, h2⟩ := product_mean n (fun j i => a.v i j / n j) hone
  refine ⟨h1, fun i j => ?_⟩
  rw [h2 j i]
  have := (hpos' j).ne'
  field_simp

/-! ### independent simulations -/

theorem zip_nonneg {ps : List ℝ} (ks : List ℕ) {S : ℝ} (hS : 0 ≤ S) (h : ∀ p ∈ ps, 0 ≤ p) :
    0 ≤ (List.zipWith (fun p k => (p / S) ^ k) ps ks).prod := by
  induction ps generalizing ks with
  | nil => simp
  | cons p ps ih =>
    cases ks with
    | nil => simp
    | cons k ks =>
      rw [List.zipWith_cons_cons, List.prod_cons]
      exact mul_nonneg (pow_nonneg (div_nonneg (h p (by simp)) hS) _)
        (ih ks fun y hy => h y (List.mem_cons_of_mem _ hy))

theorem RowForm.nonneg {a : Arr2 ℝ} {run P} (f : RowForm F a run P) (X : Fin a.r → Fin a.c → ℕ) : 0 ≤ P X := by
  rw [f.prob]
  refine prod_nonneg fun i _ => ?_
  unfold lmult
  split
  · refine mul_nonneg (div_nonneg (Nat.cast_nonneg _) ?_) (zip_nonneg _ (f.hpos i).le (f.hnn i))
    refine List.prod_nonneg fun x hx => ?_
    obtain ⟨k, _, rfl⟩ := List.mem_map.1 hx
    exact Nat.cast_nonneg _
  · exact le_rfl

/-- Several simulations in a row. -/
theorem RowForm.joint {a : Arr2 ℝ} {run P} (f : RowForm F a run P) {μ : Measure Ω} {d : Ω → ℕ → Draws F}
    (hd : IdealBinom μ fun ω (q : ℕ × ℕ) => (d ω q.1).binom q.2) {m : ℕ} (g : Fin m ↪ ℕ)
    (X : Fin m → Fin a.r → Fin a.c → ℕ) :
    MeasurableSet {ω | ∀ s : Fin m, run (d ω (g s)) = .ok ⟨a.r, a.c, fun i j => (X s i j : ℤ)⟩} ∧
    μ {ω | ∀ s : Fin m, run (d ω (g s)) = .ok ⟨a.r, a.c, fun i j => (X s i j : ℤ)⟩} =
      ENNReal.ofReal (∏ s, P (X s)) := by
  have h := rows_law hd (κ := Fin m × Fin f.R) (g.prodMap Fin.valEmbedding) (fun q => f.n q.2)
    (fun q => f.ps q.2) (fun q => f.ks (X q.1) q.2) (fun q => f.hne q.2) (fun q => f.hnn q.2) (fun q => f.hpos q.2)
  rw [Fintype.prod_prod_type] at h
  have e : {ω | ∀ s : Fin m, run (d ω (g s)) = .ok ⟨a.r, a.c, fun i j => (X s i j : ℤ)⟩} =
      {ω | ∀ q : Fin m × Fin f.R, multiLoop ((d ω ((g.prodMap Fin.valEmbedding) q).1).binom
        ((g.prodMap Fin.valEmbedding) q).2) 0 (f.ps q.2).sum (f.n q.2) (f.ps q.2) = f.ks (X q.1) q.2} := by
    ext ω
    simp only [Set.mem_ofPred_eq, f.run_iff, Prod.forall]
    rfl
  rw [e]
  simp only [f.prob]
  exact h

/-- The simulations are independent, each with the distribution of the sampler. -/
theorem RowForm.iid {a : Arr2 ℝ} {run P} (f : RowForm F a run P) {μ : Measure Ω} {d : Ω → ℕ → Draws F}
    (hd : IdealBinom μ fun ω (q : ℕ × ℕ) => (d ω q.1).binom q.2) {m : ℕ}
    (A : Fin m → Set (Fin a.r → Fin a.c → ℕ)) :
    MeasurableSet {ω | ∀ s : Fin m, ∃ X ∈ A s, run (d ω s) = .ok ⟨a.r, a.c, fun i j => (X i j : ℤ)⟩} ∧
    μ {ω | ∀ s : Fin m, ∃ X ∈ A s, run (d ω s) = .ok ⟨a.r, a.c, fun i j => (X i j : ℤ)⟩} =
      ∏ s, ∑' X, (A s).indicator (fun X => ENNReal.ofReal (P X)) X := by
  classical
  have hprob : IsProbabilityMeasure μ := ⟨by simpa using hd.law ∅ (fun _ => 0) (fun _ => 0) (fun _ => 0) (by simp)⟩
  have hinj : ∀ {X Y : Fin a.r → Fin a.c → ℕ}, (Except.ok ⟨a.r, a.c, fun i j => (X i j : ℤ)⟩ : Except Err (Arr2 ℤ)) =
      .ok ⟨a.r, a.c, fun i j => (Y i j : ℤ)⟩ → X = Y := by
    intro X Y h
    simp only [Except.ok.injEq, Arr2.mk.injEq, heq_eq_eq, true_and] at h
    funext i j
    exact_mod_cast congrFun (congrFun h i) j
  let T : Ω → Fin m → Fin a.r → Fin a.c → ℕ := fun ω s => (f.run_ok (d ω s)).choose
  have hT : ∀ ω (s : Fin m), run (d ω s) = .ok ⟨a.r, a.c, fun i j => (T ω s i j : ℤ)⟩ :=
    fun ω s => (f.run_ok (d ω s)).choose_spec
  have hTX : ∀ ω (s : Fin m) X, T ω s = X ↔ run (d ω s) = .ok ⟨a.r, a.c, fun i j => (X i j : ℤ)⟩ := by
    intro ω s X
    constructor
    · rintro rfl; exact hT ω s
    · intro h; rw [hT ω s] at h; exact hinj h
  have hpre : ∀ X, T ⁻¹' {X} = {ω | ∀ s : Fin m, run (d ω (Fin.valEmbedding s)) =
      .ok ⟨a.r, a.c, fun i j => (X s i j : ℤ)⟩} := by
    intro X
    ext ω
    simp only [Set.mem_preimage, Set.mem_singleton_iff, Set.mem_ofPred_eq, funext_iff (f := T ω), hTX]
    rfl
  have hpre1 : ∀ (s : Fin m) X, (fun ω => T ω s) ⁻¹' {X} = {ω | ∀ t : Fin 1,
      run (d ω ((⟨fun _ => s.val, fun _ _ _ => Subsingleton.elim _ _⟩ : Fin 1 ↪ ℕ) t)) =
      .ok ⟨a.r, a.c, fun i j => (X i j : ℤ)⟩} := by
    intro s X
    ext ω
    simp only [Set.mem_preimage, Set.mem_singleton_iff, Set.mem_ofPred_eq, hTX, Fin.forall_fin_one]
    rfl
  have hmeas : Measurable T := measurable_to_countable' fun X => by
    rw [hpre]; exact (f.joint hd Fin.valEmbedding X).1
  have hmeas1 : ∀ s, Measurable fun ω => T ω s := fun s => (measurable_pi_apply s).comp hmeas
  have hν : ∀ s X, μ.map (fun ω => T ω s) {X} = ENNReal.ofReal (P X) := by
    intro s X
    rw [Measure.map_apply (hmeas1 s) (measurableSet_singleton X), hpre1, (f.joint hd _ fun _ => X).2, Fin.prod_univ_one]
  have hpm : ∀ s, IsProbabilityMeasure (μ.map fun ω => T ω s) := fun s =>
    Measure.isProbabilityMeasure_map (hmeas1 s).aemeasurable
  have hpi : μ.map T = Measure.pi fun s => μ.map fun ω => T ω s := by
    refine Measure.ext_of_singleton fun X => ?_
    rw [Measure.map_apply hmeas (measurableSet_singleton X), hpre, (f.joint hd Fin.valEmbedding X).2,
      Measure.pi_singleton, ENNReal.ofReal_prod_of_nonneg fun s _ => f.nonneg _]
    exact prod_congr rfl fun s _ => (hν s _).symm
  have hev : {ω | ∀ s : Fin m, ∃ X ∈ A s, run (d ω s) = .ok ⟨a.r, a.c, fun i j => (X i j : ℤ)⟩} =
      T ⁻¹' Set.pi Set.univ A := by
    ext ω
    simp only [Set.mem_ofPred_eq, Set.mem_preimage, Set.mem_univ_pi]
    refine forall_congr' fun s => ?_
    constructor
    · rintro ⟨X, hX, hr⟩
      rw [(hTX ω s X).2 hr]; exact hX
    · intro h
      exact ⟨_, h, hT ω s⟩
  have hA : ∀ s, MeasurableSet (A s) := fun s => (A s).to_countable.measurableSet
  rw [hev]
  refine ⟨hmeas (MeasurableSet.univ_pi hA), ?_⟩
  rw [← Measure.map_apply hmeas (MeasurableSet.univ_pi hA), hpi, Measure.pi_pi]
  refine prod_congr rfl fun s _ => ?_
  rw [← Measure.tsum_indicator_apply_singleton _ _ (hA s)]
  refine tsum_congr fun X => ?_
  by_cases hX : X ∈ A s
  · rw [Set.indicator_of_mem hX, Set.indicator_of_mem hX, hν]
  · rw [Set.indicator_of_notMem hX, Set.indicator_of_notMem hX]

/-- Of the simulated data sets for the independence hypothesis. -/
theorem null_form (env : SimEnv F) {a : Arr2 ℝ} (ha : DataTable a) (hr : 2 ≤ a.r) {method : String}
    (hm : method ∈ ["multinominal", "row_product_multinominal", "col_product_multinominal"]) :
    Nonempty (RowForm F (expTable a) (fun d => simData env d (expTable a) method) (sampleProb method (expTable a))) := by
  have hc := data_count ha hr
  have he := expTable_count hc
  obtain ⟨hwr, hwc⟩ := data_whole ha
  simp only [List.mem_cons, List.not_mem_nil, or_false] at hm
  rcases hm with rfl | rfl | rfl
  · exact multinominal_form env he
  · refine row_product_form env he.nonneg fun j => ?_
    obtain ⟨k, hk, h⟩ := hwc j
    exact ((expTable_col hc j).trans h).symm ▸ (by exact_mod_cast hk)
  · refine col_product_form env he.nonneg fun i => ?_
    obtain ⟨k, hk, h⟩ := hwr i
    exact ((expTable_row hc i).trans h).symm ▸ (by exact_mod_cast hk)

theorem simulateAndFit_iff (env : SimEnv F) {e : Arr2 ℝ} {method lambda : String} {P}
    (f : RowForm F e (fun d => simData env d e method) P) (d : Draws F) (x : ℝ) :
    simulateAndFit env e method lambda d = .ok x ↔
      ∃ X ∈ {X : Fin e.r → Fin e.c → ℕ | getChi2 ⟨e.r, e.c, fun i j => (X i j : ℝ)⟩ lambda = .ok x},
        simData env d e method = .ok ⟨e.r, e.c, fun i j => (X i j : ℤ)⟩ := by
  obtain ⟨Y, hY⟩ := f.run_ok d
  have hcast : ∀ X : Fin e.r → Fin e.c → ℕ, (⟨e.r, e.c, fun i j => (X i j : ℤ)⟩ : Arr2 ℤ).toReal =
      ⟨e.r, e.c, fun i j => (X i j : ℝ)⟩ := by
    intro X
    simp [Arr2.toReal, Arr2.map]
  have hfit' : simulateAndFit env e method lambda d = getChi2 ⟨e.r, e.c, fun i j => (Y i j : ℝ)⟩ lambda := by
    unfold simulateAndFit
    rw [hY]
    exact congrArg (fun t => getChi2 t lambda) (hcast Y)
  rw [hfit']
  constructor
  · intro h; exact ⟨Y, h, hY⟩
  · rintro ⟨X, h1, h2⟩
    rw [hY] at h2
    simp only [Except.ok.injEq, Arr2.mk.injEq, heq_eq_eq, true_and] at h2
    have : Y = X := by
      funext i j
      exact_mod_cast congrFun (congrFun h2 i) j
    rw [this]; exact h1

theorem fits_iid {μ : Measure Ω} {d : Ω → ℕ → Draws F}
    (hd : IdealBinom μ fun ω (q : ℕ × ℕ) => (d ω q.1).binom q.2) (env : SimEnv F) {e : Arr2 ℝ} {method lambda : String}
    (f : RowForm F e (fun d => simData env d e method) (sampleProb method e)) (xs : List ℝ) :
    μ {ω | (List.range xs.length).map (fun s => simulateAndFit env e method lambda (d ω s)) = xs.map .ok} =
      (xs.map fun x => statProb method lambda e x).prod := by
  classical
  let A : Fin xs.length → Set (Fin e.r → Fin e.c → ℕ) := fun s =>
    {X | getChi2 ⟨e.r, e.c, fun i j => (X i j : ℝ)⟩ lambda = .ok xs[s]}
  have hev : {ω | (List.range xs.length).map (fun s => simulateAndFit env e method lambda (d ω s)) = xs.map .ok} =
      {ω | ∀ s : Fin xs.length, ∃ X ∈ A s, simData env (d ω s) e method =
        .ok ⟨e.r, e.c, fun i j => (X i j : ℤ)⟩} := by
    ext ω
    simp only [Set.mem_ofPred_eq]
    constructor
    · intro h s
      have := congrArg (fun l => l[s.val]?) h
      simp only [List.getElem?_map, List.getElem?_range s.isLt, Option.map_some, List.getElem?_eq_getElem s.isLt,
        Option.some.injEq] at this
      exact (simulateAndFit_iff env f (d ω s) _).1 this
    · intro h
      refine List.ext_getElem (by simp) fun s h1 h2 => ?_
      simp only [List.getElem_map, List.getElem_range]
      have hs' : s < xs.length := by simpa using h2
      exact (simulateAndFit_iff env f (d ω s) _).2 (h ⟨s, hs'⟩)
  rw [hev, (f.iid hd A).2, ← List.prod_ofFn]
  congr 1
  refine List.ext_getElem (by simp) fun s h1 h2 => ?_
  simp only [List.getElem_ofFn, List.getElem_map]
  unfold statProb
  refine tsum_congr fun X => ?_
  simp only [Set.indicator_apply]
  rfl

theorem simChi2_null_iff (env : SimEnv F) (d : ℕ → Draws F) {a : Arr2 ℝ} (hc : IsCount a) (method lambda : String)
    {nsim : ℕ} {sched : Option (List ℕ)} (hs : ValidSched nsim sched) (xs : List ℝ) :
    simChi2 env d sched a nsim lambda method false = .ok xs ↔
      (List.range nsim).map (fun s => simulateAndFit env (expTable a) method lambda (d s)) = xs.map .ok := by
  have hne : ¬ (a.total = 0 ∧ 0 < nsim) := fun h => hc.pos.ne' h.1
  have he : (⟨a.r, a.c, expected a⟩ : Arr2 ℝ) = expTable a := rfl
  unfold simChi2
  simp only [Bool.false_eq_true, if_false, hne, he]
  rw [runTasks_ok_iff (by simpa using hs)]

/-- **C74, the simulated distribution.** With an ideal binomial generator the simulated values are independent, and each
has the distribution of the statistic of a sample of the expected frequencies: for every list `xs`, the probability
that exactly these values are returned is the product of their probabilities. -/
theorem sim_chi2_iid {μ : Measure Ω} {d : Ω → ℕ → Draws F}
    (hd : IdealBinom μ fun ω (q : ℕ × ℕ) => (d ω q.1).binom q.2) (env : SimEnv F) {a : Arr2 ℝ} (ha : DataTable a)
    (hr : 2 ≤ a.r) {method : String}
    (hm : method ∈ ["multinominal", "row_product_multinominal", "col_product_multinominal"]) (lambda : String)
    {nsim : ℕ} {sched : Option (List ℕ)} (hs : ValidSched nsim sched) (xs : List ℝ) :
    μ {ω | simChi2 env (d ω) sched a nsim lambda method false = .ok xs} =
      if xs.length = nsim then (xs.map fun x => statProb method lambda (expTable a) x).prod else 0 := by
  obtain ⟨f⟩ := null_form (F := F) env ha hr hm
  have hrun := fun ω => simChi2_null_iff env (d ω) (data_count ha hr) method lambda hs xs
  simp only [hrun]
  by_cases hl : xs.length = nsim
  · subst hl
    rw [if_pos rfl]
    exact fits_iid hd env f xs
  · rw [if_neg hl]
    convert measure_empty (μ := μ)
    ext ω
    simp only [Set.mem_ofPred_eq, Set.mem_empty_iff_false, iff_false]
    intro h
    have := congrArg List.length h
    simp only [List.length_map, List.length_range] at this
    exact hl this.symm

end Phik.Props
