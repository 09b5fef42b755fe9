import Verif.Props.HybridFit

/-!
# Properties C30 (violation), C31 (finding), C34, C58
-/

namespace Phik.Props

open Phik.Spec MeasureTheory ProbabilityTheory

variable {F : Type}

open scoped Classical in
/-- The true distributions, with a minimiser that moves to the other end of its interval. -/
noncomputable def mixSig : SigNum :=
  { trueSig with lsq := fun res => if none ∈ res 1 then .error .value else .ok 0 }

theorem mixSig_spec : SigSpec mixSig :=
  { trueSig_spec with
    lsq_bounds := fun res f h => by
      simp only [mixSig] at h
      split at h
      · cases h
      · cases h; norm_num
    lsq_nan := fun res h => by simp [mixSig, h] }

theorem mean_12 : mean [1, 2] = 3 / 2 := by norm_num [mean]

theorem edges_12 (i : ℕ) : fitEdges [1, 2] 50 i = 1 + i / 50 := by
  unfold fitEdges
  norm_num
  ring

theorem residuals_12 {S : SigNum} (h1 : S.chi2pdf = trueSig.chi2pdf) (h2 : S.normpdf = trueSig.normpdf) :
    none ∉ fitResiduals S [1, 2] 50 1 := by
  intro h
  obtain ⟨i, hi⟩ := List.mem_iff_getElem?.1 h
  have hlt : i < 50 := by
    by_contra h50
    rw [List.getElem?_eq_none (by simp [fitResiduals]; omega)] at hi
    cases hi
  set x : ℝ := (fitEdges [1, 2] 50 i + fitEdges [1, 2] 50 (i + 1)) / 2 with hx
  have hx0 : 0 < x := by rw [hx, edges_12, edges_12]; positivity
  set N : ℝ := (([1, 2] : List ℝ).length : ℝ) * (fitEdges [1, 2] 50 1 - fitEdges [1, 2] 50 0) with hN
  have hN0 : 0 < N := by rw [hN, edges_12, edges_12]; norm_num
  have hs : ¬ Real.sqrt (3 / 2) ≤ 0 := not_le.2 (Real.sqrt_pos.2 (by norm_num))
  have hk : ¬ (3 / 2 : ℝ) ≤ 0 := by norm_num
  have he : fitExpect S N (mean [1, 2]) (Real.sqrt (mean [1, 2])) x 1 =
      some (N * (1 * gammaPDFReal (3 / 2 / 2) (1 / 2) x +
        (1 - 1) * gaussianPDFReal (3 / 2) ((Real.sqrt (3 / 2)) ^ 2).toNNReal x)) := by
    rw [mean_12]
    unfold fitExpect
    rw [h1, h2]
    simp only [trueSig, hs, hk, if_false]
    rfl
  have hp : 0 < N * (1 * gammaPDFReal (3 / 2 / 2) (1 / 2) x +
        (1 - 1) * gaussianPDFReal (3 / 2) ((Real.sqrt (3 / 2)) ^ 2).toNNReal x) := by
    have := gammaPDFReal_pos (x := x) (a := 3 / 2 / 2) (r := 1 / 2) (by norm_num) (by norm_num) hx0
    rw [one_mul, sub_self, zero_mul, add_zero]
    positivity
  rw [fit_residual hlt he hp] at hi
  cases hi

theorem mixSig_fit : mixSig.lsq (fitResiduals mixSig [1, 2] 50) = .ok 0 := by
  change (if none ∈ fitResiduals mixSig [1, 2] 50 1 then _ else _) = _
  rw [if_neg (residuals_12 (S := mixSig) rfl rfl)]

theorem mix_lt_one : ∃ q, mixP mixSig 0 (3 / 2) 0 = some q ∧ q < 1 := by
  have hs : ¬ Real.sqrt (3 / 2) ≤ 0 := not_le.2 (Real.sqrt_pos.2 (by norm_num))
  have hk : ¬ (3 / 2 : ℝ) ≤ 0 := by norm_num
  refine ⟨_, by unfold mixP; simp only [mixSig, trueSig, hs, hk, if_false]; rfl, ?_⟩
  rw [zero_mul, zero_add, sub_zero, one_mul]
  set v : NNReal := ((Real.sqrt (3 / 2)) ^ 2).toNNReal with hv
  have hv0 : v ≠ 0 := by
    rw [hv]
    simp only [ne_eq, Real.toNNReal_eq_zero, not_le]
    exact pow_pos (not_le.1 hs) 2
  have h1 : (gaussianReal (3 / 2) v).real (Set.Iic 0) + (gaussianReal (3 / 2) v).real (Set.Ioi 0) = 1 := by
    rw [← measureReal_union (by
      rw [Set.disjoint_left]; intro z hz hz'; exact absurd (Set.mem_Ioi.1 hz') (not_lt.2 hz))
      measurableSet_Ioi, Set.Iic_union_Ioi]
    simp
  have h2 : 0 < (gaussianReal (3 / 2) v).real (Set.Iic 0) := by
    rw [measureReal_def]
    refine ENNReal.toReal_pos ?_ (measure_ne_top _ _)
    exact ((gauss_pos_of_interval hv0 (show (-1 : ℝ) < 0 by norm_num)).trans_le
      (measure_mono fun x hx => hx.2.le)).ne'
  linarith

theorem sf_start {S : SigNum} (hS : SigSpec S) {k : ℝ} (hk : 0 < k) :
    sigFromNdof S 0 k = .ok (some 1, some ⊥) := by
  unfold sigFromNdof
  rw [hS.chi2_start k hk]
  simp [zOfP, hS.ppf_one]
  rfl

/-- A table with one record per bin. -/
noncomputable def flat (r c : ℕ) : Arr2 ℝ := ⟨r, c, fun _ _ => 1⟩

theorem flat_total (r c : ℕ) : (flat r c).total = r * c := by
  change ∑ _i : Fin r, ∑ _j : Fin c, (1 : ℝ) = _
  simp

/-- **C30 (violation).** There is a table with on average one record per bin for which the hybrid method
does not use the mixture `h(x|f)` with the fitted `f`. -/
theorem switch_violated (R : SimRun F) :
    SigSpec mixSig ∧ DataTable (flat 2 3) ∧ recordsPerBin (flat 2 3) = 1 ∧
    mixSig.lsq (fitResiduals mixSig [1, 2] 50) = .ok 0 ∧
    ∃ p z, sigHybrid mixSig R 0 (flat 2 3) (some [1, 2]) = .ok (some p, z) ∧
      mixP mixSig 0 (mean [1, 2]) 0 ≠ some p := by
  refine ⟨mixSig_spec, ⟨fun _ _ => ⟨1, by simp [flat]⟩, fun _ => ⟨(0 : Fin 3), one_ne_zero (α := ℝ)⟩,
    fun _ => ⟨(0 : Fin 2), one_ne_zero (α := ℝ)⟩⟩, ?_, mixSig_fit, 1, some ⊥, ?_, ?_⟩
  · unfold recordsPerBin
    change (flat 2 3).total / _ = 1
    rw [flat_total]; norm_num [flat]
  · rw [hybrid_high mixSig R 0 (by simp [flat]) (by rw [flat_total]; norm_num [flat]) (by simp), mean_12,
      sf_start mixSig_spec (by norm_num)]
  · rw [mean_12]
    obtain ⟨q, hq, h1⟩ := mix_lt_one
    rw [hq]
    intro h
    cases h
    exact lt_irrefl _ h1

/-- **C30 (asymmetry).** Exchanging the two variables changes the p-value. -/
theorem switch_asymmetric (R : SimRun F) :
    ∃ p q z z', sigHybrid mixSig R 0 (flat 2 3) (some [1, 2]) = .ok (some p, z) ∧
      sigHybrid mixSig R 0 (flat 2 3).transpose (some [1, 2]) = .ok (some q, z') ∧ q < p := by
  obtain ⟨q, hq, h1⟩ := mix_lt_one
  refine ⟨1, q, some ⊥, some (-mixSig.ppf q), ?_, ?_, h1⟩
  · rw [hybrid_high mixSig R 0 (by simp [flat]) (by rw [flat_total]; norm_num [flat]) (by simp), mean_12,
      sf_start mixSig_spec (by norm_num)]
  · have ht : (flat 2 3).transpose.total = 6 := by
      change ∑ _i : Fin 3, ∑ _j : Fin 2, (1 : ℝ) = _
      norm_num
    rw [hybrid_low R 0 (by simp [flat, Arr2.transpose])
      (by rw [ht]; norm_num [flat, Arr2.transpose]) (by simp), mixSig_fit, mean_12]
    simp only [bind, Except.bind, pure, Except.pure, hq, Option.some.injEq]
    rw [if_neg]
    · rfl
    · intro h0
      have hs : ¬ Real.sqrt (3 / 2) ≤ 0 := not_le.2 (Real.sqrt_pos.2 (by norm_num))
      have hk : ¬ (3 / 2 : ℝ) ≤ 0 := by norm_num
      unfold mixP at hq
      simp only [mixSig, trueSig, hs, hk, if_false] at hq
      have e : 0 * (chi2Law (3 / 2)).real (Set.Ioi 0) +
        (1 - 0) * (gaussianReal (3 / 2) ((Real.sqrt (3 / 2)) ^ 2).toNNReal).real (Set.Ioi 0) = q :=
        Option.some.inj hq
      rw [zero_mul, zero_add, sub_zero, one_mul, h0] at e
      have hv0 : ((Real.sqrt (3 / 2)) ^ 2).toNNReal ≠ 0 := by
        simp only [ne_eq, Real.toNNReal_eq_zero, not_le]
        exact pow_pos (not_le.1 hs) 2
      rw [measureReal_def, ENNReal.toReal_eq_zero_iff] at e
      rcases e with e | e
      · have h3 := gauss_pos_of_interval (m := 3 / 2) hv0 (show (0 : ℝ) < 1 by norm_num)
        exact absurd (measure_mono_null (fun x hx => hx.1) e) h3.ne'
      · exact measure_ne_top _ _ e

/-- **C31 (hybrid method, finding).** In the low statistics branch with a fitted fraction of 0, a p-value
that underflows to 0 makes the function raise ValueError. -/
theorem hybrid_zero_fraction {S : SigNum} (R : SimRun F) {chi2 : ℝ} {values : Arr2 ℝ} (hr : values.r ≠ 0)
    (h4 : values.total / values.r * values.c ≤ 4) {l : List ℝ} (hl : l ≠ [])
    (hf : S.lsq (fitResiduals S l 50) = .ok 0) (hp : mixP S 0 (mean l) chi2 = some 0) :
    sigHybrid S R chi2 values (some l) = .error .value := by
  rw [hybrid_low R chi2 hr h4 hl, hf]
  simp only [bind, Except.bind, hp, if_true, le_refl, throw, throwThe, MonadExceptOf.throw]

/-- **C31 (hybrid method).** With a positive fraction, the underflow fallback of the low statistics branch
is `sqrt(u - log u)` with `u` increased by `-2 log f`; ValueError if that is not positive. -/
theorem hybrid_fallback {S : SigNum} (hS : SigSpec S) (R : SimRun F) {chi2 : ℝ} {values : Arr2 ℝ}
    (hr : values.r ≠ 0) (h4 : values.total / values.r * values.c ≤ 4) {l : List ℝ} (hl : l ≠ []) {f : ℝ}
    (hf0 : 0 < f) (hf : S.lsq (fitResiduals S l 50) = .ok f) (hp : mixP S f (mean l) chi2 = some 0) :
    (0 < chernoffU chi2 (mean l) - 2 * Real.log f →
      sigHybrid S R chi2 values (some l) = .ok (some 0, some ((Real.sqrt
        (chernoffU chi2 (mean l) - 2 * Real.log f - Real.log (chernoffU chi2 (mean l) - 2 * Real.log f)) : ℝ)
          : EReal))) ∧
    (chernoffU chi2 (mean l) - 2 * Real.log f ≤ 0 → sigHybrid S R chi2 values (some l) = .error .value) := by
  obtain ⟨-, hf1⟩ := hS.lsq_bounds _ _ hf
  have hz : S.chi2sf chi2 (mean l) = some 0 := by
    unfold mixP at hp
    rcases chi2sf_cases hS chi2 (mean l) with h | ⟨a, ha, a0, a1⟩
    · rw [h] at hp; cases hp
    rcases normsf_cases hS chi2 (mean l) (Real.sqrt (mean l)) with h | ⟨b, hb, b0, b1⟩
    · rw [ha, h] at hp; cases hp
    rw [ha, hb] at hp
    have e : f * a + (1 - f) * b = 0 := Option.some.inj hp
    have h1 := mul_nonneg hf0.le a0
    have h2 := mul_nonneg (sub_nonneg.2 hf1) b0
    have h3 : f * a = 0 := by linarith
    rcases mul_eq_zero.1 h3 with h3 | h3
    · exact absurd h3 hf0.ne'
    · rw [ha, h3]
  obtain ⟨hk, hx⟩ := chi2sf_zero_pos hS hz
  have e : chernoffU chi2 (mean l) + -2 * Real.log f = chernoffU chi2 (mean l) - 2 * Real.log f := by ring
  rw [hybrid_low R chi2 hr h4 hl, hf]
  simp only [bind, Except.bind, pure, Except.pure, hp, if_true, not_le.2 hf0, if_false,
    chernoff_eq hk hx, e]
  refine ⟨fun h => by rw [if_neg (not_le.2 h)], fun h => by rw [if_pos h]⟩

/-- Distribution functions whose tails underflow to 0 beyond 1000. -/
noncomputable def flushed (S : SigNum) : SigNum :=
  { S with
    chi2sf := fun x k => if 1000 < x then (S.chi2sf x k).map fun _ => 0 else S.chi2sf x k
    normsf := fun x m s => if 1000 < x then (S.normsf x m s).map fun _ => 0 else S.normsf x m s }

theorem flushed_spec {S : SigNum} (hS : SigSpec S) : SigSpec (flushed S) :=
  { hS with
    chi2_nan := fun x k h => by simp [flushed, hS.chi2_nan x k h]
    chi2_range := fun x k h => by
      obtain ⟨p, hp, h0, h1⟩ := hS.chi2_range x k h
      by_cases hx : 1000 < x
      · exact ⟨0, by simp [flushed, hx, hp], le_rfl, by norm_num⟩
      · exact ⟨p, by simp [flushed, hx, hp], h0, h1⟩
    chi2_anti := fun x y k p q hxy hp hq => by
      simp only [flushed] at hp hq
      rcases chi2sf_cases hS y k with h | ⟨b, hb, b0, b1⟩
      · rw [h] at hq; split at hq <;> cases hq
      rcases chi2sf_cases hS x k with h | ⟨a, ha, a0, a1⟩
      · rw [h] at hp; split at hp <;> cases hp
      rw [ha] at hp
      rw [hb] at hq
      have hab := hS.chi2_anti _ _ _ _ _ hxy ha hb
      split at hp <;> split at hq <;> cases hp <;> cases hq
      · exact le_rfl
      · linarith
      · exact a0
      · exact hab
    chi2_start := fun k h => by
      simp only [flushed]
      rw [if_neg (by norm_num)]
      exact hS.chi2_start k h
    norm_nan := fun x m s h => by simp [flushed, hS.norm_nan x m s h]
    norm_range := fun x m s h => by
      obtain ⟨p, hp, h0, h1⟩ := hS.norm_range x m s h
      by_cases hx : 1000 < x
      · exact ⟨0, by simp [flushed, hx, hp], le_rfl, by norm_num⟩
      · exact ⟨p, by simp [flushed, hx, hp], h0, h1⟩
    norm_anti := fun x y m s p q hxy hp hq => by
      simp only [flushed] at hp hq
      rcases normsf_cases hS y m s with h | ⟨b, hb, b0, b1⟩
      · rw [h] at hq; split at hq <;> cases hq
      rcases normsf_cases hS x m s with h | ⟨a, ha, a0, a1⟩
      · rw [h] at hp; split at hp <;> cases hp
      rw [ha] at hp
      rw [hb] at hq
      have hab := hS.norm_anti _ _ _ _ _ _ hxy ha hb
      split at hp <;> split at hq <;> cases hp <;> cases hq
      · exact le_rfl
      · linarith
      · exact a0
      · exact hab }

theorem flushed_mix (f : ℝ) : mixP (flushed trueSig) f (mean [1, 2]) 4000 = some 0 := by
  have hs : ¬ Real.sqrt (3 / 2) ≤ 0 := not_le.2 (Real.sqrt_pos.2 (by norm_num))
  have hk : ¬ (3 / 2 : ℝ) ≤ 0 := by norm_num
  rw [mean_12]
  unfold mixP
  simp only [flushed, trueSig, hs, hk, if_false]
  norm_num

/-- The hypotheses of `hybrid_fallback` can be met: tails that underflow beyond 1000, an observed chi2 of
4000, and a fitted fraction of 1. -/
example (R : SimRun F) : ∃ z : ℝ, sigHybrid (flushed trueSig) R 4000 (flat 3 2) (some [1, 2]) =
    .ok (some 0, some (z : EReal)) := by
  have h1 : (flushed trueSig).lsq (fitResiduals (flushed trueSig) [1, 2] 50) = .ok 1 := by
    change (if none ∈ fitResiduals (flushed trueSig) [1, 2] 50 1 then _ else _) = _
    rw [if_neg (residuals_12 (S := (flushed trueSig)) rfl rfl)]
  have h2 := (hybrid_fallback (flushed_spec trueSig_spec) R (chi2 := 4000) (values := flat 3 2)
    (by simp [flat]) (by rw [flat_total]; norm_num [flat]) (l := [1, 2]) (by simp) one_pos h1
    (flushed_mix 1)).1 (by
      have := chernoffU_large (x := 4000) (k := mean [1, 2]) (by rw [mean_12]; norm_num)
        (by rw [mean_12]; norm_num)
      rw [Real.log_one]; linarith)
  exact ⟨_, h2⟩

/-- The hypotheses of `chernoff_value` can be met. -/
example : (flushed trueSig).chi2sf 4000 3 = some 0 ∧ 0 < chernoffU 4000 3 :=
  ⟨by norm_num [flushed, trueSig], by have := chernoffU_large (x := 4000) (k := 3) (by norm_num) (by norm_num); linarith⟩

/-- The hypotheses of `hybrid_zero_fraction` can be met. -/
example (R : SimRun F) : sigHybrid (flushed mixSig) R 4000 (flat 3 2) (some [1, 2]) = .error .value :=
  hybrid_zero_fraction R (by simp [flat]) (by rw [flat_total]; norm_num [flat]) (by simp)
    (by
      change (if none ∈ fitResiduals (flushed mixSig) [1, 2] 50 1 then _ else _) = _
      rw [if_neg (residuals_12 (S := (flushed mixSig)) rfl rfl)])
    (flushed_mix 0)

/-! ## C34 -/

/-- **C34 (significance methods).** A name other than the three methods raises NotImplementedError for
every table that has a chi2. -/
theorem sig_method_unknown (S : SigNum) (R : SimRun F) {values : Arr2 ℝ} {x : ℝ}
    (hx : getChi2 values R.lambda = .ok x) {method : String}
    (hm : method ∉ ["asymptotic", "MC", "hybrid"]) :
    sigFromHist2d S R values method = .error .notImplemented := by
  simp only [List.mem_cons, not_or, List.not_mem_nil, not_false_eq_true, and_true] at hm
  obtain ⟨h1, h2, h3⟩ := hm
  unfold sigFromHist2d
  simp only [hx, bind, Except.bind, h1, h2, h3, if_false]
  rfl

/-- **C34.** An unknown name never gives a value, whatever the table. -/
theorem sig_method_never (S : SigNum) (R : SimRun F) (values : Arr2 ℝ) {method : String}
    (hm : method ∉ ["asymptotic", "MC", "hybrid"]) (pz : Option ℝ × Option EReal) :
    sigFromHist2d S R values method ≠ .ok pz := by
  intro h
  unfold sigFromHist2d at h
  obtain ⟨x, hx, -⟩ := except_bind_ok h
  have := sig_method_unknown S R hx hm
  unfold sigFromHist2d at this
  rw [this] at h
  cases h

/-- **C34.** The known names: each selects its own method, applied to the table's statistic. -/
theorem sig_method_known (S : SigNum) (R : SimRun F) {values : Arr2 ℝ} {x : ℝ}
    (hx : getChi2 values R.lambda = .ok x) :
    sigFromHist2d S R values "asymptotic" =
      sigFromNdof S x ((((values.r : ℤ) - 1) * ((values.c : ℤ) - 1) : ℤ) : ℝ) ∧
    sigFromHist2d S R values "MC" = sigMC S R x values none ∧
    sigFromHist2d S R values "hybrid" = sigHybrid S R x values none := by
  unfold sigFromHist2d
  simp only [hx, bind, Except.bind]
  refine ⟨?_, ?_, ?_⟩
  · rw [if_pos trivial, sigAsymptotic, theoretical_ndof_value]
  · rw [if_neg (by decide), if_pos trivial]
  · rw [if_neg (by decide), if_neg (by decide), if_pos trivial]

/-! ## C58: what the significance depends on -/

/-- **C58 (monotonicity).** For a fixed table, the p-value of the asymptotic method does not increase with
chi2; nor does the p-value of the hybrid method for given simulated values. -/
theorem ndof_p_anti {S : SigNum} (hS : SigSpec S) {x y k : ℝ} (h : x ≤ y) {p q : ℝ} {z z' : Option EReal}
    (hp : sigFromNdof S x k = .ok (some p, z)) (hq : sigFromNdof S y k = .ok (some q, z')) : q ≤ p := by
  have key : ∀ {x p z}, sigFromNdof S x k = .ok (some p, z) → S.chi2sf x k = some p := by
    intro x p z h
    unfold sigFromNdof at h
    simp only [] at h
    split at h
    · obtain ⟨z, -, h⟩ := except_bind_ok h
      exact congrArg Prod.fst (Except.ok.inj h)
    · exact congrArg Prod.fst (Except.ok.inj h)
  exact hS.chi2_anti _ _ _ _ _ h (key hp) (key hq)

theorem hybrid_p_anti {S : SigNum} (hS : SigSpec S) {R : SimRun F} {values : Arr2 ℝ} {l : List ℝ}
    {x y : ℝ} (h : x ≤ y) {p q : ℝ} {z z' : Option EReal}
    (hp : sigHybrid S R x values (some l) = .ok (some p, z))
    (hq : sigHybrid S R y values (some l) = .ok (some q, z')) : q ≤ p := by
  by_cases hr : values.r = 0
  · simp [sigHybrid, SimRun.chi2s, hr, bind, Except.bind, throw, throwThe, MonadExceptOf.throw] at hp
  by_cases hl : l = []
  · subst hl
    rw [hybrid_no_simulations S R x hr] at hp
    split at hp <;> cases hp
  rcases le_or_gt (values.total / values.r * values.c) 4 with h4 | h4
  · have key : ∀ {x p z}, sigHybrid S R x values (some l) = .ok (some p, z) →
        ∃ f, S.lsq (fitResiduals S l 50) = .ok f ∧ mixP S f (mean l) x = some p := by
      intro x p z h
      rw [hybrid_low R x hr h4 hl] at h
      obtain ⟨f, hf, h⟩ := except_bind_ok h
      refine ⟨f, hf, ?_⟩
      split at h
      · split at h
        · cases h
        · obtain ⟨z, -, h⟩ := except_bind_ok h
          cases h; assumption
      · exact congrArg Prod.fst (Except.ok.inj h)
    obtain ⟨f, hf, e1⟩ := key hp
    obtain ⟨f', hf', e2⟩ := key hq
    rw [hf] at hf'
    cases hf'
    obtain ⟨f0, f1⟩ := hS.lsq_bounds _ _ hf
    unfold mixP at e1 e2
    rcases chi2sf_cases hS x (mean l) with h | ⟨a, ha, -, -⟩
    · rw [h] at e1; cases e1
    rcases normsf_cases hS x (mean l) (Real.sqrt (mean l)) with h | ⟨b, hb, -, -⟩
    · rw [ha, h] at e1; cases e1
    rcases chi2sf_cases hS y (mean l) with h | ⟨a', ha', -, -⟩
    · rw [h] at e2; cases e2
    rcases normsf_cases hS y (mean l) (Real.sqrt (mean l)) with h | ⟨b', hb', -, -⟩
    · rw [ha', h] at e2; cases e2
    rw [ha, hb] at e1
    rw [ha', hb'] at e2
    have e1' : f * a + (1 - f) * b = p := Option.some.inj e1
    have e2' : f * a' + (1 - f) * b' = q := Option.some.inj e2
    rw [← e1', ← e2']
    have h1 := hS.chi2_anti _ _ _ _ _ h ha ha'
    have h2 := hS.norm_anti _ _ _ _ _ _ h hb hb'
    have h3 := mul_le_mul_of_nonneg_left h1 f0
    have h4 := mul_le_mul_of_nonneg_left h2 (sub_nonneg.2 f1)
    linarith
  · rw [hybrid_high S R x hr h4 hl] at hp
    rw [hybrid_high S R y hr h4 hl] at hq
    exact ndof_p_anti hS h hp hq

/-- **C58 (symmetry).** The asymptotic significance does not depend on the order of the categories, nor on
which variable comes first. -/
theorem asymptotic_symmetric (S : SigNum) (R : SimRun F) (a : Arr2 ℝ) :
    (∀ (e : Fin a.r ≃ Fin a.r) (f : Fin a.c ≃ Fin a.c),
      sigFromHist2d S R ⟨a.r, a.c, fun i j => a.v (e i) (f j)⟩ "asymptotic" =
        sigFromHist2d S R a "asymptotic") ∧
    sigFromHist2d S R a.transpose "asymptotic" = sigFromHist2d S R a "asymptotic" := by
  constructor
  · intro e f
    unfold sigFromHist2d
    rw [← get_chi2_sameTable (sameTable_perm a e f)]
    rfl
  · have ht : getChi2 a.transpose R.lambda = getChi2 a R.lambda := get_chi2_swap a R.lambda
    have hn : theoreticalNdof a.transpose = theoreticalNdof a := by
      rw [theoretical_ndof_value, theoretical_ndof_value, mul_comm]; rfl
    unfold sigFromHist2d sigAsymptotic
    rw [ht, hn]
    rfl

/-- **C58.** For every table of data of at least two rows and columns, every sampling method and all
draws, the Monte-Carlo method returns the documented p-value of the simulated statistics. -/
theorem mc_returns (S : SigNum) {R : SimRun F} (hd : ∀ i, GoodDraws (R.draws i)) {a : Arr2 ℝ}
    (ha : DataTable a) (h2r : 2 ≤ a.r) (h2c : 2 ≤ a.c)
    (hm : R.method ∈ ["multinominal", "row_product_multinominal", "col_product_multinominal"] ∨
      R.method = "hypergeometric" ∧ CanSample R.env a.total)
    (hlam : R.lambda ∈ ["pearson", "log-likelihood", "cressie-read"]) (hn : 0 < R.nsim)
    (hs : ValidSched R.nsim R.sched) :
    ∃ x l, getChi2 a R.lambda = .ok x ∧
      simChi2 R.env R.draws R.sched a R.nsim R.lambda R.method false = .ok l ∧ l.length = R.nsim ∧
      sigFromHist2d S R a "MC" = .ok (some (mcP l x), some (-S.ppf (mcP l x))) := by
  have hx : ∃ x, getChi2 a R.lambda = .ok x := by
    obtain ⟨x, hx, -⟩ := get_chi2_three (data_count ha h2r) hlam
    exact ⟨x, hx⟩
  obtain ⟨x, hx⟩ := hx
  obtain ⟨l, h1, h2, -⟩ := sim_chi2_distribution R.env hd ha h2r h2c hm hlam R.nsim hs
  have hl : l ≠ [] := by rintro rfl; simp at h2; omega
  refine ⟨x, l, hx, h1, h2, ?_⟩
  rw [(sig_method_known S R hx).2.1, mc_simulated, h1]
  exact mc_value S R x a hl

/-- The hypotheses of `mc_returns` can be met. -/
example : ∃ p z, sigFromHist2d trueSig (⟨exactEnv, fun i => seeded (i % 10 : ℕ), some [2, 0, 1], 3,
    "pearson", "hypergeometric"⟩ : SimRun _) ones "MC" = .ok (some p, z) := by
  obtain ⟨x, l, -, -, -, h⟩ := mc_returns trueSig (R := (⟨exactEnv, fun i => seeded (i % 10 : ℕ),
    some [2, 0, 1], 3, "pearson", "hypergeometric"⟩ : SimRun _))
    (fun i => seeded_good (by positivity) (by omega)) ones_data le_rfl le_rfl
    (.inr ⟨rfl, exactEnv_can⟩) (by simp) (by norm_num) (fun o h => by cases h; decide)
  exact ⟨_, _, h⟩

end Phik.Props
