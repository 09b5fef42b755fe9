import Verif.Lemmas.Outliers
import Verif.Props.Betainc
import Verif.Props.SigTrue

/-!
# Properties C44, C50: p-values and uncertainties of the outlier test

An expectation or uncertainty is `some x`, or `none` for NaN.
-/

namespace Phik.Props
open Phik.Spec Phik.Out Phik.BetaCF MeasureTheory ProbabilityTheory

variable {N : OutNum}

theorem linnemann_domain (e : Option ℝ) {s : ℝ} (hs : 0 < s) :
    1 < (linnemann e s).1 ∧ 0 < (linnemann e s).2 ∧ (linnemann e s).2 < 1 := by
  have key : ∀ m : ℝ, 0 < m → 1 < m * (m / (s * s)) + 1 ∧ 0 < 1 / (1 + m / (s * s)) ∧ 1 / (1 + m / (s * s)) < 1 := by
    intro m hm
    have h : 0 < m / (s * s) := by positivity
    refine ⟨by nlinarith [mul_pos hm h], by positivity, ?_⟩
    rw [div_lt_one (by positivity)]; linarith
  unfold linnemann
  cases e with
  | none => exact key s hs
  | some e =>
    by_cases he : 0 < e
    · simp only [if_pos he]; exact key e he
    · simp only [if_neg he]; exact key s hs

theorem positive_cases (s : Option ℝ) : (∃ x, s = some x ∧ 0 < x ∧ positive s = some x) ∨
    ((∀ x, s = some x → x ≤ 0) ∧ positive s = none) := by
  cases s with
  | none => exact .inr ⟨fun x h => (nomatch h), rfl⟩
  | some x =>
    by_cases h : 0 < x
    · exact .inl ⟨x, rfl, h, by simp [positive, h]⟩
    · exact .inr ⟨fun y hy => by cases hy; exact not_lt.1 h, by simp [positive, h]⟩

/-- **C44.** No counts: p = 1. -/
theorem outlier_p_zero (N : OutNum) (e s : Option ℝ) : poissonObsP N 0 e s = some 1 := rfl

/-- **C44.** The p-value is NaN exactly for a positive count whose uncertainty is not positive and whose
expectation is NaN or negative. -/
theorem outlier_p_nan (N : OutNum) (n : ℕ) (e s : Option ℝ) :
    poissonObsP N n e s = none ↔ n ≠ 0 ∧ (∀ x, s = some x → x ≤ 0) ∧ ∀ x, e = some x → x < 0 := by
  by_cases hn : n = 0
  · subst hn; simp [poissonObsP]
  rcases positive_cases s with ⟨x, rfl, hx, hp⟩ | ⟨h, hp⟩
  · simp only [poissonObsP, hn, if_false, hp]
    simp [hx]
  · simp only [poissonObsP, hn, if_false, hp]
    cases e with
    | none => simpa [poisSfF, hn] using h
    | some e =>
      by_cases he : e < 0
      · simpa [poisSfF, he, hn] using h
      · simp [poisSfF, he]

/-- **C44.** p-values are probabilities. -/
theorem outlier_p_range (h : OutSpec N) {n : ℕ} {e s : Option ℝ} {p : ℝ} (hp : poissonObsP N n e s = some p) :
    0 ≤ p ∧ p ≤ 1 := by
  by_cases hn : n = 0
  · subst hn; cases hp; norm_num
  rcases positive_cases s with ⟨x, rfl, hx, hq⟩ | ⟨-, hq⟩
  · simp only [poissonObsP, hn, if_false, hq, Option.some.injEq] at hp
    obtain ⟨h1, h2, h3⟩ := linnemann_domain e hx
    rw [← hp]
    exact h.beta_range n _ _ hn h1 h2 h3
  · simp only [poissonObsP, hn, if_false, hq] at hp
    cases e with
    | none => cases hp
    | some e =>
      by_cases he : e < 0
      · simp [poisSfF, he] at hp
      · simp only [poisSfF, he, if_false, Option.some.injEq] at hp
        rw [← hp]
        exact h.pois_range _ _ (not_lt.1 he)

theorem outlier_p_step (h : OutSpec N) {n : ℕ} {e s : Option ℝ} {p q : ℝ} (hp : poissonObsP N n e s = some p)
    (hq : poissonObsP N (n + 1) e s = some q) : q ≤ p := by
  by_cases hn : n = 0
  · subst hn; cases hp; exact (outlier_p_range h hq).2
  rcases positive_cases s with ⟨x, rfl, hx, hs⟩ | ⟨-, hs⟩
  · simp only [poissonObsP, hn, if_false, hs, Option.some.injEq, Nat.add_eq_zero_iff, one_ne_zero, and_false] at hp hq
    obtain ⟨h1, h2, h3⟩ := linnemann_domain e hx
    rw [← hp, ← hq]
    exact h.beta_anti n _ _ hn h1 h2 h3
  · simp only [poissonObsP, hn, if_false, hs, Nat.add_eq_zero_iff, one_ne_zero, and_false] at hp hq
    cases e with
    | none => cases hp
    | some e =>
      by_cases he : e < 0
      · simp [poisSfF, he] at hp
      · simp only [poisSfF, he, if_false, Option.some.injEq, Nat.add_sub_cancel] at hp hq
        rw [← hp, ← hq]
        have := h.pois_anti (n - 1) e (not_lt.1 he)
        rwa [Nat.sub_add_cancel (Nat.one_le_iff_ne_zero.2 hn)] at this

theorem outlier_p_mid_defined {n m : ℕ} {e s : Option ℝ} (h : n ≠ 0) (hnm : n ≤ m) :
    poissonObsP N m e s = none ↔ poissonObsP N n e s = none := by
  rw [outlier_p_nan, outlier_p_nan]
  simp only [h, show m ≠ 0 by omega, ne_eq, not_false_eq_true, true_and]

/-- **C44.** The p-value does not increase with the observed count. -/
theorem outlier_p_anti (h : OutSpec N) {n m : ℕ} (hnm : n ≤ m) {e s : Option ℝ} {p q : ℝ}
    (hp : poissonObsP N n e s = some p) (hq : poissonObsP N m e s = some q) : q ≤ p := by
  by_cases hn : n = 0
  · subst hn; cases hp; exact (outlier_p_range h hq).2
  induction m, hnm using Nat.le_induction generalizing q with
  | base => rw [hp] at hq; cases hq; rfl
  | succ m hnm ih =>
    cases hm : poissonObsP N m e s with
    | none => rw [(outlier_p_mid_defined hn hnm).1 hm] at hp; cases hp
    | some r => exact (outlier_p_step h hm hq).trans (ih hm)

/-- **C44.** The mid-p value is the average of the p-values of `n` and `n + 1` counts, NaN if one of them is. -/
theorem outlier_mid_p (N : OutNum) (n : ℕ) (e s : Option ℝ) (m : ℝ) :
    poissonObsMidP N n e s = some m ↔
      ∃ p q, poissonObsP N n e s = some p ∧ poissonObsP N (n + 1) e s = some q ∧ m = (p + q) / 2 := by
  unfold poissonObsMidP
  cases poissonObsP N n e s with
  | none => simp
  | some p =>
    cases poissonObsP N (n + 1) e s with
    | none => simp
    | some q =>
      simp only [Option.bind_eq_bind, Option.bind_some, Option.pure_def, Option.some.injEq]
      constructor
      · rintro rfl; exact ⟨p, q, rfl, rfl, by ring⟩
      · rintro ⟨_, _, rfl, rfl, rfl⟩; ring

/-- **C44.** It lies between the two, so in [0, 1], and does not increase with the observed count. -/
theorem outlier_mid_p_between (h : OutSpec N) {n : ℕ} {e s : Option ℝ} {m : ℝ}
    (hm : poissonObsMidP N n e s = some m) :
    0 ≤ m ∧ m ≤ 1 ∧ (∀ p, poissonObsP N n e s = some p → m ≤ p) ∧
      (∀ q, poissonObsP N (n + 1) e s = some q → q ≤ m) ∧
      ∀ n' m', n ≤ n' → poissonObsMidP N n' e s = some m' → m' ≤ m := by
  obtain ⟨p, q, hp, hq, rfl⟩ := (outlier_mid_p N n e s m).1 hm
  have h1 := outlier_p_range h hp
  have h2 := outlier_p_range h hq
  have h3 := outlier_p_step h hp hq
  refine ⟨by linarith, by linarith, fun p' hp' => ?_, fun q' hq' => ?_, fun n' m' hn hm' => ?_⟩
  · rw [hp] at hp'; cases hp'; linarith
  · rw [hq] at hq'; cases hq'; linarith
  · obtain ⟨p', q', hp', hq', rfl⟩ := (outlier_mid_p N n' e s m').1 hm'
    have := outlier_p_anti h hn hp hp'
    have := outlier_p_anti h (Nat.succ_le_succ hn) hq hq'
    linarith

/-- **C44.** Only values of the incomplete beta function inside its domain (`a` a positive integer, `b > 1`,
`0 < x < 1`) and of the Poisson distribution for non-negative means matter. -/
theorem outlier_p_domain {N N' : OutNum}
    (hb : ∀ (n : ℕ) b x, n ≠ 0 → 1 < b → 0 < x → x < 1 → N.betainc n b x = N'.betainc n b x)
    (hp : ∀ k mu, 0 ≤ mu → N.poisSf k mu = N'.poisSf k mu) (n : ℕ) (e s : Option ℝ) :
    poissonObsP N n e s = poissonObsP N' n e s ∧ poissonObsMidP N n e s = poissonObsMidP N' n e s := by
  have key : ∀ n, poissonObsP N n e s = poissonObsP N' n e s := by
    intro n
    by_cases hn : n = 0
    · subst hn; rfl
    rcases positive_cases s with ⟨x, rfl, hx, hs⟩ | ⟨-, hs⟩
    · obtain ⟨h1, h2, h3⟩ := linnemann_domain e hx
      simp only [poissonObsP, hn, if_false, hs, hb n _ _ hn h1 h2 h3]
    · simp only [poissonObsP, hn, if_false, hs]
      cases e with
      | none => rfl
      | some e =>
        by_cases he : e < 0
        · simp [poisSfF, he]
        · simp only [poisSfF, he, if_false, hp _ _ (not_lt.1 he)]
  refine ⟨key n, ?_⟩
  unfold poissonObsMidP
  rw [key n, key (n + 1)]

/-! ## Exact functions -/

/-- The functions of scipy without rounding and underflow. -/
structure OutExact (N : OutNum) : Prop where
  beta : ∀ (n : ℕ) b x, n ≠ 0 → 1 < b → 0 < x → x < 1 → N.betainc n b x = regBeta n b x
  pois : ∀ k mu, 0 ≤ mu → N.poisSf k mu = (poissonMeasure mu.toNNReal).real {m | k < m}
  poisLog : ∀ k mu, 0 ≤ mu → N.poisLogSf k mu = FVal.log ((poissonMeasure mu.toNNReal).real {m | k < m})
  ppf : N.ppf = normPpf
  fexp : N.fexp = Real.exp

/-- **C44.** With exact functions, the p-value is the documented probability of at least `n` counts. -/
theorem outlier_p_exact (h : OutExact N) (n : ℕ) {e s : ℝ} (he : 0 ≤ e) :
    poissonObsP N n (some e) (some s) = some (countTail e s n) := by
  have key : ∀ m : ℝ, 0 < m → 0 < s → n ≠ 0 → N.betainc n (m * (m / (s * s)) + 1) (1 / (1 + m / (s * s))) =
      gammaPoissonTail n (m * (m / s ^ 2) + 1) (m / s ^ 2) := by
    intro m hm hs hn
    have h' : 0 < m / (s * s) := by positivity
    have h1 : 1 < m * (m / (s * s)) + 1 := by nlinarith [mul_pos hm h']
    rw [h.beta n _ _ hn h1 (by positivity) (by rw [div_lt_one (by positivity)]; linarith),
      regBeta_eq_tail (by linarith) h' hn, sq]
  by_cases hn : n = 0
  · subst hn
    unfold countTail
    rw [outlier_p_zero]
    have tz : ∀ m : ℝ, 0 < m → 0 < s → gammaPoissonTail 0 (m * (m / s ^ 2) + 1) (m / s ^ 2) = 1 := fun m hm hs =>
      gammaPoissonTail_zero (by positivity) (by positivity)
    split_ifs with h1 h2
    · rw [tz e h2 h1]
    · rw [tz s h1 h1]
    · rw [poissonTail_zero]
  unfold countTail
  by_cases hs : 0 < s
  · simp only [poissonObsP, hn, if_false, positive, hs, if_true, Option.some.injEq, linnemann]
    by_cases he' : 0 < e
    · simp only [he', if_true]; exact key e he' hs hn
    · simp only [he', if_false]; exact key s hs hs hn
  · simp only [poissonObsP, hn, if_false, positive, hs, poisSfF, not_lt.2 he, Option.some.injEq]
    rw [h.pois _ _ he]
    have : {m : ℕ | n - 1 < m} = {m | n ≤ m} := by
      ext m
      show n - 1 < m ↔ n ≤ m
      omega
    rw [this]

/-- The true functions. -/
noncomputable def trueOut : OutNum where
  betainc := regBeta
  poisSf k mu := (poissonMeasure mu.toNNReal).real {m | k < m}
  poisLogSf k mu := FVal.log ((poissonMeasure mu.toNNReal).real {m | k < m})
  ppf := normPpf
  fexp := Real.exp
  normcdf := normCdf
  chi2ppf p k := sInf {x | 0 ≤ x ∧ p ≤ (chi2Law k).real (Set.Iic x)}

theorem trueOut_exact : OutExact trueOut :=
  ⟨fun _ _ _ _ _ _ _ => rfl, fun _ _ _ => rfl, fun _ _ _ => rfl, rfl, rfl⟩

theorem regBeta_tail' {n : ℕ} {b x : ℝ} (hn : n ≠ 0) (hb : 1 < b) (h0 : 0 < x) (h1 : x < 1) :
    regBeta n b x = gammaPoissonTail n b ((1 - x) / x) := by
  have hr : 0 < (1 - x) / x := div_pos (by linarith) h0
  rw [← regBeta_eq_tail (by linarith) hr hn]
  congr 1
  field_simp
  ring

/-- The exact functions satisfy the contract. -/
theorem OutExact.spec (h : OutExact N) : OutSpec N where
  beta_range n b x hn hb h0 h1 := by
    have hr : 0 < (1 - x) / x := div_pos (by linarith) h0
    rw [h.beta n b x hn hb h0 h1, regBeta_tail' hn hb h0 h1]
    refine ⟨gammaPoissonTail_nonneg _ _ _, ?_⟩
    refine le_of_le_of_eq ?_ (gammaPoissonTail_zero (s := b) (by linarith) hr)
    exact antitone_nat_of_succ_le (f := fun n => gammaPoissonTail n b ((1 - x) / x))
      (fun n => (gammaPoissonTail_lt (by linarith) hr n).le) (Nat.zero_le n)
  beta_anti n b x hn hb h0 h1 := by
    have hr : 0 < (1 - x) / x := div_pos (by linarith) h0
    rw [h.beta n b x hn hb h0 h1, h.beta (n + 1) b x (by omega) hb h0 h1, regBeta_tail' hn hb h0 h1,
      regBeta_tail' (by omega) hb h0 h1]
    exact (gammaPoissonTail_lt (by linarith) hr n).le
  pois_range k mu hmu := by
    rw [h.pois k mu hmu]
    exact ⟨measureReal_nonneg, measureReal_le_one⟩
  pois_anti k mu hmu := by
    rw [h.pois k mu hmu, h.pois (k + 1) mu hmu]
    refine measureReal_mono (fun m hm => ?_)
    have : k + 1 < m := hm
    show k < m
    omega
  pois_zero k := by
    rw [h.pois k 0 le_rfl, Real.toNNReal_zero]
    exact poissonTail_mean_zero k
  poisLog_zero k := by
    rw [h.poisLog k 0 le_rfl, Real.toNNReal_zero]
    have : (poissonMeasure 0).real {m | k < m} = 0 := poissonTail_mean_zero k
    rw [this]
    simp [FVal.log]
  ppf_mono := by rw [h.ppf]; exact normPpf_strictMono
  ppf_zero := by rw [h.ppf]; exact normPpf_zero
  ppf_one := by rw [h.ppf]; exact normPpf_one
  ppf_half := by rw [h.ppf]; exact normPpf_half
  fexp_range x hx := by
    rw [h.fexp]
    exact ⟨(Real.exp_pos x).le, Real.exp_le_one_iff.2 hx⟩

theorem trueOut_spec : OutSpec trueOut := trueOut_exact.spec

/-- A case: 3 counts where 2 ± 1 are expected. -/
example : poissonObsP trueOut 3 (some 2) (some 1) = some (gammaPoissonTail 3 5 2) := by
  rw [outlier_p_exact trueOut_exact 3 (by norm_num)]
  norm_num [countTail]

/-! ## C50: uncertainties -/

/-- **C50.** The standard uncertainty: the square root from 1 on, 1 below; so at least 1, continuous and not
decreasing. -/
theorem poisson_uncertainty : (∀ x, 1 ≤ x → poissonUncertainty x = Real.sqrt x) ∧
    (∀ x, x < 1 → poissonUncertainty x = 1) ∧ (∀ x, 1 ≤ poissonUncertainty x) ∧
    Continuous poissonUncertainty ∧ Monotone poissonUncertainty := by
  have e : poissonUncertainty = fun x => max 1 (Real.sqrt x) := by
    funext x
    unfold poissonUncertainty
    split_ifs with h
    · rw [max_eq_right (Real.one_le_sqrt.2 h)]
    · rw [max_eq_left]
      rw [Real.sqrt_le_one]
      exact (not_le.1 h).le
  refine ⟨fun x h => if_pos h, fun x h => if_neg (not_le.2 h), ?_, ?_, ?_⟩
  · intro x; rw [e]; exact le_max_left _ _
  · rw [e]; fun_prop
  · rw [e]; exact fun x y h => max_le_max le_rfl (Real.sqrt_le_sqrt h)

end Phik.Props
