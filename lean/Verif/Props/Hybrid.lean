import Verif.Props.Significance
import Verif.Props.SigTrue

/-!
# Properties C30, C31, C34, C56, C57, C58: significance methods
-/

namespace Phik.Props

open Phik.Spec

variable {F : Type}

theorem except_bind_ok {α β : Type} {x : Except Err α} {f : α → Except Err β} {b : β}
    (h : x.bind f = .ok b) : ∃ a, x = .ok a ∧ f a = .ok b := by
  cases x with
  | error e => cases h
  | ok a => exact ⟨a, rfl, h⟩

/-! ## C56: p-values are probabilities -/

theorem chernoff_ok {x k e : ℝ} {z : EReal} (h : chernoff x k e = .ok z) : ∃ r : ℝ, 1 ≤ r ∧ z = r := by
  unfold chernoff at h
  simp only [bind, Except.bind, pure, Except.pure, throw, throwThe, MonadExceptOf.throw] at h
  split at h
  · cases h
  · split at h
    · cases h
    · split at h
      · cases h
      · next hu =>
        cases h
        refine ⟨_, ?_, rfl⟩
        rw [Real.one_le_sqrt]
        exact one_le_sub_log (not_le.1 hu)

theorem good_of_p {S : SigNum} {p : Option ℝ} (hp : p = none ∨ ∃ q, p = some q ∧ 0 ≤ q ∧ q ≤ 1) :
    GoodSig S (p, zOfP S p) := by
  rcases hp with rfl | ⟨q, rfl, h0, h1⟩
  · exact .inl rfl
  · exact .inr ⟨q, h0, h1, rfl, .inl rfl⟩

theorem chi2sf_cases {S : SigNum} (hS : SigSpec S) (x k : ℝ) :
    S.chi2sf x k = none ∨ ∃ q, S.chi2sf x k = some q ∧ 0 ≤ q ∧ q ≤ 1 := by
  rcases le_or_gt k 0 with h | h
  · exact .inl (hS.chi2_nan _ _ h)
  · exact .inr (hS.chi2_range _ _ h)

theorem normsf_cases {S : SigNum} (hS : SigSpec S) (x m s : ℝ) :
    S.normsf x m s = none ∨ ∃ q, S.normsf x m s = some q ∧ 0 ≤ q ∧ q ≤ 1 := by
  rcases le_or_gt s 0 with h | h
  · exact .inl (hS.norm_nan _ _ _ h)
  · exact .inr (hS.norm_range _ _ _ h)

/-- The mixture is a probability between its two components, or NaN. -/
theorem mixP_cases {S : SigNum} (hS : SigSpec S) {f : ℝ} (h0 : 0 ≤ f) (h1 : f ≤ 1) (k x : ℝ) :
    mixP S f k x = none ∨ ∃ q, mixP S f k x = some q ∧ 0 ≤ q ∧ q ≤ 1 := by
  unfold mixP
  rcases chi2sf_cases hS x k with h | ⟨a, ha, a0, a1⟩
  · simp [h]
  rcases normsf_cases hS x k (Real.sqrt k) with h | ⟨b, hb, b0, b1⟩
  · simp [h]
  right
  refine ⟨f * a + (1 - f) * b, by simp [ha, hb], ?_, ?_⟩
  · have := mul_nonneg h0 a0; have := mul_nonneg (sub_nonneg.2 h1) b0; linarith
  · nlinarith

theorem sigFromNdof_good {S : SigNum} (hS : SigSpec S) {x k : ℝ} {pz : Option ℝ × Option EReal}
    (h : sigFromNdof S x k = .ok pz) : GoodSig S pz := by
  unfold sigFromNdof at h
  simp only [] at h
  split at h
  · next hp =>
    obtain ⟨z, hz, h⟩ := except_bind_ok h
    cases h
    obtain ⟨r, hr, rfl⟩ := chernoff_ok hz
    exact .inr ⟨0, le_rfl, by norm_num, hp, .inr ⟨rfl, r, hr, rfl⟩⟩
  · cases h
    exact good_of_p (chi2sf_cases hS x k)

/-- The low statistics branch of the hybrid method. -/
theorem hybrid_low {S : SigNum} (R : SimRun F) (chi2 : ℝ) {values : Arr2 ℝ} (hr : values.r ≠ 0)
    (h4 : values.total / values.r * values.c ≤ 4) {l : List ℝ} (hl : l ≠ []) :
    sigHybrid S R chi2 values (some l) = (do
      let f ← S.lsq (fitResiduals S l 50)
      if mixP S f (mean l) chi2 = some 0 then
        if f ≤ 0 then throw .value
        let z ← chernoff chi2 (mean l) (-2 * Real.log f)
        pure (some 0, some z)
      else pure (mixP S f (mean l) chi2, (mixP S f (mean l) chi2).map fun p => -S.ppf p)) := by
  unfold sigHybrid SimRun.chi2s fitDistribution
  simp only [bind, Except.bind, pure, Except.pure, throw, throwThe, MonadExceptOf.throw, hr, if_false,
    avgPerBin, h4, if_true, List.isEmpty_iff, hl, zOfP]
  cases S.lsq (fitResiduals S l 50) with
  | error e => rfl
  | ok f =>
    have e : (do
        let a ← S.chi2sf chi2 (l.sum / l.length)
        let b ← S.normsf chi2 (l.sum / l.length) (Real.sqrt (l.sum / l.length))
        pure (f * a + (1 - f) * b)) = mixP S f (mean l) chi2 := rfl
    simp only [bind, pure] at e
    simp only [e]
    split
    · next h => rw [h]; rfl
    · rfl

/-- The high statistics branch of the hybrid method. -/
theorem hybrid_high (S : SigNum) (R : SimRun F) (chi2 : ℝ) {values : Arr2 ℝ} (hr : values.r ≠ 0)
    (h4 : 4 < values.total / values.r * values.c) {l : List ℝ} (hl : l ≠ []) :
    sigHybrid S R chi2 values (some l) = sigFromNdof S chi2 (mean l) := by
  unfold sigHybrid SimRun.chi2s estimateNdof sigFromNdof
  simp only [bind, Except.bind, pure, Except.pure, throw, throwThe, MonadExceptOf.throw, hr, if_false,
    avgPerBin, not_le.2 h4, List.isEmpty_iff, hl]
  rfl

theorem hybrid_simulated (S : SigNum) (R : SimRun F) (chi2 : ℝ) (values : Arr2 ℝ) :
    sigHybrid S R chi2 values none = (do
      let l ← simChi2 R.env R.draws R.sched values R.nsim R.lambda R.method false
      sigHybrid S R chi2 values (some l)) := by
  unfold sigHybrid SimRun.chi2s
  rfl

/-- With no simulated values, the hybrid method raises ValueError or returns NaN. -/
theorem hybrid_no_simulations (S : SigNum) (R : SimRun F) (chi2 : ℝ) {values : Arr2 ℝ} (hr : values.r ≠ 0) :
    sigHybrid S R chi2 values (some []) =
      if values.total / values.r * values.c ≤ 4 then .error .value else .ok (none, none) := by
  unfold sigHybrid SimRun.chi2s estimateNdof fitDistribution
  simp only [bind, Except.bind, pure, Except.pure, throw, throwThe, MonadExceptOf.throw, hr, if_false,
    avgPerBin, List.isEmpty_nil, if_true]

theorem sigHybrid_good {S : SigNum} (hS : SigSpec S) {R : SimRun F} {x : ℝ} {values : Arr2 ℝ} {l : List ℝ}
    {pz : Option ℝ × Option EReal} (h : sigHybrid S R x values (some l) = .ok pz) : GoodSig S pz := by
  by_cases hr : values.r = 0
  · simp [sigHybrid, SimRun.chi2s, hr, bind, Except.bind, throw, throwThe, MonadExceptOf.throw] at h
  by_cases hl : l = []
  · subst hl
    rw [hybrid_no_simulations S R x hr] at h
    split at h
    · cases h
    · cases h; exact .inl rfl
  rcases le_or_gt (values.total / values.r * values.c) 4 with h4 | h4
  · rw [hybrid_low R x hr h4 hl] at h
    obtain ⟨f, hf, h⟩ := except_bind_ok h
    obtain ⟨f0, f1⟩ := hS.lsq_bounds _ _ hf
    split at h
    · split at h
      · cases h
      · obtain ⟨z, hz, h⟩ := except_bind_ok h
        cases h
        obtain ⟨r, hr, rfl⟩ := chernoff_ok hz
        exact .inr ⟨0, le_rfl, by norm_num, rfl, .inr ⟨rfl, r, hr, rfl⟩⟩
    · cases h
      exact good_of_p (mixP_cases hS f0 f1 _ _)
  · rw [hybrid_high S R x hr h4 hl] at h
    exact sigFromNdof_good hS h

/-- **C56.** Whatever the table, the method and the simulations: a returned p-value is NaN or in [0, 1],
and the significance is NaN exactly when it is NaN, its negated normal quantile, or, when the p-value is 0,
a real number of at least 1. -/
theorem significance_good {S : SigNum} (hS : SigSpec S) {R : SimRun F} {values : Arr2 ℝ} {method : String}
    {pz : Option ℝ × Option EReal} (h : sigFromHist2d S R values method = .ok pz) : GoodSig S pz := by
  unfold sigFromHist2d at h
  obtain ⟨x, -, h⟩ := except_bind_ok h
  split at h
  · exact sigFromNdof_good hS h
  split at h
  · rw [mc_simulated] at h
    obtain ⟨l, -, h⟩ := except_bind_ok h
    by_cases hl : l = []
    · subst hl
      rw [mc_no_simulations hS] at h
      cases h
      exact .inr ⟨0, le_rfl, by norm_num, rfl, .inl (by rw [hS.ppf_zero]; rfl)⟩
    · rw [mc_value S R x values hl] at h
      cases h
      obtain ⟨h0, h1⟩ := mc_range hl x
      exact .inr ⟨_, h0, h1, rfl, .inl rfl⟩
  split at h
  · rw [hybrid_simulated] at h
    obtain ⟨l, -, h⟩ := except_bind_ok h
    exact sigHybrid_good hS h
  · cases h

/-- **C56 (sign).** The significance is positive for p-values below one half and negative above. -/
theorem significance_sign {S : SigNum} (hS : SigSpec S) {pz : Option ℝ × Option EReal} (h : GoodSig S pz)
    {p : ℝ} {z : EReal} (hp : pz.1 = some p) (hz : pz.2 = some z) :
    (0 < z ↔ p < 1 / 2) ∧ (z < 0 ↔ 1 / 2 < p) ∧ (z = 0 ↔ p = 1 / 2) := by
  rcases h with h | ⟨q, h0, h1, hq, h⟩
  · rw [h] at hp; cases hp
  rw [hq] at hp
  cases hp
  have key : (p < 1 / 2 → 0 < z) ∧ (1 / 2 < p → z < 0) ∧ (p = 1 / 2 → z = 0) := by
    rcases h with h | ⟨rfl, r, hr, h⟩
    · rw [h] at hz
      cases hz
      refine ⟨fun h => ?_, fun h => ?_, fun h => ?_⟩
      · have := hS.ppf_neg p h0 h
        rwa [EReal.lt_neg_comm, neg_zero]
      · have := hS.ppf_pos p h h1
        rwa [EReal.neg_lt_comm, neg_zero]
      · rw [h, hS.ppf_half, neg_zero]
    · rw [h] at hz
      cases hz
      refine ⟨fun _ => ?_, fun h => by norm_num at h, fun h => by norm_num at h⟩
      have : (0 : ℝ) < r := by linarith
      exact_mod_cast this
  obtain ⟨a, b, c⟩ := key
  rcases lt_trichotomy p (1 / 2) with h | h | h
  · have := a h
    exact ⟨iff_of_true this h, iff_of_false (not_lt.2 this.le) (not_lt.2 h.le),
      iff_of_false this.ne' h.ne⟩
  · have := c h
    subst h
    simp [this]
  · have := b h
    exact ⟨iff_of_false (not_lt.2 this.le) (not_lt.2 h.le), iff_of_true this h,
      iff_of_false this.ne h.ne'⟩

/-! ## C30: the low statistics switch -/

/-- **C30 (what the code compares).** The code's average is the documented one times the squared number
of columns. -/
theorem switch_quantity {values : Arr2 ℝ} (hc : values.c ≠ 0) :
    values.total / values.r * values.c = recordsPerBin values * (values.c : ℝ) ^ 2 := by
  unfold recordsPerBin
  have : (values.c : ℝ) ≠ 0 := by exact_mod_cast hc
  change values.total / _ * _ = values.total / _ * _
  by_cases hr : (values.r : ℝ) = 0
  · simp [hr]
  field_simp

/-- **C30 (agreement).** For tables of counts the code's test implies the documented one, and the compared
numbers agree exactly for one column or an empty table. -/
theorem switch_agreement {values : Arr2 ℝ} (h0 : ∀ i j, 0 ≤ values.v i j) (hr : values.r ≠ 0)
    (hc : values.c ≠ 0) :
    (values.total / values.r * values.c ≤ 4 → recordsPerBin values ≤ 4) ∧
    (values.total / values.r * values.c = recordsPerBin values ↔ values.c = 1 ∨ values.total = 0) := by
  rw [switch_quantity hc]
  have hn : 0 ≤ values.total := Finset.sum_nonneg fun i _ => Finset.sum_nonneg fun j _ => h0 i j
  have hp : 0 ≤ recordsPerBin values := div_nonneg hn (by positivity)
  have h1 : (1 : ℝ) ≤ values.c := by exact_mod_cast Nat.one_le_iff_ne_zero.2 hc
  have hcr : (values.r : ℝ) ≠ 0 := by exact_mod_cast hr
  constructor
  · intro h
    have h2 : (1 : ℝ) ≤ (values.c : ℝ) ^ 2 := by nlinarith
    nlinarith
  · constructor
    · intro h
      have h2 : recordsPerBin values * ((values.c : ℝ) ^ 2 - 1) = 0 := by linarith
      rcases mul_eq_zero.1 h2 with h2 | h2
      · right
        unfold recordsPerBin at h2
        rw [div_eq_zero_iff] at h2
        rcases h2 with h2 | h2
        · exact h2
        · rcases mul_eq_zero.1 h2 with h2 | h2
          · exact absurd h2 hcr
          · rw [h2] at h1; norm_num at h1
      · left
        have : (values.c : ℝ) = 1 := by nlinarith
        exact_mod_cast this
    · rintro (h | h)
      · rw [h]; norm_num
      · have : recordsPerBin values = 0 := by unfold recordsPerBin; change values.total / _ = 0; rw [h, zero_div]
        rw [this]; ring

end Phik.Props
