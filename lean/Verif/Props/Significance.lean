import Verif.Spec.Significance
import Verif.Props.ZLogp
import Verif.Props.SimChi2
import Mathlib.Algebra.Order.BigOperators.Group.List
import Mathlib.Data.List.Perm.Basic

/-!
# Properties C29, C30, C31, C34, C56, C57: significances
-/

namespace Phik.Props

open Phik.Spec

variable {F : Type}

/-! ## C29: Monte-Carlo p-value -/

theorem filter_lt_below (l : List ℝ) (x : ℝ) : (l.filter fun y => y < x).length = below l x := by
  rw [← List.countP_eq_length_filter]; exact List.countP_congr fun y _ => by simp

theorem count_split (l : List ℝ) (x : ℝ) : below l x + ties l x + above l x = l.length := by
  unfold below ties above
  induction l with
  | nil => rfl
  | cons y l ih =>
    simp only [List.countP_cons, List.length_cons, decide_eq_true_eq]
    rcases lt_trichotomy y x with h | h | h
    · simp [h, h.ne, not_lt.2 h.le]; omega
    · simp [h]; omega
    · simp [h, h.ne', not_lt.2 h.le]; omega

theorem filter_le_below (l : List ℝ) (x : ℝ) : (l.filter fun y => y ≤ x).length = below l x + ties l x := by
  rw [← List.countP_eq_length_filter]
  unfold below ties
  induction l with
  | nil => rfl
  | cons y l ih =>
    simp only [List.countP_cons, decide_eq_true_eq] at ih ⊢
    rcases lt_trichotomy y x with h | h | h
    · simp [h, h.le, h.ne]; omega
    · simp [h]; omega
    · simp [h.ne', not_lt.2 h.le, not_le.2 h]; omega

theorem percentile_eq {l : List ℝ} (hl : l ≠ []) (x : ℝ) :
    1 - percentileOfScore l x / 100 = mcP l x := by
  have hn : l.length ≠ 0 := by simpa using hl
  have h0 : (0 : ℝ) < l.length := by positivity
  unfold percentileOfScore mcP
  rw [if_neg hn]
  simp only [filter_lt_below, filter_le_below]
  have hs : ((below l x + ties l x + above l x : ℕ) : ℝ) = l.length := by exact_mod_cast count_split l x
  rcases Nat.eq_zero_or_pos (ties l x) with ht | ht
  · rw [if_neg (by omega)]
    rw [ht] at hs ⊢
    push_cast at hs ⊢
    field_simp
    linarith
  · rw [if_pos (by omega), Nat.cast_sub ht]
    push_cast at hs ⊢
    field_simp
    linarith

/-- **C29 (value).** The Monte-Carlo p-value of a non-empty list of simulated values is the documented
fraction, and the Z-value its negated normal quantile. -/
theorem mc_value (S : SigNum) (R : SimRun F) (chi2 : ℝ) (values : Arr2 ℝ) {l : List ℝ} (hl : l ≠ []) :
    sigMC S R chi2 values (some l) = .ok (some (mcP l chi2), some (-S.ppf (mcP l chi2))) := by
  unfold sigMC SimRun.chi2s zOfP
  simp only [bind, Except.bind, pure, Except.pure, percentile_eq hl, Option.map_some]

/-- **C29 (simulated values).** Without given values the p-value is that of the simulated ones. -/
theorem mc_simulated (S : SigNum) (R : SimRun F) (chi2 : ℝ) (values : Arr2 ℝ) :
    sigMC S R chi2 values none = (do
      let l ← simChi2 R.env R.draws R.sched values R.nsim R.lambda R.method false
      sigMC S R chi2 values (some l)) := by
  unfold sigMC SimRun.chi2s
  rfl

/-- **C29 (range).** The p-value is a probability. -/
theorem mc_range {l : List ℝ} (hl : l ≠ []) (x : ℝ) : 0 ≤ mcP l x ∧ mcP l x ≤ 1 := by
  have hn : l.length ≠ 0 := by simpa using hl
  have h0 : (0 : ℝ) < l.length := by positivity
  unfold mcP
  refine ⟨by positivity, ?_⟩
  rw [div_le_one h0]
  have hs : ((below l x + ties l x + above l x : ℕ) : ℝ) = l.length := by exact_mod_cast count_split l x
  have : ((ties l x - 1 : ℕ) : ℝ) ≤ ties l x := by exact_mod_cast Nat.sub_le _ _
  push_cast at hs
  have : (0 : ℝ) ≤ ties l x := by positivity
  have : (0 : ℝ) ≤ below l x := by positivity
  linarith

/-- **C29 (monotonicity).** A larger observed value does not have a larger p-value. -/
theorem mc_anti (l : List ℝ) {x y : ℝ} (h : x ≤ y) : mcP l y ≤ mcP l x := by
  rcases h.eq_or_lt with rfl | h
  · rfl
  unfold mcP
  refine div_le_div_of_nonneg_right ?_ (by positivity)
  have key : above l y + ties l y ≤ above l x := by
    unfold above ties
    induction l with
    | nil => simp
    | cons z l ih =>
      simp only [List.countP_cons, decide_eq_true_eq]
      rcases lt_trichotomy z y with h1 | h1 | h1
      · simp only [h1.ne, not_lt.2 h1.le, if_false]; split <;> omega
      · subst h1; simp only [h, lt_irrefl, if_true, if_false]; omega
      · simp only [h1, h1.ne', h.trans h1, if_true, if_false]; omega
  have k2 : ((above l y + ties l y : ℕ) : ℝ) ≤ above l x := by exact_mod_cast key
  have k3 : ((ties l y - 1 : ℕ) : ℝ) ≤ ties l y := by exact_mod_cast Nat.sub_le _ _
  have k4 : (0 : ℝ) ≤ ((ties l x - 1 : ℕ) : ℝ) := by positivity
  have k5 : (0 : ℝ) ≤ (ties l y : ℝ) := by positivity
  push_cast at k2
  linarith

/-- **C29 (order).** The order of the simulated values does not matter. -/
theorem mc_perm {l l' : List ℝ} (h : l.Perm l') (x : ℝ) : mcP l x = mcP l' x := by
  unfold mcP above ties
  rw [h.countP_eq, h.countP_eq, h.length_eq]

/-- **C29 (ends).** 1 when all simulated values exceed the observed one, 0 when all are below it; 1
in no other case, and 0 exactly when none exceeds it and at most one equals it. -/
theorem mc_ends {l : List ℝ} (hl : l ≠ []) (x : ℝ) :
    (mcP l x = 1 ↔ ∀ y ∈ l, x < y) ∧ ((∀ y ∈ l, y < x) → mcP l x = 0) ∧
      (mcP l x = 0 ↔ above l x = 0 ∧ ties l x ≤ 1) := by
  have hn : l.length ≠ 0 := by simpa using hl
  have h0 : (0 : ℝ) < l.length := by positivity
  have hs := count_split l x
  have hz : mcP l x = 0 ↔ above l x = 0 ∧ ties l x ≤ 1 := by
    unfold mcP
    rw [div_eq_zero_iff]
    have h1 : (0 : ℝ) ≤ above l x := by positivity
    have h2 : (0 : ℝ) ≤ ((ties l x - 1 : ℕ) : ℝ) := by positivity
    constructor
    · rintro (h | h)
      · have a0 : (above l x : ℝ) = 0 := by linarith
        have b0 : ((ties l x - 1 : ℕ) : ℝ) = 0 := by linarith
        have a1 : above l x = 0 := by exact_mod_cast a0
        have b1 : ties l x - 1 = 0 := by exact_mod_cast b0
        exact ⟨a1, by omega⟩
      · exact absurd h h0.ne'
    · rintro ⟨a, b⟩
      left
      rw [a, Nat.sub_eq_zero_of_le b]; simp
  refine ⟨?_, ?_, hz⟩
  · have hall : (∀ y ∈ l, x < y) ↔ above l x = l.length := by
      unfold above; rw [List.countP_eq_length]; simp
    rw [hall]
    unfold mcP
    rw [div_eq_one_iff_eq h0.ne']
    constructor
    · intro h
      by_contra hne
      have hlt : above l x < l.length := lt_of_le_of_ne (by omega) hne
      have hsr : ((below l x + ties l x + above l x : ℕ) : ℝ) = l.length := by exact_mod_cast hs
      push_cast at hsr
      rcases Nat.eq_zero_or_pos (ties l x) with ht | ht
      · rw [ht] at h hsr
        simp at h
        omega
      · rw [Nat.cast_sub ht] at h
        have : (0 : ℝ) ≤ below l x := by positivity
        have h3 : (1 : ℝ) ≤ ties l x := by exact_mod_cast ht
        push_cast at h
        linarith
    · intro h
      have : ties l x = 0 := by omega
      rw [this, h]; simp
  · intro h
    rw [hz]
    have : below l x = l.length := by unfold below; rw [List.countP_eq_length]; simpa using h
    omega

/-- **C29 (finding).** With no simulated values the p-value is 0 and the significance infinite. -/
theorem mc_no_simulations {S : SigNum} (hS : SigSpec S) (R : SimRun F) (chi2 : ℝ) (values : Arr2 ℝ) :
    sigMC S R chi2 values (some []) = .ok (some 0, some ⊤) := by
  unfold sigMC SimRun.chi2s zOfP percentileOfScore
  norm_num [bind, Except.bind, pure, Except.pure, hS.ppf_zero]

/-- The Monte-Carlo p-value of three simulated values with a tie. -/
example : mcP [1, 2, 2] 2 = 1 / 6 ∧ mcP [1, 2, 3] 2 = 1 / 3 ∧ mcP [2, 2, 2] 2 = 1 / 3 := by
  refine ⟨?_, ?_, ?_⟩ <;> norm_num [mcP, above, ties, List.countP_cons]

/-! ## C31: Chernoff fallback -/

/-- The fallback for positive arguments. -/
theorem chernoff_eq {chi2 ndof extra : ℝ} (hk : 0 < ndof) (hx : 0 < chi2) :
    chernoff chi2 ndof extra =
      if chernoffU chi2 ndof + extra ≤ 0 then .error .value else
        .ok ((Real.sqrt (chernoffU chi2 ndof + extra - Real.log (chernoffU chi2 ndof + extra)) : ℝ) : EReal) := by
  have e : -Real.log (2 * Real.pi) - ndof * Real.log (chi2 / ndof) + ndof * (chi2 / ndof - 1) + extra =
      chernoffU chi2 ndof + extra := by unfold chernoffU; ring
  unfold chernoff
  simp only [hk.ne', if_false, not_le.2 (div_pos hx hk), e, bind, Except.bind, pure, Except.pure]
  split <;> rfl

/-- A tail probability can only vanish for a positive argument and number of degrees of freedom. -/
theorem chi2sf_zero_pos {S : SigNum} (hS : SigSpec S) {chi2 ndof : ℝ} (hp : S.chi2sf chi2 ndof = some 0) :
    0 < ndof ∧ 0 < chi2 := by
  have hk : 0 < ndof := by
    by_contra h
    rw [hS.chi2_nan _ _ (not_lt.1 h)] at hp
    cases hp
  refine ⟨hk, ?_⟩
  by_contra h
  have := hS.chi2_anti _ _ _ _ _ (not_lt.1 h) hp (hS.chi2_start _ hk)
  linarith

/-- **C31 (value).** When the chi2 tail probability underflows to 0, the significance is
`sqrt(u - log u)`, a real number of at least 1, if `u > 0`; otherwise ValueError is raised. -/
theorem chernoff_value {S : SigNum} (hS : SigSpec S) {chi2 ndof : ℝ}
    (hp : S.chi2sf chi2 ndof = some 0) :
    (0 < chernoffU chi2 ndof →
      sigFromNdof S chi2 ndof = .ok (some 0,
        some ((Real.sqrt (chernoffU chi2 ndof - Real.log (chernoffU chi2 ndof)) : ℝ) : EReal)) ∧
      1 ≤ Real.sqrt (chernoffU chi2 ndof - Real.log (chernoffU chi2 ndof))) ∧
    (chernoffU chi2 ndof ≤ 0 → sigFromNdof S chi2 ndof = .error .value) := by
  obtain ⟨hk, hx⟩ := chi2sf_zero_pos hS hp
  have h := chernoff_eq (extra := 0) hk hx
  rw [add_zero] at h
  unfold sigFromNdof
  simp only [hp, if_true, bind, Except.bind, h, pure, Except.pure]
  refine ⟨fun hu => ⟨by rw [if_neg (not_le.2 hu)], ?_⟩, fun hu => by rw [if_pos hu]⟩
  rw [Real.one_le_sqrt]
  exact one_le_sub_log hu

/-- The exponent increases with chi2 beyond the number of degrees of freedom. -/
theorem chernoffU_lt {x y k : ℝ} (hk : 0 < k) (hx : k ≤ x) (hxy : x < y) : chernoffU x k < chernoffU y k := by
  have h1 : 1 ≤ x / k := by rwa [le_div_iff₀ hk, one_mul]
  have h2 : x / k < y / k := by gcongr
  have := sub_log_lt h1 h2
  unfold chernoffU
  nlinarith

/-- **C31 (monotonicity).** The fallback significance strictly increases with chi2, once chi2 is at least
the number of degrees of freedom and `u ≥ 1`. -/
theorem chernoff_mono {x y k : ℝ} (hk : 0 < k) (hx : k ≤ x) (hxy : x < y) (hu : 1 ≤ chernoffU x k) :
    Real.sqrt (chernoffU x k - Real.log (chernoffU x k)) <
      Real.sqrt (chernoffU y k - Real.log (chernoffU y k)) := by
  apply Real.sqrt_lt_sqrt
  · have := one_le_sub_log (lt_of_lt_of_le one_pos hu); linarith
  · exact sub_log_lt hu (chernoffU_lt hk hx hxy)

/-- The exponent is at least 1 when chi2 is at least 6 times the number of degrees of freedom and that is
at least 1: far before any underflow. -/
theorem chernoffU_large {x k : ℝ} (hk : 1 ≤ k) (hx : 6 * k ≤ x) : 1 ≤ chernoffU x k := by
  have hk0 : 0 < k := by linarith
  have h1 : 6 ≤ x / k := by rwa [le_div_iff₀ hk0]
  have hpi : Real.log (2 * Real.pi) < 2 := by
    rw [Real.log_lt_iff_lt_exp (by positivity)]
    have := Real.pi_lt_d2
    have h := Real.exp_one_gt_d9
    have : Real.exp 2 = Real.exp 1 * Real.exp 1 := by rw [← Real.exp_add]; norm_num
    nlinarith
  have hl6 : Real.log 6 < 2 := by
    rw [Real.log_lt_iff_lt_exp (by norm_num)]
    have h := Real.exp_one_gt_d9
    have : Real.exp 2 = Real.exp 1 * Real.exp 1 := by rw [← Real.exp_add]; norm_num
    nlinarith
  have h2 : 6 - Real.log 6 ≤ x / k - Real.log (x / k) := by
    rcases h1.eq_or_lt with h | h
    · rw [← h]
    · exact (sub_log_lt (by norm_num) h).le
  unfold chernoffU
  nlinarith

/-- The hypotheses of the fallback theorems can be met together. -/
example : 1 ≤ chernoffU 4000 3 ∧ (3 : ℝ) ≤ 4000 := ⟨chernoffU_large (by norm_num) (by norm_num), by norm_num⟩

end Phik.Props
