import Verif.Props.OutlierTable
import Verif.Props.ZLogp

/-!
# Property C45: the logarithmic evaluation
-/

namespace Phik.Props
open Phik.Spec Phik.Out Phik.BetaCF MeasureTheory ProbabilityTheory

variable {N : OutNum}

/-- The p-value as the logarithmic evaluation sees it: with the package's own incomplete beta function. -/
noncomputable def ownP (n : ℕ) (e s : ℝ) : Except Err ℝ :=
  if n = 0 then .ok 1
  else if 0 < s then incompbeta Real.exp n (linnemann (some e) s).1 (linnemann (some e) s).2
  else .ok ((poissonMeasure e.toNNReal).real {m | n ≤ m})

theorem tail_shift {n : ℕ} (hn : n ≠ 0) (mu : NNReal) :
    (poissonMeasure mu).real {m | n - 1 < m} = (poissonMeasure mu).real {m | n ≤ m} := by
  have : {m : ℕ | n - 1 < m} = {m | n ≤ m} := by
    ext m
    show n - 1 < m ↔ n ≤ m
    omega
  rw [this]

/-- **C45.** `log_poisson_obs_p` returns the logarithms of this p-value and of its complement. -/
theorem log_p_eq (h : OutExact N) (n : ℕ) {e s : ℝ} (he : 0 ≤ e) :
    logPoissonObsP N n (some e) (some s) = (ownP n e s).map fun p => (FVal.log p, FVal.log (1 - p)) := by
  unfold ownP logPoissonObsP
  by_cases hn : n = 0
  · rw [if_pos hn, if_pos hn]
    simp [Except.map, FVal.log, FVal.ofReal]
  rw [if_neg hn, if_neg hn]
  by_cases hs : 0 < s
  · obtain ⟨h1, h2, h3⟩ := linnemann_domain (some e) hs
    rw [if_pos hs]
    simp only [positive, hs, if_true]
    rw [h.fexp]
    exact logIncompbeta_eq Real.exp (by positivity) (by linarith) h2.le h3.le rfl
  · rw [if_neg hs]
    simp only [positive, hs, if_false, poisLogSfF, poisSfF, not_lt.2 he, h.poisLog _ _ he, h.pois _ _ he, Option.map,
      flogF, Except.map, tail_shift hn]

theorem log_pos_eq {x : ℝ} (hx : 0 < x) : FVal.log x = some ((Real.log x : ℝ) : EReal) := by
  unfold FVal.log
  rw [if_neg hx.not_gt, if_neg hx.ne']

theorem add_reals (x y : ℝ) : FVal.add (some (x : EReal)) (some (y : EReal)) = some ((x + y : ℝ) : EReal) := by
  simp [FVal.add]

theorem log_half_add {p q : ℝ} {f : ℝ → ℝ} (hp : 0 < p) (hq : 0 ≤ q)
    (hf : q ≠ 0 → f (Real.log q - Real.log p) = Real.exp (Real.log q - Real.log p)) :
    FVal.add (FVal.add (FVal.log (1 / 2)) (FVal.log p)) (FVal.log1pexp f (FVal.sub (FVal.log q) (FVal.log p))) =
      FVal.log ((p + q) / 2) := by
  rw [log_pos_eq hp, log_pos_eq (by norm_num : (0 : ℝ) < 1 / 2), log_pos_eq (by linarith : 0 < (p + q) / 2), add_reals]
  rcases eq_or_lt_of_le hq with rfl | hq'
  · have e : FVal.sub (FVal.log 0) (some ((Real.log p : ℝ) : EReal)) = some ⊥ := by
      simp [FVal.sub, FVal.log, FVal.neg, FVal.add]
    rw [e]
    have e2 : FVal.log1pexp f (some ⊥) = some ((0 : ℝ) : EReal) := by
      simp [FVal.log1pexp, FVal.log]
    rw [e2, add_reals, add_zero, add_zero, ← Real.log_mul (by norm_num) hp.ne']
    congr 3; ring
  · have e : FVal.sub (FVal.log q) (some ((Real.log p : ℝ) : EReal)) = some ((Real.log q - Real.log p : ℝ) : EReal) := by
      rw [log_pos_eq hq']
      unfold FVal.sub FVal.neg
      rw [Option.map_some, ← EReal.coe_neg, add_reals, sub_eq_add_neg]
    have hr : Real.exp (Real.log q - Real.log p) = q / p := by
      rw [Real.exp_sub, Real.exp_log hq', Real.exp_log hp]
    have e2 : FVal.log1pexp f (some ((Real.log q - Real.log p : ℝ) : EReal)) = some ((Real.log (1 + q / p) : ℝ) : EReal) := by
      unfold FVal.log1pexp
      simp only [EReal.coe_ne_bot, EReal.coe_ne_top, if_false, EReal.toReal_coe]
      rw [hf hq'.ne', hr, log_pos_eq (by positivity)]
    rw [e, e2, add_reals]
    congr 2
    rw [← Real.log_mul (by norm_num) hp.ne', ← Real.log_mul (by positivity) (by positivity)]
    congr 1
    field_simp

/-- **C45.** `log_poisson_obs_mid_p` returns the logarithms of the mid-p value and of its complement. -/
theorem log_mid_p (h : OutExact N) (n : ℕ) {e s p q : ℝ} (he : 0 ≤ e) (hp : ownP n e s = .ok p)
    (hq : ownP (n + 1) e s = .ok q) (h0 : 0 < p) (h1 : p ≤ 1) (h2 : 0 ≤ q) (h3 : q < 1) :
    logPoissonObsMidP N n (some e) (some s) = .ok (FVal.log ((p + q) / 2), FVal.log (1 - (p + q) / 2)) := by
  unfold logPoissonObsMidP
  rw [log_p_eq h n he, log_p_eq h (n + 1) he, hp, hq]
  simp only [Except.map, Bind.bind, Except.bind, pure, Except.pure]
  rw [h.fexp, log_half_add h0 h2 fun _ => rfl, log_half_add (by linarith) (by linarith) fun _ => rfl]
  congr 3
  ring

/-- Without uncertainty, `ownP` is the Poisson tail, which meets the hypotheses. -/
example (h : OutExact N) : logPoissonObsMidP N 3 (some 2) (some 0) =
    .ok (FVal.log (midTail 2 0 3), FVal.log (1 - midTail 2 0 3)) := by
  have h2 : (0 : NNReal) < Real.toNNReal 2 := by simp
  have f := fun n => poissonTail_lt h2 n
  have e : ∀ n, n ≠ 0 → ownP n 2 0 = .ok (countTail 2 0 n) := by
    intro n hn; simp [ownP, hn, countTail]
  have p4 : 0 ≤ countTail 2 0 4 := by simp [countTail]
  have p34 : countTail 2 0 4 < countTail 2 0 3 := by simpa [countTail] using f 3
  have p31 : countTail 2 0 3 ≤ 1 := by
    have : countTail 2 0 3 = (poissonMeasure (Real.toNNReal 2)).real {m | 3 ≤ m} := by simp [countTail]
    rw [this]; exact measureReal_le_one
  exact log_mid_p h 3 (by norm_num) (e 3 (by norm_num)) (e 4 (by norm_num)) (by linarith) p31 p4 (by linarith)

/-! ### Fall-back when the p-value is numerically 0 or 1 -/

/-- The Z-value of a logarithm that is not positive. -/
theorem zFromLogpF_real {f : ℝ → ℝ} {ppf : ℝ → EReal} {l : ℝ} (hf : f l ≤ 1) (flip : Bool) :
    zFromLogpF f ppf (some ((l : ℝ) : EReal)) flip = some (zFromLogp f ppf (l : WithBot ℝ) flip) := by
  unfold zFromLogpF
  simp [not_lt.2 hf]

/-- **C45.** Where the p-value underflows to 0 in the lower branch, both variants return Z of the logarithm of the
p-value (mid-p value) computed by the package's own incomplete beta function, which is a positive number and does not
underflow.  `fexp` is arbitrary: it may underflow. -/
theorem z_small (h : OutSpec N) {n : ℕ} (hn : n ≠ 0) {e s : ℝ} (hs : 0 < s)
    (hbr : (linnemann (some e) s).2 < (n + 1) / (n + (linnemann (some e) s).1 + 2)) :
    (∀ z, poissonObsP N n (some e) (some s) = some 0 → poissonObsZ N n (some e) (some s) = .ok z →
      ∃ p, ownP n e s = .ok p ∧ 0 < p ∧ (p ≤ 1 → z = some (zFromLogp N.fexp N.ppf (Real.log p : ℝ) false))) ∧
    (∀ z, poissonObsMidP N n (some e) (some s) = some 0 → poissonObsMidZ N n (some e) (some s) = .ok z →
      ∃ p q, ownP n e s = .ok p ∧ ownP (n + 1) e s = .ok q ∧ 0 < p ∧ 0 < q ∧
        (N.fexp (Real.log q - Real.log p) = Real.exp (Real.log q - Real.log p) → p + q ≤ 2 →
          z = some (zFromLogp N.fexp N.ppf (Real.log ((p + q) / 2) : ℝ) false))) := by
  obtain ⟨h1, h2, h3⟩ := linnemann_domain (some e) hs
  set b := (linnemann (some e) s).1
  set x := (linnemann (some e) s).2
  have key : ∀ m : ℕ, m ≠ 0 → x < ((m : ℝ) + 1) / (m + b + 2) → ∀ t, logPoissonObsP N m (some e) (some s) = .ok t →
      ∃ p, ownP m e s = .ok p ∧ 0 < p ∧ t.1 = FVal.log p := by
    intro m hm hb t ht
    simp only [logPoissonObsP, hm, if_false, positive, hs, if_true] at ht
    obtain ⟨p, g1, g2, -⟩ := logIncompbeta_no_underflow N.fexp (by positivity) (by linarith) h2 h3
      (lp := t.1) (lq := t.2) ht
    refine ⟨p, ?_, (g2 hb).1, ?_⟩
    · simp only [ownP, hm, if_false, hs, if_true]; exact g1
    · rw [(g2 hb).2, log_pos_eq (g2 hb).1]; rfl
  have hbr' : x < (((n + 1 : ℕ) : ℝ) + 1) / ((n + 1 : ℕ) + b + 2) := by
    refine hbr.trans_le ?_
    push_cast
    rw [div_le_div_iff₀ (by positivity) (by positivity)]
    nlinarith
  constructor
  · intro z hp hz
    unfold poissonObsZ zOfPOrLog at hz
    rw [hp, if_pos (Or.inl rfl)] at hz
    cases ht : logPoissonObsP N n (some e) (some s) with
    | error e' => rw [ht] at hz; cases hz
    | ok t =>
      obtain ⟨p, g1, g2, g3⟩ := key n hn hbr t ht
      rw [ht] at hz
      simp only [Bind.bind, Except.bind, if_true, pure, Except.pure, Except.ok.injEq] at hz
      refine ⟨p, g1, g2, fun hp1 => ?_⟩
      rw [← hz, g3, log_pos_eq g2,
        zFromLogpF_real (h.fexp_range _ (Real.log_nonpos g2.le hp1)).2]
  · intro z hp hz
    unfold poissonObsMidZ zOfPOrLog at hz
    rw [hp, if_pos (Or.inl rfl)] at hz
    unfold logPoissonObsMidP at hz
    cases ht : logPoissonObsP N n (some e) (some s) with
    | error e' => rw [ht] at hz; cases hz
    | ok t =>
      cases ht' : logPoissonObsP N (n + 1) (some e) (some s) with
      | error e' => rw [ht, ht'] at hz; cases hz
      | ok t' =>
        obtain ⟨p, g1, g2, g3⟩ := key n hn hbr t ht
        obtain ⟨q, k1, k2, k3⟩ := key (n + 1) (by omega) hbr' t' ht'
        rw [ht, ht'] at hz
        simp only [Bind.bind, Except.bind, if_true, pure, Except.pure, Except.ok.injEq] at hz
        refine ⟨p, q, g1, k1, g2, k2, fun hf hp1 => ?_⟩
        rw [g3, k3, log_half_add g2 k2.le fun _ => hf, log_pos_eq (by linarith : 0 < (p + q) / 2),
          zFromLogpF_real (h.fexp_range _ (Real.log_nonpos (by linarith) (by linarith))).2] at hz
        exact hz.symm

/-- **C45.** Where the mid-p value is rounded to 1 in the upper branch, Z is that of the logarithm of its complement, with the
sign flipped; for zero counts the complement of the p-value is 0. -/
theorem z_large (h : OutSpec N) (n : ℕ) {e s : ℝ} (hs : 0 < s)
    (hbr : ((n : ℝ) + 2) / (n + (linnemann (some e) s).1 + 3) ≤ (linnemann (some e) s).2) :
    ∀ z, poissonObsMidP N n (some e) (some s) = some 1 → poissonObsMidZ N n (some e) (some s) = .ok z →
      ∃ p q, ownP n e s = .ok p ∧ ownP (n + 1) e s = .ok q ∧ p ≤ 1 ∧ q < 1 ∧
        (N.fexp (Real.log (1 - p) - Real.log (1 - q)) = Real.exp (Real.log (1 - p) - Real.log (1 - q)) → 0 ≤ p + q →
          z = some (-zFromLogp N.fexp N.ppf (Real.log (1 - (p + q) / 2) : ℝ) false)) := by
  obtain ⟨h1, h2, h3⟩ := linnemann_domain (some e) hs
  set b := (linnemann (some e) s).1
  set x := (linnemann (some e) s).2
  have key : ∀ m : ℕ, m ≠ 0 → ((m : ℝ) + 1) / (m + b + 2) ≤ x → ∀ t, logPoissonObsP N m (some e) (some s) = .ok t →
      ∃ p, ownP m e s = .ok p ∧ p < 1 ∧ t.2 = FVal.log (1 - p) := by
    intro m hm hb t ht
    simp only [logPoissonObsP, hm, if_false, positive, hs, if_true] at ht
    obtain ⟨p, g1, -, g2⟩ := logIncompbeta_no_underflow N.fexp (by positivity) (by linarith) h2 h3
      (lp := t.1) (lq := t.2) ht
    refine ⟨p, ?_, (g2 hb).1, ?_⟩
    · simp only [ownP, hm, if_false, hs, if_true]; exact g1
    · rw [(g2 hb).2, log_pos_eq (by linarith [(g2 hb).1])]; rfl
  have hbr' : (((n + 1 : ℕ) : ℝ) + 1) / ((n + 1 : ℕ) + b + 2) ≤ x := by
    refine le_of_eq_of_le ?_ hbr
    push_cast; congr 1 <;> ring
  have key0 : ∀ t, logPoissonObsP N n (some e) (some s) = .ok t →
      ∃ p, ownP n e s = .ok p ∧ p ≤ 1 ∧ t.2 = FVal.log (1 - p) := by
    intro t ht
    by_cases hn : n = 0
    · subst hn
      simp only [logPoissonObsP, if_true, Except.ok.injEq] at ht
      refine ⟨1, by simp [ownP], le_rfl, ?_⟩
      rw [← ht]; simp [FVal.log]
    · obtain ⟨p, g1, g2, g3⟩ := key n hn (le_trans (by
        rw [div_le_div_iff₀ (by positivity) (by positivity)]
        push_cast
        nlinarith) hbr') t ht
      exact ⟨p, g1, g2.le, g3⟩
  intro z hp hz
  unfold poissonObsMidZ zOfPOrLog at hz
  rw [hp, if_pos (Or.inr rfl)] at hz
  unfold logPoissonObsMidP at hz
  cases ht : logPoissonObsP N n (some e) (some s) with
  | error e' => rw [ht] at hz; cases hz
  | ok t =>
    cases ht' : logPoissonObsP N (n + 1) (some e) (some s) with
    | error e' => rw [ht, ht'] at hz; cases hz
    | ok t' =>
      obtain ⟨p, g1, g2, g3⟩ := key0 t ht
      obtain ⟨q, k1, k2, k3⟩ := key (n + 1) (by omega) hbr' t' ht'
      rw [ht, ht'] at hz
      simp only [Bind.bind, Except.bind, pure, Except.pure, Except.ok.injEq, Option.some.injEq, one_ne_zero, if_false] at hz
      refine ⟨p, q, g1, k1, g2, k2, fun hf hp1 => ?_⟩
      have e1 : (1 - q + (1 - p)) / 2 = 1 - (p + q) / 2 := by ring
      have hpos : 0 < 1 - (p + q) / 2 := by linarith
      rw [g3, k3, log_half_add (by linarith) (by linarith) fun _ => hf, e1, log_pos_eq hpos,
        zFromLogpF_real (h.fexp_range _ (Real.log_nonpos hpos.le (by linarith))).2, z_from_logp_flip] at hz
      exact hz.symm

end Phik.Props
