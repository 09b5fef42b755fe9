import Verif.Props.FloatOutliers
import Verif.Props.OutlierP
import Verif.Props.OutlierTable
import Verif.Props.FloatStatsWitness
import Verif.Lemmas.BetaSens
import Verif.Lemmas.NormalTail

/-! # Property C99: rounding errors of the p-values of the outlier test -/

namespace Phik.Props

open Spec BetaCF Out

namespace Within

theorem inv {m : ℕ} {x y : ℝ} (h : Within m x y) (hx : 0 < x) (hm : m ≤ 67108864) : Within (m + 1) (1 / x) (1 / y) := by
  have hm' : (m : ℝ) ≤ 67108864 := by exact_mod_cast hm
  have m0 : (0 : ℝ) ≤ m := by positivity
  have l0 : (0 : ℝ) < (1 - uR) ^ m := pow_pos (by norm_num) _
  have u0 : (0 : ℝ) < (1 + uR) ^ m := pow_pos (by norm_num) _
  have hy : 0 < y := lt_of_lt_of_le (mul_pos l0 hx) h.1
  constructor
  · rw [mul_one_div, div_le_div_iff₀ hx hy, one_mul]
    calc (1 - uR) ^ (m + 1) * y ≤ (1 - uR) ^ (m + 1) * ((1 + uR) ^ m * x) := mul_le_mul_of_nonneg_left h.2 (lo_nonneg _)
      _ = (1 - uR) * ((1 - uR) * (1 + uR)) ^ m * x := by rw [mul_pow]; ring
      _ ≤ 1 * x := by
        refine mul_le_mul_of_nonneg_right ?_ hx.le
        have : ((1 - uR) * (1 + uR)) ^ m ≤ 1 := pow_le_one₀ (by norm_num) (by norm_num)
        have h0 : (0 : ℝ) ≤ ((1 - uR) * (1 + uR)) ^ m := pow_nonneg (by norm_num) _
        have : (0 : ℝ) ≤ uR := by norm_num
        nlinarith
      _ = x := one_mul x
  · rw [mul_one_div, div_le_div_iff₀ hy hx, one_mul]
    have b : 1 + (m : ℝ) * -(uR * uR) ≤ (1 + -(uR * uR)) ^ m := one_add_mul_le_pow (by norm_num) m
    have key : 1 ≤ (1 + uR) * ((1 - uR) * (1 + uR)) ^ m := by
      rw [show (1 - uR) * (1 + uR) = 1 + -(uR * uR) by ring]
      refine le_trans ?_ (mul_le_mul_of_nonneg_left b (by norm_num))
      simp only [uR]; nlinarith
    calc x ≤ (1 + uR) * ((1 - uR) * (1 + uR)) ^ m * x := by nlinarith
      _ = (1 + uR) ^ (m + 1) * ((1 - uR) ^ m * x) := by rw [mul_pow]; ring
      _ ≤ (1 + uR) ^ (m + 1) * y := mul_le_mul_of_nonneg_left h.1 (hi_nonneg _)

theorem pos {m : ℕ} {x y : ℝ} (h : Within m x y) (hx : 0 < x) : 0 < y :=
  lt_of_lt_of_le (mul_pos (pow_pos (by norm_num) _) hx) h.1

theorem zero {m : ℕ} {y : ℝ} (h : Within m 0 y) : y = 0 := by
  have h1 := h.1
  have h2 := h.2
  rw [mul_zero] at h1 h2
  exact le_antisymm h2 h1

theorem pos_iff {m : ℕ} {x y : ℝ} (h : Within m x y) (hx : 0 ≤ x) : 0 < y ↔ 0 < x := by
  rcases hx.eq_or_lt with rfl | h0
  · rw [h.zero]
  · exact ⟨fun _ => h0, fun _ => h.pos h0⟩

end Within

/-! ### the arguments of the incomplete beta function -/

theorem linnemann_within {fl : ℚ → ℚ} (hfl : RelRounding fl) {m : ℕ} (hm : m ≤ 1000000) {e s : ℝ} {e' s' : ℚ} (he : 0 ≤ e) (hs : 0 < s)
    (h1 : Within m e e') (h2 : Within m s s') :
    1 ≤ (linnemann (some e) s).1 ∧ 0 < (linnemann (some e) s).2 ∧ (linnemann (some e) s).2 ≤ 1 ∧
    1 ≤ (flLinnemann fl e' s').1 ∧ 0 < (flLinnemann fl e' s').2 ∧ (flLinnemann fl e' s').2 ≤ 1 ∧
    Within (4 * m + 5) (linnemann (some e) s).1 (flLinnemann fl e' s').1 ∧ Within (3 * m + 6) (linnemann (some e) s).2 (flLinnemann fl e' s').2 := by
  obtain ⟨a, ha⟩ : ∃ a, a = if 0 < e then e else s := ⟨_, rfl⟩
  obtain ⟨a', ha'⟩ : ∃ a', a' = if 0 < e' then e' else s' := ⟨_, rfl⟩
  have hi : (0 < e') ↔ 0 < e := by
    have := h1.pos_iff he
    exact_mod_cast this
  have a0 : 0 < a := by rw [ha]; split <;> assumption
  have hw : Within m a a' := by
    rw [ha, ha']
    by_cases h : 0 < e
    · rw [if_pos h, if_pos (hi.2 h)]; exact h1
    · rw [if_neg h, if_neg (fun q => h (hi.1 q))]; exact h2
  have hss : Within (2 * m + 1) (s * s) (fl (s' * s') : ℚ) := by
    have := h2.mul h2 hs.le hs.le
    exact (Within.round hfl (y := s' * s') (by push_cast; exact this) (by positivity)).weaken (by positivity) (by omega)
  have htau : Within (3 * m + 3) (a / (s * s)) (fl (a' / fl (s' * s')) : ℚ) := by
    have h3 := hw.mul (hss.inv (by positivity) (by omega)) a0.le (by positivity)
    rw [mul_one_div, mul_one_div] at h3
    exact (Within.round hfl (y := a' / fl (s' * s')) (by push_cast; exact h3) (by positivity)).weaken (by positivity) (by omega)
  have t0 : 0 < a / (s * s) := by positivity
  obtain ⟨t, ht⟩ : ∃ t, t = a / (s * s) := ⟨_, rfl⟩
  obtain ⟨t', ht'⟩ : ∃ t', t' = fl (a' / fl (s' * s')) := ⟨_, rfl⟩
  rw [← ht, ← ht'] at htau
  rw [← ht] at t0
  have t0' : 0 < t' := by exact_mod_cast htau.pos t0
  have a0' : 0 < a' := by exact_mod_cast hw.pos a0
  have one : ∀ k, Within k (1 : ℝ) ((1 : ℚ) : ℝ) := fun k => by
    have := (Within.refl 1).weaken (by norm_num) (Nat.zero_le k)
    simpa using this
  have eL : linnemann (some e) s = (a * t + 1, 1 / (1 + t)) := by unfold linnemann; simp only [← ha, ← ht]
  have eF : flLinnemann fl e' s' = (fl (fl (a' * t') + 1), fl (1 / fl (1 + t'))) := by unfold flLinnemann; simp only [← ha', ← ht']
  rw [eL, eF]
  have g1 : 1 ≤ fl (1 + t') := by have := hfl.mono 1 (1 + t') (by linarith); rwa [hfl.one] at this
  have wb : Within (4 * m + 5) (a * t + 1) (fl (fl (a' * t') + 1) : ℚ) := by
    have h3 := hw.mul htau a0.le t0.le
    have h4 := Within.round hfl (y := a' * t') (by push_cast; exact h3) (by positivity)
    have h5 := h4.add (one _)
    exact (Within.round hfl (y := fl (a' * t') + 1) (by push_cast; push_cast at h5; exact h5) (by positivity)).weaken (by positivity) (by omega)
  have wx : Within (3 * m + 6) (1 / (1 + t)) (fl (1 / fl (1 + t')) : ℚ) := by
    have h3 := (one (3 * m + 3)).add htau
    have h4 := Within.round hfl (y := 1 + t') (by push_cast; push_cast at h3; exact h3) (by positivity)
    have h5 := h4.inv (by positivity) (by omega)
    exact (Within.round hfl (y := 1 / fl (1 + t')) (by push_cast; exact h5) (by positivity)).weaken (by positivity) (by omega)
  refine ⟨by nlinarith [mul_pos a0 t0], by positivity, ?_, ?_, ?_, ?_, wb, wx⟩
  · rw [div_le_one (by positivity)]; linarith
  · have h0 := hfl.nonneg (mul_pos a0' t0').le
    have := hfl.mono 1 (fl (a' * t') + 1) (by linarith)
    rwa [hfl.one] at this
  · exact_mod_cast wx.pos (by positivity)
  · have := hfl.mono (1 / fl (1 + t')) 1 (by rw [div_le_one (by linarith)]; exact g1)
    rwa [hfl.one] at this

theorem regBeta_within {n : ℕ} (hn : n ≠ 0) {b b' x x' : ℝ} (hb : 1 ≤ b) (hb' : 1 ≤ b') (hx : 0 < x) (hx1 : x ≤ 1) (hx' : 0 < x') (hx1' : x' ≤ 1)
    {mb mx : ℕ} (h1 : Within mb b b') (h2 : Within mx x x') : Within (n * (mb + mx)) (regBeta n b x) (regBeta n b' x') := by
  have n0 : (0 : ℝ) < n := by positivity
  have gen : ∀ {z z' I I' : ℝ} {k : ℕ}, 0 < z → 0 < z' → 0 ≤ I → 0 ≤ I' → Within k z z' →
      (z ≤ z' → I ≤ I' ∧ I' ≤ (z' / z) ^ n * I) → (z' ≤ z → I' ≤ I ∧ I ≤ (z / z') ^ n * I') → Within (n * k) I I' := by
    intro z z' I I' k hz hz' hI hI' hw up dn
    rcases le_total z z' with h | h
    · obtain ⟨q1, q2⟩ := up h
      constructor
      · refine le_trans ?_ q1
        have : (1 - uR) ^ (n * k) ≤ 1 := pow_le_one₀ (by norm_num) (by norm_num)
        nlinarith
      · refine q2.trans (mul_le_mul_of_nonneg_right ?_ hI)
        rw [mul_comm n, pow_mul]
        refine pow_le_pow_left₀ (by positivity) ?_ n
        rw [div_le_iff₀ hz]; exact hw.2
    · obtain ⟨q1, q2⟩ := dn h
      constructor
      · have h3 : (z' / z) ^ n * I ≤ I' := by
          have := mul_le_mul_of_nonneg_left q2 (by positivity : 0 ≤ (z' / z) ^ n)
          rw [← mul_assoc, ← mul_pow, div_mul_div_cancel₀ hz.ne', div_self hz'.ne', one_pow, one_mul] at this
          exact this
        refine le_trans (mul_le_mul_of_nonneg_right ?_ hI) h3
        rw [mul_comm n, pow_mul]
        refine pow_le_pow_left₀ (lo_nonneg k) ?_ n
        rw [le_div_iff₀ hz]; exact hw.1
      · refine q1.trans ?_
        have : 1 ≤ (1 + uR) ^ (n * k) := one_le_pow₀ (by norm_num)
        nlinarith
  have p1 := regBeta_nonneg (a := n) (b := b) n0 (by linarith) hx.le hx1
  have p2 := regBeta_nonneg (a := n) (b := b') n0 (by linarith) hx.le hx1
  have p3 := regBeta_nonneg (a := n) (b := b') n0 (by linarith) hx'.le hx1'
  rw [mul_add]
  refine (gen (z := b) (z' := b') (by linarith) (by linarith) p1 p2 h1 (fun h => regBeta_scale_b hn (by linarith) h hx.le hx1)
    (fun h => regBeta_scale_b hn (by linarith) h hx.le hx1)).trans
    (gen (z := x) (z' := x') hx hx' p2 p3 h2 (fun h => regBeta_scale_x hn hb' hx h hx1') (fun h => regBeta_scale_x hn hb' hx' h hx1))

/-! ### p-values -/

section
variable {fl sq pw : ℚ → ℚ} {bi : ℕ → ℚ → ℚ → ℚ} {ps : ℕ → ℚ → ℚ} {order : SumSite → List ℚ → SumTree} {r c : ℕ}

/-- A cell: both values are NaN, or both are numbers. -/
theorem cell_facts (hfl : RelRounding fl) (hs : SqrtRounding sq) (hp : SquareRounding pw) (ho : AddsAll order) (N : OutNum) (T : Fin r → Fin c → ℕ)
    (hT : ∑ i, ∑ j, T i j ≤ 2 ^ 52) (i : Fin r) (j : Fin c) :
    (estimateCell N ⟨r, c, T⟩ "poisson" i j = .ok (none, none) ∧
      flEstimateCell fl sq pw (flPoissonUncertainty sq) order ⟨r, c, fun i j => (T i j : ℚ)⟩ i j = none) ∨
    ∃ (e s : ℝ) (e' s' : ℚ), estimateCell N ⟨r, c, T⟩ "poisson" i j = .ok (some e, some s) ∧
      flEstimateCell fl sq pw (flPoissonUncertainty sq) order ⟨r, c, fun i j => (T i j : ℚ)⟩ i j = some (e', s') ∧
      0 ≤ e ∧ 0 ≤ s ∧ (s = 0 → e = 0) ∧ Within 9 e e' ∧ Within 9 s s' := by
  have u1 : ∀ n : ℕ, 1 ≤ poissonUncertainty n := by
    intro n
    unfold poissonUncertainty
    split
    · next h => exact Real.one_le_sqrt.2 h
    · exact le_rfl
  have h0 : ∀ n : ℕ, 0 ≤ poissonUncertainty n := fun n => by linarith [u1 n]
  have key : ∀ n : ℕ, Within 1 (poissonUncertainty n) (flPoissonUncertainty sq n : ℚ) := poissonUncertainty_within hs
  rw [estimateCell_eq N "poisson" (u := fun n => poissonUncertainty n) (fun n => by simp [getUncertainty]) T i j, flEstimateCell_eq hfl ho T (by simpa using hT)]
  by_cases hD : 0 < offBoth T i j
  · right
    obtain ⟨h1, h2⟩ := core_rounding hfl hs hp (B := offRow T i j) (C := offCol T i j) hD h0 key
    have d0 : (0 : ℝ) < offBoth T i j := by exact_mod_cast hD
    simp only [hD, if_true]
    refine ⟨_, _, _, _, rfl, rfl, by positivity, by positivity, fun hz => ?_, h1.weaken (by positivity) (by norm_num), h2⟩
    rw [Real.sqrt_eq_zero (by positivity)] at hz
    have q : (poissonUncertainty (offRow T i j : ℝ) * (offCol T i j : ℝ) / (offBoth T i j : ℝ)) ^ 2 = 0 := by
      have a1 := sq_nonneg (poissonUncertainty (offRow T i j : ℝ) * (offCol T i j : ℝ) / (offBoth T i j : ℝ))
      have a2 := sq_nonneg (poissonUncertainty (offCol T i j : ℝ) * (offRow T i j : ℝ) / (offBoth T i j : ℝ))
      have a3 := sq_nonneg (poissonUncertainty (offBoth T i j : ℝ) * ((offRow T i j : ℝ) * (offCol T i j : ℝ) / (offBoth T i j : ℝ)) / (offBoth T i j : ℝ))
      linarith
    rw [sq_eq_zero_iff, div_eq_zero_iff, mul_eq_zero] at q
    have hC : (offCol T i j : ℝ) = 0 := by
      rcases q with (q | q) | q
      · linarith [u1 (offRow T i j)]
      · exact q
      · linarith
    rw [hC, mul_zero, zero_div]
  · left
    simp only [hD, if_false, and_self]

/-- The p-value of a cell. -/
theorem obs_p_within (hfl : RelRounding fl) {k : ℕ} (hk : k ≤ 400000) (hb : BetaRounding k bi) (hz : ∀ m, ps m 0 = 0) {N : OutNum} (h : OutExact N)
    (n : ℕ) {e s : ℝ} {e' s' : ℚ} (he : 0 ≤ e) (hs : 0 ≤ s) (hes : s = 0 → e = 0) (h1 : Within 9 e e') (h2 : Within 9 s s') :
    ∃ (p : ℝ) (p' : ℚ), poissonObsP N n (some e) (some s) = some p ∧ flPoissonObsP fl bi ps n (some (e', s')) = some p' ∧ 0 ≤ p ∧
      Within (74 * n + k + 1) p p' := by
  by_cases hn : n = 0
  · subst hn
    refine ⟨1, 1, by simp [poissonObsP], by simp [flPoissonObsP], zero_le_one, ?_⟩
    have := (Within.refl 1).weaken (by norm_num) (Nat.zero_le (74 * 0 + k + 1))
    simpa using this
  · rcases hs.eq_or_lt with rfl | hs0
    · have e0 := hes rfl
      subst e0
      have e1 : e' = 0 := by exact_mod_cast h1.zero
      have e2 : s' = 0 := by exact_mod_cast h2.zero
      subst e1 e2
      refine ⟨0, 0, ?_, ?_, le_rfl, ?_⟩
      · simp [poissonObsP, hn, positive, poisSfF, (OutExact.spec h).pois_zero]
      · simp [flPoissonObsP, hn, hz]
      · simp [Within]
    · have s0 : 0 < s' := by exact_mod_cast h2.pos hs0
      obtain ⟨c1, c2, c3, c4, c5, c6, c7, c8⟩ := linnemann_within hfl (by norm_num : 9 ≤ 1000000) he hs0 h1 h2
      have w := regBeta_within hn c1 (by exact_mod_cast c4) c2 c3 (by exact_mod_cast c5) (by exact_mod_cast c6) c7 c8
      have g := within_of_err (regBeta_nonneg (a := n) (by positivity) (by have : (1 : ℝ) ≤ (flLinnemann fl e' s').1 := by exact_mod_cast c4
                                                                           linarith) (by exact_mod_cast c5.le) (by exact_mod_cast c6))
        (by omega) (hb n _ _ hn c4 c5 c6)
      have n0 : (0 : ℝ) < n := by positivity
      refine ⟨regBeta n (linnemann (some e) s).1 (linnemann (some e) s).2, bi n (flLinnemann fl e' s').1 (flLinnemann fl e' s').2, ?_, ?_,
        regBeta_nonneg n0 (by linarith) c2.le c3, ?_⟩
      · simp only [poissonObsP, hn, if_false, positive, hs0, if_true]
        rw [h.beta n _ _ hn ?_ c2 ?_]
        · unfold linnemann
          have : 0 < (if 0 < e then e else s) := by split <;> assumption
          simp only
          nlinarith [mul_pos this (div_pos this (mul_pos hs0 hs0))]
        · unfold linnemann
          have : 0 < (if 0 < e then e else s) := by split <;> assumption
          simp only
          rw [div_lt_one (by positivity)]
          linarith [div_pos this (mul_pos hs0 hs0)]
      · simp [flPoissonObsP, hn, s0]
      · exact (w.trans g).weaken (regBeta_nonneg n0 (by linarith) c2.le c3) (by omega)

theorem mid_error (hfl : RelRounding fl) {p q : ℝ} {p' q' : ℚ} (hq : 0 ≤ q) (hpq : q ≤ p) {d : ℝ} (hd0 : 0 ≤ d) (hd : d ≤ 1 / 1000)
    (h1 : |(p' : ℝ) - p| ≤ d * p) (h2 : |(q' : ℝ) - q| ≤ d * q) :
    |((fl (p' - fl (1 / 2 * fl (p' - q'))) : ℚ) : ℝ) - (p - 1 / 2 * (p - q))| ≤ (d + 4 / 2 ^ 53) * (p - 1 / 2 * (p - q)) := by
  have er : ∀ x : ℚ, |((fl x : ℚ) : ℝ) - x| ≤ |(x : ℝ)| * uR := by
    intro x
    have := hfl.err x
    have : ((|fl x - x| : ℚ) : ℝ) ≤ ((|x| / 9007199254740992 : ℚ) : ℝ) := by exact_mod_cast this
    push_cast at this
    simp only [uR]
    linarith
  have e1 := er (p' - q')
  have e2 := er (1 / 2 * fl (p' - q'))
  have e3 := er (p' - fl (1 / 2 * fl (p' - q')))
  push_cast at e1 e2 e3
  generalize ((fl (p' - fl (1 / 2 * fl (p' - q'))) : ℚ) : ℝ) = M at *
  generalize ((fl (1 / 2 * fl (p' - q')) : ℚ) : ℝ) = H at *
  generalize ((fl (p' - q') : ℚ) : ℝ) = D at *
  generalize (p' : ℝ) = P at *
  generalize (q' : ℝ) = Q at *
  have hm : 0 ≤ p + q := by linarith
  have dp : d * p ≤ p / 1000 := by nlinarith
  have dq : d * q ≤ q / 1000 := by nlinarith
  have a1 := abs_le.1 h1
  have a2 := abs_le.1 h2
  have b1 : |P - Q| ≤ (p + q) * (1001 / 1000) := by
    rw [abs_le]; constructor <;> linarith
  have c1 : |D - (P - Q)| ≤ (p + q) * (1001 / 1000) * uR := e1.trans (mul_le_mul_of_nonneg_right b1 (by norm_num))
  have c1' := abs_le.1 c1
  have b1' := abs_le.1 b1
  have b2 : |1 / 2 * D| ≤ (p + q) * (1002 / 2000) := by
    simp only [uR] at c1'
    rw [abs_le]; constructor <;> linarith
  have c2 : |H - 1 / 2 * D| ≤ (p + q) * (1002 / 2000) * uR := e2.trans (mul_le_mul_of_nonneg_right b2 (by norm_num))
  have c2' := abs_le.1 c2
  have b3 : |P - H| ≤ (p + q) * (1004 / 2000) := by
    simp only [uR] at c1' c2'
    rw [abs_le]; constructor <;> linarith
  have c3 : |M - (P - H)| ≤ (p + q) * (1004 / 2000) * uR := e3.trans (mul_le_mul_of_nonneg_right b3 (by norm_num))
  have c3' := abs_le.1 c3
  simp only [uR] at c1' c2' c3'
  rw [show (d + 4 / 2 ^ 53) * (p - 1 / 2 * (p - q)) = (d * p + d * q) / 2 + (p + q) * 2 / 9007199254740992 by norm_num; ring]
  rw [abs_le]
  constructor <;> linarith

theorem mid_p_rounding (hfl : RelRounding fl) (hs : SqrtRounding sq) (hp : SquareRounding pw) (ho : AddsAll order) {k : ℕ} (hk : k ≤ 400000)
    (hb : BetaRounding k bi) (hz : ∀ m, ps m 0 = 0) {N : OutNum} (h : OutExact N) (T : Fin r → Fin c → ℕ) (hT : ∑ i, ∑ j, T i j ≤ 2 ^ 52)
    (i : Fin r) (j : Fin c) (hn : T i j ≤ 900000) {e s : Option ℝ} (hE : estimateCell N ⟨r, c, T⟩ "poisson" i j = .ok (e, s)) :
    NumberWithin ((74 * T i j + k + 80) / 2 ^ 53) (poissonObsMidP N (T i j) e s) (flOutlierP fl sq pw bi ps order ⟨r, c, T⟩ i j) := by
  change NumberWithin _ _ (flPoissonObsMidP fl bi ps (T i j) (flEstimateCell fl sq pw (flPoissonUncertainty sq) order ⟨r, c, fun i j => (T i j : ℚ)⟩ i j))
  rcases cell_facts hfl hs hp ho N T hT i j with ⟨f1, f2⟩ | ⟨e1, s1, e', s', f1, f2, f3, f4, f5, f6, f7⟩
  · rw [f1] at hE
    injection hE with hE
    injection hE with hE1 hE2
    subst hE1 hE2
    rw [f2]
    have x1 : poissonObsMidP N (T i j) none none = none := by
      unfold poissonObsMidP
      have : poissonObsP N (T i j + 1) none none = none := by simp [poissonObsP, positive, poisSfF]
      rw [this]
      cases poissonObsP N (T i j) none none <;> rfl
    have x2 : flPoissonObsMidP fl bi ps (T i j) none = none := by
      unfold flPoissonObsMidP
      have : flPoissonObsP fl bi ps (T i j + 1) none = none := by simp [flPoissonObsP]
      rw [this]
      cases flPoissonObsP fl bi ps (T i j) none <;> rfl
    rw [x1, x2]
    trivial
  · rw [f1] at hE
    injection hE with hE
    injection hE with hE1 hE2
    subst hE1 hE2
    rw [f2]
    obtain ⟨p, p', y1, y2, y3, y4⟩ := obs_p_within (ps := ps) hfl hk hb hz h (T i j) f3 f4 f5 f6 f7
    obtain ⟨q, q', z1, z2, z3, z4⟩ := obs_p_within (ps := ps) hfl hk hb hz h (T i j + 1) f3 f4 f5 f6 f7
    have hqp := outlier_p_anti (OutExact.spec h) (Nat.le_succ (T i j)) y1 z1
    have x1 : poissonObsMidP N (T i j) (some e1) (some s1) = some (p - 1 / 2 * (p - q)) := by
      unfold poissonObsMidP
      rw [y1, z1]; rfl
    have x2 : flPoissonObsMidP fl bi ps (T i j) (some (e', s')) = some (fl (p' - fl (1 / 2 * fl (p' - q')))) := by
      unfold flPoissonObsMidP
      rw [y2, z2]; rfl
    rw [x1, x2]
    have y5 := (y4.weaken y3 (by omega : _ ≤ 74 * (T i j + 1) + k + 1)).err y3 (by omega)
    have z5 := z4.err z3 (by omega)
    have hT' : (T i j : ℝ) ≤ 900000 := by exact_mod_cast hn
    have hk' : (k : ℝ) ≤ 400000 := by exact_mod_cast hk
    have := mid_error hfl z3 hqp (by positivity) (by push_cast; linarith) y5 z5
    unfold NumberWithin
    refine this.trans (le_of_eq ?_)
    push_cast
    ring

/-- C99: the p-values of the outlier test in floating point arithmetic. -/
theorem outlier_p_rounding (hfl : RelRounding fl) (hs : SqrtRounding sq) (hp : SquareRounding pw) (ho : AddsAll order) {k : ℕ} (hk : k ≤ 400000)
    (hb : BetaRounding k bi) (hz : ∀ m, ps m 0 = 0) {N : OutNum} (h : OutExact N) (T : Fin r → Fin c → ℕ) (hT : ∑ i, ∑ j, T i j ≤ 2 ^ 52)
    (hn : ∀ i j, T i j ≤ 900000) :
    ∃ w : Fin r → Fin c → Option ℝ × FVal, outlierFromHist2d N ⟨r, c, T⟩ "poisson" = .ok ⟨r, c, w⟩ ∧
      ∀ i j, NumberWithin ((74 * T i j + k + 80) / 2 ^ 53) (w i j).1 (flOutlierP fl sq pw bi ps order ⟨r, c, T⟩ i j) := by
  obtain ⟨w, hw, -⟩ := outlier_table h ⟨r, c, T⟩
  refine ⟨w, hw, fun i j => ?_⟩
  have ht := hw
  unfold outlierFromHist2d at ht
  simp only at ht
  cases hc : cells2 r c (estimateCell N ⟨r, c, T⟩ "poisson") with
  | error e => rw [hc] at ht; exact absurd ht (by simp [throw, throwThe, MonadExceptOf.throw])
  | ok a =>
    rw [hc] at ht
    simp only at ht
    obtain ⟨w', hw', hcell⟩ := cells2_inv ht
    obtain rfl : w = w' := by injection hw'
    obtain ⟨g, hg, hgc⟩ := cells2_inv hc
    have q := hcell i j
    rw [hgc i j] at q
    rcases hE : g i j with ⟨e, s⟩
    rw [hE] at q
    simp only [bind, Except.bind, pure, Except.pure] at q
    split at q
    · cases q
    · injection q with q
      rw [← q]
      exact mid_p_rounding hfl hs hp ho hk hb hz h T hT i j (hn i j) (by rw [hgc i j, hE])

/-- C99: the p-values of the outlier test in floating point arithmetic are NaN without a prediction, and else close to the documented
mid-p value. -/
theorem outlier_p_rounding_documented (hfl : RelRounding fl) (hs : SqrtRounding sq) (hp : SquareRounding pw) (ho : AddsAll order) {k : ℕ} (hk : k ≤ 400000)
    (hb : BetaRounding k bi) (hz : ∀ m, ps m 0 = 0) (t : Arr2 ℕ) (hT : t.total ≤ 2 ^ 52) (hn : ∀ i j, t.v i j ≤ 900000) (i : Fin t.r) (j : Fin t.c) :
    let e := abcd (inRow t i j) (inCol t i j) (elsewhere t i j)
    let s := abcdErr poissonUncertainty (inRow t i j) (inCol t i j) (elsewhere t i j)
    (elsewhere t i j = 0 → flOutlierP fl sq pw bi ps order t i j = none) ∧
    (elsewhere t i j ≠ 0 → ¬ (inRow t i j = 0 ∧ inCol t i j = 0) → ∃ p, flOutlierP fl sq pw bi ps order t i j = some p ∧ 0 < p ∧
      |(p : ℝ) - midTail e s (t.v i j)| ≤ (74 * t.v i j + k + 80) / 2 ^ 53 * midTail e s (t.v i j)) ∧
    (elsewhere t i j ≠ 0 → inRow t i j = 0 → inCol t i j = 0 →
      flOutlierP fl sq pw bi ps order t i j = some (if t.v i j = 0 then 1 / 2 else 0)) := by
  obtain ⟨r, c, T⟩ := t
  intro e s
  obtain ⟨w, hw, hall⟩ := outlier_p_rounding (ps := ps) hfl hs hp ho hk hb hz trueOut_exact T hT hn
  obtain ⟨w', hw', doc⟩ := outlier_table trueOut_exact ⟨r, c, T⟩
  rw [hw] at hw'
  obtain rfl : w = w' := by injection hw' with q; injection q
  have h1 := hall i j
  obtain ⟨d1, d2, d3⟩ := doc i j
  refine ⟨fun hD => ?_, fun hD hB => ?_, fun hD hB hC => ?_⟩
  · rw [d1 hD] at h1
    cases hm : flOutlierP fl sq pw bi ps order ⟨r, c, T⟩ i j with
    | none => rfl
    | some p => rw [hm] at h1; exact absurd h1 (by simp [NumberWithin])
  · obtain ⟨g1, g2, -⟩ := d2 hD hB
    rw [g1] at h1
    cases hm : flOutlierP fl sq pw bi ps order ⟨r, c, T⟩ i j with
    | none => rw [hm] at h1; exact absurd h1 (by simp [NumberWithin])
    | some p =>
      rw [hm] at h1
      refine ⟨p, rfl, ?_, h1⟩
      have hT' : (T i j : ℝ) ≤ 900000 := by exact_mod_cast hn i j
      have hk' : (k : ℝ) ≤ 400000 := by exact_mod_cast hk
      have d1 : (74 * (T i j : ℝ) + k + 80) / 2 ^ 53 ≤ 1 / 3 := by linarith
      have h3 := abs_le.1 (show |(p : ℝ) - _| ≤ _ from h1)
      have : (0 : ℝ) < p := by
        have := mul_le_mul_of_nonneg_right d1 g2.le
        linarith [h3.1]
      exact_mod_cast this
  · by_cases h0 : T i j = 0
    · rw [if_pos h0]
      have eB : offRow T i j = 0 := by
        have := block_row ⟨r, c, T⟩ i j
        rw [hB, add_zero] at this
        unfold offRow
        change ∑ j', T i j' = T i j at this
        omega
      have eC : offCol T i j = 0 := by
        have := block_col ⟨r, c, T⟩ i j
        rw [hC, add_zero] at this
        unfold offCol
        change ∑ i', T i' j = T i j at this
        omega
      have key : flEstimateCell fl sq pw (flPoissonUncertainty sq) order ⟨r, c, fun i j => (T i j : ℚ)⟩ i j = some (0, 0) := by
        rcases cell_facts hfl hs hp ho trueOut T hT i j with ⟨f1, -⟩ | ⟨e1, s1, e', s', f1, f2, f3, f4, f5, f6, f7⟩
        · exfalso
          have hcell : w i j = (some (1 / 2), some 0) := (d3 hD hB hC).1 h0
          have h2 := hw
          unfold outlierFromHist2d at h2
          simp only at h2
          cases hc : cells2 r c (estimateCell trueOut ⟨r, c, T⟩ "poisson") with
          | error e => rw [hc] at h2; exact absurd h2 (by simp [throw, throwThe, MonadExceptOf.throw])
          | ok a =>
            rw [hc] at h2
            simp only at h2
            obtain ⟨w', hw'', hc2⟩ := cells2_inv h2
            obtain rfl : w = w' := by injection hw''
            have q := hc2 i j
            rw [f1] at q
            simp only [bind, Except.bind, pure, Except.pure] at q
            have x1 : poissonObsMidP trueOut (T i j) none none = none := by
              unfold poissonObsMidP
              have : poissonObsP trueOut (T i j + 1) none none = none := by simp [poissonObsP, positive, poisSfF]
              rw [this]
              cases poissonObsP trueOut (T i j) none none <;> rfl
            split at q
            · cases q
            · injection q with q
              rw [hcell, x1] at q
              cases q
        · rw [estimateCell_eq trueOut "poisson" (u := fun n => poissonUncertainty n) (fun n => by simp [getUncertainty]) T i j] at f1
          split at f1
          · simp only [eB, eC, Nat.cast_zero, mul_zero, zero_div, ne_eq, OfNat.ofNat_ne_zero, not_false_eq_true, zero_pow, add_zero, Real.sqrt_zero] at f1
            injection f1 with f1
            injection f1 with g1 g2
            injection g1 with g1
            injection g2 with g2
            subst g1 g2
            have e1 : e' = 0 := by exact_mod_cast f6.zero
            have e2 : s' = 0 := by exact_mod_cast f7.zero
            rw [f2, e1, e2]
          · cases f1
      change flPoissonObsMidP fl bi ps (T i j) (flEstimateCell fl sq pw (flPoissonUncertainty sq) order ⟨r, c, fun i j => (T i j : ℚ)⟩ i j) = _
      rw [key, h0]
      have q1 : flPoissonObsP fl bi ps 0 (some (0, 0)) = some 1 := by simp [flPoissonObsP]
      have q2 : flPoissonObsP fl bi ps (0 + 1) (some (0, 0)) = some 0 := by simp [flPoissonObsP, hz]
      unfold flPoissonObsMidP
      rw [q1, q2]
      change some (fl (1 - fl (1 / 2 * fl (1 - 0)))) = _
      rw [sub_zero, hfl.one, mul_one, hfl.half]
      norm_num
      have := hfl.half
      norm_num at this
      exact this
    · rw [if_neg h0]
      rw [(d3 hD hB hC).2 h0] at h1
      cases hm : flOutlierP fl sq pw bi ps order ⟨r, c, T⟩ i j with
      | none => rw [hm] at h1; exact absurd h1 (by simp [NumberWithin])
      | some p =>
        rw [hm] at h1
        have : |(p : ℝ) - 0| ≤ _ := h1
        rw [mul_zero, sub_zero] at this
        have := abs_nonpos_iff.1 this
        congr 1
        exact_mod_cast this

/-- C99: two machines. -/
theorem outlier_p_reproducible {fl' sq' pw' : ℚ → ℚ} {bi' : ℕ → ℚ → ℚ → ℚ} {ps' : ℕ → ℚ → ℚ} {order' : SumSite → List ℚ → SumTree}
    (hfl : RelRounding fl) (hs : SqrtRounding sq) (hp : SquareRounding pw) (ho : AddsAll order)
    (hfl' : RelRounding fl') (hs' : SqrtRounding sq') (hp' : SquareRounding pw') (ho' : AddsAll order') {k : ℕ} (hk : k ≤ 400000)
    (hb : BetaRounding k bi) (hz : ∀ m, ps m 0 = 0) (hb' : BetaRounding k bi') (hz' : ∀ m, ps' m 0 = 0)
    (T : Fin r → Fin c → ℕ) (hT : ∑ i, ∑ j, T i j ≤ 2 ^ 52) (i : Fin r) (j : Fin c) (hn : T i j ≤ 900000) :
    (flOutlierP fl sq pw bi ps order ⟨r, c, T⟩ i j = none ∧ flOutlierP fl' sq' pw' bi' ps' order' ⟨r, c, T⟩ i j = none) ∨
    ∃ p p', flOutlierP fl sq pw bi ps order ⟨r, c, T⟩ i j = some p ∧ flOutlierP fl' sq' pw' bi' ps' order' ⟨r, c, T⟩ i j = some p' ∧
      |p - p'| ≤ 3 * (74 * T i j + k + 80) / 2 ^ 53 * p := by
  obtain ⟨e, s, hE⟩ : ∃ e s, estimateCell trueOut ⟨r, c, T⟩ "poisson" i j = .ok (e, s) := by
    rcases cell_facts hfl hs hp ho trueOut T hT i j with ⟨f1, -⟩ | ⟨e1, s1, -, -, f1, -⟩
    · exact ⟨_, _, f1⟩
    · exact ⟨_, _, f1⟩
  have h1 := mid_p_rounding hfl hs hp ho hk hb hz trueOut_exact T hT i j hn hE
  have h2 := mid_p_rounding hfl' hs' hp' ho' hk hb' hz' trueOut_exact T hT i j hn hE
  generalize poissonObsMidP trueOut (T i j) e s = m at h1 h2
  cases hm : flOutlierP fl sq pw bi ps order ⟨r, c, T⟩ i j <;> cases hm' : flOutlierP fl' sq' pw' bi' ps' order' ⟨r, c, T⟩ i j <;>
    rw [hm] at h1 <;> rw [hm'] at h2 <;> cases m <;> simp only [NumberWithin] at h1 h2
  · left; exact ⟨rfl, rfl⟩
  · next p p' m =>
    right
    refine ⟨p, p', rfl, rfl, ?_⟩
    have hT' : (T i j : ℝ) ≤ 900000 := by exact_mod_cast hn
    have hk' : (k : ℝ) ≤ 400000 := by exact_mod_cast hk
    have m0 : 0 ≤ m := by
      have : 0 ≤ (74 * (T i j : ℝ) + k + 80) / 2 ^ 53 * m := (abs_nonneg _).trans h1
      by_contra hneg
      have : (74 * (T i j : ℝ) + k + 80) / 2 ^ 53 * m < 0 := mul_neg_of_pos_of_neg (by positivity) (not_le.1 hneg)
      linarith
    have d1 : (74 * (T i j : ℝ) + k + 80) / 2 ^ 53 ≤ 1 / 3 := by linarith
    have d0 : 0 ≤ (74 * (T i j : ℝ) + k + 80) / 2 ^ 53 := by positivity
    suffices hreal : |(p : ℝ) - p'| ≤ 3 * ((74 * (T i j : ℝ) + k + 80) / 2 ^ 53) * p by
      have : ((|p - p'| : ℚ) : ℝ) ≤ ((3 * (74 * T i j + k + 80) / 2 ^ 53 * p : ℚ) : ℝ) := by
        push_cast
        refine hreal.trans (le_of_eq ?_)
        ring
      exact_mod_cast this
    generalize (74 * (T i j : ℝ) + k + 80) / 2 ^ 53 = d at *
    have a1 := abs_le.1 h1
    have a2 := abs_le.1 h2
    have : m * (1 - d) ≤ p := by linarith
    have : 2 * m ≤ 3 * p := by nlinarith
    have : 2 * (d * m) ≤ 3 * d * p := by nlinarith
    rw [abs_le]
    constructor <;> linarith

end

/-- C99: the significance of an excess (p-value at most 1/2) in floating point arithmetic. -/
theorem outlier_z_rounding {fl sq pw qf : ℚ → ℚ} {bi : ℕ → ℚ → ℚ → ℚ} {ps : ℕ → ℚ → ℚ} {order : SumSite → List ℚ → SumTree}
    (hfl : RelRounding fl) (hs : SqrtRounding sq) (hp : SquareRounding pw) (ho : AddsAll order) {k : ℕ} (hk : k ≤ 400000)
    (hb : BetaRounding k bi) (hz : ∀ m, ps m 0 = 0) {η : ℝ} (hq : ∀ (p : ℚ) (x : ℝ), p ≤ 1 / 2 → normCdf x = p → |(qf p : ℝ) - x| ≤ η)
    {N : OutNum} (h : OutExact N) {r c : ℕ} (T : Fin r → Fin c → ℕ) (hT : ∑ i, ∑ j, T i j ≤ 2 ^ 52) (hn : ∀ i j, T i j ≤ 900000) :
    ∃ w : Fin r → Fin c → Option ℝ × FVal, outlierFromHist2d N ⟨r, c, T⟩ "poisson" = .ok ⟨r, c, w⟩ ∧
      ∀ (i j) (P : ℝ) (p : ℚ), (w i j).1 = some P → flOutlierP fl sq pw bi ps order ⟨r, c, T⟩ i j = some p → 0 < P → P ≤ 1 / 2 → p ≤ 1 / 2 →
        ∃ (z : ℝ) (z' : ℚ), (w i j).2 = some (z : EReal) ∧ flMidZ qf (flOutlierP fl sq pw bi ps order ⟨r, c, T⟩ i j) = some z' ∧
          |(z' : ℝ) - z| ≤ 2 * ((74 * T i j + k + 80) / 2 ^ 53) + η := by
  obtain ⟨w, hw, hall⟩ := outlier_p_rounding (ps := ps) hfl hs hp ho hk hb hz h T hT hn
  obtain ⟨w', hw', doc⟩ := outlier_table h ⟨r, c, T⟩
  have hw0 := hw
  rw [hw] at hw'
  obtain rfl : w = w' := by injection hw' with q; injection q
  refine ⟨w, hw0, fun i j P p hP hpp P0 P1 p1 => ?_⟩
  have h1 := hall i j
  rw [hP, hpp] at h1
  have h1 : |(p : ℝ) - P| ≤ (74 * T i j + k + 80) / 2 ^ 53 * P := h1
  obtain ⟨d1, d2, d3⟩ := doc i j
  have hT' : (T i j : ℝ) ≤ 900000 := by exact_mod_cast hn i j
  have hk' : (k : ℝ) ≤ 400000 := by exact_mod_cast hk
  have dd : (74 * (T i j : ℝ) + k + 80) / 2 ^ 53 ≤ 1 / 4 := by linarith
  have dn : 0 ≤ (74 * (T i j : ℝ) + k + 80) / 2 ^ 53 := by positivity
  have p0 : (0 : ℝ) < p := by
    have := mul_le_mul_of_nonneg_right dd P0.le
    linarith [(abs_le.1 h1).1]
  have pq0 : 0 < p := by exact_mod_cast p0
  have p1' : (p : ℝ) ≤ 1 / 2 := by
    have : ((p : ℚ) : ℝ) ≤ ((1 / 2 : ℚ) : ℝ) := Rat.cast_le.2 p1
    push_cast at this
    exact this
  obtain ⟨z, hz1, hz2⟩ : ∃ z : ℝ, normCdf (-z) = P ∧ (w i j).2 = some (z : EReal) := by
    by_cases hD : elsewhere ⟨r, c, T⟩ i j = 0
    · rw [d1 hD] at hP; cases hP
    · by_cases hBC : inRow ⟨r, c, T⟩ i j = 0 ∧ inCol ⟨r, c, T⟩ i j = 0
      · by_cases h0 : T i j = 0
        · have := (d3 hD hBC.1 hBC.2).1 h0
          rw [this] at hP ⊢
          injection hP with hP
          exact ⟨0, by rw [neg_zero, normCdf_zero, ← hP], by simp⟩
        · have := (d3 hD hBC.1 hBC.2).2 h0
          rw [this] at hP
          injection hP with hP
          linarith
      · obtain ⟨g1, -, -, z, g2, g3⟩ := d2 hD hBC
        rw [g1] at hP
        injection hP with hP
        exact ⟨z, by rw [g2, hP], g3⟩
  obtain ⟨x, hx⟩ := normCdf_surj p0 (by linarith)
  refine ⟨z, -qf p, hz2, ?_, ?_⟩
  · rw [hpp]
    simp only [flMidZ, Option.bind_some]
    rw [if_neg]
    rintro (h | h)
    · exact pq0.ne' h
    · rw [h] at p1; norm_num at p1
  · have c1 := Gauss.quantile_close (z := z) (z' := -x) hz1 (by rw [neg_neg]; exact hx) P1 p1' dd h1
    have c2 := hq p x p1 hx
    have a1 := abs_le.1 c1
    have a2 := abs_le.1 c2
    push_cast
    rw [abs_le]
    constructor <;> linarith

/-! ### the hypotheses can be met -/

theorem exists_rat_within (y : ℝ) (hy : 0 ≤ y) : ∃ q : ℚ, |(q : ℝ) - y| ≤ y / 2 ^ 53 := by
  rcases hy.eq_or_lt with rfl | h
  · exact ⟨0, by simp⟩
  · obtain ⟨q, h1, h2⟩ := exists_rat_btwn (show y < y + y / 2 ^ 53 by linarith [div_pos h (by norm_num : (0 : ℝ) < 2 ^ 53)])
    exact ⟨q, by rw [abs_of_pos (by linarith)]; linarith⟩

theorem exists_sqrtRounding : ∃ sq, SqrtRounding sq := by
  choose f hf using fun x : ℚ => exists_rat_within (√(x : ℝ)) (Real.sqrt_nonneg _)
  exact ⟨f, fun x _ => hf x⟩

theorem squareRounding_rne53 : SquareRounding fun x => rne53 (x * x) := by
  intro x
  have := RelRounding_rne53.err (x * x)
  rw [abs_of_nonneg (mul_self_nonneg x)] at this
  rw [sq]
  refine this.trans ?_
  have := mul_self_nonneg x
  norm_num
  linarith

theorem exists_betaRounding : ∃ bi, BetaRounding 1 bi := by
  choose f hf using fun y : {y : ℝ // 0 ≤ y} => exists_rat_within y.1 y.2
  classical
  refine ⟨fun n b x => if h : 0 ≤ regBeta n b x then f ⟨_, h⟩ else 0, fun n b x hn hb h0 h1 => ?_⟩
  have h : 0 ≤ regBeta n b x := regBeta_nonneg (by positivity) (by have : (1 : ℝ) ≤ b := by exact_mod_cast hb
                                                                   linarith) (by exact_mod_cast h0.le) (by exact_mod_cast h1)
  simp only [h, dite_true]
  refine (hf ⟨_, h⟩).trans (le_of_eq ?_)
  push_cast
  ring

/-- A table with an excess: the computed p-value of the first cell is close to the mid-p value of 20 counts where
`B C / D = 3 * 4 / 30` are expected. -/
example : ∃ (sq : ℚ → ℚ) (bi : ℕ → ℚ → ℚ → ℚ) (p : ℚ),
    flOutlierP rne53 sq (fun x => rne53 (x * x)) bi (fun _ _ => 0) numpyOrder ⟨2, 2, ![![20, 3], ![4, 30]]⟩ 0 0 = some p ∧ 0 < p ∧
      |(p : ℝ) - midTail (2 / 5) (abcdErr poissonUncertainty 3 4 30) 20| ≤ 1561 / 2 ^ 53 * midTail (2 / 5) (abcdErr poissonUncertainty 3 4 30) 20 := by
  obtain ⟨sq, hs⟩ := exists_sqrtRounding
  obtain ⟨bi, hb⟩ := exists_betaRounding
  have eB : inRow ⟨2, 2, ![![20, 3], ![4, 30]]⟩ 0 0 = 3 := by decide
  have eC : inCol ⟨2, 2, ![![20, 3], ![4, 30]]⟩ 0 0 = 4 := by decide
  have eD : elsewhere ⟨2, 2, ![![20, 3], ![4, 30]]⟩ 0 0 = 30 := by decide
  have := (outlier_p_rounding_documented (ps := fun _ _ => 0) RelRounding_rne53 hs squareRounding_rne53 numpyOrder_addsAll (by norm_num : 1 ≤ 400000) hb
    (fun _ => rfl) ⟨2, 2, ![![20, 3], ![4, 30]]⟩ (by simp [Arr2.total, Fin.sum_univ_two]) (by intro i j; fin_cases i <;> fin_cases j <;> norm_num) 0 0).2.1
    (by rw [eD]; norm_num) (by rw [eB]; norm_num)
  rw [eB, eC, eD] at this
  obtain ⟨p, h1, h2, h3⟩ := this
  refine ⟨sq, bi, p, h1, h2, ?_⟩
  have ee : abcd ((3 : ℕ) : ℝ) ((4 : ℕ) : ℝ) ((30 : ℕ) : ℝ) = 2 / 5 := by norm_num [abcd]
  rw [ee] at h3
  norm_num at h3 ⊢
  exact h3

/-- The other method: an implementation with a relative error of one rounding exists. -/
example : ∃ unc : ℚ → ℚ, ∀ n : ℕ, ∃ s, getUncertainty trueOut n "exact_poisson" = .ok s ∧ 0 ≤ s ∧ |(unc n : ℝ) - s| ≤ (1 : ℕ) / 2 ^ 53 * s := by
  choose f hf using fun y : {y : ℝ // 0 ≤ y} => exists_rat_within y.1 y.2
  have nn : ∀ n : ℕ, 0 ≤ exactPoissonUncertainty trueOut n 1 := by
    intro n
    obtain ⟨lb, ub, h1, -, h2, -⟩ := exact_interval n zero_le_one
    rw [h1]; linarith
  refine ⟨fun x => f ⟨exactPoissonUncertainty trueOut (x.num.toNat : ℕ) 1, nn _⟩, fun n => ⟨exactPoissonUncertainty trueOut n 1, by simp [getUncertainty], nn n, ?_⟩⟩
  have := hf ⟨exactPoissonUncertainty trueOut n 1, nn n⟩
  simp only [Rat.num_natCast, Int.toNat_natCast, Nat.cast_one]
  refine this.trans (le_of_eq ?_)
  ring

/-- A quantile function with an error of at most `2^-50`. -/
theorem exists_quantile : ∃ qf : ℚ → ℚ, ∀ (p : ℚ) (x : ℝ), p ≤ 1 / 2 → normCdf x = p → |(qf p : ℝ) - x| ≤ 1 / 2 ^ 50 := by
  have key : ∀ p : ℚ, ∃ q : ℚ, ∀ x : ℝ, normCdf x = p → |(q : ℝ) - x| ≤ 1 / 2 ^ 50 := by
    intro p
    by_cases h : ∃ x, normCdf x = p
    · obtain ⟨x, hx⟩ := h
      obtain ⟨q, h1, h2⟩ := exists_rat_btwn (show x < x + 1 / 2 ^ 50 by linarith [(by norm_num : (0 : ℝ) < 1 / 2 ^ 50)])
      refine ⟨q, fun y hy => ?_⟩
      have : y = x := le_antisymm (normCdf_le_iff.1 (by rw [hx, hy])) (normCdf_le_iff.1 (by rw [hx, hy]))
      rw [this, abs_of_pos (by linarith)]; linarith
    · exact ⟨0, fun y hy => absurd ⟨y, hy⟩ h⟩
  choose qf hqf using key
  exact ⟨qf, fun p x _ hx => hqf p x hx⟩

/-- A cell with 0 records where both counts of the expectation are 0: p-value 1/2 exactly, and the significance is 0 up to the error of the quantile. -/
example : ∃ (sq qf : ℚ → ℚ) (bi : ℕ → ℚ → ℚ → ℚ) (z' : ℚ),
    flMidZ qf (flOutlierP rne53 sq (fun x => rne53 (x * x)) bi (fun _ _ => 0) numpyOrder ⟨2, 2, ![![0, 0], ![0, 30]]⟩ 0 0) = some z' ∧
      |(z' : ℝ)| ≤ 2 * (81 / 2 ^ 53) + 1 / 2 ^ 50 := by
  obtain ⟨sq, hs⟩ := exists_sqrtRounding
  obtain ⟨bi, hb⟩ := exists_betaRounding
  obtain ⟨qf, hq⟩ := exists_quantile
  have hT : ∑ i, ∑ j, (![![0, 0], ![0, 30]] : Fin 2 → Fin 2 → ℕ) i j ≤ 2 ^ 52 := by simp [Fin.sum_univ_two]
  have hn : ∀ i j, (![![0, 0], ![0, 30]] : Fin 2 → Fin 2 → ℕ) i j ≤ 900000 := by intro i j; fin_cases i <;> fin_cases j <;> norm_num
  obtain ⟨w, hw, hall⟩ := outlier_z_rounding (ps := fun _ _ => 0) RelRounding_rne53 hs squareRounding_rne53 numpyOrder_addsAll
    (by norm_num : 1 ≤ 400000) hb (fun _ => rfl) hq trueOut_exact _ hT hn
  have hp := (outlier_p_rounding_documented (ps := fun _ _ => 0) RelRounding_rne53 hs squareRounding_rne53 numpyOrder_addsAll (by norm_num : 1 ≤ 400000) hb
    (fun _ => rfl) ⟨2, 2, ![![0, 0], ![0, 30]]⟩ hT hn 0 0).2.2 (by decide) (by decide) (by decide)
  obtain ⟨w', hw', doc⟩ := outlier_table trueOut_exact ⟨2, 2, ![![0, 0], ![0, 30]]⟩
  rw [hw] at hw'
  obtain rfl : w = w' := by injection hw' with q; injection q
  have d := ((doc 0 0).2.2 (by decide) (by decide) (by decide)).1 rfl
  obtain ⟨z, z', h1, h2, h3⟩ := hall 0 0 (1 / 2) (1 / 2) (by rw [d]) (by rw [hp]; rfl) (by norm_num) le_rfl le_rfl
  rw [d] at h1
  have z0 : z = 0 := by
    injection h1 with h1
    exact_mod_cast h1.symm
  refine ⟨sq, qf, bi, z', h2, ?_⟩
  rw [z0, sub_zero] at h3
  norm_num at h3 ⊢
  exact h3

end Phik.Props
