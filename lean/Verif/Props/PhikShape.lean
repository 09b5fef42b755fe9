import Verif.Spec.PhikShape
import Verif.Props.GaussianMono
import Verif.Props.BinaryTables

/-! # Properties C70 and C71: repeated records; phik as a function of chi2 and of the noise correction -/

namespace Phik

open Spec Gauss

/-! ### repeated records -/

section
variable {a : Arr2 ℝ} {k : ℝ} (hk : 0 < k)
include hk

theorem repeated_fullRow (i : Fin a.r) : FullRow (repeated k a) i ↔ FullRow a i := by
  unfold FullRow repeated; simp [hk.ne']

theorem repeated_fullCol (j : Fin a.c) : FullCol (repeated k a) j ↔ FullCol a j := by
  unfold FullCol repeated; simp [hk.ne']

theorem repeated_nRows : nRows (repeated k a) = nRows a :=
  Nat.card_congr (Equiv.subtypeEquivRight fun i => repeated_fullRow (a := a) hk i)

theorem repeated_nCols : nCols (repeated k a) = nCols a :=
  Nat.card_congr (Equiv.subtypeEquivRight fun i => repeated_fullCol (a := a) hk i)

omit hk in
theorem repeated_total : (repeated k a).total = k * a.total := by
  unfold Arr2.total repeated
  simp [Finset.mul_sum]

omit hk in
theorem repeated_sum : ∑ i, ∑ j, (repeated k a).v i j = k * ∑ i, ∑ j, a.v i j := by
  unfold repeated; simp [Finset.mul_sum]

theorem repeated_expect (i : Fin a.r) (j : Fin a.c) : expect (repeated k a) i j = k * expect a i j := by
  unfold expect
  rw [repeated_sum]
  have e1 : ∑ j', (repeated k a).v i j' = k * ∑ j', a.v i j' := by unfold repeated; simp [Finset.mul_sum]
  have e2 : ∑ i', (repeated k a).v i' j = k * ∑ i', a.v i' j := by unfold repeated; simp [Finset.mul_sum]
  rw [e1, e2, show k * (∑ j', a.v i j') * (k * ∑ i', a.v i' j) = k * (k * ((∑ j', a.v i j') * ∑ i', a.v i' j)) by ring,
    mul_div_mul_left _ _ hk.ne', mul_div_assoc]

theorem repeated_isCount (h : IsCount a) : IsCount (repeated k a) :=
  ⟨fun i j => mul_nonneg hk.le (h.nonneg i j), by rw [repeated_total]; exact mul_pos hk h.pos⟩

end

namespace Props

/-- **C70 (chi2).** Repeating every record `k` times multiplies Pearson's and the likelihood-ratio statistic by `k`, unless the table
has two rows and two columns. -/
theorem chi2_repeated {a : Arr2 ℝ} (h : IsCount a) (h2 : ¬ (nRows a = 2 ∧ nCols a = 2)) {k : ℝ} (hk : 0 < k) :
    (∃ x, getChi2 a "pearson" = .ok x ∧ getChi2 (repeated k a) "pearson" = .ok (k * x)) ∧
    (∃ x, getChi2 a "log-likelihood" = .ok x ∧ getChi2 (repeated k a) "log-likelihood" = .ok (k * x)) := by
  have h' := repeated_isCount hk h
  have hs : ∀ cell : ℝ → ℝ → ℝ, (∀ o e, cell (k * o) (k * e) = k * cell o e) →
      statistic cell (repeated k a) = k * statistic cell a := by
    intro cell hcell
    unfold statistic
    rw [repeated_nRows hk, repeated_nCols hk]
    simp only [if_neg h2]
    split
    · simp
    · rw [Finset.mul_sum]
      refine Finset.sum_congr rfl fun i _ => ?_
      rw [Finset.mul_sum]
      refine Finset.sum_congr rfl fun j _ => ?_
      change (if expect (repeated k a) (i : Fin a.r) (j : Fin a.c) = 0 then 0 else cell (k * a.v i j)
        (expect (repeated k a) (i : Fin a.r) (j : Fin a.c))) = k * if expect a i j = 0 then 0 else cell (a.v i j) (expect a i j)
      have he := repeated_expect (a := a) hk i j
      generalize expect (repeated k a) (i : Fin a.r) (j : Fin a.c) = e' at he
      rw [he]
      by_cases h0 : expect a i j = 0
      · simp [h0]
      · rw [if_neg h0, if_neg (mul_ne_zero hk.ne' h0)]
        exact hcell _ _
  refine ⟨⟨_, (get_chi2_value h).1, ?_⟩, ⟨_, (get_chi2_value h).2, ?_⟩⟩
  · rw [(get_chi2_value h').1, hs]
    intro o e
    unfold pearsonCell
    rw [← mul_sub, mul_pow, pow_two, mul_assoc, mul_div_mul_left _ _ hk.ne', mul_div_assoc]
  · rw [(get_chi2_value h').2, hs]
    intro o e
    unfold gCell
    rw [mul_div_mul_left _ _ hk.ne']; ring

/-- **C70.** Without noise correction phik depends on the proportions of the table only: repeating every record `k` times does not change
it, unless the table has two rows and two columns (`repeated_binary`). The root finder's answer must not depend on
the unit of the function values. -/
theorem phik_repeated {mvn : ℝ → Rect → ℝ} (hm : MvnSpec mvn) {brentq : (ℝ → ℝ) → ℝ → ℝ → ℝ → Except Err ℝ} (hb : ScaleFree brentq)
    {a : Arr2 ℝ} (h : IsCount a) (h2 : ¬ (nRows a = 2 ∧ nCols a = 2)) {k : ℝ} (hk : 0 < k) :
    phikFromHist2d mvn brentq (repeated k a) false = phikFromHist2d mvn brentq a false := by
  obtain ⟨⟨x, h1, h1'⟩, -⟩ := chi2_repeated h h2 hk
  obtain ⟨-, -, hx⟩ := pearson_bounds h h1
  have hx' : k * x ≤ k * (a.total * (min (a.r - 1) (a.c - 1) : ℕ)) := mul_le_mul_of_nonneg_left hx hk.le
  have hr : 1 ≤ a.r := by
    by_contra hc
    have : IsEmpty (Fin a.r) := by rw [show a.r = 0 by omega]; infer_instance
    have := h.pos
    simp [Arr2.total] at this
  have hc : 1 ≤ a.c := by
    by_contra hc
    have : IsEmpty (Fin a.c) := by rw [show a.c = 0 by omega]; infer_instance
    have := h.pos
    simp [Arr2.total] at this
  unfold phikFromHist2d
  rw [h1, h1', repeated_total]
  simp only [bind, Except.bind, Bool.false_eq_true, if_false, lt_self_iff_false, Int.cast_zero]
  change phikFromChi2 mvn brentq (k * x) (k * a.total) (a.r : ℕ) (a.c : ℕ) none none 0 = _
  rw [phikFromChi2_eq hm brentq hr hc _ _ le_rfl, phikFromChi2_eq hm brentq hr hc _ _ le_rfl]
  have e1 : clampChi2 x (a.total * (min (a.r - 1) (a.c - 1) : ℕ)) = x := by
    unfold clampChi2; rw [if_neg fun h => absurd h.1 (not_lt.2 hx)]
  have e2 : clampChi2 (k * x) (k * a.total * (min (a.r - 1) (a.c - 1) : ℕ)) = k * x := by
    unfold clampChi2; rw [if_neg fun h => absurd h.1 (not_lt.2 (by rw [mul_assoc]; exact hx'))]
  rw [e1, e2]
  have c1 : k * x ≤ 0 ↔ x ≤ 0 := by
    constructor
    · intro h; by_contra hc'; exact absurd h (not_le.2 (mul_pos hk (not_le.1 hc')))
    · intro h; exact mul_nonpos_of_nonneg_of_nonpos hk.le h
  have c2 : k * a.total * (min (a.r - 1) (a.c - 1) : ℕ) ≤ k * x ↔ a.total * (min (a.r - 1) (a.c - 1) : ℕ) ≤ x := by
    rw [mul_assoc]; exact mul_le_mul_iff_of_pos_left hk
  have c3 : k * a.total * distance mvn a.r a.c 1 = 0 ↔ a.total * distance mvn a.r a.c 1 = 0 := by
    rw [mul_assoc]; simp [hk.ne']
  simp only [c1, c2, c3]
  have : (fun rho => 0 + k * a.total * distance mvn a.r a.c rho *
        ((k * a.total * (min (a.r - 1) (a.c - 1) : ℕ) - 0) / (k * a.total * distance mvn a.r a.c 1)) - k * x) =
      fun rho => k * (0 + a.total * distance mvn a.r a.c rho *
        ((a.total * (min (a.r - 1) (a.c - 1) : ℕ) - 0) / (a.total * distance mvn a.r a.c 1)) - x) := by
    funext rho
    rw [sub_zero, sub_zero, mul_assoc k a.total ((min (a.r - 1) (a.c - 1) : ℕ) : ℝ), mul_assoc k a.total (distance mvn a.r a.c 1), mul_div_mul_left _ _ hk.ne']
    ring
  rw [this, hb _ 0 1 (1 / 10 ^ 5) k hk]

/-- The ideal root finder is free of scale. -/
theorem idealBrentq_scaleFree : ScaleFree idealBrentq := by
  intro f a b xtol k hk
  unfold idealBrentq
  have e1 : (0 < k * f a * (k * f b)) = (0 < f a * f b) := by
    rw [show k * f a * (k * f b) = k * k * (f a * f b) by ring]
    exact propext (mul_pos_iff_of_pos_left (mul_pos hk hk))
  have e2 : (fun x => x ∈ Set.Icc a b ∧ k * f x = 0) = fun x => x ∈ Set.Icc a b ∧ f x = 0 := by
    funext x; simp [hk.ne']
  have ch : ∀ (P Q : ℝ → Prop) (_ : P = Q) (hp : ∃ x, P x) (hq : ∃ x, Q x), hp.choose = hq.choose := by
    rintro P _ rfl _ _; rfl
  by_cases hs : 0 < f a * f b
  · rw [if_pos hs, if_pos (e1 ▸ hs)]
  rw [if_neg hs, if_neg (e1 ▸ hs)]
  by_cases h : ∃ x ∈ Set.Icc a b, f x = 0
  · have h' : ∃ x ∈ Set.Icc a b, k * f x = 0 := by
      obtain ⟨x, hx, h0⟩ := h; exact ⟨x, hx, by rw [h0, mul_zero]⟩
    rw [dif_pos h, dif_pos h', ch _ _ e2 h' h]
  · have h' : ¬ ∃ x ∈ Set.Icc a b, k * f x = 0 := by
      rintro ⟨x, hx, h0⟩; exact h ⟨x, hx, by simpa [hk.ne'] using h0⟩
    rw [dif_neg h, dif_neg h']

/-- Non-vacuity: a three by three table, every record repeated seven times. -/
example : phikFromHist2d gaussMvn idealBrentq (repeated 7 exDiag) false = phikFromHist2d gaussMvn idealBrentq exDiag false := by
  refine phik_repeated gaussian_mvn_spec idealBrentq_scaleFree (data_isCount exDiag_data.1 (by decide)) ?_ (by norm_num)
  have : nRows exDiag = 3 := by
    unfold nRows; rw [Nat.card_congr (Equiv.subtypeUnivEquiv exDiag_data.1.rows), Nat.card_fin]; rfl
  omega

/-- Two identical binary columns with one record each. -/
noncomputable def exTwo : Arr2 ℝ := ⟨2, 2, ![![1, 0], ![0, 1]]⟩

theorem exTwo_data {k : ℕ} (hk : 0 < k) : DataTable (repeated k exTwo) := by
  have h0 : (k : ℝ) ≠ 0 := by exact_mod_cast hk.ne'
  refine ⟨?_, ?_, ?_⟩
  · intro i j
    change Fin 2 at i j
    exact ⟨k * (![![1, 0], ![0, 1]] : Fin 2 → Fin 2 → ℕ) i j, by fin_cases i <;> fin_cases j <;> simp [exTwo, repeated]⟩
  · intro i; change Fin 2 at i; exact ⟨i, by fin_cases i <;> simp [exTwo, repeated, h0]⟩
  · intro i; change Fin 2 at i; exact ⟨i, by fin_cases i <;> simp [exTwo, repeated, h0]⟩

theorem exTwo_chi2 : getChi2 (repeated (1 : ℕ) exTwo) "pearson" = .ok 0 ∧ getChi2 (repeated (2 : ℕ) exTwo) "pearson" = .ok 1 := by
  have key : ∀ k : ℕ, 0 < k → getChi2 (repeated k exTwo) "pearson" =
      .ok (4 * pearsonCell (corrected (k : ℝ) (k / 2)) (k / 2) / 2 + 4 * pearsonCell (corrected 0 ((k : ℝ) / 2)) (k / 2) / 2) := by
    intro k hk
    have h0 : (0 : ℝ) < k := by exact_mod_cast hk
    have hd := exTwo_data hk
    have hc := data_isCount hd le_rfl
    rw [(get_chi2_value hc).1]
    congr 1
    have e1 : nRows (repeated k exTwo) = 2 := by
      unfold nRows; rw [Nat.card_congr (Equiv.subtypeUnivEquiv hd.rows), Nat.card_fin]; rfl
    have e2 : nCols (repeated k exTwo) = 2 := by
      unfold nCols; rw [Nat.card_congr (Equiv.subtypeUnivEquiv hd.cols), Nat.card_fin]; rfl
    have e3 : ∀ i j : Fin 2, expect (repeated k exTwo) i j = (k : ℝ) / 2 := by
      intro i j
      change (∑ j' : Fin 2, (k : ℝ) * (![![1, 0], ![0, 1]] : Fin 2 → Fin 2 → ℝ) i j') *
        (∑ i' : Fin 2, (k : ℝ) * (![![1, 0], ![0, 1]] : Fin 2 → Fin 2 → ℝ) i' j) /
        (∑ i' : Fin 2, ∑ j' : Fin 2, (k : ℝ) * (![![1, 0], ![0, 1]] : Fin 2 → Fin 2 → ℝ) i' j') = _
      fin_cases i <;> fin_cases j <;> simp [Fin.sum_univ_two] <;> field_simp <;> norm_num
    unfold statistic
    rw [if_neg (by omega)]
    simp only [e1, e2, and_self, if_true]
    change ∑ i : Fin 2, ∑ j : Fin 2, (if expect (repeated k exTwo) i j = 0 then 0 else pearsonCell (corrected
      ((k : ℝ) * (![![1, 0], ![0, 1]] : Fin 2 → Fin 2 → ℝ) i j) (expect (repeated k exTwo) i j)) (expect (repeated k exTwo) i j)) = _
    simp only [e3, if_neg (show (k : ℝ) / 2 ≠ 0 by positivity), Fin.sum_univ_two]
    simp
    ring
  constructor
  · rw [key 1 one_pos]; norm_num [pearsonCell, corrected, abs_of_nonneg, abs_of_nonpos]
  · rw [key 2 two_pos]; norm_num [pearsonCell, corrected, abs_of_nonneg, abs_of_nonpos]

/-- **C70 (violated for binary variables).** Two identical binary columns with one record in each category have phik 0, and a positive phik if
every record is repeated (true bivariate normal integrals, ideal root finder). -/
theorem repeated_binary : phikFromHist2d gaussMvn idealBrentq (repeated (1 : ℕ) exTwo) false = .ok 0 ∧
    ∃ x, phikFromHist2d gaussMvn idealBrentq (repeated (2 : ℕ) exTwo) false = .ok x ∧ 0 < x := by
  constructor
  · obtain ⟨chi2, ped, mx, x, h1, h2, -, -, -, h3, -, -, h4, -⟩ :=
      phik_of_data gaussian_mvn_spec idealBrentq_spec (exTwo_data one_pos) le_rfl le_rfl false
    rw [exTwo_chi2.1, Except.ok.injEq] at h1
    rw [h3, h4 (by rw [← h1, h2]; simp)]
  · have ht : (repeated (2 : ℕ) exTwo).total = 4 := by
      rw [repeated_total]
      change _ * ∑ i : Fin 2, ∑ j : Fin 2, (![![1, 0], ![0, 1]] : Fin 2 → Fin 2 → ℝ) i j = 4
      simp [Fin.sum_univ_two]; norm_num
    obtain ⟨-, -, c3⟩ := phik_from_chi2_cases gaussian_mvn_spec idealBrentq (r := 2) (c := 2) le_rfl le_rfl (chi2 := 1) (n := 4)
      (ped := 0) le_rfl (by norm_num) (by norm_num)
    have h := c3 (by norm_num) (by norm_num)
    obtain ⟨t0, t1⟩ := theory_ends gaussian_mvn_spec (r := 2) (c := 2) le_rfl le_rfl 4 0
    have hroot : ∃ x ∈ Set.Icc (0 : ℝ) 1, theoryChi2 gaussMvn 2 2 4 0 x - 1 = 0 := by
      obtain ⟨x, hx, hx0⟩ := intermediate_value_Icc (zero_le_one' ℝ)
        ((theory_cont gaussian_mvn_spec 2 2 4 0).sub (continuousOn_const (c := (1 : ℝ))))
        (show (0 : ℝ) ∈ Set.Icc _ _ by simp only [Pi.sub_apply, t0, t1]; norm_num)
      exact ⟨x, hx, hx0⟩
    refine ⟨hroot.choose, ?_, lt_of_le_of_ne hroot.choose_spec.1.1 fun he => ?_⟩
    · unfold phikFromHist2d
      rw [exTwo_chi2.2, ht]
      simp only [bind, Except.bind, Bool.false_eq_true, if_false, lt_self_iff_false, Int.cast_zero]
      refine Eq.trans h ?_
      unfold idealBrentq
      rw [if_neg (by simp only [t0, t1]; norm_num), dif_pos hroot]
    · have := hroot.choose_spec.2
      rw [← he, t0] at this
      norm_num at this

/-! ### phik as a function of chi2 and of the pedestal -/

/-- If the distance of the binned normal distributions grows with the correlation, so does the theoretical chi2. -/
theorem theory_strict {mvn : ℝ → Rect → ℝ} (hm : MvnSpec mvn) {r c : ℕ} (hr : 2 ≤ r) (hc : 2 ≤ c)
    (hd : StrictMonoOn (distance mvn r c) (Set.Icc 0 1)) {n ped : ℝ} (hmax : ped < n * (min (r - 1) (c - 1) : ℕ)) :
    StrictMonoOn (theoryChi2 mvn r c n ped) (Set.Icc 0 1) := by
  intro x hx y hy hxy
  have h3 := div_lt_div_of_pos_right (hd hx hy hxy) (distance_one_pos hm hr hc)
  have := mul_lt_mul_of_pos_left h3 (sub_pos.2 hmax)
  unfold theoryChi2
  linarith

/-- `phik_from_chi2` returns, up to the tolerance of the root finder, a correlation whose theoretical chi2 is the given one, moved into
the range of the curve. -/
theorem phik_near {mvn : ℝ → Rect → ℝ} (hm : MvnSpec mvn) {brentq : (ℝ → ℝ) → ℝ → ℝ → ℝ → Except Err ℝ} (hb : BrentqSpec brentq)
    {r c : ℕ} (hr : 2 ≤ r) (hc : 2 ≤ c) {n ped : ℝ} (hn : 0 < n) (hp : 0 ≤ ped) (hmax : ped < n * (min (r - 1) (c - 1) : ℕ)) (chi2 : ℝ) :
    ∃ x x₀, phikFromChi2 mvn brentq chi2 n r c none none ped = .ok x ∧ x₀ ∈ Set.Icc (0 : ℝ) 1 ∧ |x - x₀| ≤ rootTol ∧
      theoryChi2 mvn r c n ped x₀ = max ped (min chi2 (n * (min (r - 1) (c - 1) : ℕ))) := by
  obtain ⟨c1, c2, c3⟩ := phik_from_chi2_cases hm brentq hr hc (chi2 := chi2) hp hn hmax
  obtain ⟨t0, t1⟩ := theory_ends hm hr hc n ped
  have ht : 0 ≤ rootTol := by unfold rootTol; positivity
  rcases le_or_gt chi2 ped with h | h
  · refine ⟨0, 0, c1 h, ⟨le_rfl, zero_le_one⟩, by simpa using ht, ?_⟩
    rw [t0, min_eq_left (h.trans hmax.le), max_eq_left h]
  rcases le_or_gt (n * (min (r - 1) (c - 1) : ℕ)) chi2 with h' | h'
  · refine ⟨1, 1, c2 h', ⟨zero_le_one, le_rfl⟩, by simpa using ht, ?_⟩
    rw [t1, min_eq_right h', max_eq_right hmax.le]
  · obtain ⟨x, e1, -, x₀, g0, g1, g2⟩ := hb.root (fun r' => theoryChi2 mvn r c n ped r' - chi2)
      0 1 (1 / 10 ^ 5) zero_le_one (by norm_num) ((theory_cont hm _ _ _ _).sub continuousOn_const)
      (by simp only [t0]; linarith) (by simp only [t1]; linarith)
    refine ⟨x, x₀, (c3 h h').trans e1, g0, g2.trans ?_, ?_⟩
    · unfold rootTol
      have : |x₀| ≤ 1 := abs_le.2 ⟨by linarith [g0.1], g0.2⟩
      have h2 : (0 : ℝ) ≤ 4 * 2 ^ (-52 : ℤ) := by positivity
      have := mul_le_mul_of_nonneg_left this h2
      linarith
    · rw [min_eq_left h'.le, max_eq_right h.le]; linarith

/-- **C71 (chi2).** phik does not decrease with chi2, up to the tolerance of the root finder: for a grid on which the distance of the
binned normal distributions grows with the correlation. -/
theorem phik_mono_chi2 {mvn : ℝ → Rect → ℝ} (hm : MvnSpec mvn) {brentq : (ℝ → ℝ) → ℝ → ℝ → ℝ → Except Err ℝ} (hb : BrentqSpec brentq)
    {r c : ℕ} (hr : 2 ≤ r) (hc : 2 ≤ c) (hd : StrictMonoOn (distance mvn r c) (Set.Icc 0 1)) {n ped : ℝ} (hn : 0 < n) (hp : 0 ≤ ped)
    (hmax : ped < n * (min (r - 1) (c - 1) : ℕ)) {chi2 chi2' : ℝ} (hle : chi2 ≤ chi2') :
    ∃ x x', phikFromChi2 mvn brentq chi2 n r c none none ped = .ok x ∧ phikFromChi2 mvn brentq chi2' n r c none none ped = .ok x' ∧
      x ≤ x' + 2 * rootTol := by
  obtain ⟨x, x₀, h1, h2, h3, h4⟩ := phik_near hm hb hr hc hn hp hmax chi2
  obtain ⟨x', x₀', h1', h2', h3', h4'⟩ := phik_near hm hb hr hc hn hp hmax chi2'
  refine ⟨x, x', h1, h1', ?_⟩
  have hx : x₀ ≤ x₀' := by
    rw [← (theory_strict hm hr hc hd hmax).le_iff_le h2 h2', h4, h4']
    exact max_le_max le_rfl (min_le_min hle le_rfl)
  have := abs_le.1 h3
  have := abs_le.1 h3'
  linarith

/-- **C71 (pedestal).** phik does not increase with the noise pedestal, up to the tolerance of the root finder. -/
theorem phik_anti_pedestal {mvn : ℝ → Rect → ℝ} (hm : MvnSpec mvn) {brentq : (ℝ → ℝ) → ℝ → ℝ → ℝ → Except Err ℝ} (hb : BrentqSpec brentq)
    {r c : ℕ} (hr : 2 ≤ r) (hc : 2 ≤ c) (hd : StrictMonoOn (distance mvn r c) (Set.Icc 0 1)) {n ped ped' : ℝ} (hn : 0 < n) (hp : 0 ≤ ped)
    (hle : ped ≤ ped') (hmax : ped' < n * (min (r - 1) (c - 1) : ℕ)) (chi2 : ℝ) :
    ∃ x x', phikFromChi2 mvn brentq chi2 n r c none none ped = .ok x ∧ phikFromChi2 mvn brentq chi2 n r c none none ped' = .ok x' ∧
      x' ≤ x + 2 * rootTol := by
  obtain ⟨x, x₀, h1, h2, h3, h4⟩ := phik_near hm hb hr hc hn hp (hle.trans_lt hmax) chi2
  obtain ⟨x', x₀', h1', h2', h3', h4'⟩ := phik_near hm hb hr hc hn (hp.trans hle) hmax chi2
  refine ⟨x, x', h1, h1', ?_⟩
  have hx : x₀' ≤ x₀ := by
    rcases le_or_gt chi2 ped' with h | h
    · have : theoryChi2 mvn r c n ped' x₀' = theoryChi2 mvn r c n ped' 0 := by
        rw [h4', (theory_ends hm hr hc n ped').1, min_eq_left (h.trans hmax.le), max_eq_left h]
      rw [(theory_strict hm hr hc hd hmax).injOn h2' ⟨le_rfl, zero_le_one⟩ this]
      exact h2.1
    · rw [← (theory_strict hm hr hc hd hmax).le_iff_le h2' h2, h4', ]
      have hD : distance mvn r c x₀ / distance mvn r c 1 ≤ 1 := by
        rw [div_le_one (distance_one_pos hm hr hc)]
        exact hd.monotoneOn h2 ⟨zero_le_one, le_rfl⟩ h2.2
      have e : max ped' (min chi2 (n * (min (r - 1) (c - 1) : ℕ))) = max ped (min chi2 (n * (min (r - 1) (c - 1) : ℕ))) := by
        rw [max_eq_right (le_min h.le hmax.le), max_eq_right (le_min (hle.trans h.le) (hle.trans hmax.le))]
      rw [e, ← h4]
      unfold theoryChi2
      nlinarith
  have := abs_le.1 h3
  have := abs_le.1 h3'
  linarith

/-- **C71 (noise correction).** For every table built from data that is square or has two rows or two columns, with the true bivariate normal integrals, the noise correction
does not increase phik, up to the tolerance of the root finder. -/
theorem noise_correction_lowers {brentq : (ℝ → ℝ) → ℝ → ℝ → ℝ → Except Err ℝ} (hb : BrentqSpec brentq)
    {a : Arr2 ℝ} (h : DataTable a) (hr : 2 ≤ a.r) (hc : 2 ≤ a.c) (hsq : SquareOrBinary a.r a.c) :
    ∃ x x', phikFromHist2d gaussMvn brentq a false = .ok x ∧ phikFromHist2d gaussMvn brentq a true = .ok x' ∧ x' ≤ x + 2 * rootTol := by
  have ha := data_isCount h hr
  have hchi := (get_chi2_value ha).1
  have hend : estimateSimpleNdof a = ((a.r : ℤ) - 1) * ((a.c : ℤ) - 1) := (estimate_simple_ndof_full ha).2 h.rows h.cols
  have hnn : (0 : ℤ) ≤ ((a.r : ℤ) - 1) * ((a.c : ℤ) - 1) := by apply mul_nonneg <;> omega
  have hd : StrictMonoOn (distance gaussMvn a.r a.c) (Set.Icc 0 1) := grid_distance_strict hr hc hsq
  obtain ⟨x, x', h1, h2, h3⟩ := phik_anti_pedestal gaussian_mvn_spec hb hr hc hd (n := a.total) (ped := 0)
    (ped' := (((a.r : ℤ) - 1) * ((a.c : ℤ) - 1) : ℤ)) ha.pos le_rfl (by exact_mod_cast hnn) (data_max_above_pedestal h hr hc)
    (statistic pearsonCell a)
  refine ⟨x, x', ?_, ?_, h3⟩
  · unfold phikFromHist2d
    rw [hchi]
    simp only [bind, Except.bind, Bool.false_eq_true, if_false, lt_self_iff_false, Int.cast_zero]
    exact h1
  · unfold phikFromHist2d
    rw [hchi]
    simp only [bind, Except.bind, if_true, hend, if_neg (not_lt.2 hnn)]
    exact h2

/-- **C70 (any root finder).** For a table that is square or has two rows or two columns, with the true bivariate normal integrals, phik of repeated records changes by no more
than the tolerances, whatever root finder is used. -/
theorem phik_repeated_tol {brentq : (ℝ → ℝ) → ℝ → ℝ → ℝ → Except Err ℝ} (hb : BrentqSpec brentq) {a : Arr2 ℝ} (h : IsCount a)
    (h2 : ¬ (nRows a = 2 ∧ nCols a = 2)) (hr : 2 ≤ a.r) (hc : 2 ≤ a.c) (hsq : SquareOrBinary a.r a.c) {k : ℝ} (hk : 0 < k) :
    ∃ x x', phikFromHist2d gaussMvn brentq a false = .ok x ∧ phikFromHist2d gaussMvn brentq (repeated k a) false = .ok x' ∧
      |x' - x| ≤ 2 * rootTol := by
  obtain ⟨⟨y, q1, q1'⟩, -⟩ := chi2_repeated h h2 hk
  have hd : StrictMonoOn (distance gaussMvn a.r a.c) (Set.Icc 0 1) := grid_distance_strict hr hc hsq
  have hm : (0 : ℝ) < a.total * (min (a.r - 1) (a.c - 1) : ℕ) := by
    have : 0 < min (a.r - 1) (a.c - 1) := by omega
    have := h.pos
    positivity
  obtain ⟨x, x₀, e1, e2, e3, e4⟩ := phik_near gaussian_mvn_spec hb hr hc h.pos le_rfl hm y
  obtain ⟨x', x₀', e1', e2', e3', e4'⟩ := phik_near gaussian_mvn_spec hb hr hc (n := k * a.total) (mul_pos hk h.pos) le_rfl
    (by rw [mul_assoc]; exact mul_pos hk hm) (k * y)
  have hsc : ∀ z, theoryChi2 gaussMvn a.r a.c (k * a.total) 0 z = k * theoryChi2 gaussMvn a.r a.c a.total 0 z := by
    intro z; unfold theoryChi2; ring
  have hxx : x₀' = x₀ := by
    apply (theory_strict gaussian_mvn_spec hr hc hd hm).injOn e2' e2
    have : k * theoryChi2 gaussMvn a.r a.c a.total 0 x₀' = k * theoryChi2 gaussMvn a.r a.c a.total 0 x₀ := by
      rw [← hsc, e4', e4, mul_assoc, ← mul_min_of_nonneg _ _ hk.le, mul_max_of_nonneg _ _ hk.le, mul_zero]
    exact mul_left_cancel₀ hk.ne' this
  refine ⟨x, x', ?_, ?_, ?_⟩
  · unfold phikFromHist2d
    rw [q1]
    simp only [bind, Except.bind, Bool.false_eq_true, if_false, lt_self_iff_false, Int.cast_zero]
    exact e1
  · unfold phikFromHist2d
    rw [q1', repeated_total]
    simp only [bind, Except.bind, Bool.false_eq_true, if_false, lt_self_iff_false, Int.cast_zero]
    exact e1'
  · rw [hxx] at e3'
    have := abs_le.1 e3
    have := abs_le.1 e3'
    exact abs_le.2 ⟨by linarith, by linarith⟩

theorem repeated_data {a : Arr2 ℝ} (h : DataTable a) {k : ℕ} (hk : 0 < k) : DataTable (repeated k a) := by
  have hk' : (0 : ℝ) < k := by exact_mod_cast hk
  refine ⟨fun i j => ?_, fun i => (repeated_fullRow (a := a) hk' i).2 (h.rows i), fun j => (repeated_fullCol (a := a) hk' j).2 (h.cols j)⟩
  obtain ⟨m, hm⟩ := h.counts i j
  exact ⟨k * m, by change (k : ℝ) * a.v i j = _; rw [hm]; push_cast; rfl⟩

/-- **C71 (large samples).** The noise correction fades: for a table (not two by two) built from data that is square or
has two rows or two columns, with the true bivariate normal
integrals, phik with noise correction of the data repeated `k` times approaches phik without noise correction, up to the tolerances. -/
theorem noise_correction_fades {brentq : (ℝ → ℝ) → ℝ → ℝ → ℝ → Except Err ℝ} (hb : BrentqSpec brentq)
    {a : Arr2 ℝ} (h : DataTable a) (hr : 2 ≤ a.r) (hc : 2 ≤ a.c) (hsq : SquareOrBinary a.r a.c)
    (h3 : ¬ (a.r = 2 ∧ a.c = 2)) {ε : ℝ} (hε : 0 < ε) :
    ∃ x, phikFromHist2d gaussMvn brentq a false = .ok x ∧ ∃ K : ℕ, ∀ k : ℕ, K ≤ k → ∃ x',
      phikFromHist2d gaussMvn brentq (repeated k a) true = .ok x' ∧ |x' - x| ≤ 2 * rootTol + ε := by
  have ha := data_isCount h hr
  have h2 : ¬ (nRows a = 2 ∧ nCols a = 2) := by
    have : nRows a = a.r := by
      unfold nRows; rw [Nat.card_congr (Equiv.subtypeUnivEquiv h.rows), Nat.card_fin]
    have : nCols a = a.c := by
      unfold nCols; rw [Nat.card_congr (Equiv.subtypeUnivEquiv h.cols), Nat.card_fin]
    omega
  have hd : StrictMonoOn (distance gaussMvn a.r a.c) (Set.Icc 0 1) := grid_distance_strict hr hc hsq
  have hd1 := distance_one_pos gaussian_mvn_spec hr hc
  set M : ℝ := a.total * (min (a.r - 1) (a.c - 1) : ℕ) with hM
  have hM0 : 0 < M := by
    have : 0 < min (a.r - 1) (a.c - 1) := by omega
    have := ha.pos
    positivity
  set D : ℝ → ℝ := fun z => distance gaussMvn a.r a.c z / distance gaussMvn a.r a.c 1 with hD
  have hDm : StrictMonoOn D (Set.Icc 0 1) := fun x hx y hy hxy => div_lt_div_of_pos_right (hd hx hy hxy) hd1
  set p : ℤ := ((a.r : ℤ) - 1) * ((a.c : ℤ) - 1) with hp
  have hp0 : (0 : ℤ) ≤ p := by apply mul_nonneg <;> omega
  have hp0' : (0 : ℝ) ≤ p := by exact_mod_cast hp0
  obtain ⟨y, q1⟩ : ∃ y, getChi2 a "pearson" = .ok y := ⟨_, (get_chi2_value ha).1⟩
  obtain ⟨y0, -, yM⟩ := pearson_bounds ha q1
  rw [← hM] at yM
  obtain ⟨x, x₀, e1, e2, e3, e4⟩ := phik_near gaussian_mvn_spec hb hr hc ha.pos le_rfl hM0 y
  rw [min_eq_left yM, max_eq_right y0] at e4
  have hx0 : D x₀ = y / M := by
    rw [eq_div_iff hM0.ne', ← e4]
    unfold theoryChi2
    rw [← hM, hD]; ring
  refine ⟨x, ?_, ?_⟩
  · unfold phikFromHist2d
    rw [q1]
    simp only [bind, Except.bind, Bool.false_eq_true, if_false, lt_self_iff_false, Int.cast_zero]
    exact e1
  -- close values of `D` have close arguments
  obtain ⟨δ, hδ, hclose⟩ : ∃ δ > 0, ∀ z ∈ Set.Icc (0 : ℝ) 1, |D z - D x₀| < δ → |z - x₀| ≤ ε := by
    refine ⟨min (if x₀ + ε ≤ 1 then D (x₀ + ε) - D x₀ else 1) (if 0 ≤ x₀ - ε then D x₀ - D (x₀ - ε) else 1), ?_, ?_⟩
    · refine lt_min ?_ ?_
      · split
        · next h' => exact sub_pos.2 (hDm e2 ⟨by linarith [e2.1], h'⟩ (by linarith))
        · exact one_pos
      · split
        · next h' => exact sub_pos.2 (hDm ⟨h', by linarith [e2.2]⟩ e2 (by linarith))
        · exact one_pos
    · intro z hz hlt
      by_contra hcon
      rw [not_le, lt_abs] at hcon
      rcases hcon with hcon | hcon
      · have h1 : x₀ + ε ≤ 1 := by linarith [hz.2]
        have := hlt.trans_le (min_le_left _ _)
        rw [if_pos h1] at this
        have := hDm ⟨by linarith [e2.1], h1⟩ hz (show x₀ + ε < z by linarith)
        have := le_abs_self (D z - D x₀)
        linarith
      · have h1 : 0 ≤ x₀ - ε := by linarith [hz.1]
        have := hlt.trans_le (min_le_right _ _)
        rw [if_pos h1] at this
        have := hDm hz ⟨h1, by linarith [e2.2]⟩ (show z < x₀ - ε by linarith)
        have := neg_abs_le (D z - D x₀)
        linarith
  obtain ⟨K, hK⟩ := exists_nat_gt (max ((p : ℝ) / M + (p : ℝ) / (M * δ)) 1)
  refine ⟨K, fun k hk => ?_⟩
  have hkK : (K : ℝ) ≤ k := by exact_mod_cast hk
  have hk1 : (1 : ℝ) < k := (le_max_right _ _).trans_lt (hK.trans_le hkK)
  have hk0 : (0 : ℝ) < k := by linarith
  have hkn : 0 < k := by exact_mod_cast hk0
  have hkp : (p : ℝ) / M + (p : ℝ) / (M * δ) < k := (le_max_left _ _).trans_lt (hK.trans_le hkK)
  have hbig : (p : ℝ) + p / δ < k * M := by
    have := mul_lt_mul_of_pos_right hkp hM0
    have e : ((p : ℝ) / M + (p : ℝ) / (M * δ)) * M = p + p / δ := by field_simp
    linarith
  have hpd : 0 ≤ (p : ℝ) / δ := by positivity
  have hdat := repeated_data h hkn
  have hak := data_isCount hdat hr
  obtain ⟨⟨y', q2, q3⟩, -⟩ := chi2_repeated ha h2 hk0
  obtain rfl : y' = y := by rw [q1] at q2; simpa using q2.symm
  have hend : estimateSimpleNdof (repeated k a) = p := (estimate_simple_ndof_full hak).2 hdat.rows hdat.cols
  obtain ⟨x', x₀', f1, f2, f3, f4⟩ := phik_near gaussian_mvn_spec hb hr hc (n := k * a.total) (ped := p) (mul_pos hk0 ha.pos) hp0'
    (by rw [mul_assoc, ← hM]; linarith) (k * y')
  refine ⟨x', ?_, ?_⟩
  · unfold phikFromHist2d
    rw [q3, repeated_total]
    simp only [bind, Except.bind, if_true, hend, if_neg (not_lt.2 hp0)]
    exact f1
  have hkM : 0 < k * M - p := by linarith
  have hyk : (k : ℝ) * y' ≤ k * M := mul_le_mul_of_nonneg_left yM hk0.le
  have g : D x₀' = (max (p : ℝ) (k * y') - p) / (k * M - p) := by
    rw [eq_div_iff hkM.ne']
    rw [mul_assoc, ← hM, min_eq_left hyk] at f4
    rw [← f4]
    unfold theoryChi2
    rw [mul_assoc, ← hM, hD]; ring
  have hnear : |x₀' - x₀| ≤ ε := by
    apply hclose _ f2
    rw [g, hx0]
    have key : |(max (p : ℝ) (k * y') - p) / (k * M - p) - y' / M| ≤ p / (k * M - p) := by
      rw [div_sub_div _ _ hkM.ne' hM0.ne', abs_div, abs_of_pos (mul_pos hkM hM0), div_le_div_iff₀ (mul_pos hkM hM0) hkM]
      have : |(max (p : ℝ) (k * y') - p) * M - (k * M - p) * y'| ≤ p * M := by
        rw [abs_le]
        rcases le_total (p : ℝ) (k * y') with hh | hh
        · rw [max_eq_right hh]
          constructor <;> nlinarith
        · rw [max_eq_left hh]
          constructor <;> nlinarith
      nlinarith
    refine key.trans_lt ?_
    rw [div_lt_iff₀ hkM]
    have : p / δ < k * M - p := by linarith
    rw [div_lt_iff₀ hδ] at this
    linarith
  have := abs_le.1 e3
  have := abs_le.1 f3
  have := abs_le.1 hnear
  exact abs_le.2 ⟨by linarith, by linarith⟩

/-- Non-vacuity. -/
example := noise_correction_lowers idealBrentq_spec exDiag_data.1 (by decide) (by decide) (.inl rfl)
example := noise_correction_fades idealBrentq_spec exDiag_data.1 (by decide) (by decide) (.inl rfl) (by decide) (show (0 : ℝ) < 1 / 1000 by norm_num)

/-- A table with two rows and three columns. -/
theorem exTable_data : DataTable exTable := by
  refine ⟨fun i j => ?_, fun i => ?_, fun j => ?_⟩
  · fin_cases i <;> fin_cases j
    exacts [⟨5, by simp [exTable]⟩, ⟨0, by simp [exTable]⟩, ⟨0, by simp [exTable]⟩, ⟨1, by simp [exTable]⟩, ⟨4, by simp [exTable]⟩,
      ⟨4, by simp [exTable]⟩]
  · refine ⟨⟨0, by decide⟩, ?_⟩
    fin_cases i <;> simp [exTable]
  · refine ⟨⟨1, by decide⟩, ?_⟩
    fin_cases j <;> simp [exTable]

example := noise_correction_lowers idealBrentq_spec exTable_data (by decide) (by decide) (.inr (.inl rfl))
example := noise_correction_fades idealBrentq_spec exTable_data (by decide) (by decide) (.inr (.inl rfl)) (by decide)
  (show (0 : ℝ) < 1 / 1000 by norm_num)

example : ∃ x x', phikFromChi2 gaussMvn idealBrentq 20 100 (3 : ℕ) (3 : ℕ) none none 4 = .ok x ∧
    phikFromChi2 gaussMvn idealBrentq 30 100 (3 : ℕ) (3 : ℕ) none none 4 = .ok x' ∧ x ≤ x' + 2 * rootTol :=
  phik_mono_chi2 gaussian_mvn_spec idealBrentq_spec (by norm_num) (by norm_num) (square_distance_strict (by norm_num)) (by norm_num)
    (by norm_num) (by norm_num) (by norm_num)

end Props

end Phik
