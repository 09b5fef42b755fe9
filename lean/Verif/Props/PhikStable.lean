import Verif.Props.CramerV
import Verif.Props.FloatStatsWitness

/-! # C93: phik is a stable function of chi2, and rounding errors hardly move it

With the true bivariate normal integrals and a square table. -/

namespace Phik.Props
open Spec Gauss Set

/-- Chi2 cut to the range between the pedestal and the maximum. -/
noncomputable def cutChi2 (ped mx chi2 : ℝ) : ℝ := max ped (min mx chi2)

theorem cut_mem {ped mx : ℝ} (h : ped ≤ mx) (chi2 : ℝ) : ped ≤ cutChi2 ped mx chi2 ∧ cutChi2 ped mx chi2 ≤ mx :=
  ⟨le_max_left _ _, max_le h (min_le_left _ _)⟩

theorem cut_close (ped mx a b : ℝ) : |cutChi2 ped mx a - cutChi2 ped mx b| ≤ |a - b| := by
  unfold cutChi2
  refine (abs_max_sub_max_le_max _ _ _ _).trans ?_
  rw [sub_self, abs_zero]
  refine max_le (abs_nonneg _) ((abs_min_sub_min_le_max _ _ _ _).trans ?_)
  rw [sub_self, abs_zero]
  exact max_le (abs_nonneg _) le_rfl

theorem cut_sqrt_close {mx : ℝ} (hm : 0 ≤ mx) (a b : ℝ) : |√(cutChi2 0 mx a) - √(cutChi2 0 mx b)| ≤ |√a - √b| := by
  have h : ∀ a, √(cutChi2 0 mx a) = cutChi2 0 √mx √a := by
    intro a
    unfold cutChi2
    have hmono : Monotone Real.sqrt := fun _ _ h => Real.sqrt_le_sqrt h
    rw [hmono.map_max, hmono.map_min, Real.sqrt_zero]
  rw [h, h]
  exact cut_close _ _ _ _

/-- What the function returns is close to the exact root for the cut chi2. -/
theorem root_of_cases {k : ℕ} (hk : 2 ≤ k) {n ped mx chi2 x : ℝ} (hlt : ped < mx) (hmx : mx = n * (k - 1 : ℕ))
    (hz : chi2 ≤ ped → x = 0) (ho : mx ≤ chi2 → x = 1)
    (hroot : ped < chi2 → chi2 < mx → ∃ x₀, 0 ≤ x₀ ∧ x₀ ≤ 1 ∧ theoryChi2 gaussMvn k k n ped x₀ = chi2 ∧
      |x - x₀| ≤ 1 / 10 ^ 5 + 4 * 2 ^ (-52 : ℤ) * |x₀|) :
    ∃ x₀ ∈ Icc (0 : ℝ) 1, theoryChi2 gaussMvn k k n ped x₀ = cutChi2 ped mx chi2 ∧ |x - x₀| ≤ rootTol := by
  have htol : 0 ≤ rootTol := by unfold rootTol; positivity
  obtain ⟨t0, t1⟩ := theory_ends gaussian_mvn_spec hk hk n ped
  rcases le_or_gt chi2 ped with h1 | h1
  · refine ⟨0, ⟨le_rfl, zero_le_one⟩, ?_, by rw [hz h1]; simpa using htol⟩
    rw [t0, cutChi2, max_eq_left ((min_le_right _ _).trans h1)]
  rcases le_or_gt mx chi2 with h2 | h2
  · refine ⟨1, ⟨zero_le_one, le_rfl⟩, ?_, by rw [ho h2]; simpa using htol⟩
    rw [t1, cutChi2, min_eq_left h2, max_eq_right hlt.le, hmx, min_self]
  · obtain ⟨x₀, g0, g1, gth, gx⟩ := hroot h1 h2
    refine ⟨x₀, ⟨g0, g1⟩, ?_, gx.trans ?_⟩
    · rw [gth, cutChi2, min_eq_right h2.le, max_eq_right h1.le]
    · unfold rootTol
      rw [abs_of_nonneg g0]
      have : (0 : ℝ) ≤ 4 * 2 ^ (-52 : ℤ) := by positivity
      nlinarith

/-- The exact roots of two values of chi2: the larger chi2 has the larger root, and the ratio of the squares of the roots is
at most the ratio of the values of chi2 above the pedestal. -/
theorem roots_scaled {k : ℕ} (hk : 2 ≤ k) {n ped u v x y : ℝ} (hmax : ped < n * (k - 1 : ℕ)) (hx : x ∈ Icc (0 : ℝ) 1)
    (hy : y ∈ Icc (0 : ℝ) 1) (ex : theoryChi2 gaussMvn k k n ped x = u) (ey : theoryChi2 gaussMvn k k n ped y = v) (huv : v ≤ u) :
    y ≤ x ∧ x ^ 2 * (v - ped) ≤ y ^ 2 * (u - ped) := by
  have hs := square_theory_strict hk hmax
  have hyx : y ≤ x := by
    by_contra hlt
    push Not at hlt
    have := hs hx hy hlt
    linarith
  refine ⟨hyx, ?_⟩
  have hD := distance_one_pos gaussian_mvn_spec hk hk
  have hpos : 0 < n * (k - 1 : ℕ) - ped := by linarith
  have h := square_distance_scaled k hy.1 hyx hx.2
  have e1 : u - ped = (n * (k - 1 : ℕ) - ped) / distance gaussMvn k k 1 * distance gaussMvn k k x := by
    rw [← ex, theoryChi2, min_self]; ring
  have e2 : v - ped = (n * (k - 1 : ℕ) - ped) / distance gaussMvn k k 1 * distance gaussMvn k k y := by
    rw [← ey, theoryChi2, min_self]; ring
  rw [e1, e2]
  have hf : 0 ≤ (n * (k - 1 : ℕ) - ped) / distance gaussMvn k k 1 := by positivity
  have := mul_le_mul_of_nonneg_left h hf
  linarith

/-- The difference of the squares of the exact roots is at most proportional to the difference of chi2. -/
theorem roots_sq_close {k : ℕ} (hk : 2 ≤ k) {n ped u v x y : ℝ} (hmax : ped < n * (k - 1 : ℕ)) (hu : ped ≤ u) (hv : ped ≤ v)
    (hx : x ∈ Icc (0 : ℝ) 1) (hy : y ∈ Icc (0 : ℝ) 1) (ex : theoryChi2 gaussMvn k k n ped x = u)
    (ey : theoryChi2 gaussMvn k k n ped y = v) :
    |x ^ 2 - y ^ 2| ≤ 26 * (k - 1 : ℕ) * (|u - v| / (n * (k - 1 : ℕ) - ped)) := by
  wlog huv : v ≤ u generalizing u v x y
  · have := this hv hu hy hx ey ex (le_of_not_ge huv)
    rwa [abs_sub_comm, abs_sub_comm u v]
  obtain ⟨h1, h2⟩ := roots_scaled hk hmax hx hy ex ey huv
  have hb := (square_root_bounds hk hmax hx.1 hx.2 ex).2
  have hbv := binnedVariance_ge hk
  have hpos : 0 < n * (k - 1 : ℕ) - ped := by linarith
  have hk0 : (0 : ℝ) ≤ (k - 1 : ℕ) := Nat.cast_nonneg _
  rw [abs_of_nonneg (by nlinarith [hy.1]), abs_of_nonneg (by linarith)]
  rcases hu.eq_or_lt with h | h
  · -- both are at the pedestal
    have hx0 : x ^ 2 * binnedVariance k ^ 2 ≤ 0 := by
      refine hb.trans_eq ?_
      rw [← h, sub_self]; simp
    have hx2 : x ^ 2 ≤ 0 := by
      have : 0 < binnedVariance k ^ 2 := by positivity
      by_contra hneg
      push Not at hneg
      nlinarith
    have : 0 ≤ 26 * ((k - 1 : ℕ) : ℝ) * ((u - v) / (n * (k - 1 : ℕ) - ped)) :=
      mul_nonneg (by positivity) (div_nonneg (by linarith) hpos.le)
    nlinarith [sq_nonneg y]
  · have hup : 0 < u - ped := by linarith
    have h3 : x ^ 2 ≤ 26 * (k - 1 : ℕ) * ((u - ped) / (n * (k - 1 : ℕ) - ped)) := by
      set F := (u - ped) / (n * (k - 1 : ℕ) - ped) with hF
      have hF0 : 0 ≤ F := by positivity
      have h4 : (1 / 5 : ℝ) ^ 2 ≤ binnedVariance k ^ 2 := pow_le_pow_left₀ (by norm_num) hbv 2
      have h5 := mul_le_mul_of_nonneg_left h4 (sq_nonneg x)
      have h6 : 0 ≤ ((k - 1 : ℕ) : ℝ) * F := mul_nonneg hk0 hF0
      nlinarith
    have h4 : (x ^ 2 - y ^ 2) * (u - ped) ≤ x ^ 2 * (u - v) := by nlinarith
    have h5 : x ^ 2 * (u - v) ≤ 26 * (k - 1 : ℕ) * ((u - ped) / (n * (k - 1 : ℕ) - ped)) * (u - v) :=
      mul_le_mul_of_nonneg_right h3 (by linarith)
    have h6 : 26 * ((k - 1 : ℕ) : ℝ) * ((u - ped) / (n * (k - 1 : ℕ) - ped)) * (u - v) =
        26 * (k - 1 : ℕ) * ((u - v) / (n * (k - 1 : ℕ) - ped)) * (u - ped) := by ring
    rw [h6] at h5
    exact le_of_mul_le_mul_right (h4.trans h5) hup

/-- The exact roots themselves. -/
theorem roots_close {k : ℕ} (hk : 2 ≤ k) {n ped u v x y : ℝ} (hmax : ped < n * (k - 1 : ℕ)) (hu : ped ≤ u) (hv : ped ≤ v)
    (hx : x ∈ Icc (0 : ℝ) 1) (hy : y ∈ Icc (0 : ℝ) 1) (ex : theoryChi2 gaussMvn k k n ped x = u)
    (ey : theoryChi2 gaussMvn k k n ped y = v) :
    |x - y| ≤ √(26 * (k - 1 : ℕ) * (|u - v| / (n * (k - 1 : ℕ) - ped))) := by
  refine Real.le_sqrt_of_sq_le ((?_ : |x - y| ^ 2 ≤ |x ^ 2 - y ^ 2|).trans (roots_sq_close hk hmax hu hv hx hy ex ey))
  rw [show x ^ 2 - y ^ 2 = (x - y) * (x + y) by ring, abs_mul, abs_of_nonneg (add_nonneg hx.1 hy.1), sq]
  refine mul_le_mul_of_nonneg_left ?_ (abs_nonneg _)
  rw [abs_le]
  constructor <;> linarith [hx.1, hy.1]

/-- Without pedestal the exact roots are at most in proportion to the square roots of chi2. -/
theorem roots_close_zero {k : ℕ} (hk : 2 ≤ k) {n u v x y : ℝ} (hn : 0 < n) (hu : 0 ≤ u) (hv : 0 ≤ v)
    (hx : x ∈ Icc (0 : ℝ) 1) (hy : y ∈ Icc (0 : ℝ) 1) (ex : theoryChi2 gaussMvn k k n 0 x = u)
    (ey : theoryChi2 gaussMvn k k n 0 y = v) :
    |x - y| ≤ 501 / 100 * (|√u - √v| / √n) := by
  wlog huv : v ≤ u generalizing u v x y
  · have := this hv hu hy hx ey ex (le_of_not_ge huv)
    rwa [abs_sub_comm, abs_sub_comm √u √v]
  have hk0 : (0 : ℝ) < (k - 1 : ℕ) := by exact_mod_cast (by omega : 0 < k - 1)
  have hmax : 0 < n * (k - 1 : ℕ) := by positivity
  obtain ⟨h1, h2⟩ := roots_scaled hk hmax hx hy ex ey huv
  have hb := (square_root_bounds hk hmax hx.1 hx.2 ex).2
  have hbv := binnedVariance_ge hk
  have hsn : 0 < √n := Real.sqrt_pos.2 hn
  simp only [sub_zero] at h2 hb
  rw [abs_of_nonneg (by linarith), abs_of_nonneg (sub_nonneg.2 (Real.sqrt_le_sqrt huv)), mul_div_assoc', le_div_iff₀ hsn]
  -- x √n ≤ 5.01 √u
  have hxu : x * √n ≤ 501 / 100 * √u := by
    refine abs_le_of_sq_le_sq' ?_ (by positivity) |>.2
    rw [mul_pow, mul_pow, Real.sq_sqrt hn.le, Real.sq_sqrt hu]
    have h4 : (1 / 5 : ℝ) ^ 2 ≤ binnedVariance k ^ 2 := pow_le_pow_left₀ (by norm_num) hbv 2
    have h5 := mul_le_mul_of_nonneg_left h4 (sq_nonneg x)
    have h6 : (626 / 625 : ℝ) * (k - 1 : ℕ) * (u / (n * (k - 1 : ℕ))) * n = 626 / 625 * u := by field_simp
    have h7 := mul_le_mul_of_nonneg_right (h5.trans hb) hn.le
    rw [h6] at h7
    nlinarith
  -- x √v ≤ y √u
  have hxy : x * √v ≤ y * √u := by
    refine abs_le_of_sq_le_sq' ?_ (mul_nonneg hy.1 (Real.sqrt_nonneg _)) |>.2
    rw [mul_pow, mul_pow, Real.sq_sqrt hu, Real.sq_sqrt hv]
    exact h2
  rcases hu.eq_or_lt with h | h
  · rw [← h, Real.sqrt_zero] at hxu
    have hv0 : v = 0 := le_antisymm (by linarith) hv
    rw [← h, hv0]
    simp only [Real.sqrt_zero, sub_zero, mul_zero] at hxu ⊢
    nlinarith [hy.1]
  · have hsu : 0 < √u := Real.sqrt_pos.2 h
    have h8 : (x - y) * √u ≤ x * (√u - √v) := by nlinarith
    have h9 : (x - y) * √n * √u ≤ 501 / 100 * (√u - √v) * √u := by
      calc (x - y) * √n * √u = (x - y) * √u * √n := by ring
        _ ≤ x * (√u - √v) * √n := mul_le_mul_of_nonneg_right h8 hsn.le
        _ = x * √n * (√u - √v) := by ring
        _ ≤ 501 / 100 * √u * (√u - √v) := mul_le_mul_of_nonneg_right hxu (sub_nonneg.2 (Real.sqrt_le_sqrt huv))
        _ = _ := by ring
    exact le_of_mul_le_mul_right h9 hsu

/-- **C93.** phik of two values of chi2, for the same number of records and the same square shape: the difference is at most
`√(26 (k-1) |Δchi2| / (maximum - pedestal))`, and without pedestal at most `5.01 |Δ√chi2| / √n`, up to twice the tolerance of
the root finder. -/
theorem phik_from_chi2_stable {brentq : (ℝ → ℝ) → ℝ → ℝ → ℝ → Except Err ℝ} (hb : BrentqSpec brentq) {k : ℕ} (hk : 2 ≤ k)
    {n ped : ℝ} (hn : 0 < n) (hp : 0 ≤ ped) (hmax : ped < n * (k - 1 : ℕ)) (u v : ℝ) :
    ∃ x y, phikFromChi2 gaussMvn brentq u n k k none none ped = .ok x ∧
      phikFromChi2 gaussMvn brentq v n k k none none ped = .ok y ∧
      |x - y| ≤ √(26 * (k - 1 : ℕ) * (|u - v| / (n * (k - 1 : ℕ) - ped))) + 2 * rootTol ∧
      (ped = 0 → |x - y| ≤ 501 / 100 * (|√u - √v| / √n) + 2 * rootTol) := by
  have hex : ∀ u : ℝ, ∃ x, phikFromChi2 gaussMvn brentq u n k k none none ped = .ok x ∧
      ∃ x₀ ∈ Icc (0 : ℝ) 1, theoryChi2 gaussMvn k k n ped x₀ = cutChi2 ped (n * (k - 1 : ℕ)) u ∧ |x - x₀| ≤ rootTol := by
    intro u
    obtain ⟨c1, c2, c3⟩ := phik_from_chi2_cases gaussian_mvn_spec brentq hk hk (chi2 := u) hp hn (by rwa [min_self])
    obtain ⟨t0, t1⟩ := theory_ends gaussian_mvn_spec hk hk n ped
    rw [min_self] at c2 c3 t1
    have hs : ∃ x, phikFromChi2 gaussMvn brentq u n k k none none ped = .ok x ∧ (u ≤ ped → x = 0) ∧
        (n * (k - 1 : ℕ) ≤ u → x = 1) ∧ (ped < u → u < n * (k - 1 : ℕ) → ∃ x₀, 0 ≤ x₀ ∧ x₀ ≤ 1 ∧
          theoryChi2 gaussMvn k k n ped x₀ = u ∧ |x - x₀| ≤ 1 / 10 ^ 5 + 4 * 2 ^ (-52 : ℤ) * |x₀|) := by
      rcases le_or_gt u ped with hle | hgt
      · exact ⟨0, c1 hle, fun _ => rfl, fun e => by linarith, fun e => by linarith⟩
      · rcases lt_or_ge u (n * (k - 1 : ℕ)) with hlt | hge
        · obtain ⟨x, e1, hx01, x₀, h0, h1, h2⟩ := hb.root (fun rho => theoryChi2 gaussMvn k k n ped rho - u)
            0 1 (1 / 10 ^ 5) zero_le_one (by norm_num) ((theory_cont gaussian_mvn_spec _ _ _ _).sub continuousOn_const)
            (by simp only [t0]; linarith) (by simp only [t1]; linarith)
          exact ⟨x, (c3 hgt hlt).trans e1, fun e => by linarith, fun e => by linarith,
            fun _ _ => ⟨x₀, h0.1, h0.2, by linarith, h2⟩⟩
        · exact ⟨1, c2 hge, fun e => by linarith, fun _ => rfl, fun _ e => by linarith⟩
    obtain ⟨x, e1, e2, e3, e4⟩ := hs
    exact ⟨x, e1, root_of_cases hk hmax rfl e2 e3 e4⟩
  obtain ⟨x, hx, x₀, mx, ex, cx⟩ := hex u
  obtain ⟨y, hy, y₀, my, ey, cy⟩ := hex v
  have hcu := cut_mem hmax.le u
  have hcv := cut_mem hmax.le v
  rw [abs_le] at cx cy
  refine ⟨x, y, hx, hy, ?_, ?_⟩
  · have h1 := roots_close hk hmax hcu.1 hcv.1 mx my ex ey
    have h2 : √(26 * (k - 1 : ℕ) * (|cutChi2 ped (n * (k - 1 : ℕ)) u - cutChi2 ped (n * (k - 1 : ℕ)) v| / (n * (k - 1 : ℕ) - ped))) ≤
        √(26 * (k - 1 : ℕ) * (|u - v| / (n * (k - 1 : ℕ) - ped))) := by
      refine Real.sqrt_le_sqrt (mul_le_mul_of_nonneg_left ?_ (by positivity))
      exact div_le_div_of_nonneg_right (cut_close _ _ _ _) (by linarith)
    have h3 := h1.trans h2
    rw [abs_le] at h3 ⊢
    constructor <;> linarith
  · rintro rfl
    have h1 := roots_close_zero hk hn hcu.1 hcv.1 mx my ex ey
    have h2 : 501 / 100 * (|√(cutChi2 0 (n * (k - 1 : ℕ)) u) - √(cutChi2 0 (n * (k - 1 : ℕ)) v)| / √n) ≤
        501 / 100 * (|√u - √v| / √n) := by
      refine mul_le_mul_of_nonneg_left ?_ (by norm_num)
      exact div_le_div_of_nonneg_right (cut_sqrt_close hmax.le _ _) (Real.sqrt_nonneg _)
    have h3 := h1.trans h2
    rw [abs_le] at h3 ⊢
    constructor <;> linarith

theorem sq_err {u v M ε : ℝ} (hu : 0 ≤ u) (hv : 0 ≤ v) (h0 : 0 ≤ ε) (h1 : ε ≤ 1) (hM : √u ≤ M) (h : |√u - √v| ≤ M * ε) :
    |u - v| ≤ 3 * M ^ 2 * ε := by
  have hf : u - v = (√u - √v) * (√u + √v) := by
    have a := Real.sq_sqrt hu
    have b := Real.sq_sqrt hv
    nlinarith
  have hM0 : 0 ≤ M := (Real.sqrt_nonneg u).trans hM
  have hMe : M * ε ≤ M := by nlinarith
  have hsv : √v ≤ √u + M * ε := by
    rw [abs_le] at h
    linarith
  have hsum : √u + √v ≤ 3 * M := by linarith
  have hsum0 : 0 ≤ √u + √v := by positivity
  rw [hf, abs_mul, abs_of_nonneg hsum0]
  calc |√u - √v| * (√u + √v) ≤ M * ε * (3 * M) := mul_le_mul h hsum hsum0 (by positivity)
    _ = _ := by ring

/-- **C93.** Rounding errors in the evaluation of chi2 hardly move phik of a square table: with any rounding to doubles and any
order of summation (of depth `D`), phik differs from that of exact arithmetic, without noise correction by at most
`5.01 ((D + 8) 2^-53 √(k-1) + 2^-48)`, with noise correction by at most `√(78 (k-1) N / (N - (k-1)) (D + 40) 2^-53)`, besides
twice the tolerance of the root finder. -/
theorem phik_rounding {brentq : (ℝ → ℝ) → ℝ → ℝ → ℝ → Except Err ℝ} (hb : BrentqSpec brentq) {fl : ℚ → ℚ} (hfl : RelRounding fl)
    {order : SumSite → List ℚ → SumTree} (ho : AddsAll order) {k : ℕ} (hk : 2 ≤ k) (T : Fin k → Fin k → ℕ)
    (h : DataTable ⟨k, k, fun i j => (T i j : ℝ)⟩) (hN : ∑ i, ∑ j, T i j ≤ 2 ^ 52) (hs : k * k ≤ 2 ^ 26)
    {D : ℕ} (hD : ∀ l, l ≠ [] → l.length ≤ k * k → (order .terms l).depth ≤ D) (hD' : D ≤ 2 ^ 26) (noise : Bool) :
    ∃ x y, phikFromHist2d gaussMvn brentq ⟨k, k, fun i j => (T i j : ℝ)⟩ noise = .ok x ∧
      flPhikFromHist2d gaussMvn brentq fl order ⟨k, k, fun i j => (T i j : ℚ)⟩ noise = .ok y ∧
      |x - y| ≤ 2 * rootTol + if noise
        then √(78 * ((k : ℝ) - 1) * ((∑ i, ∑ j, T i j : ℕ) / ((∑ i, ∑ j, T i j : ℕ) - ((k : ℝ) - 1))) * ((D + 40) / 2 ^ 53))
        else 501 / 100 * ((D + 8) / 2 ^ 53 * √((k : ℝ) - 1) + 1 / 2 ^ 48) := by
  obtain ⟨χ, N, ped, mx, r, y, hNe, hχ, hped, hmx, hr0, hre, hrun, -, -, hz, ho', hroot⟩ :=
    phik_of_data_rounded gaussian_mvn_spec hb hfl ho T h hk hk hN hs hD noise
  obtain ⟨chi2, ped', mx', x, hchi, hped', hmx', hlt, hle, hrun', -, -, hz', ho'', hroot'⟩ :=
    phik_of_data gaussian_mvn_spec hb h hk hk noise
  have hcount := data_isCount h hk
  have hT : (⟨k, k, fun i j => (T i j : ℝ)⟩ : Arr2 ℝ).total = N := by
    rw [hNe]; unfold Arr2.total; push_cast; rfl
  have e1 : chi2 = χ := by
    have := (get_chi2_value hcount).1
    rw [hchi] at this
    rw [hχ]
    exact Except.ok.inj this
  have e2 : ped' = ped := by
    rw [hped', hped]
    cases noise <;> simp
  have e3 : mx' = mx := by rw [hmx', hmx, hT]
  simp only [hT] at hroot'
  obtain rfl : χ = chi2 := e1.symm
  obtain rfl : ped = ped' := e2.symm
  obtain rfl : mx = mx' := e3.symm
  simp only [min_self] at hmx
  have hk1 : (1 : ℝ) ≤ (k - 1 : ℕ) := by exact_mod_cast (by omega : 1 ≤ k - 1)
  have hkc : ((k - 1 : ℕ) : ℝ) = k - 1 := by rw [Nat.cast_sub (by omega)]; simp
  have hN0 : 0 < N := by rw [← hT]; exact hcount.pos
  have hχ0 : 0 ≤ χ := (pearson_bounds hcount hchi).1
  obtain ⟨x₀, mx0, ex, cx⟩ := root_of_cases hk hlt hmx hz' (fun h => ho'' (le_antisymm hle h)) hroot'
  obtain ⟨y₀, my0, ey, cy⟩ := root_of_cases hk hlt hmx hz ho' hroot
  have hcx := cut_mem hlt.le χ
  have hcy := cut_mem hlt.le r
  -- the error of the square root of chi2
  have hsχ : √χ ≤ √N * √((k : ℝ) - 1) := by
    rw [← Real.sqrt_mul hN0.le, ← hkc, ← hmx]
    exact Real.sqrt_le_sqrt hle
  have hs1 : 1 ≤ √((k : ℝ) - 1) := by rw [Real.one_le_sqrt, ← hkc]; exact hk1
  have hsN : 0 < √N := Real.sqrt_pos.2 hN0
  have hδ : |√χ - √r| ≤ √N * ((D + 8) / 2 ^ 53 * √((k : ℝ) - 1) + 1 / 2 ^ 48) := by
    rw [abs_sub_comm]
    refine hre.trans ?_
    have := mul_le_mul_of_nonneg_left hsχ (show (0 : ℝ) ≤ (D + 8) / 2 ^ 53 by positivity)
    calc ((D : ℝ) + 8) / 2 ^ 53 * √χ + √N / 2 ^ 48 ≤ (D + 8) / 2 ^ 53 * (√N * √((k : ℝ) - 1)) + √N / 2 ^ 48 := by linarith
      _ = _ := by ring
  refine ⟨x, y, hrun', hrun, ?_⟩
  rw [abs_le] at cx cy
  rw [← hNe]
  cases noise
  · simp only [Bool.false_eq_true, if_false] at hped ⊢
    subst hped
    have h1 := roots_close_zero hk hN0 hcx.1 hcy.1 mx0 my0 ex ey
    have h2 : |x₀ - y₀| ≤ 501 / 100 * ((D + 8) / 2 ^ 53 * √((k : ℝ) - 1) + 1 / 2 ^ 48) := by
      refine h1.trans (mul_le_mul_of_nonneg_left ?_ (by norm_num))
      rw [div_le_iff₀ hsN, mul_comm _ √N]
      exact (cut_sqrt_close hlt.le _ _).trans hδ
    rw [abs_le] at h2 ⊢
    constructor <;> linarith
  · simp only [if_true] at hped ⊢
    have hmax : ped < N * (k - 1 : ℕ) := by rw [← hmx]; exact hlt
    have h1 := roots_close hk hmax hcx.1 hcy.1 mx0 my0 ex ey
    have hNk : 0 < N - ((k : ℝ) - 1) := by
      rw [hped, hkc] at hmax
      have h3 : 0 < (k : ℝ) - 1 := by linarith
      nlinarith
    have h2 : |x₀ - y₀| ≤ √(78 * ((k : ℝ) - 1) * (N / (N - ((k : ℝ) - 1))) * ((D + 40) / 2 ^ 53)) := by
      refine h1.trans (Real.sqrt_le_sqrt ?_)
      have hΔ : |cutChi2 ped mx χ - cutChi2 ped mx r| ≤ 3 * (N * ((k : ℝ) - 1)) * ((D + 40) / 2 ^ 53) := by
        refine (cut_close _ _ _ _).trans ?_
        set ε : ℝ := (D + 40) / 2 ^ 53 with hε
        set s := √((k : ℝ) - 1) with hsdef
        have hε0 : 0 ≤ ε := by positivity
        have hε1 : ε ≤ 1 := by
          rw [hε, div_le_one (by positivity)]
          have : (D : ℝ) ≤ 2 ^ 26 := by exact_mod_cast hD'
          have h3 : (2 : ℝ) ^ 26 + 40 ≤ 2 ^ 53 := by norm_num
          linarith
        have hδ' : |√χ - √r| ≤ √N * s * ε := by
          refine hδ.trans ?_
          rw [mul_assoc]
          refine mul_le_mul_of_nonneg_left ?_ hsN.le
          have : (1 : ℝ) / 2 ^ 48 ≤ 32 / 2 ^ 53 * s := by
            have e : (1 : ℝ) / 2 ^ 48 = 32 / 2 ^ 53 := by norm_num
            rw [e]
            have : (0 : ℝ) ≤ 32 / 2 ^ 53 := by positivity
            nlinarith
          calc ((D : ℝ) + 8) / 2 ^ 53 * s + 1 / 2 ^ 48 ≤ (D + 8) / 2 ^ 53 * s + 32 / 2 ^ 53 * s := by linarith
            _ = s * ε := by rw [hε]; ring
        have h4 := sq_err hχ0 hr0 hε0 hε1 hsχ hδ'
        refine h4.trans_eq ?_
        rw [mul_pow, Real.sq_sqrt hN0.le, hsdef, Real.sq_sqrt (by linarith)]
      have hden : N * ((k - 1 : ℕ) : ℝ) - ped = ((k : ℝ) - 1) * (N - ((k : ℝ) - 1)) := by rw [hped, hkc]; ring
      have hk0 : 0 < (k : ℝ) - 1 := by linarith
      rw [hden, hkc]
      have h3 : |cutChi2 ped mx χ - cutChi2 ped mx r| / (((k : ℝ) - 1) * (N - ((k : ℝ) - 1))) ≤
          3 * (N / (N - ((k : ℝ) - 1))) * ((D + 40) / 2 ^ 53) := by
        rw [div_le_iff₀ (by positivity)]
        refine hΔ.trans_eq ?_
        field_simp
      have := mul_le_mul_of_nonneg_left h3 (show 0 ≤ 26 * ((k : ℝ) - 1) by positivity)
      linarith
    rw [abs_le] at h2 ⊢
    constructor <;> linarith

/-- The bound of `phik_rounding`. -/
noncomputable def roundingBound (k D : ℕ) (N : ℝ) (noise : Bool) : ℝ := 2 * rootTol + if noise
  then √(78 * ((k : ℝ) - 1) * (N / (N - ((k : ℝ) - 1))) * ((D + 40) / 2 ^ 53))
  else 501 / 100 * ((D + 8) / 2 ^ 53 * √((k : ℝ) - 1) + 1 / 2 ^ 48)

/-- **C93.** phik in floating point arithmetic is symmetric up to twice the bound of `phik_rounding`: exchanging the two
variables of a square table, and with it the order of every sum, does not move it further. -/
theorem phik_transpose_rounded {brentq : (ℝ → ℝ) → ℝ → ℝ → ℝ → Except Err ℝ} (hb : BrentqSpec brentq) {fl : ℚ → ℚ}
    (hfl : RelRounding fl) {order : SumSite → List ℚ → SumTree} (ho : AddsAll order) {k : ℕ} (hk : 2 ≤ k) (T : Fin k → Fin k → ℕ)
    (h : DataTable ⟨k, k, fun i j => (T i j : ℝ)⟩) (hN : ∑ i, ∑ j, T i j ≤ 2 ^ 52) (hs : k * k ≤ 2 ^ 26)
    {D : ℕ} (hD : ∀ l, l ≠ [] → l.length ≤ k * k → (order .terms l).depth ≤ D) (hD' : D ≤ 2 ^ 26) (noise : Bool) :
    ∃ y y', flPhikFromHist2d gaussMvn brentq fl order ⟨k, k, fun i j => (T i j : ℚ)⟩ noise = .ok y ∧
      flPhikFromHist2d gaussMvn brentq fl order ⟨k, k, fun i j => (T j i : ℚ)⟩ noise = .ok y' ∧
      |y - y'| ≤ 2 * roundingBound k D (∑ i, ∑ j, T i j : ℕ) noise := by
  obtain ⟨x, y, h1, h2, h3⟩ := phik_rounding hb hfl ho hk T h hN hs hD hD' noise
  have ht : DataTable ⟨k, k, fun i j => (T j i : ℝ)⟩ := ⟨fun i j => h.counts j i, fun i => h.cols i, fun j => h.rows j⟩
  have hc : ∑ i, ∑ j, T j i = ∑ i, ∑ j, T i j := Finset.sum_comm
  obtain ⟨x', y', h1', h2', h3'⟩ := phik_rounding hb hfl ho hk (fun i j => T j i) ht (by rwa [hc]) hs hD hD' noise
  have e : phikFromHist2d gaussMvn brentq ⟨k, k, fun i j => (T j i : ℝ)⟩ noise =
      phikFromHist2d gaussMvn brentq ⟨k, k, fun i j => (T i j : ℝ)⟩ noise :=
    phik_transpose gaussian_mvn_spec brentq (data_isCount h hk) noise
  rw [e, h1] at h1'
  obtain rfl := Except.ok.inj h1'
  refine ⟨y, y', h2, h2', ?_⟩
  rw [hc] at h3'
  unfold roundingBound
  rw [abs_le] at h3 h3' ⊢
  constructor <;> linarith

/-- A three by three table, in double precision with the summation order of numpy. -/
example (noise : Bool) :=
  phik_rounding idealBrentq_spec RelRounding_rne53 numpyOrder_addsAll (by norm_num) (![![5, 1, 0], ![0, 2, 0], ![1, 4, 4]] : Fin 3 → Fin 3 → ℕ)
    ⟨fun i j => ⟨_, rfl⟩, fun i => by
      change Fin 3 at i
      fin_cases i
      · exact ⟨(0 : Fin 3), by norm_num⟩
      · exact ⟨(1 : Fin 3), by norm_num⟩
      · exact ⟨(0 : Fin 3), by norm_num⟩, fun j => by
      change Fin 3 at j
      fin_cases j
      · exact ⟨(0 : Fin 3), by norm_num⟩
      · exact ⟨(0 : Fin 3), by norm_num⟩
      · exact ⟨(2 : Fin 3), by simp⟩⟩ (by decide) (by norm_num) (D := 9)
    (fun l hl hlen => by
      have := (numpyOrder .terms l).depth_lt
      rw [(numpyOrder_addsAll .terms l hl).length_eq] at this
      omega) (by norm_num) noise

/-- Chi2 of 20 and of 21 for 100 records on a three by three table. -/
example := phik_from_chi2_stable idealBrentq_spec (k := 3) (by norm_num) (n := 100) (ped := 4) (by norm_num) (by norm_num) (by norm_num) 20 21

/-- The bound for ten bins, a thousand records and a summation depth of 20 is below 3e-5. -/
example : roundingBound 10 20 1000 true ≤ 3 / 10 ^ 5 := by
  unfold roundingBound rootTol
  have h : √(78 * (((10 : ℕ) : ℝ) - 1) * (1000 / (1000 - (((10 : ℕ) : ℝ) - 1))) * (((20 : ℕ) + 40) / 2 ^ 53)) ≤ 1 / 10 ^ 5 / 2 := by
    refine Real.sqrt_le_iff.2 ⟨by norm_num, ?_⟩
    norm_num
  simp only [if_true]
  have h2 : 2 * ((1 : ℝ) / 10 ^ 5 + 4 * 2 ^ (-52 : ℤ)) ≤ 21 / 10 ^ 6 := by norm_num
  linarith

end Phik.Props
