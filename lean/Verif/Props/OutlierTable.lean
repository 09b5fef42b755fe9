import Verif.Props.OutlierP
import Mathlib.Analysis.Calculus.Deriv.Inv

/-!
# Properties C43, C45, C34: expected frequencies, Z-values, names of the uncertainties

`Spec.inRow t i j`, `Spec.inCol t i j`, `Spec.elsewhere t i j` are the numbers of other records in the row, in the
column, and outside of both.
-/

namespace Phik.Props
open Phik.Spec Phik.Out Phik.BetaCF MeasureTheory ProbabilityTheory

variable {N : OutNum}

/-! ## C43: expected frequencies -/

/-- The uncertainty on a count, by name. -/
noncomputable def uncertaintyOf (N : OutNum) (ci : String) (x : ℝ) : ℝ :=
  if ci = "exact_poisson" then exactPoissonUncertainty N x 1 else poissonUncertainty x

theorem getUncertainty_known {ci : String} (hci : ci = "poisson" ∨ ci = "exact_poisson") (x : ℝ) :
    getUncertainty N x ci = .ok (uncertaintyOf N ci x) := by
  unfold getUncertainty uncertaintyOf
  rcases hci with rfl | rfl
  · simp
  · simp

theorem getUncertainty_unknown {ci : String} (h1 : ci ≠ "poisson") (h2 : ci ≠ "exact_poisson") (x : ℝ) :
    getUncertainty N x ci = .error .notImplemented := by
  simp [getUncertainty, h1, h2]

theorem blocks (t : Arr2 ℕ) (i : Fin t.r) (j : Fin t.c) :
    ((t.rowSum i : ℕ) : ℝ) - (t.v i j : ℝ) = inRow t i j ∧ ((t.colSum j : ℕ) : ℝ) - (t.v i j : ℝ) = inCol t i j ∧
    ((t.total : ℕ) : ℝ) - inRow t i j - inCol t i j - (t.v i j : ℝ) = elsewhere t i j := by
  rw [block_row t i j, block_col t i j, block_total t i j]
  push_cast
  exact ⟨by ring, by ring, by ring⟩

theorem abcdErr_eq (u : ℝ → ℝ) (B C : ℝ) {D : ℝ} (hD : D ≠ 0) :
    Real.sqrt ((u B * C / D) ^ 2 + (u C * B / D) ^ 2 + (u D * (B * C / D) / D) ^ 2) = abcdErr u B C D := by
  have d1 : deriv (fun b => abcd b C D) B = C / D := by
    have : HasDerivAt (fun b => abcd b C D) (1 * C / D) B := ((hasDerivAt_id B).mul_const C).div_const D
    rw [this.deriv, one_mul]
  have d2 : deriv (fun c => abcd B c D) C = B / D := by
    have : HasDerivAt (fun c => abcd B c D) (B * 1 / D) C := ((hasDerivAt_id C).const_mul B).div_const D
    rw [this.deriv, mul_one]
  have d3 : deriv (fun d => abcd B C d) D = -(B * C / D ^ 2) := by
    have : HasDerivAt (fun d => abcd B C d) (B * C * (-(D ^ 2)⁻¹)) D := by
      have := (hasDerivAt_inv hD).const_mul (B * C)
      exact this
    rw [this.deriv]; ring
  unfold abcdErr
  rw [d1, d2, d3]
  congr 1
  field_simp

theorem estimate_known {ci : String} (hci : ci = "poisson" ∨ ci = "exact_poisson") (t : Arr2 ℕ) (i : Fin t.r)
    (j : Fin t.c) : estimateCell N t ci i j = .ok (if elsewhere t i j = 0 then (none, none) else
      (some (abcd (inRow t i j) (inCol t i j) (elsewhere t i j)),
       some (abcdErr (uncertaintyOf N ci) (inRow t i j) (inCol t i j) (elsewhere t i j)))) := by
  obtain ⟨h1, h2, h3⟩ := blocks t i j
  unfold estimateCell
  dsimp only
  rw [h1, h2, h3]
  by_cases h : elsewhere t i j = 0
  · rw [if_neg (by rw [h]; simp), if_pos h]; rfl
  · have hD : (0 : ℝ) < elsewhere t i j := by exact_mod_cast Nat.pos_of_ne_zero h
    rw [if_pos hD, if_neg h]
    simp only [getUncertainty_known hci, Bind.bind, Except.bind, pure, Except.pure]
    rw [abcdErr_eq _ _ _ hD.ne']
    rfl

/-- **C43.** For every table and cell: the expectation is `B C / D` of the other three blocks, its error is the
propagated one; both are NaN if, and only if, `D` is 0. -/
theorem expected_frequencies {ci : String} (hci : ci = "poisson" ∨ ci = "exact_poisson") (t : Arr2 ℕ) :
    ∃ e, independentEstimates N t ci = .ok ⟨t.r, t.c, e⟩ ∧ ∀ i j,
      (elsewhere t i j ≠ 0 → e i j =
        (some (abcd (inRow t i j) (inCol t i j) (elsewhere t i j)),
         some (abcdErr (uncertaintyOf N ci) (inRow t i j) (inCol t i j) (elsewhere t i j)))) ∧
      ((e i j).1 = none ↔ elsewhere t i j = 0) ∧ ((e i j).2 = none ↔ elsewhere t i j = 0) := by
  refine ⟨_, cells2_ok fun i j => estimate_known hci t i j, fun i j => ?_⟩
  by_cases h : elsewhere t i j = 0 <;> simp [h]

/-- **C43.** In a table that is the product of its margins the expectation equals the observation. -/
theorem expected_product {t : Arr2 ℕ} (h : ∀ i k j l, t.v i j * t.v k l = t.v i l * t.v k j) (i : Fin t.r)
    (j : Fin t.c) (hD : elsewhere t i j ≠ 0) :
    abcd (inRow t i j) (inCol t i j) (elsewhere t i j) = t.v i j := by
  have e : t.v i j * elsewhere t i j = inRow t i j * inCol t i j := by
    unfold elsewhere inRow inCol
    rw [Finset.mul_sum, Finset.sum_mul_sum, Finset.sum_comm]
    refine Finset.sum_congr rfl fun k _ => ?_
    rw [Finset.mul_sum]
    refine Finset.sum_congr rfl fun l _ => ?_
    rw [h i k j l]
  have hD' : (elsewhere t i j : ℝ) ≠ 0 := by exact_mod_cast hD
  unfold abcd
  rw [div_eq_iff hD']
  exact_mod_cast e.symm

/-- **C43.** The expectation of a single cell equals the observation exactly if the cell has the value that independence
gives it, the product of its margins over the total. -/
theorem expected_equal_iff {t : Arr2 ℕ} (i : Fin t.r) (j : Fin t.c) (hD : elsewhere t i j ≠ 0) :
    abcd (inRow t i j) (inCol t i j) (elsewhere t i j) = t.v i j ↔
      t.v i j * t.total = t.rowSum i * t.colSum j := by
  have hD' : (elsewhere t i j : ℝ) ≠ 0 := by exact_mod_cast hD
  unfold abcd
  rw [div_eq_iff hD', block_row t i j, block_col t i j, block_total t i j]
  constructor
  · intro h
    have h' : inRow t i j * inCol t i j = t.v i j * elsewhere t i j := by exact_mod_cast h
    nlinarith
  · intro h
    have h' : inRow t i j * inCol t i j = t.v i j * elsewhere t i j := by nlinarith
    exact_mod_cast h'

/-! ## C34: unknown names -/

/-- **C34.** An unknown name raises NotImplementedError exactly if some cell has a prediction; otherwise no
uncertainty is needed. -/
theorem ci_unknown {ci : String} (h1 : ci ≠ "poisson") (h2 : ci ≠ "exact_poisson") (t : Arr2 ℕ) :
    ((∃ i j, elsewhere t i j ≠ 0) → independentEstimates N t ci = .error .notImplemented ∧
      outlierFromHist2d N t ci = .error .notImplemented) ∧
    ((∀ i j, elsewhere t i j = 0) → independentEstimates N t ci = .ok ⟨t.r, t.c, fun _ _ => (none, none)⟩) := by
  have key : ∀ i j, estimateCell N t ci i j =
      if elsewhere t i j = 0 then .ok (none, none) else .error .notImplemented := by
    intro i j
    obtain ⟨g1, g2, g3⟩ := blocks t i j
    unfold estimateCell
    dsimp only
    rw [g1, g2, g3]
    by_cases h : elsewhere t i j = 0
    · rw [if_neg (by rw [h]; simp), if_pos h]; rfl
    · have hD : (0 : ℝ) < elsewhere t i j := by exact_mod_cast Nat.pos_of_ne_zero h
      rw [if_pos hD, if_neg h]
      simp only [getUncertainty_unknown h1 h2, Bind.bind, Except.bind]
  constructor
  · rintro ⟨i, j, h⟩
    have e : cells2 t.r t.c (estimateCell N t ci) = .error .notImplemented := by
      rw [cells2_error_iff]
      · exact ⟨i, j, by rw [key, if_neg h]⟩
      · intro i j e' he
        rw [key] at he
        split_ifs at he
        cases he; rfl
    refine ⟨e, ?_⟩
    unfold outlierFromHist2d
    rw [e]
    rfl
  · intro h
    exact cells2_ok fun i j => by rw [key, if_pos (h i j)]

/-- **C34.** In particular for every table with at least two rows and columns that is not empty. -/
theorem ci_unknown_rejected {ci : String} (h1 : ci ≠ "poisson") (h2 : ci ≠ "exact_poisson") {t : Arr2 ℕ}
    (hr : 2 ≤ t.r) (hc : 2 ≤ t.c) (ht : t.total ≠ 0) : outlierFromHist2d N t ci = .error .notImplemented := by
  refine ((ci_unknown h1 h2 t).1 ?_).2
  obtain ⟨k, -, hk⟩ := Finset.exists_ne_zero_of_sum_ne_zero ht
  obtain ⟨l, -, hl⟩ := Finset.exists_ne_zero_of_sum_ne_zero hk
  have : Nontrivial (Fin t.r) := Fin.nontrivial_iff_two_le.2 hr
  have : Nontrivial (Fin t.c) := Fin.nontrivial_iff_two_le.2 hc
  obtain ⟨i, hi⟩ := exists_ne k
  obtain ⟨j, hj⟩ := exists_ne l
  refine ⟨i, j, fun h0 => hl ?_⟩
  unfold elsewhere at h0
  rw [Finset.sum_eq_zero_iff] at h0
  have := h0 k (by simp [hi.symm])
  rw [Finset.sum_eq_zero_iff] at this
  exact this l (by simp [hj.symm])

/-! ## C45: Z-values -/

/-- **C45.** Outside of 0 and 1, Z is the negated normal quantile of the mid-p value. -/
theorem mid_z_normal {n : ℕ} {e s : Option ℝ} {p : ℝ} (hp : poissonObsMidP N n e s = some p) (h0 : p ≠ 0)
    (h1 : p ≠ 1) : poissonObsMidZ N n e s = .ok (some (-N.ppf p)) := by
  unfold poissonObsMidZ zOfPOrLog
  rw [hp, if_neg (by simp [h0, h1])]
  rfl

/-- **C45.** The same for the plain variant. -/
theorem plain_z_normal {n : ℕ} {e s : Option ℝ} {p : ℝ} (hp : poissonObsP N n e s = some p) (h0 : p ≠ 0)
    (h1 : p ≠ 1) : poissonObsZ N n e s = .ok (some (-N.ppf p)) := by
  unfold poissonObsZ zOfPOrLog
  rw [hp, if_neg (by simp [h0, h1])]
  rfl

/-- **C45.** NaN p-values give NaN. -/
theorem z_nan {n : ℕ} {e s : Option ℝ} :
    (poissonObsMidP N n e s = none → poissonObsMidZ N n e s = .ok none) ∧
    (poissonObsP N n e s = none → poissonObsZ N n e s = .ok none) := by
  constructor <;> intro hp
  · unfold poissonObsMidZ zOfPOrLog
    rw [hp, if_neg (by simp)]
    rfl
  · unfold poissonObsZ zOfPOrLog
    rw [hp, if_neg (by simp)]
    rfl

/-- **C45.** Zero counts give minus infinity in the plain variant, whatever is expected. -/
theorem plain_z_zero (N : OutNum) (e s : Option ℝ) : poissonObsZ N 0 e s = .ok (some ⊥) := by
  unfold poissonObsZ zOfPOrLog
  rw [outlier_p_zero, if_pos (by simp)]
  simp [logPoissonObsP, Bind.bind, Except.bind, zFromLogpF, zFromLogp, pure, Except.pure]

/-- **C45.** Z strictly decreases with the p-value. -/
theorem mid_z_strict (h : OutSpec N) {n n' : ℕ} {e s e' s' : Option ℝ} {p p' : ℝ}
    (hp : poissonObsMidP N n e s = some p) (hp' : poissonObsMidP N n' e' s' = some p') (h0 : 0 < p)
    (hlt : p < p') (h1 : p' < 1) :
    ∃ z z' : EReal, poissonObsMidZ N n e s = .ok (some z) ∧ poissonObsMidZ N n' e' s' = .ok (some z') ∧ z' < z := by
  refine ⟨_, _, mid_z_normal hp h0.ne' (by linarith), mid_z_normal hp' (by linarith) h1.ne, ?_⟩
  rw [EReal.neg_lt_neg_iff]
  exact h.ppf_mono ⟨h0.le, by linarith⟩ ⟨by linarith, h1.le⟩ hlt

/-! ### The whole table, with exact functions -/

theorem uncertaintyOf_pos (x : ℝ) : 1 ≤ uncertaintyOf N "poisson" x := by
  unfold uncertaintyOf
  rw [if_neg (by decide)]
  exact poisson_uncertainty.2.2.1 x

/-- The error of the expectation is zero exactly if row and column contain no other records. -/
theorem err_zero_iff {ci : String} (hpos : ∀ m : ℕ, 0 < uncertaintyOf N ci m) (t : Arr2 ℕ) (i : Fin t.r) (j : Fin t.c) (hD : elsewhere t i j ≠ 0) :
    0 < abcdErr (uncertaintyOf N ci) (inRow t i j) (inCol t i j) (elsewhere t i j) ↔
      ¬ (inRow t i j = 0 ∧ inCol t i j = 0) := by
  have hD' : (0 : ℝ) < elsewhere t i j := by exact_mod_cast Nat.pos_of_ne_zero hD
  rw [← abcdErr_eq _ _ _ hD'.ne', Real.sqrt_pos]
  have hB := hpos (inRow t i j)
  have hC := hpos (inCol t i j)
  constructor
  · rintro h ⟨h1, h2⟩
    rw [h1, h2] at h
    simp at h
  · intro h
    by_cases h1 : inRow t i j = 0
    · have h2 : inCol t i j ≠ 0 := fun h2 => h ⟨h1, h2⟩
      have h3 : (0 : ℝ) < inCol t i j := by exact_mod_cast Nat.pos_of_ne_zero h2
      have : 0 < (uncertaintyOf N ci (inRow t i j) * (inCol t i j) / (elsewhere t i j)) ^ 2 := by positivity
      positivity
    · have h3 : (0 : ℝ) < inRow t i j := by exact_mod_cast Nat.pos_of_ne_zero h1
      have : 0 < (uncertaintyOf N ci (inCol t i j) * (inRow t i j) / (elsewhere t i j)) ^ 2 := by positivity
      positivity

theorem countTail_facts {e s : ℝ} (hs : 0 < s) (n : ℕ) :
    0 < countTail e s n ∧ countTail e s n ≤ 1 ∧ countTail e s (n + 1) < countTail e s n := by
  have key : ∀ m : ℝ, 0 < m → 0 < gammaPoissonTail n (m * (m / s ^ 2) + 1) (m / s ^ 2) ∧
      gammaPoissonTail n (m * (m / s ^ 2) + 1) (m / s ^ 2) ≤ 1 ∧
      gammaPoissonTail (n + 1) (m * (m / s ^ 2) + 1) (m / s ^ 2) < gammaPoissonTail n (m * (m / s ^ 2) + 1) (m / s ^ 2) := by
    intro m hm
    have h1 : 0 < m * (m / s ^ 2) + 1 := by positivity
    have h2 : 0 < m / s ^ 2 := by positivity
    refine ⟨gammaPoissonTail_pos h1 h2 n, ?_, gammaPoissonTail_lt h1 h2 n⟩
    refine le_of_le_of_eq ?_ (gammaPoissonTail_zero h1 h2)
    exact antitone_nat_of_succ_le (f := fun n => gammaPoissonTail n (m * (m / s ^ 2) + 1) (m / s ^ 2))
      (fun n => (gammaPoissonTail_lt h1 h2 n).le) (Nat.zero_le n)
  unfold countTail
  rw [if_pos hs, if_pos hs]
  by_cases he : 0 < e
  · rw [if_pos he, if_pos he]; exact key e he
  · rw [if_neg he, if_neg he]; exact key s hs

/-- The documented mid-p value. -/
noncomputable def midTail (e s : ℝ) (n : ℕ) : ℝ := (countTail e s n + countTail e s (n + 1)) / 2

theorem midTail_range {e s : ℝ} (hs : 0 < s) (n : ℕ) : 0 < midTail e s n ∧ midTail e s n < 1 := by
  have h1 := countTail_facts (e := e) hs n
  have h2 := countTail_facts (e := e) hs (n + 1)
  unfold midTail
  constructor <;> linarith

/-- A cell without prediction. -/
theorem cell_nan (n : ℕ) : poissonObsMidP N n none none = none ∧ poissonObsMidZ N n none none = .ok none := by
  have h : poissonObsMidP N n none none = none := by
    unfold poissonObsMidP
    have : poissonObsP N (n + 1) none none = none := by
      rw [outlier_p_nan]; simp
    rw [this]
    cases poissonObsP N n none none <;> rfl
  exact ⟨h, z_nan.1 h⟩

/-- A cell whose row and column contain no other records. -/
theorem cell_alone (h : OutSpec N) :
    (poissonObsMidP N 0 (some 0) (some 0) = some (1 / 2) ∧ poissonObsMidZ N 0 (some 0) (some 0) = .ok (some 0)) ∧
    ∀ n, n ≠ 0 → poissonObsMidP N n (some 0) (some 0) = some 0 ∧ poissonObsMidZ N n (some 0) (some 0) = .ok none ∧
      poissonObsZ N n (some 0) (some 0) = .ok (some ⊤) := by
  have hP : ∀ n, n ≠ 0 → poissonObsP N n (some 0) (some 0) = some 0 := by
    intro n hn
    simp [poissonObsP, hn, positive, poisSfF, h.pois_zero]
  have hL : ∀ n, n ≠ 0 → ∃ q, logPoissonObsP N n (some 0) (some 0) = .ok (some ⊥, q) := by
    intro n hn
    simp [logPoissonObsP, hn, positive, poisLogSfF, h.poisLog_zero]
  constructor
  · have h1 : poissonObsMidP N 0 (some 0) (some 0) = some (1 / 2) := by
      rw [outlier_mid_p]
      exact ⟨1, 0, rfl, hP 1 one_ne_zero, by norm_num⟩
    refine ⟨h1, ?_⟩
    rw [mid_z_normal h1 (by norm_num) (by norm_num), h.ppf_half, neg_zero]
  · intro n hn
    have h1 : poissonObsMidP N n (some 0) (some 0) = some 0 := by
      rw [outlier_mid_p]
      exact ⟨0, 0, hP n hn, hP (n + 1) (by omega), by norm_num⟩
    obtain ⟨q, hq⟩ := hL n hn
    obtain ⟨q', hq'⟩ := hL (n + 1) (by omega)
    refine ⟨h1, ?_, ?_⟩
    · unfold poissonObsMidZ zOfPOrLog
      rw [h1, if_pos (Or.inl rfl)]
      unfold logPoissonObsMidP
      rw [hq, hq']
      simp [Bind.bind, Except.bind, pure, Except.pure, FVal.sub, FVal.neg, FVal.add, FVal.log1pexp, zFromLogpF]
    · unfold poissonObsZ zOfPOrLog
      rw [hP n hn, if_pos (Or.inl rfl), hq]
      simp [Bind.bind, Except.bind, pure, Except.pure, zFromLogpF, zFromLogp]

/-- **C45.** The outlier matrix of every table, with the standard uncertainty and exact functions.  No exception is raised,
and for every cell:
* without prediction (`D = 0`), p-value and Z are NaN;
* otherwise, if row or column contain other records, the p-value is the documented mid-p value, between 0 and 1, and
  Z is its negated normal quantile, a real number;
* if not: an empty cell has p-value 1/2 and Z = 0; a cell with records has p-value 0 and Z is NaN (not plus infinity). -/
theorem outlier_table_ci (h : OutExact N) {ci : String} (hci : ci = "poisson" ∨ ci = "exact_poisson") (hpos : ∀ m : ℕ, 0 < uncertaintyOf N ci m)
    (t : Arr2 ℕ) :
    ∃ v, outlierFromHist2d N t ci = .ok ⟨t.r, t.c, v⟩ ∧ ∀ i j,
      let e := abcd (inRow t i j) (inCol t i j) (elsewhere t i j)
      let s := abcdErr (uncertaintyOf N ci) (inRow t i j) (inCol t i j) (elsewhere t i j)
      (elsewhere t i j = 0 → v i j = (none, none)) ∧
      (elsewhere t i j ≠ 0 → ¬ (inRow t i j = 0 ∧ inCol t i j = 0) →
        v i j = (some (midTail e s (t.v i j)), some (-normPpf (midTail e s (t.v i j)))) ∧
        0 < midTail e s (t.v i j) ∧ midTail e s (t.v i j) < 1 ∧
        ∃ z : ℝ, normCdf (-z) = midTail e s (t.v i j) ∧ (v i j).2 = some (z : EReal)) ∧
      (elsewhere t i j ≠ 0 → inRow t i j = 0 → inCol t i j = 0 →
        (t.v i j = 0 → v i j = (some (1 / 2), some 0)) ∧ (t.v i j ≠ 0 → v i j = (some 0, none))) := by
  have cell : ∀ i j, ∃ p : Option ℝ × FVal, (estimateCell N t ci i j >>= fun x =>
      poissonObsMidZ N (t.v i j) x.1 x.2 >>= fun z => pure (poissonObsMidP N (t.v i j) x.1 x.2, z)) = .ok p ∧
      (let e := abcd (inRow t i j) (inCol t i j) (elsewhere t i j)
      let s := abcdErr (uncertaintyOf N ci) (inRow t i j) (inCol t i j) (elsewhere t i j)
      (elsewhere t i j = 0 → p = (none, none)) ∧
      (elsewhere t i j ≠ 0 → ¬ (inRow t i j = 0 ∧ inCol t i j = 0) →
        p = (some (midTail e s (t.v i j)), some (-normPpf (midTail e s (t.v i j)))) ∧
        0 < midTail e s (t.v i j) ∧ midTail e s (t.v i j) < 1 ∧
        ∃ z : ℝ, normCdf (-z) = midTail e s (t.v i j) ∧ p.2 = some (z : EReal)) ∧
      (elsewhere t i j ≠ 0 → inRow t i j = 0 → inCol t i j = 0 →
        (t.v i j = 0 → p = (some (1 / 2), some 0)) ∧ (t.v i j ≠ 0 → p = (some 0, none)))) := by
    intro i j
    rw [estimate_known hci t i j]
    by_cases hD : elsewhere t i j = 0
    · rw [if_pos hD]
      refine ⟨(none, none), ?_, fun _ => rfl, fun h => absurd hD h, fun h => absurd hD h⟩
      simp only [Bind.bind, Except.bind]
      rw [(cell_nan (N := N) (t.v i j)).1, (cell_nan (N := N) (t.v i j)).2]
      rfl
    rw [if_neg hD]
    by_cases hBC : inRow t i j = 0 ∧ inCol t i j = 0
    · have hs : abcdErr (uncertaintyOf N ci) (inRow t i j) (inCol t i j) (elsewhere t i j) = 0 := by
        refine le_antisymm (not_lt.1 fun h => ?_) (Real.sqrt_nonneg _)
        exact (err_zero_iff hpos t i j hD).1 h hBC
      have he : abcd (inRow t i j) (inCol t i j) (elsewhere t i j) = 0 := by
        unfold abcd; rw [hBC.1]; simp
      simp only [Bind.bind, Except.bind]
      rw [hs, he]
      by_cases hA : t.v i j = 0
      · obtain ⟨g1, g2⟩ := (cell_alone h.spec).1
        rw [hA, g1, g2]
        exact ⟨_, rfl, fun h => absurd h hD, fun _ h => absurd hBC h, fun _ _ _ => ⟨fun _ => rfl, fun h => absurd rfl h⟩⟩
      · obtain ⟨g1, g2, -⟩ := (cell_alone h.spec).2 _ hA
        rw [g1, g2]
        exact ⟨_, rfl, fun h => absurd h hD, fun _ h => absurd hBC h, fun _ _ _ => ⟨fun h => absurd h hA, fun _ => rfl⟩⟩
    · have hs : 0 < abcdErr (uncertaintyOf N ci) (inRow t i j) (inCol t i j) (elsewhere t i j) := by
        exact (err_zero_iff hpos t i j hD).2 hBC
      have he : 0 ≤ abcd (inRow t i j) (inCol t i j) (elsewhere t i j) := by unfold abcd; positivity
      set e := abcd (inRow t i j) (inCol t i j) (elsewhere t i j)
      set s := abcdErr (uncertaintyOf N ci) (inRow t i j) (inCol t i j) (elsewhere t i j)
      have hp : poissonObsMidP N (t.v i j) (some e) (some s) = some (midTail e s (t.v i j)) := by
        rw [outlier_mid_p]
        exact ⟨_, _, outlier_p_exact h _ he, outlier_p_exact h _ he, rfl⟩
      obtain ⟨r0, r1⟩ := midTail_range (e := e) hs (t.v i j)
      have hz := mid_z_normal hp r0.ne' r1.ne
      simp only [Bind.bind, Except.bind]
      rw [hp, hz, h.ppf]
      refine ⟨_, rfl, fun h => absurd h hD, fun _ _ => ⟨rfl, r0, r1, ?_⟩, fun _ h1 h2 => absurd ⟨h1, h2⟩ hBC⟩
      obtain ⟨x, hx⟩ := normCdf_surj r0 r1
      refine ⟨-x, by rw [neg_neg, hx], ?_⟩
      rw [← hx, normPpf_cdf, EReal.coe_neg]
  choose p hp using cell
  refine ⟨p, ?_, fun i j => (hp i j).2⟩
  unfold outlierFromHist2d
  rw [cells2_ok (estimate_known (N := N) hci t)]
  exact cells2_ok fun i j => (hp i j).1

/-- **C45.** The outlier matrix of every table, with the standard uncertainty and exact functions.  No exception is raised,
and for every cell:
* without prediction (`D = 0`), p-value and Z are NaN;
* otherwise, if row or column contain other records, the p-value is the documented mid-p value, between 0 and 1, and
  Z is its negated normal quantile, a real number;
* if not: an empty cell has p-value 1/2 and Z = 0; a cell with records has p-value 0 and Z is NaN (not plus infinity). -/
theorem outlier_table (h : OutExact N) (t : Arr2 ℕ) :
    ∃ v, outlierFromHist2d N t "poisson" = .ok ⟨t.r, t.c, v⟩ ∧ ∀ i j,
      let e := abcd (inRow t i j) (inCol t i j) (elsewhere t i j)
      let s := abcdErr poissonUncertainty (inRow t i j) (inCol t i j) (elsewhere t i j)
      (elsewhere t i j = 0 → v i j = (none, none)) ∧
      (elsewhere t i j ≠ 0 → ¬ (inRow t i j = 0 ∧ inCol t i j = 0) →
        v i j = (some (midTail e s (t.v i j)), some (-normPpf (midTail e s (t.v i j)))) ∧
        0 < midTail e s (t.v i j) ∧ midTail e s (t.v i j) < 1 ∧
        ∃ z : ℝ, normCdf (-z) = midTail e s (t.v i j) ∧ (v i j).2 = some (z : EReal)) ∧
      (elsewhere t i j ≠ 0 → inRow t i j = 0 → inCol t i j = 0 →
        (t.v i j = 0 → v i j = (some (1 / 2), some 0)) ∧ (t.v i j ≠ 0 → v i j = (some 0, none))) := by
  have hu : uncertaintyOf N "poisson" = poissonUncertainty := by
    funext x; unfold uncertaintyOf; rw [if_neg (by decide)]
  have := outlier_table_ci h (.inl rfl) (fun m => lt_of_lt_of_le one_pos (uncertaintyOf_pos (N := N) m)) t
  rwa [hu] at this

/-- The three kinds of cells occur: `[[2, 0, 0], [0, 1, 1], [0, 1, 3]]` (cell (0,0) alone in its row and column), and
the table `[[0, 0], [0, 1]]`. -/
example : let t : Arr2 ℕ := ⟨3, 3, fun i j => ![![2, 0, 0], ![0, 1, 1], ![0, 1, 3]] i j⟩
    (elsewhere t 0 0 ≠ 0 ∧ inRow t 0 0 = 0 ∧ inCol t 0 0 = 0 ∧ t.v 0 0 ≠ 0) ∧
    (elsewhere t 1 1 ≠ 0 ∧ ¬ (inRow t 1 1 = 0 ∧ inCol t 1 1 = 0)) := by decide

end Phik.Props
