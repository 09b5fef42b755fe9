import Verif.Props.PowerDiv
import Mathlib.Analysis.Calculus.LHopital
import Mathlib.Analysis.SpecialFunctions.Pow.Deriv

/-! # All statistics look like Pearson's when the counts are close to the expected frequencies -/

namespace Phik.Props

open Spec Topology
open Filter (Tendsto atTop Eventually)

/-- Up to a multiple of the difference of count and expectation, the contribution of a cell is Pearson's, times a factor that tends to 1 when the relative
difference of count and expectation tends to 0. -/
def Quadratic (cell : ℝ → ℝ → ℝ) : Prop :=
  ∃ (k : ℝ) (h : ℝ → ℝ), Tendsto h (𝓝 0) (𝓝 1) ∧
    ∀ o e, 0 < o → 0 < e → cell o e = pearsonCell o e * h ((o - e) / e) + k * (o - e)

theorem tendsto_second {f f' : ℝ → ℝ} (h1 : ∀ᶠ x in 𝓝 0, HasDerivAt f (f' x) x) (h2 : HasDerivAt f' 2 0) (f0 : f 0 = 0) (f0' : f' 0 = 0) :
    Tendsto (fun x => if x = 0 then 1 else f x / x ^ 2) (𝓝 0) (𝓝 1) := by
  have hne : Tendsto (fun x => f x / x ^ 2) (𝓝[≠] 0) (𝓝 1) := by
    refine HasDerivAt.lhopital_zero_nhdsNE (f' := f') (g' := fun x => 2 * x) (h1.filter_mono nhdsWithin_le_nhds)
      (Filter.Eventually.of_forall fun x => by simpa using hasDerivAt_pow 2 x) ?_ ?_ ?_ ?_
    · filter_upwards [self_mem_nhdsWithin] with x hx
      simpa using hx
    · have := h1.self_of_nhds.continuousAt.tendsto
      rw [f0] at this
      exact this.mono_left nhdsWithin_le_nhds
    · have : ContinuousAt (fun x : ℝ => x ^ 2) 0 := by fun_prop
      have := this.tendsto
      simp only [ne_eq, OfNat.ofNat_ne_zero, not_false_eq_true, zero_pow] at this
      exact this.mono_left nhdsWithin_le_nhds
    · have := (hasDerivAt_iff_tendsto_slope_zero.1 h2).const_mul (1 / 2)
      simp only [zero_add, f0', sub_zero, smul_eq_mul] at this
      norm_num at this
      refine this.congr fun x => ?_
      ring
  rw [← nhdsNE_sup_pure, Filter.tendsto_sup]
  refine ⟨hne.congr' ?_, ?_⟩
  · filter_upwards [self_mem_nhdsWithin] with x hx
    rw [if_neg (by simpa using hx)]
  · rw [Filter.tendsto_pure_left]
    intro s hs
    simpa using mem_of_mem_nhds hs

/-- A sufficient condition. -/
theorem quadratic_of_deriv {cell : ℝ → ℝ → ℝ} (k : ℝ) {f f' : ℝ → ℝ} (h1 : ∀ x, -1 < x → HasDerivAt f (f' x) x) (h2 : HasDerivAt f' 2 0)
    (f0 : f 0 = 0) (f0' : f' 0 = 0) (hc : ∀ x e, -1 < x → 0 < e → cell (e * (1 + x)) e = e * f x + k * (e * x)) : Quadratic cell := by
  refine ⟨k, _, tendsto_second (Filter.Eventually.mono (Ioi_mem_nhds (by norm_num : (-1 : ℝ) < 0)) fun x hx => h1 x hx) h2 f0 f0', fun o e ho he => ?_⟩
  have hx : -1 < (o - e) / e := by
    rw [lt_div_iff₀ he]; linarith
  have hoe : e * (1 + (o - e) / e) = o := by field_simp; ring
  have := hc _ e hx he
  rw [hoe] at this
  rw [this]
  unfold pearsonCell
  by_cases h0 : (o - e) / e = 0
  · have : o = e := by
      rcases div_eq_zero_iff.1 h0 with h | h
      · linarith
      · exact absurd h he.ne'
    rw [if_pos h0, h0, f0, this]
    simp
  · rw [if_neg h0]
    have : o - e ≠ 0 := fun h => h0 (by rw [h, zero_div])
    field_simp

theorem pearson_quadratic : Quadratic pearsonCell := ⟨0, fun _ => 1, tendsto_const_nhds, fun o e _ _ => by ring⟩

theorem g_quadratic : Quadratic gCell := by
  refine quadratic_of_deriv 2 (f := fun x => 2 * ((1 + x) * Real.log (1 + x)) - 2 * x) (f' := fun x => 2 * Real.log (1 + x)) (fun x hx => ?_) ?_
    (by simp) (by simp) fun x e hx he => ?_
  · have h1 : HasDerivAt (fun x : ℝ => 1 + x) 1 x := (hasDerivAt_id x).const_add 1
    have h2 := (h1.mul (h1.log (by linarith))).const_mul 2
    have h3 := h2.sub ((hasDerivAt_id x).const_mul 2)
    refine h3.congr_deriv ?_
    have : 1 + x ≠ 0 := by linarith
    field_simp
    ring
  · have h1 : HasDerivAt (fun x : ℝ => 1 + x) 1 0 := (hasDerivAt_id 0).const_add 1
    exact ((h1.log (by norm_num)).const_mul 2).congr_deriv (by norm_num)
  · unfold gCell
    rw [mul_div_cancel_left₀ _ he.ne']
    ring

theorem modG_quadratic : Quadratic modGCell := by
  refine quadratic_of_deriv (-2) (f := fun x => 2 * x - 2 * Real.log (1 + x)) (f' := fun x => 2 - 2 * (1 / (1 + x))) (fun x hx => ?_) ?_
    (by simp) (by simp) fun x e hx he => ?_
  · have h1 : HasDerivAt (fun x : ℝ => 1 + x) 1 x := (hasDerivAt_id x).const_add 1
    have h3 := ((hasDerivAt_id x).const_mul 2).sub ((h1.log (by linarith)).const_mul 2)
    exact h3.congr_deriv (by ring)
  · have h1 : HasDerivAt (fun x : ℝ => 1 + x) 1 0 := (hasDerivAt_id 0).const_add 1
    have := (((hasDerivAt_const (0 : ℝ) (1 : ℝ)).div h1 (by norm_num)).const_mul 2).const_sub 2
    exact this.congr_deriv (by norm_num)
  · unfold modGCell
    have : e / (e * (1 + x)) = (1 + x)⁻¹ := by
      have : 1 + x ≠ 0 := by linarith
      field_simp
    rw [this, Real.log_inv]
    ring

theorem neyman_quadratic : Quadratic neymanCell := by
  refine ⟨0, fun x => 1 / (1 + x), ?_, fun o e ho he => ?_⟩
  · have : ContinuousAt (fun x : ℝ => 1 / (1 + x)) 0 := ContinuousAt.div (by fun_prop) (by fun_prop) (by norm_num)
    simpa using this.tendsto
  · unfold neymanCell pearsonCell
    have h1 : 1 + (o - e) / e = o / e := by field_simp; ring
    beta_reduce
    rw [h1]
    field_simp
    ring

theorem freemanTukey_quadratic : Quadratic freemanTukeyCell := by
  refine ⟨0, fun x => 4 / (√(1 + x) + 1) ^ 2, ?_, fun o e ho he => ?_⟩
  · have : ContinuousAt (fun x : ℝ => 4 / (√(1 + x) + 1) ^ 2) 0 := ContinuousAt.div (by fun_prop) (by fun_prop) (by norm_num)
    have h := this.tendsto
    norm_num at h
    exact h
  · unfold freemanTukeyCell pearsonCell
    have h1 : 1 + (o - e) / e = o / e := by field_simp; ring
    have hs : 0 < √e := Real.sqrt_pos.2 he
    have hso : 0 < √o := Real.sqrt_pos.2 ho
    beta_reduce
    rw [h1, Real.sqrt_div ho.le]
    have h3 := Real.sq_sqrt ho.le
    have h4 := Real.sq_sqrt he.le
    have h5 : o - e = (√o - √e) * (√o + √e) := by nlinarith
    rw [h5]
    generalize √o = x at *
    generalize √e = y at *
    subst h4
    have : x + y ≠ 0 := by positivity
    field_simp
    ring

theorem cressieRead_quadratic : Quadratic cressieReadCell := by
  refine quadratic_of_deriv (6 / 5) (f := fun x => 9 / 5 * ((1 + x) ^ (5 / 3 : ℝ) - (1 + x)) - 6 / 5 * x)
    (f' := fun x => 3 * (1 + x) ^ (2 / 3 : ℝ) - 3) (fun x hx => ?_) ?_ (by simp) (by simp) fun x e hx he => ?_
  · have h1 : HasDerivAt (fun x : ℝ => 1 + x) 1 x := (hasDerivAt_id x).const_add 1
    have h3 := (((h1.rpow_const (p := 5 / 3) (.inl (by linarith))).sub h1).const_mul (9 / 5)).sub ((hasDerivAt_id x).const_mul (6 / 5))
    refine h3.congr_deriv ?_
    rw [show (5 / 3 - 1 : ℝ) = 2 / 3 by norm_num]
    ring
  · have h1 : HasDerivAt (fun x : ℝ => 1 + x) 1 0 := (hasDerivAt_id 0).const_add 1
    have h3 := ((h1.rpow_const (p := 2 / 3) (.inl (by norm_num))).const_mul 3).sub_const 3
    exact h3.congr_deriv (by norm_num)
  · unfold cressieReadCell
    have hp : 0 < 1 + x := by linarith
    rw [mul_div_cancel_left₀ _ he.ne', show (5 / 3 : ℝ) = 1 + 2 / 3 by norm_num, Real.rpow_add hp, Real.rpow_one]
    ring

/-- The contribution of a cell to the statistic with the given name. -/
noncomputable def cellOf (name : String) : Option (ℝ → ℝ → ℝ) :=
  match name with
  | "pearson" => some pearsonCell
  | "log-likelihood" => some gCell
  | "cressie-read" => some cressieReadCell
  | "freeman-tukey" => some freemanTukeyCell
  | "neyman" => some neymanCell
  | "mod-log-likelihood" => some modGCell
  | _ => none

theorem cellOf_quadratic {name : String} {cell : ℝ → ℝ → ℝ} (h : cellOf name = some cell) : Quadratic cell := by
  unfold cellOf at h
  split at h <;> cases h
  · exact pearson_quadratic
  · exact g_quadratic
  · exact cressieRead_quadratic
  · exact freemanTukey_quadratic
  · exact neyman_quadratic
  · exact modG_quadratic

/-- The statistics of tables without empty cells. -/
theorem get_chi2_cellOf {a : Arr2 ℝ} (h : IsCount a) (hz : ¬ EmptyCell a) {name : String} {cell : ℝ → ℝ → ℝ} (hn : cellOf name = some cell) :
    getChi2 a name = .ok (statistic cell a) := by
  unfold cellOf at hn
  split at hn <;> cases hn
  · exact (get_chi2_value h).1
  · exact (get_chi2_value h).2
  · exact get_chi2_cressie_read h
  · exact (get_chi2_negative h (.inr (.inr hz))).1
  · exact (get_chi2_negative h (.inr (.inr hz))).2.1
  · exact (get_chi2_negative h (.inr (.inr hz))).2.2

end Phik.Props
