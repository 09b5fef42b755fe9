import Verif.Props.PowerDiv
import Verif.Spec.Merge
import Mathlib.Analysis.Convex.Mul
import Mathlib.Analysis.Convex.SpecificFunctions.Basic
import Mathlib.Analysis.Convex.SpecificFunctions.Pow
import Mathlib.Analysis.SpecialFunctions.Log.NegMulLog

/-! # Statistics of merged tables: lemmas -/

namespace Phik.Props

open Spec

/-- A distance of an observation and an expectation: sublinear, not negative, 0 at equality.  With `strict` only for
positive observations. -/
structure Divergence (strict : Prop) (d : ℝ → ℝ → ℝ) : Prop where
  nonneg : ∀ o e, 0 ≤ o → 0 < e → (strict → 0 < o) → 0 ≤ d o e
  refl : ∀ e, 0 < e → d e e = 0
  scale : ∀ t o e, 0 < t → 0 ≤ o → 0 < e → (strict → 0 < o) → d (t * o) (t * e) = t * d o e
  add : ∀ o o' e e', 0 ≤ o → 0 ≤ o' → 0 < e → 0 < e' → (strict → 0 < o) → (strict → 0 < o') →
    d (o + o') (e + e') ≤ d o e + d o' e'

/-- Divergences from a convex function of the ratio. -/
theorem Divergence.of_convex {strict : Prop} {d : ℝ → ℝ → ℝ} {f : ℝ → ℝ} {s : Set ℝ}
    (hs : ∀ x, 0 ≤ x → (strict → 0 < x) → x ∈ s) (hf : ConvexOn ℝ s f) (h0 : ∀ x ∈ s, 0 ≤ f x) (h1 : f 1 = 0)
    (hd : ∀ o e, 0 ≤ o → 0 < e → (strict → 0 < o) → d o e = e * f (o / e)) : Divergence strict d := by
  have hr : ∀ o e : ℝ, 0 ≤ o → 0 < e → (strict → 0 < o) → o / e ∈ s := fun o e ho he h =>
    hs _ (div_nonneg ho he.le) fun hx => div_pos (h hx) he
  constructor
  · intro o e ho he h
    rw [hd o e ho he h]
    exact mul_nonneg he.le (h0 _ (hr o e ho he h))
  · intro e he
    rw [hd e e he.le he fun _ => he, div_self he.ne', h1, mul_zero]
  · intro t o e ht ho he h
    rw [hd o e ho he h, hd _ _ (mul_nonneg ht.le ho) (mul_pos ht he) fun hx => mul_pos ht (h hx),
      mul_div_mul_left _ _ ht.ne', mul_assoc]
  · intro o o' e e' ho ho' he he' h h'
    have hE : 0 < e + e' := add_pos he he'
    rw [hd _ _ (add_nonneg ho ho') hE fun hx => add_pos (h hx) (h' hx), hd o e ho he h, hd o' e' ho' he' h']
    have := hf.2 (hr o e ho he h) (hr o' e' ho' he' h') (div_nonneg he.le hE.le) (div_nonneg he'.le hE.le)
      (by field_simp)
    simp only [smul_eq_mul] at this
    have e1 : e / (e + e') * (o / e) + e' / (e + e') * (o' / e') = (o + o') / (e + e') := by field_simp
    rw [e1] at this
    have h2 := mul_le_mul_of_nonneg_left this hE.le
    refine h2.trans_eq ?_
    field_simp

/-- The continuity correction brings a cell closer to its expectation. -/
theorem Divergence.corrected_le {strict : Prop} {d : ℝ → ℝ → ℝ} (hd : Divergence strict d) {o e : ℝ} (ho : 0 ≤ o)
    (he : 0 < e) (h : strict → 0 < o) : d (corrected o e) e ≤ d o e := by
  have key : ∀ t, 0 ≤ t → t ≤ 1 → corrected o e = (1 - t) * o + t * e → d (corrected o e) e ≤ d o e := by
    intro t h0 h1 hc
    rw [hc]
    rcases h0.eq_or_lt with rfl | h0
    · simp
    rcases h1.eq_or_lt with rfl | h1
    · simp only [sub_self, zero_mul, one_mul, zero_add]
      rw [hd.refl e he]; exact hd.nonneg o e ho he h
    have h1' : 0 < 1 - t := by linarith
    have e1 : e = (1 - t) * e + t * e := by ring
    conv_lhs => rw [e1]
    rw [← e1]
    have := hd.add ((1 - t) * o) (t * e) ((1 - t) * e) (t * e) (by positivity) (by positivity) (by positivity)
      (by positivity) (fun hx => mul_pos h1' (h hx)) (fun _ => by positivity)
    rw [← e1, hd.scale _ _ _ h1' ho he h, hd.scale _ _ _ h0 he.le he fun _ => he, hd.refl e he] at this
    refine this.trans ?_
    have := hd.nonneg o e ho he h
    nlinarith
  unfold corrected at key ⊢
  split_ifs at key ⊢ with c1 c2
  · exact key 1 zero_le_one le_rfl (by ring)
  · rw [abs_of_pos (by linarith)] at c1
    push Not at c1
    have hp : 0 < e - o := by linarith
    refine key (1 / 2 / (e - o)) (by positivity) ?_ (by field_simp; ring)
    rw [div_le_one hp]; exact c1.le
  · rw [abs_of_nonpos (by linarith)] at c1
    push Not at c1
    have hp : 0 < o - e := by linarith
    refine key (1 / 2 / (o - e)) (by positivity) ?_ (by field_simp; ring)
    rw [div_le_one hp]; linarith

/-- Taking cells together. -/
theorem Divergence.sum {strict : Prop} {d : ℝ → ℝ → ℝ} (hd : Divergence strict d) {ι : Type*} (s : Finset ι)
    (o e : ι → ℝ) (ho : ∀ i ∈ s, 0 ≤ o i) (he : ∀ i ∈ s, 0 ≤ e i) (hz : ∀ i ∈ s, e i = 0 → o i = 0)
    (hs : ∀ i ∈ s, e i ≠ 0 → strict → 0 < o i) :
    (∑ i ∈ s, e i ≠ 0 → strict → 0 < ∑ i ∈ s, o i) ∧
    (if ∑ i ∈ s, e i = 0 then 0 else d (∑ i ∈ s, o i) (∑ i ∈ s, e i)) ≤ ∑ i ∈ s, if e i = 0 then 0 else d (o i) (e i) := by
  classical
  induction s using Finset.induction_on with
  | empty => simp
  | insert a s ha ih =>
    obtain ⟨ih1, ih2⟩ := ih (fun i hi => ho i (Finset.mem_insert_of_mem hi)) (fun i hi => he i (Finset.mem_insert_of_mem hi))
      (fun i hi => hz i (Finset.mem_insert_of_mem hi)) (fun i hi => hs i (Finset.mem_insert_of_mem hi))
    have ha' := Finset.mem_insert_self a s
    have hO : 0 ≤ ∑ i ∈ s, o i := Finset.sum_nonneg fun i hi => ho i (Finset.mem_insert_of_mem hi)
    have hE : 0 ≤ ∑ i ∈ s, e i := Finset.sum_nonneg fun i hi => he i (Finset.mem_insert_of_mem hi)
    rw [Finset.sum_insert ha, Finset.sum_insert ha, Finset.sum_insert ha]
    by_cases h1 : e a = 0
    · rw [h1, hz a ha' h1, zero_add, zero_add, if_pos rfl, zero_add]
      exact ⟨ih1, ih2⟩
    have h1p : 0 < e a := lt_of_le_of_ne (he a ha') (Ne.symm h1)
    rw [if_neg h1]
    by_cases h2 : ∑ i ∈ s, e i = 0
    · have h3 : ∑ i ∈ s, o i = 0 := Finset.sum_eq_zero fun i hi => hz i (Finset.mem_insert_of_mem hi)
        ((Finset.sum_eq_zero_iff_of_nonneg fun i hi => he i (Finset.mem_insert_of_mem hi)).1 h2 i hi)
      have h4 : ∑ i ∈ s, (if e i = 0 then 0 else d (o i) (e i)) = 0 := Finset.sum_eq_zero fun i hi => if_pos
        ((Finset.sum_eq_zero_iff_of_nonneg fun i hi => he i (Finset.mem_insert_of_mem hi)).1 h2 i hi)
      rw [h2, h3, h4, add_zero, add_zero, add_zero, if_neg h1]
      exact ⟨fun _ => hs a ha' h1, le_rfl⟩
    · have h2p : 0 < ∑ i ∈ s, e i := lt_of_le_of_ne hE (Ne.symm h2)
      rw [if_neg h2] at ih2
      rw [if_neg (add_pos h1p h2p).ne']
      refine ⟨fun _ hx => add_pos (hs a ha' h1 hx) (ih1 h2 hx), ?_⟩
      exact (hd.add _ _ _ _ (ho a ha') hO h1p h2p (hs a ha' h1) (ih1 h2)).trans (by linarith)

/-! ### the six statistics -/

theorem divergence_pearson : Divergence False pearsonCell := by
  refine Divergence.of_convex (f := fun x => (x - 1) ^ 2) (s := Set.univ) (by simp) ?_ (fun x _ => sq_nonneg _) (by simp) ?_
  · have := (Even.convexOn_pow (n := 2) even_two (𝕜 := ℝ)).translate_left (-1)
    simpa [Function.comp_def, sub_eq_add_neg] using this
  · intro o e _ he _; unfold pearsonCell; field_simp

theorem divergence_g : Divergence False fun o e => gCell o e - 2 * (o - e) := by
  refine Divergence.of_convex (f := fun x => gCell x 1 - 2 * (x - 1)) (s := Set.Ici 0) (fun x h _ => h) ?_
    (fun x hx => (gibbs_cell hx one_pos).1) (by simp [gCell]) ?_
  · have h1 := Real.convexOn_mul_log.smul (show (0 : ℝ) ≤ 2 by norm_num)
    have h2 : ConvexOn ℝ (Set.Ici (0 : ℝ)) fun x => -2 * (x - 1) := by
      refine ⟨convex_Ici 0, fun x _ y _ a b _ _ hab => le_of_eq ?_⟩
      simp only [smul_eq_mul]
      linear_combination (-2) * hab
    refine (h1.add h2).congr fun x _ => ?_
    simp [gCell]; ring
  · intro o e _ he _
    simp only [gCell, div_one]
    field_simp

theorem divergence_cressie : Divergence False fun o e => cressieReadCell o e - 6 / 5 * (o - e) := by
  refine Divergence.of_convex (f := fun x => cressieReadCell x 1 - 6 / 5 * (x - 1)) (s := Set.Ici 0) (fun x h _ => h) ?_
    (fun x hx => (cressie_cell hx one_pos).1) (by simp [cressieReadCell]) ?_
  · have h1 := (convexOn_rpow (p := 5 / 3) (by norm_num)).smul (show (0 : ℝ) ≤ 9 / 5 by norm_num)
    have h2 : ConvexOn ℝ (Set.Ici (0 : ℝ)) fun x => -3 * x + 6 / 5 := by
      refine ⟨convex_Ici 0, fun x _ y _ a b _ _ hab => le_of_eq ?_⟩
      simp only [smul_eq_mul]
      linear_combination (-6 / 5) * hab
    refine (h1.add h2).congr fun x hx => ?_
    have hpow : x * x ^ (2 / 3 : ℝ) = x ^ (5 / 3 : ℝ) := by
      rcases (show (0 : ℝ) ≤ x from hx).eq_or_lt with h | h
      · rw [← h, Real.zero_rpow (by norm_num), Real.zero_rpow (by norm_num), mul_zero]
      · nth_rw 1 [← Real.rpow_one x]
        rw [← Real.rpow_add h]; norm_num
    simp only [cressieReadCell, div_one, Pi.add_apply, smul_eq_mul]
    rw [← hpow]; ring
  · intro o e _ he _
    simp only [cressieReadCell, div_one]
    field_simp

theorem divergence_freeman : Divergence True freemanTukeyCell := by
  refine Divergence.of_convex (f := fun x => freemanTukeyCell x 1) (s := Set.Ici 0) (fun x h _ => h) ?_
    (fun x hx => by unfold freemanTukeyCell; positivity) (by simp [freemanTukeyCell]) ?_
  · have h1 := (Real.strictConcaveOn_sqrt.concaveOn.neg).smul (show (0 : ℝ) ≤ 8 by norm_num)
    have h2 : ConvexOn ℝ (Set.Ici (0 : ℝ)) fun x => 4 * x + 4 := by
      refine ⟨convex_Ici 0, fun x _ y _ a b _ _ hab => le_of_eq ?_⟩
      simp only [smul_eq_mul]
      linear_combination (-4) * hab
    refine (h1.add h2).congr fun x hx => ?_
    have := Real.sq_sqrt (show (0 : ℝ) ≤ x from hx)
    simp only [freemanTukeyCell, Real.sqrt_one, Pi.add_apply, smul_eq_mul, Pi.neg_apply]
    linear_combination (-4) * this
  · intro o e ho he _
    simp only [freemanTukeyCell, Real.sqrt_one]
    rw [Real.sqrt_div ho]
    have := Real.sq_sqrt he.le
    have h0 : √e ≠ 0 := (Real.sqrt_pos.2 he).ne'
    nth_rw 2 [← this]
    field_simp

theorem divergence_neyman : Divergence True neymanCell := by
  refine Divergence.of_convex (f := fun x => neymanCell x 1) (s := Set.Ioi 0) (fun x _ h => h trivial) ?_
    (fun x hx => div_nonneg (sq_nonneg _) (le_of_lt hx)) (by simp [neymanCell]) ?_
  · have h1 := convexOn_zpow (𝕜 := ℝ) (-1)
    have h2 : ConvexOn ℝ (Set.Ioi (0 : ℝ)) fun x => x - 2 := by
      refine ⟨convex_Ioi 0, fun x _ y _ a b _ _ hab => le_of_eq ?_⟩
      simp only [smul_eq_mul]
      linear_combination (2) * hab
    refine (h1.add h2).congr fun x hx => ?_
    have hx' : x ≠ 0 := ne_of_gt hx
    simp only [neymanCell, Pi.add_apply, zpow_neg_one]
    field_simp; ring
  · intro o e _ he h
    have := h trivial
    simp only [neymanCell]
    field_simp

theorem divergence_modg : Divergence True fun o e => modGCell o e + 2 * (o - e) := by
  refine Divergence.of_convex (f := fun x => modGCell x 1 + 2 * (x - 1)) (s := Set.Ioi 0) (fun x _ h => h trivial) ?_
    (fun x hx => ?_) (by simp [modGCell]) ?_
  · have h1 := (strictConcaveOn_log_Ioi.concaveOn.neg).smul (show (0 : ℝ) ≤ 2 by norm_num)
    have h2 : ConvexOn ℝ (Set.Ioi (0 : ℝ)) fun x => 2 * (x - 1) := by
      refine ⟨convex_Ioi 0, fun x _ y _ a b _ _ hab => le_of_eq ?_⟩
      simp only [smul_eq_mul]
      linear_combination (2) * hab
    refine (h1.add h2).congr fun x hx => ?_
    simp [modGCell]
  · have := Real.log_le_sub_one_of_pos (show (0 : ℝ) < x from hx)
    simp [modGCell]; linarith
  · intro o e _ he h
    have := h trivial
    simp only [modGCell]
    rw [one_div, inv_div]
    field_simp

end Phik.Props
