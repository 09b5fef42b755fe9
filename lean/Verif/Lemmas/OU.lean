import Verif.Lemmas.Gauss2
import Mathlib.MeasureTheory.Integral.Prod
import Mathlib.MeasureTheory.Integral.Bochner.Basic
import Mathlib.MeasureTheory.Measure.Lebesgue.Basic

/-! # Correlated pairs of normal variables: the quadratic form increases with the correlation -/

namespace Phik.Gauss
open MeasureTheory ProbabilityTheory Set

/-- Bounded measurable functions. -/
def BM (f : ℝ → ℝ) : Prop := Measurable f ∧ ∃ C, ∀ x, |f x| ≤ C

theorem BM.integrable {α : Type*} [MeasurableSpace α] {μ : Measure α} [IsFiniteMeasure μ] {f : ℝ → ℝ} (hf : BM f)
    {u : α → ℝ} (hu : Measurable u) : Integrable (fun p => f (u p)) μ := by
  obtain ⟨h1, C, h2⟩ := hf
  exact Integrable.of_bound (h1.comp hu).aestronglyMeasurable C (Filter.Eventually.of_forall fun p => h2 _)

theorem BM.mul {f g : ℝ → ℝ} (hf : BM f) (hg : BM g) : BM fun x => f x * g x := by
  obtain ⟨h1, C, h2⟩ := hf
  obtain ⟨g1, D, g2⟩ := hg
  refine ⟨h1.mul g1, C * D, fun x => ?_⟩
  rw [abs_mul]
  exact mul_le_mul (h2 x) (g2 x) (abs_nonneg _) ((abs_nonneg _).trans (h2 x))

theorem BM.integrable_mul {α : Type*} [MeasurableSpace α] {μ : Measure α} [IsFiniteMeasure μ] {f g : ℝ → ℝ} (hf : BM f)
    (hg : BM g) {u v : α → ℝ} (hu : Measurable u) (hv : Measurable v) : Integrable (fun p => f (u p) * g (v p)) μ := by
  obtain ⟨h1, C, h2⟩ := hf
  obtain ⟨g1, D, g2⟩ := hg
  refine Integrable.of_bound ((h1.comp hu).mul (g1.comp hv)).aestronglyMeasurable (C * D) (Filter.Eventually.of_forall fun p => ?_)
  rw [Real.norm_eq_abs, abs_mul]
  exact mul_le_mul (h2 _) (g2 _) (abs_nonneg _) ((abs_nonneg _).trans (h2 (u p)))

/-- The conditional expectation of `f Y` for `X = z`, when `X` and `Y` have correlation `c`. -/
noncomputable def T (c : ℝ) (f : ℝ → ℝ) (z : ℝ) : ℝ := ∫ e, f (c * z + Real.sqrt (1 - c ^ 2) * e) ∂γ

/-- The expectation of `f X g Y`, when `X` and `Y` have correlation `c`. -/
noncomputable def K (c : ℝ) (f g : ℝ → ℝ) : ℝ := ∫ p, f p.1 * g (c * p.1 + Real.sqrt (1 - c ^ 2) * p.2) ∂γ2

theorem T_BM (c : ℝ) {f : ℝ → ℝ} (hf : BM f) : BM (T c f) := by
  refine ⟨?_, ?_⟩
  · have h : StronglyMeasurable fun p : ℝ × ℝ => f (c * p.1 + Real.sqrt (1 - c ^ 2) * p.2) := by
      exact (hf.1.comp (by fun_prop)).stronglyMeasurable
    exact (h.integral_prod_right (ν := γ)).measurable
  · obtain ⟨C, hC⟩ := hf.2
    refine ⟨C, fun z => ?_⟩
    have := norm_integral_le_of_norm_le_const (μ := γ) (f := fun e => f (c * z + Real.sqrt (1 - c ^ 2) * e)) (C := C)
      (Filter.Eventually.of_forall fun e => hC _)
    simpa [T] using this

theorem K_eq (c : ℝ) {f g : ℝ → ℝ} (hf : BM f) (hg : BM g) : K c f g = ∫ z, f z * T c g z ∂γ := by
  unfold K
  rw [integral_prod]
  · refine integral_congr_ae (Filter.Eventually.of_forall fun z => ?_)
    simp only [T]
    rw [integral_const_mul]
  · exact hf.integrable_mul hg measurable_fst (by fun_prop)

theorem K_symm {c : ℝ} (hc : c ^ 2 ≤ 1) (f g : ℝ → ℝ) (hf : BM f) (hg : BM g) : K c f g = K c g f := by
  have e : c ^ 2 + Real.sqrt (1 - c ^ 2) ^ 2 = 1 := by rw [Real.sq_sqrt (by linarith)]; ring
  have h := (refl_preserves e).map_eq
  unfold K
  conv_lhs => rw [← h]
  rw [integral_map (refl_measurable _ _).aemeasurable]
  · refine integral_congr_ae (Filter.Eventually.of_forall fun p => ?_)
    simp only [refl]
    rw [mul_comm]
    congr 2
    linear_combination p.1 * e
  · exact (hf.integrable_mul hg measurable_fst (by fun_prop)).aestronglyMeasurable

theorem T_one (f : ℝ → ℝ) : T 1 f = f := by
  funext z
  simp [T]

theorem T_mul {r s : ℝ} (hr : r ∈ Icc (0 : ℝ) 1) (hs : s ∈ Icc (0 : ℝ) 1) {f : ℝ → ℝ} (hf : BM f) :
    T r (T s f) = T (r * s) f := by
  have hrs : r * s ≤ 1 := by nlinarith [hr.1, hr.2, hs.1, hs.2]
  have hrs0 : 0 ≤ r * s := mul_nonneg hr.1 hs.1
  rcases hrs.lt_or_eq with h | h
  · funext z
    have hq : 0 < 1 - (r * s) ^ 2 := by nlinarith
    set q := Real.sqrt (1 - (r * s) ^ 2) with hqd
    have hq0 : 0 < q := Real.sqrt_pos.2 hq
    have hq2 : q ^ 2 = 1 - (r * s) ^ 2 := Real.sq_sqrt hq.le
    set a := Real.sqrt (1 - r ^ 2) with had
    set b := Real.sqrt (1 - s ^ 2) with hbd
    have ha2 : a ^ 2 = 1 - r ^ 2 := Real.sq_sqrt (by nlinarith [hr.1, hr.2])
    have hb2 : b ^ 2 = 1 - s ^ 2 := Real.sq_sqrt (by nlinarith [hs.1, hs.2])
    have e : (s * a / q) ^ 2 + (b / q) ^ 2 = 1 := by
      rw [div_pow, div_pow, ← add_div, div_eq_one_iff_eq (by positivity), mul_pow, ha2, hb2, hq2]; ring
    have hm := (refl_preserves e).map_eq
    have hfst : γ2.map Prod.fst = γ := Measure.fst_prod
    calc T r (T s f) z = ∫ y, ∫ w, f (s * (r * z + a * y) + b * w) ∂γ ∂γ := rfl
      _ = ∫ p, f (s * (r * z + a * p.1) + b * p.2) ∂γ2 := by
          rw [integral_prod]
          exact hf.integrable (by fun_prop)
      _ = ∫ p, f (r * s * z + q * (refl (s * a / q) (b / q) p).1) ∂γ2 := by
          refine integral_congr_ae (Filter.Eventually.of_forall fun p => ?_)
          simp only [refl]
          congr 1
          field_simp
          ring
      _ = ∫ p, f (r * s * z + q * p.1) ∂γ2 := by
          conv_rhs => rw [← hm]
          rw [integral_map (refl_measurable _ _).aemeasurable]
          exact (hf.integrable (by fun_prop)).aestronglyMeasurable
      _ = ∫ w, f (r * s * z + q * w) ∂γ := by
          conv_rhs => rw [← hfst]
          rw [integral_map measurable_fst.aemeasurable]
          exact (hf.integrable (by fun_prop)).aestronglyMeasurable
  · have h1 : r = 1 := by nlinarith [hr.1, hr.2, hs.1, hs.2]
    have h2 : s = 1 := by nlinarith [hr.1, hr.2, hs.1, hs.2]
    subst h1 h2
    rw [T_one, T_one, mul_one, T_one]

theorem T_const (c k : ℝ) : T c (fun _ => k) = fun _ => k := by
  funext z; simp [T]

theorem const_BM (k : ℝ) : BM fun _ => k := ⟨measurable_const, |k|, fun _ => le_rfl⟩

/-- The distribution of `Y` is that of `X`. -/
theorem integral_T {c : ℝ} (hc : c ^ 2 ≤ 1) {f : ℝ → ℝ} (hf : BM f) : ∫ z, T c f z ∂γ = ∫ z, f z ∂γ := by
  have h1 := K_eq c (const_BM 1) hf
  have h2 := K_eq c hf (const_BM 1)
  rw [K_symm hc _ _ (const_BM 1) hf, h2, T_const] at h1
  simpa using h1.symm

theorem K_sqrt {c : ℝ} (hc : c ∈ Icc (0 : ℝ) 1) {f : ℝ → ℝ} (hf : BM f) :
    K c f f = ∫ z, T (Real.sqrt c) f z ^ 2 ∂γ := by
  have hs : Real.sqrt c ∈ Icc (0 : ℝ) 1 := ⟨Real.sqrt_nonneg _, Real.sqrt_le_one.2 hc.2⟩
  have hs2 : Real.sqrt c ^ 2 ≤ 1 := by rw [Real.sq_sqrt hc.1]; exact hc.2
  rw [K_eq c hf hf]
  have e : T c f = T (Real.sqrt c) (T (Real.sqrt c) f) := by
    rw [T_mul hs hs hf, Real.mul_self_sqrt hc.1]
  rw [e, ← K_eq _ hf (T_BM _ hf), K_symm hs2 _ _ hf (T_BM _ hf), K_eq _ (T_BM _ hf) hf]
  simp only [sq]

/-- Conditional variance. -/
theorem variance_T {c : ℝ} (hc : c ^ 2 ≤ 1) {g : ℝ → ℝ} (hg : BM g) :
    ∫ z, ∫ e, (g (c * z + Real.sqrt (1 - c ^ 2) * e) - T c g z) ^ 2 ∂γ ∂γ = ∫ z, g z ^ 2 ∂γ - ∫ z, T c g z ^ 2 ∂γ := by
  have e1 : ∀ z, ∫ e, (g (c * z + Real.sqrt (1 - c ^ 2) * e) - T c g z) ^ 2 ∂γ =
      T c (fun x => g x * g x) z - T c g z ^ 2 := by
    intro z
    have i1 : Integrable (fun e => g (c * z + Real.sqrt (1 - c ^ 2) * e) * g (c * z + Real.sqrt (1 - c ^ 2) * e)) γ :=
      hg.integrable_mul hg (by fun_prop) (by fun_prop)
    have i2 : Integrable (fun e => g (c * z + Real.sqrt (1 - c ^ 2) * e)) γ := hg.integrable (by fun_prop)
    have : ∀ e, (g (c * z + Real.sqrt (1 - c ^ 2) * e) - T c g z) ^ 2 =
        g (c * z + Real.sqrt (1 - c ^ 2) * e) * g (c * z + Real.sqrt (1 - c ^ 2) * e) -
        2 * T c g z * g (c * z + Real.sqrt (1 - c ^ 2) * e) + T c g z ^ 2 := by intro e; ring
    simp only [this]
    rw [integral_add (by exact i1.sub (i2.const_mul _)) (integrable_const _), integral_sub i1 (i2.const_mul _), integral_const_mul]
    simp only [integral_const, probReal_univ, one_smul]
    change T c (fun x => g x * g x) z - 2 * T c g z * T c g z + T c g z ^ 2 = _
    ring
  simp only [e1]
  rw [integral_sub, integral_T hc (hg.mul hg)]
  · simp only [sq]
  · exact (T_BM c (hg.mul hg)).integrable measurable_id
  · have := ((T_BM c hg).mul (T_BM c hg)).integrable (μ := γ) measurable_id
    simpa only [sq, id] using this

/-- The quadratic form increases with the correlation. -/
theorem K_mono {c d : ℝ} (hc : 0 ≤ c) (hcd : c ≤ d) (hd : d ≤ 1) {f : ℝ → ℝ} (hf : BM f) : K c f f ≤ K d f f := by
  rcases hcd.eq_or_lt with rfl | hlt
  · rfl
  have hd0 : 0 < d := lt_of_le_of_lt hc hlt
  have ht : Real.sqrt (c / d) ∈ Icc (0 : ℝ) 1 :=
    ⟨Real.sqrt_nonneg _, Real.sqrt_le_one.2 ((div_le_one hd0).2 hcd)⟩
  have hs : Real.sqrt d ∈ Icc (0 : ℝ) 1 := ⟨Real.sqrt_nonneg _, Real.sqrt_le_one.2 hd⟩
  have e : T (Real.sqrt c) f = T (Real.sqrt (c / d)) (T (Real.sqrt d) f) := by
    rw [T_mul ht hs hf, ← Real.sqrt_mul (by positivity), div_mul_cancel₀ _ hd0.ne']
  rw [K_sqrt ⟨hc, hcd.trans hd⟩ hf, K_sqrt ⟨hd0.le, hd⟩ hf, e]
  have := variance_T (c := Real.sqrt (c / d)) (by nlinarith [ht.1, ht.2]) (T_BM (Real.sqrt d) hf)
  have h0 : 0 ≤ ∫ z, ∫ e, (T (Real.sqrt d) f (Real.sqrt (c / d) * z + Real.sqrt (1 - Real.sqrt (c / d) ^ 2) * e) -
      T (Real.sqrt (c / d)) (T (Real.sqrt d) f) z) ^ 2 ∂γ ∂γ :=
    integral_nonneg fun z => integral_nonneg fun e => sq_nonneg _
  linarith

/-- The indicator of an interval. -/
noncomputable def ind (a c : ℝ) : ℝ → ℝ := (Icc a c).indicator fun _ => 1

theorem ind_BM (a c : ℝ) : BM (ind a c) := by
  refine ⟨measurable_const.indicator measurableSet_Icc, 1, fun x => ?_⟩
  unfold ind indicator
  split <;> simp

theorem ind_nonneg (a c x : ℝ) : 0 ≤ ind a c x := by
  unfold ind indicator
  split <;> simp

theorem integral_ind (a c : ℝ) : ∫ x, ind a c x ∂γ = γ.real (Icc a c) := by
  unfold ind
  rw [← integral_indicator_one (measurableSet_Icc)]
  rfl

theorem γ_Icc_pos {a c : ℝ} (h : a < c) : 0 < γ.real (Icc a c) := by
  rw [measureReal_def]
  refine ENNReal.toReal_pos ?_ (measure_ne_top _ _)
  intro h0
  have := gaussianReal_absolutelyContinuous' 0 (v := 1) one_ne_zero h0
  rw [Real.volume_Icc] at this
  simp at this
  linarith

theorem γ_null_iff {S : Set ℝ} : γ S = 0 ↔ volume S = 0 :=
  ⟨fun h => gaussianReal_absolutelyContinuous' 0 (v := 1) one_ne_zero h,
    fun h => gaussianReal_absolutelyContinuous 0 (v := 1) one_ne_zero h⟩

/-- Null sets stay null sets under affine maps. -/
theorem affine_null {k s : ℝ} (hs : s ≠ 0) {S : Set ℝ} (h : γ ((fun e => k + s * e) ⁻¹' S) = 0) : γ S = 0 := by
  rw [γ_null_iff] at h ⊢
  have e : (fun e => k + s * e) ⁻¹' S = (fun e => s * e) ⁻¹' ((fun x => k + x) ⁻¹' S) := rfl
  rw [e, Real.volume_preimage_mul_left hs, measure_preimage_add] at h
  rcases mul_eq_zero.1 h with h | h
  · simp [hs] at h
  · exact h

/-- Far away the conditional probability of an interval vanishes. -/
theorem T_ind_tendsto {r : ℝ} (hr : 0 < r) (a c : ℝ) : Filter.Tendsto (T r (ind a c)) Filter.atTop (nhds 0) := by
  have h0 : (0 : ℝ) = ∫ _ : ℝ, (0 : ℝ) ∂γ := by simp
  rw [h0]
  refine tendsto_integral_filter_of_dominated_convergence (fun _ => 1) ?_ ?_ (integrable_const _) ?_
  · exact Filter.Eventually.of_forall fun z => ((ind_BM a c).1.comp (by fun_prop)).aestronglyMeasurable
  · refine Filter.Eventually.of_forall fun z => Filter.Eventually.of_forall fun e => ?_
    unfold ind indicator
    split <;> simp
  · refine Filter.Eventually.of_forall fun e => ?_
    refine tendsto_const_nhds.congr' ?_
    filter_upwards [Filter.eventually_gt_atTop ((c - Real.sqrt (1 - r ^ 2) * e) / r)] with z hz
    rw [div_lt_iff₀ hr] at hz
    unfold ind
    rw [indicator_of_notMem]
    rintro ⟨-, h⟩
    linarith

/-- For the indicator of an interval the quadratic form increases strictly. -/
theorem K_strict {c d : ℝ} (hc : 0 ≤ c) (hcd : c < d) (hd : d ≤ 1) {a b : ℝ} (hab : a < b) :
    K c (ind a b) (ind a b) < K d (ind a b) (ind a b) := by
  refine lt_of_le_of_ne (K_mono hc hcd.le hd (ind_BM a b)) fun heq => ?_
  have hf := ind_BM a b
  have hd0 : 0 < d := lt_of_le_of_lt hc hcd
  set t := Real.sqrt (c / d) with ht
  have hlt1 : c / d < 1 := (div_lt_one hd0).2 hcd
  have ht1 : t ^ 2 < 1 := by rw [ht, Real.sq_sqrt (by positivity)]; exact hlt1
  have htI : t ∈ Icc (0 : ℝ) 1 := ⟨Real.sqrt_nonneg _, Real.sqrt_le_one.2 hlt1.le⟩
  have hs : Real.sqrt d ∈ Icc (0 : ℝ) 1 := ⟨Real.sqrt_nonneg _, Real.sqrt_le_one.2 hd⟩
  have e : T (Real.sqrt c) (ind a b) = T t (T (Real.sqrt d) (ind a b)) := by
    rw [T_mul htI hs hf, ← Real.sqrt_mul (by positivity), div_mul_cancel₀ _ hd0.ne']
  rw [K_sqrt ⟨hc, hcd.le.trans hd⟩ hf, K_sqrt ⟨hd0.le, hd⟩ hf, e] at heq
  set g := T (Real.sqrt d) (ind a b) with hg
  have hgB : BM g := T_BM _ hf
  have hv := variance_T ht1.le hgB
  rw [← heq, sub_self] at hv
  set s := Real.sqrt (1 - t ^ 2) with hsd
  have hs0 : s ≠ 0 := (Real.sqrt_pos.2 (by linarith)).ne'
  -- the conditional variance vanishes almost everywhere
  have hint : Integrable (fun p : ℝ × ℝ => (g (t * p.1 + s * p.2) - T t g p.1) ^ 2) γ2 := by
    obtain ⟨C, hC⟩ := hgB.2
    obtain ⟨D, hD⟩ := (T_BM t hgB).2
    refine Integrable.of_bound (((hgB.1.comp (by fun_prop)).sub ((T_BM t hgB).1.comp measurable_fst)).pow_const 2).aestronglyMeasurable
      ((C + D) ^ 2) (Filter.Eventually.of_forall fun p => ?_)
    rw [Real.norm_eq_abs, abs_pow]
    refine pow_le_pow_left₀ (abs_nonneg _) ?_ 2
    exact (abs_sub _ _).trans (add_le_add (hC _) (hD _))
  have hz : ∀ᵐ z ∂γ, ∫ e, (g (t * z + s * e) - T t g z) ^ 2 ∂γ = 0 := by
    have := (integral_eq_zero_iff_of_nonneg (f := fun z => ∫ e, (g (t * z + s * e) - T t g z) ^ 2 ∂γ)
      (fun z => integral_nonneg fun e => sq_nonneg _) hint.integral_prod_left).1 hv
    exact this
  obtain ⟨z, hz⟩ := hz.exists
  have hz' : ∀ᵐ x ∂γ, (g (t * z + s * x) - T t g z) ^ 2 = 0 := by
    refine (integral_eq_zero_iff_of_nonneg (fun e => sq_nonneg _) ?_).1 hz
    obtain ⟨C, hC⟩ := hgB.2
    refine Integrable.of_bound (((hgB.1.comp (by fun_prop)).sub measurable_const).pow_const 2).aestronglyMeasurable
      ((C + |T t g z|) ^ 2) (Filter.Eventually.of_forall fun p => ?_)
    rw [Real.norm_eq_abs, abs_pow]
    refine pow_le_pow_left₀ (abs_nonneg _) ?_ 2
    exact (abs_sub _ _).trans (add_le_add (hC _) le_rfl)
  set m := T t g z with hm
  -- so the function is constant
  have hconst : ∀ᵐ x ∂γ, g x = m := by
    have h0 : γ ((fun x => t * z + s * x) ⁻¹' {x | g x ≠ m}) = 0 := by
      refine measure_mono_null ?_ (ae_iff.1 hz')
      intro x hx
      simp only [mem_preimage, mem_ofPred_eq] at hx ⊢
      exact pow_ne_zero 2 (sub_ne_zero.2 hx)
    exact ae_iff.2 (affine_null hs0 h0)
  have hmean : m = γ.real (Icc a b) := by
    rw [← integral_ind, ← integral_T (c := Real.sqrt d) (by rw [Real.sq_sqrt hd0.le]; exact hd) hf,
      integral_congr_ae hconst]
    simp
  have hmpos : 0 < m := by rw [hmean]; exact γ_Icc_pos hab
  have htend := T_ind_tendsto (r := Real.sqrt d) (Real.sqrt_pos.2 hd0) a b
  obtain ⟨M, hM⟩ := Filter.eventually_atTop.1 (htend.eventually_lt_const hmpos)
  have : γ (Icc M (M + 1)) = 0 := by
    refine measure_mono_null ?_ (ae_iff.1 hconst)
    intro x hx
    exact (hM x hx.1).ne
  have h2 := γ_Icc_pos (show M < M + 1 by linarith)
  rw [measureReal_def, this] at h2
  simp at h2

end Phik.Gauss
