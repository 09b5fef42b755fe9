import Verif.Props.FalseAlarmTable
import Verif.Props.PhikShape
import Verif.Lemmas.ShuffleMoments
import Mathlib.MeasureTheory.Integral.Bochner.Basic
import Mathlib.MeasureTheory.Integral.Bochner.Set

/-! # Property C73: the averages over uncorrelated data -/

namespace Phik

open Spec Finset Props MeasureTheory

section
variable {N r c : ℕ} (x : Fin N → Fin r) (y : Fin N → Fin c)

theorem shuffled_row (σ : Equiv.Perm (Fin N)) (i : Fin r) : ∑ j, shuffled x y σ i j = #{a | x a = i} := by
  simp only [shuffled]
  rw [Finset.card_eq_sum_card_fiberwise (f := fun a => y (σ a)) (t := univ) (fun a _ => by simp)]
  refine Finset.sum_congr rfl fun j _ => ?_
  rw [Finset.filter_filter]

theorem shuffled_col (σ : Equiv.Perm (Fin N)) (j : Fin c) : ∑ i, shuffled x y σ i j = #{a | y a = j} := by
  simp only [shuffled]
  have h : #{a | y a = j} = #{a | y (σ a) = j} := by
    refine (Finset.card_bij (fun a _ => σ a) (fun a ha => ?_) (fun a _ b _ h => σ.injective h) fun b hb => ⟨σ.symm b, ?_, by simp⟩).symm
    · simpa using ha
    · simpa using hb
  rw [h, Finset.card_eq_sum_card_fiberwise (f := x) (t := univ) (fun a _ => by simp)]
  refine Finset.sum_congr rfl fun i _ => ?_
  rw [Finset.filter_filter]
  congr 1
  ext a
  simp [and_comm]

theorem sum_counts : ∑ i, (#{a | x a = i} : ℝ) = N := by
  have := Finset.card_eq_sum_card_fiberwise (s := (univ : Finset (Fin N))) (f := x) (t := univ) (fun a _ => by simp)
  rw [Finset.card_univ, Fintype.card_fin] at this
  exact_mod_cast this.symm

theorem shuffled_total (σ : Equiv.Perm (Fin N)) : ∑ i, ∑ j, (shuffled x y σ i j : ℝ) = N := by
  rw [← sum_counts x]
  refine Finset.sum_congr rfl fun i _ => ?_
  exact_mod_cast shuffled_row x y σ i

theorem shuffled_expect (σ : Equiv.Perm (Fin N)) (i : Fin r) (j : Fin c) :
    Spec.expect (countTable (shuffled x y σ)) i j = (#{a | x a = i} : ℝ) * #{a | y a = j} / N := by
  unfold Spec.expect countTable
  simp only
  rw [shuffled_total]
  congr 2
  · exact_mod_cast shuffled_row x y σ i
  · exact_mod_cast shuffled_col x y σ j

variable {x y}

theorem count_pos (hx : Function.Surjective x) (i : Fin r) : (0 : ℝ) < #{a | x a = i} := by
  obtain ⟨a, ha⟩ := hx i
  have : 0 < #{a | x a = i} := Finset.card_pos.2 ⟨a, by simpa using ha⟩
  exact_mod_cast this

theorem shuffled_isCount (hN : 0 < N) (σ : Equiv.Perm (Fin N)) : IsCount (countTable (shuffled x y σ)) := by
  refine ⟨fun i j => Nat.cast_nonneg _, ?_⟩
  have : (countTable (shuffled x y σ)).total = N := shuffled_total x y σ
  rw [this]
  exact_mod_cast hN

theorem shuffled_shape (hx : Function.Surjective x) (hy : Function.Surjective y) (σ : Equiv.Perm (Fin N)) :
    nRows (countTable (shuffled x y σ)) = r ∧ nCols (countTable (shuffled x y σ)) = c := by
  have hr : ∀ i : Fin r, FullRow (countTable (shuffled x y σ)) i := by
    intro i
    by_contra h
    unfold FullRow at h
    push Not at h
    have h1 := count_pos hx i
    have h2 : (∑ j, (shuffled x y σ i j : ℝ)) = #{a | x a = i} := by exact_mod_cast shuffled_row x y σ i
    have h3 : (∑ j, (shuffled x y σ i j : ℝ)) = 0 := Finset.sum_eq_zero fun j _ => h j
    linarith
  have hc : ∀ j : Fin c, FullCol (countTable (shuffled x y σ)) j := by
    intro j
    by_contra h
    unfold FullCol at h
    push Not at h
    have h1 := count_pos hy j
    have h2 : (∑ i, (shuffled x y σ i j : ℝ)) = #{a | y a = j} := by exact_mod_cast shuffled_col x y σ j
    have h3 : (∑ i, (shuffled x y σ i j : ℝ)) = 0 := Finset.sum_eq_zero fun i _ => h i
    linarith
  constructor
  · unfold nRows
    exact (Nat.card_congr (Equiv.subtypeUnivEquiv hr)).trans (Nat.card_fin r)
  · unfold nCols
    exact (Nat.card_congr (Equiv.subtypeUnivEquiv hc)).trans (Nat.card_fin c)

/-- Pearson's chi2 of shuffled records. -/
theorem shuffled_chi2 (hx : Function.Surjective x) (hy : Function.Surjective y) (hr : 2 ≤ r) (hc : 2 ≤ c) (h22 : ¬ (r = 2 ∧ c = 2))
    (hN : 0 < N) (σ : Equiv.Perm (Fin N)) :
    getChi2 (countTable (shuffled x y σ)) "pearson" =
      .ok (∑ i, ∑ j, (shuffled x y σ i j : ℝ) ^ 2 * (N / ((#{a | x a = i} : ℝ) * #{a | y a = j})) - N) := by
  obtain ⟨s1, s2⟩ := shuffled_shape hx hy σ
  rw [(get_chi2_value (shuffled_isCount hN σ)).1]
  congr 1
  unfold statistic
  rw [s1, s2, if_neg (by omega)]
  simp only [if_neg h22]
  have hN' : (0 : ℝ) < N := by exact_mod_cast hN
  have e : ∀ (i : Fin r) (j : Fin c), (if Spec.expect (countTable (shuffled x y σ)) i j = 0 then 0
      else pearsonCell ((countTable (shuffled x y σ)).v i j) (Spec.expect (countTable (shuffled x y σ)) i j)) =
      (shuffled x y σ i j : ℝ) ^ 2 * (N / ((#{a | x a = i} : ℝ) * #{a | y a = j})) - 2 * shuffled x y σ i j +
        (#{a | x a = i} : ℝ) * #{a | y a = j} / N := by
    intro i j
    have h1 := count_pos hx i
    have h2 := count_pos hy j
    rw [shuffled_expect, if_neg (by positivity)]
    unfold pearsonCell countTable
    simp only
    field_simp
    ring
  calc _ = ∑ i : Fin r, ∑ j : Fin c, ((shuffled x y σ i j : ℝ) ^ 2 * (N / ((#{a | x a = i} : ℝ) * #{a | y a = j})) - 2 * shuffled x y σ i j +
        (#{a | x a = i} : ℝ) * #{a | y a = j} / N) := Finset.sum_congr rfl fun i _ => Finset.sum_congr rfl fun j _ => e i j
    _ = _ := by
      have t1 : ∑ i : Fin r, ∑ j : Fin c, 2 * (shuffled x y σ i j : ℝ) = 2 * N := by
        rw [← shuffled_total x y σ, Finset.mul_sum]
        exact Finset.sum_congr rfl fun i _ => (Finset.mul_sum _ _ _).symm
      have t2 : ∑ i : Fin r, ∑ j : Fin c, (#{a | x a = i} : ℝ) * #{a | y a = j} / N = N := by
        simp only [← Finset.sum_div, ← Finset.mul_sum, ← Finset.sum_mul, sum_counts]
        field_simp
      simp only [Finset.sum_add_distrib, Finset.sum_sub_distrib]
      rw [t1, t2]
      ring

end

namespace Props

/-- **C73 (mean table).** Shuffle the second of two variables of `N` records at random: the average count of a cell is its expected
frequency, row total times column total over `N`. -/
theorem shuffle_mean_table {N r c : ℕ} (x : Fin N → Fin r) (y : Fin N → Fin c) (hN : 0 < N) (i : Fin r) (j : Fin c) :
    (∑ σ : Equiv.Perm (Fin N), (shuffled x y σ i j : ℝ)) / N.factorial = (#{a | x a = i} : ℝ) * #{a | y a = j} / N := by
  have h := shuffle_moment_one x y i j
  have hN' : (0 : ℝ) < N := by exact_mod_cast hN
  have hF : (0 : ℝ) < N.factorial := by exact_mod_cast N.factorial_pos
  rw [div_eq_div_iff hF.ne' hN'.ne']
  unfold shuffled
  linarith

/-- **C73 (mean chi2).** Shuffle the second of two variables of `N` records, with `r` and `c` categories that all occur, at random.  Then
the average of Pearson's chi2 is exactly `(r - 1) (c - 1) N / (N - 1)`, unless the table is two by two. -/
theorem shuffle_mean_chi2 {N r c : ℕ} {x : Fin N → Fin r} {y : Fin N → Fin c} (hx : Function.Surjective x) (hy : Function.Surjective y)
    (hr : 2 ≤ r) (hc : 2 ≤ c) (h22 : ¬ (r = 2 ∧ c = 2)) :
    ∃ chi2 : Equiv.Perm (Fin N) → ℝ, (∀ σ, getChi2 (countTable (shuffled x y σ)) "pearson" = .ok (chi2 σ)) ∧
      (∑ σ, chi2 σ) / N.factorial = ((r : ℝ) - 1) * (c - 1) * (N / (N - 1)) := by
  have hrN : r ≤ N := by simpa using Fintype.card_le_of_surjective x hx
  have hN : 0 < N := by omega
  refine ⟨_, shuffled_chi2 hx hy hr hc h22 hN, ?_⟩
  have hN' : (0 : ℝ) < N := by exact_mod_cast hN
  have hN1 : (0 : ℝ) < N - 1 := by
    have : (2 : ℝ) ≤ N := by exact_mod_cast hr.trans hrN
    linarith
  have hF : (0 : ℝ) < N.factorial := by exact_mod_cast N.factorial_pos
  have e : ∀ (i : Fin r) (j : Fin c), ∑ σ : Equiv.Perm (Fin N), (shuffled x y σ i j : ℝ) ^ 2 * (N / ((#{a | x a = i} : ℝ) * #{a | y a = j})) =
      N.factorial * (1 + ((#{a | x a = i} : ℝ) - 1) * ((#{a | y a = j} : ℝ) - 1) / (N - 1)) := by
    intro i j
    have h1 := count_pos hx i
    have h2 := count_pos hy j
    have h := shuffle_moment_two x y i j
    rw [← Finset.sum_mul]
    change (∑ σ : Equiv.Perm (Fin N), (#{a | x a = i ∧ y (σ a) = j} : ℝ) ^ 2) * _ = _
    have h' : ∑ σ : Equiv.Perm (Fin N), (#{a | x a = i ∧ y (σ a) = j} : ℝ) ^ 2 = (N.factorial * ((#{a | x a = i} : ℝ) * #{a | y a = j}) *
        ((N - 1) + ((#{a | x a = i} : ℝ) - 1) * ((#{a | y a = j} : ℝ) - 1))) / (N * (N - 1)) := by
      rw [eq_div_iff (by positivity)]
      linarith
    rw [h']
    field_simp
  have e2 : ∑ σ : Equiv.Perm (Fin N), (∑ i, ∑ j, (shuffled x y σ i j : ℝ) ^ 2 * (N / ((#{a | x a = i} : ℝ) * #{a | y a = j})) - N) =
      N.factorial * ((r : ℝ) * c + ((N : ℝ) - r) * (N - c) / (N - 1) - N) := by
    rw [Finset.sum_sub_distrib, Finset.sum_comm]
    have : ∀ i : Fin r, ∑ σ : Equiv.Perm (Fin N), ∑ j, (shuffled x y σ i j : ℝ) ^ 2 * (N / ((#{a | x a = i} : ℝ) * #{a | y a = j})) =
        ∑ j, N.factorial * (1 + ((#{a | x a = i} : ℝ) - 1) * ((#{a | y a = j} : ℝ) - 1) / (N - 1)) := by
      intro i
      rw [Finset.sum_comm]
      exact Finset.sum_congr rfl fun j _ => e i j
    simp only [this, ← Finset.mul_sum, Finset.sum_add_distrib, ← Finset.sum_div, ← Finset.sum_mul, Finset.sum_sub_distrib, sum_counts,
      sum_const, card_univ, Fintype.card_fin, Fintype.card_perm, nsmul_eq_mul, mul_one]
    ring
  rw [e2]
  field_simp
  ring

/-- **C73 (noise pedestal).** The noise pedestal of phik, `estimate_simple_ndof`, is the average chi2 of the data with the second variable
shuffled, times `(N - 1) / N`. -/
theorem pedestal_is_mean_chi2 {N r c : ℕ} {x : Fin N → Fin r} {y : Fin N → Fin c} (hx : Function.Surjective x) (hy : Function.Surjective y)
    (hr : 2 ≤ r) (hc : 2 ≤ c) (h22 : ¬ (r = 2 ∧ c = 2)) (τ : Equiv.Perm (Fin N)) :
    ∃ chi2 : Equiv.Perm (Fin N) → ℝ, (∀ σ, getChi2 (countTable (shuffled x y σ)) "pearson" = .ok (chi2 σ)) ∧
      ((estimateSimpleNdof (countTable (shuffled x y τ)) : ℤ) : ℝ) = (∑ σ, chi2 σ) / N.factorial * ((N - 1) / N) := by
  obtain ⟨chi2, h1, h2⟩ := shuffle_mean_chi2 hx hy hr hc h22
  refine ⟨chi2, h1, ?_⟩
  have hrN : r ≤ N := by simpa using Fintype.card_le_of_surjective x hx
  have hN : 0 < N := by omega
  have hN' : (0 : ℝ) < N := by exact_mod_cast hN
  have hN1 : (0 : ℝ) < N - 1 := by
    have : (2 : ℝ) ≤ N := by exact_mod_cast hr.trans hrN
    linarith
  obtain ⟨s1, s2⟩ := shuffled_shape hx hy τ
  rw [(estimate_simple_ndof_full (shuffled_isCount hN τ)).1, s1, s2, h2]
  have : max 0 ((r : ℤ) * c - (countTable (shuffled x y τ)).r - (countTable (shuffled x y τ)).c + 1) = ((r : ℤ) - 1) * (c - 1) := by
    change max 0 ((r : ℤ) * c - r - c + 1) = _
    rw [max_eq_right]
    · ring
    · have h1 : (2 : ℤ) ≤ r := by exact_mod_cast hr
      have h2 : (2 : ℤ) ≤ c := by exact_mod_cast hc
      nlinarith
  rw [this]
  push_cast
  field_simp

end Props

/-- A set whose outer measure adds up with that of its complement is measurable up to null sets. -/
theorem nullMeasurable_of_add {Ω : Type*} [MeasurableSpace Ω] {μ : Measure Ω} [IsFiniteMeasure μ] {E : Set Ω}
    (h : μ E + μ Eᶜ ≤ μ Set.univ) : NullMeasurableSet E μ := by
  set A := toMeasurable μ E with hA
  set B := toMeasurable μ Eᶜ with hB
  have mA : MeasurableSet A := measurableSet_toMeasurable _ _
  have mB : MeasurableSet B := measurableSet_toMeasurable _ _
  have hu : A ∪ B = Set.univ := by
    refine Set.eq_univ_of_univ_subset fun z _ => ?_
    by_cases hz : z ∈ E
    · exact .inl (subset_toMeasurable _ _ hz)
    · exact .inr (subset_toMeasurable _ _ hz)
  have h1 := measure_union_add_inter A mB (μ := μ)
  rw [hu] at h1
  have h2 : μ A + μ B ≤ μ Set.univ := by rw [hA, hB, measure_toMeasurable, measure_toMeasurable]; exact h
  have h3 : μ (A ∩ B) = 0 := by
    have : μ Set.univ + μ (A ∩ B) ≤ μ Set.univ + 0 := by rw [h1, add_zero]; exact h2
    exact le_antisymm ((ENNReal.add_le_add_iff_left (measure_ne_top μ _)).1 this) bot_le
  refine ⟨A, mA, ?_⟩
  refine Filter.EventuallyLE.antisymm (Filter.Eventually.of_forall (subset_toMeasurable _ _)) ?_
  rw [ae_le_set]
  refine measure_mono_null ?_ h3
  rintro z ⟨z1, z2⟩
  exact ⟨z1, subset_toMeasurable _ _ z2⟩

/-- The tapes of random numbers from (0, 1]. -/
def tapes (L : ℕ) : Set (Fin L → ℝ) := {u | ∀ i, 0 < u i ∧ u i ≤ 1}

theorem tapes_pi (L : ℕ) : tapes L = Set.univ.pi fun _ => Set.Ioc (0 : ℝ) 1 := by
  ext u; simp [tapes]

theorem tapes_measurable (L : ℕ) : MeasurableSet (tapes L) := by
  rw [tapes_pi]; exact MeasurableSet.univ_pi fun _ => measurableSet_Ioc

theorem tapes_volume (L : ℕ) : volume (tapes L) = 1 := by
  rw [tapes_pi, volume_pi_pi]; simp

theorem yields_unique {N r c : ℕ} {x : Fin N → Fin r} {y : Fin N → Fin c} {fuel passes : ℕ} {st : Statics ℝ} {buf : List (Option ℤ)}
    {L : ℕ} {u : Fin L → ℝ} {X Y : Fin r → Fin c → ℕ} (hX : Yields x y fuel passes st buf u X) (hY : Yields x y fuel passes st buf u Y) :
    X = Y := by
  obtain ⟨-, o, h1, -, h2⟩ := hX
  obtain ⟨-, o', h1', -, h2'⟩ := hY
  rw [h1] at h1'
  cases h1'
  funext i j
  have := (h2 i j).symm.trans (h2' i j)
  simpa using this

theorem yields_exists {N r c : ℕ} (x : Fin N → Fin r) (y : Fin N → Fin c) (hr : 2 ≤ r) (hc : 2 ≤ c)
    (hx : Function.Surjective x) (hy : Function.Surjective y) (hN : N ≤ 46340) {fuel passes : ℕ} (hf : N + 1 ≤ fuel)
    (hp : 1 ≤ passes) (st : Statics ℝ) {buf : List (Option ℤ)} (hlen : buf.length = r * c) {L : ℕ} (hL : (r - 1) * (c - 1) ≤ L)
    {u : Fin L → ℝ} (hu : u ∈ tapes L) : ∃ X, Yields x y fuel passes st buf u X := by
  obtain ⟨hv, hsum⟩ := counts_valid hr hc hx hy
  have l1 : (List.ofFn fun i => (#{a | x a = i} : ℤ)).length = r := List.length_ofFn
  have l2 : (List.ofFn fun j => (#{a | y a = j} : ℤ)).length = c := List.length_ofFn
  obtain ⟨out, X, h1, h2, h3⟩ := patefield_exact_total hv (by omega) (fuel := fuel) (passes := passes) (by omega) hp st
    (buf := buf) (by rw [l1, l2]; exact hlen) (u := List.ofFn u) (by
      intro v hv
      obtain ⟨i, rfl⟩ := List.mem_ofFn.1 hv
      exact hu i) (by rw [l1, l2]; simpa using hL)
  rw [l1, l2] at h1
  refine ⟨fun i j => (X i.1 j.1).toNat, hu, out, h1, h2, fun i j => ?_⟩
  have := h3.cells i.1 (by rw [l1]; exact i.2) j.1 (by rw [l2]; exact j.2)
  rw [l1] at this
  rw [this, Int.toNat_of_nonneg (h3.nonneg i.1 (by rw [l1]; exact i.2) j.1 (by rw [l2]; exact j.2))]

namespace Props

/-- **C73 (the sampler).** Let `g u` be a statistic `f` of the table that the fixed-margin sampler returns on the tape `u` of random
numbers, in exact arithmetic.  Its average over independent random numbers uniform on (0, 1] is the average of `f` over all shuffles of
the records. -/
theorem sampler_mean {N r c : ℕ} (x : Fin N → Fin r) (y : Fin N → Fin c) (hr : 2 ≤ r) (hc : 2 ≤ c)
    (hx : Function.Surjective x) (hy : Function.Surjective y) (hN : N ≤ 46340) {fuel passes : ℕ} (hf : N + 1 ≤ fuel)
    (hp : 1 ≤ passes) (st : Statics ℝ) {buf : List (Option ℤ)} (hlen : buf.length = r * c) {L : ℕ} (hL : (r - 1) * (c - 1) ≤ L)
    (f : (Fin r → Fin c → ℕ) → ℝ) (g : (Fin L → ℝ) → ℝ) (hg : ∀ u X, Yields x y fuel passes st buf u X → g u = f X) :
    IntegrableOn g (tapes L) ∧ ∫ u in tapes L, g u = (∑ σ : Equiv.Perm (Fin N), f (shuffled x y σ)) / N.factorial := by
  classical
  set W : Finset (Fin r → Fin c → ℕ) := (univ : Finset (Equiv.Perm (Fin N))).image (shuffled x y) with hW
  set E : (Fin r → Fin c → ℕ) → Set (Fin L → ℝ) := fun X => {u | Yields x y fuel passes st buf u X} with hEdef
  have hE : ∀ X, volume (E X) = ENNReal.ofReal ((#{σ : Equiv.Perm (Fin N) | shuffled x y σ = X} : ℝ) / N.factorial) := by
    intro X
    have := Props.patefield_shuffle x y hr hc hx hy hN hf hp st hlen hL X
    simp only [funext_iff, shuffled]
    exact this
  have hF : (0 : ℝ) < N.factorial := by exact_mod_cast N.factorial_pos
  have hsub : ∀ X, E X ⊆ tapes L := fun X u hu => hu.1
  set μ : Measure (Fin L → ℝ) := volume.restrict (tapes L) with hμ
  have : IsFiniteMeasure μ := ⟨by rw [hμ, Measure.restrict_apply_univ, tapes_volume]; exact ENNReal.one_lt_top⟩
  have hμE : ∀ X, μ (E X) = ENNReal.ofReal ((#{σ : Equiv.Perm (Fin N) | shuffled x y σ = X} : ℝ) / N.factorial) := by
    intro X
    rw [hμ, Measure.restrict_eq_self _ (hsub X), hE]
  have hμ1 : μ Set.univ = 1 := by rw [hμ, Measure.restrict_apply_univ, tapes_volume]
  have hout : ∀ X, X ∉ W → μ (E X) = 0 := by
    intro X hX
    rw [hμE]
    have : #{σ : Equiv.Perm (Fin N) | shuffled x y σ = X} = 0 := by
      rw [Finset.card_eq_zero, Finset.filter_eq_empty_iff]
      rintro σ - rfl
      exact hX (by simp [hW])
    simp [this]
  have hsumW : ∑ X ∈ W, μ (E X) = 1 := by
    simp only [hμE]
    rw [← ENNReal.ofReal_sum_of_nonneg (fun _ _ => by positivity), ← Finset.sum_div]
    have : ∑ X ∈ W, (#{σ : Equiv.Perm (Fin N) | shuffled x y σ = X} : ℝ) = N.factorial := by
      have := Finset.card_eq_sum_card_fiberwise (s := (univ : Finset (Equiv.Perm (Fin N)))) (f := shuffled x y) (t := W)
        (fun σ _ => by simp [hW])
      rw [Finset.card_univ, Fintype.card_perm, Fintype.card_fin] at this
      exact_mod_cast this.symm
    rw [this, div_self hF.ne', ENNReal.ofReal_one]
  have hcov : ∀ᵐ u ∂μ, ∃ X ∈ W, u ∈ E X := by
    have h0 : μ (⋃ X : {X // X ∉ W}, E X.1) = 0 := measure_iUnion_null fun X => hout X.1 X.2
    have h1 : ∀ᵐ u ∂μ, u ∈ tapes L := ae_restrict_mem (tapes_measurable L)
    filter_upwards [h1, compl_mem_ae_iff.2 h0] with u hu hn
    obtain ⟨X, hX⟩ := yields_exists x y hr hc hx hy hN hf hp st hlen hL hu
    refine ⟨X, ?_, hX⟩
    by_contra hXW
    exact hn (Set.mem_iUnion.2 ⟨⟨X, hXW⟩, hX⟩)
  have hmeas : ∀ X ∈ W, NullMeasurableSet (E X) μ := by
    intro X hX
    refine nullMeasurable_of_add ?_
    have : μ (E X)ᶜ ≤ ∑ Y ∈ W.erase X, μ (E Y) := by
      refine (measure_mono_ae (t := ⋃ Y ∈ W.erase X, E Y) ?_).trans (measure_biUnion_finset_le _ _)
      filter_upwards [hcov] with u ⟨Y, hY, hu⟩ hn
      refine Set.mem_biUnion (Finset.mem_erase.2 ⟨?_, hY⟩) hu
      rintro rfl
      exact hn hu
    rw [hμ1, ← hsumW, ← Finset.add_sum_erase W _ hX]
    gcongr
  have hae : g =ᵐ[μ] fun u => ∑ X ∈ W, (E X).indicator (fun _ => f X) u := by
    filter_upwards [hcov] with u ⟨X, hX, hu⟩
    rw [Finset.sum_eq_single X, Set.indicator_of_mem hu, hg u X hu]
    · intro Y _ hYX
      exact Set.indicator_of_notMem (fun hY => hYX (yields_unique hY hu)) fun _ => f Y
    · exact fun h => absurd hX h
  have hint : ∀ X ∈ W, Integrable ((E X).indicator fun _ => f X) μ := fun X hX =>
    (integrable_const (f X)).indicator₀ (hmeas X hX)
  refine ⟨(integrable_finsetSum W hint).congr hae.symm, ?_⟩
  rw [integral_congr_ae hae, integral_finsetSum W hint]
  have : ∀ X ∈ W, ∫ u, (E X).indicator (fun _ => f X) u ∂μ = f X * (#{σ : Equiv.Perm (Fin N) | shuffled x y σ = X} : ℝ) / N.factorial := by
    intro X hX
    rw [integral_indicator₀ (hmeas X hX), setIntegral_const, smul_eq_mul, Measure.real, hμE, ENNReal.toReal_ofReal (by positivity)]
    ring
  rw [Finset.sum_congr rfl this, ← Finset.sum_div]
  congr 1
  rw [← Finset.sum_fiberwise_of_maps_to (s := (univ : Finset (Equiv.Perm (Fin N)))) (t := W) (g := shuffled x y) (fun σ _ => by simp [hW])]
  refine Finset.sum_congr rfl fun X _ => ?_
  rw [Finset.sum_congr rfl (g := fun _ => f X) fun σ hσ => by rw [(Finset.mem_filter.1 hσ).2], Finset.sum_const, nsmul_eq_mul, mul_comm]

/-- **C73 (mean of the sampler).** The average count of a cell of the simulated table is its expected frequency. -/
theorem sampler_mean_table {N r c : ℕ} (x : Fin N → Fin r) (y : Fin N → Fin c) (hr : 2 ≤ r) (hc : 2 ≤ c)
    (hx : Function.Surjective x) (hy : Function.Surjective y) (hN : N ≤ 46340) {fuel passes : ℕ} (hf : N + 1 ≤ fuel)
    (hp : 1 ≤ passes) (st : Statics ℝ) {buf : List (Option ℤ)} (hlen : buf.length = r * c) {L : ℕ} (hL : (r - 1) * (c - 1) ≤ L)
    (i : Fin r) (j : Fin c) (g : (Fin L → ℝ) → ℝ) (hg : ∀ u X, Yields x y fuel passes st buf u X → g u = X i j) :
    ∫ u in tapes L, g u = (#{a | x a = i} : ℝ) * #{a | y a = j} / N := by
  have hrN : r ≤ N := by simpa using Fintype.card_le_of_surjective x hx
  rw [(sampler_mean x y hr hc hx hy hN hf hp st hlen hL (fun X => X i j) g hg).2, shuffle_mean_table x y (by omega)]

/-- **C73 (mean chi2 of the sampler).** The average of Pearson's chi2 of the simulated table is `(r - 1) (c - 1) N / (N - 1)`, unless it
is two by two.  (The extension returns the transposed table, see C37.) -/
theorem sampler_mean_chi2 {N r c : ℕ} (x : Fin N → Fin r) (y : Fin N → Fin c) (hr : 2 ≤ r) (hc : 2 ≤ c) (h22 : ¬ (r = 2 ∧ c = 2))
    (hx : Function.Surjective x) (hy : Function.Surjective y) (hN : N ≤ 46340) {fuel passes : ℕ} (hf : N + 1 ≤ fuel)
    (hp : 1 ≤ passes) (st : Statics ℝ) {buf : List (Option ℤ)} (hlen : buf.length = r * c) {L : ℕ} (hL : (r - 1) * (c - 1) ≤ L)
    (g : (Fin L → ℝ) → ℝ) (hg : ∀ u X, Yields x y fuel passes st buf u X → getChi2 (countTable X).transpose "pearson" = .ok (g u)) :
    IntegrableOn g (tapes L) ∧ ∫ u in tapes L, g u = ((r : ℝ) - 1) * (c - 1) * (N / (N - 1)) := by
  let f : (Fin r → Fin c → ℕ) → ℝ := fun X => match getChi2 (countTable X) "pearson" with
    | .ok v => v
    | .error _ => 0
  obtain ⟨h1, h2⟩ := sampler_mean x y hr hc hx hy hN hf hp st hlen hL f g (by
    intro u X hu
    have := hg u X hu
    rw [countTable_transpose X] at this
    simp only [f, this])
  refine ⟨h1, ?_⟩
  obtain ⟨chi2, c1, c2⟩ := shuffle_mean_chi2 hx hy hr hc h22
  rw [h2, ← c2]
  congr 1
  refine Finset.sum_congr rfl fun σ _ => ?_
  simp only [f, c1 σ]

/-- There is such a `g`: every table the sampler yields has a chi2. -/
theorem sampler_chi2_exists {N r c : ℕ} (x : Fin N → Fin r) (y : Fin N → Fin c) (hr : 2 ≤ r) (hc : 2 ≤ c)
    (hx : Function.Surjective x) (hy : Function.Surjective y) (hN : N ≤ 46340) {fuel passes : ℕ} (hf : N + 1 ≤ fuel)
    (hp : 1 ≤ passes) (st : Statics ℝ) {buf : List (Option ℤ)} (hlen : buf.length = r * c) {L : ℕ} (hL : (r - 1) * (c - 1) ≤ L) :
    ∃ g : (Fin L → ℝ) → ℝ, ∀ u X, Yields x y fuel passes st buf u X → getChi2 (countTable X).transpose "pearson" = .ok (g u) := by
  classical
  let f : (Fin r → Fin c → ℕ) → ℝ := fun X => match getChi2 (countTable X).transpose "pearson" with
    | .ok v => v
    | .error _ => 0
  refine ⟨fun u => if h : ∃ X, Yields x y fuel passes st buf u X then f h.choose else 0, fun u X hX => ?_⟩
  have he : ∃ X, Yields x y fuel passes st buf u X := ⟨X, hX⟩
  simp only [dif_pos he, yields_unique he.choose_spec hX]
  have hcount : IsCount (countTable X) := by
    refine ⟨fun i j => Nat.cast_nonneg _, ?_⟩
    by_contra h0
    -- a table without records is not yielded
    obtain ⟨hu, out, o1, o2, o3⟩ := hX
    obtain ⟨hv, hsum⟩ := counts_valid hr hc hx hy
    have l1 : (List.ofFn fun i => (#{a | x a = i} : ℤ)).length = r := List.length_ofFn
    have l2 : (List.ofFn fun j => (#{a | y a = j} : ℤ)).length = c := List.length_ofFn
    obtain ⟨out', X', h1, h2, h3⟩ := patefield_exact_total hv (by omega) (fuel := fuel) (passes := passes) (by omega) hp st
      (buf := buf) (by rw [l1, l2]; exact hlen) (u := List.ofFn u) (by
        intro v hv
        obtain ⟨i, rfl⟩ := List.mem_ofFn.1 hv
        exact hu i) (by rw [l1, l2]; simpa using hL)
    rw [l1, l2, o1] at h1
    cases h1
    have hz : ∀ (i : Fin r) (j : Fin c), X i j = 0 := by
      intro i j
      by_contra hij
      apply h0
      refine Finset.sum_pos' (fun i _ => Finset.sum_nonneg fun j _ => Nat.cast_nonneg _) ⟨i, mem_univ _, ?_⟩
      refine Finset.sum_pos' (fun j _ => Nat.cast_nonneg _) ⟨j, mem_univ _, ?_⟩
      have : 0 < X i j := Nat.pos_of_ne_zero hij
      change (0 : ℝ) < (X i j : ℕ)
      exact_mod_cast this
    have e : ∀ j ∈ range c, X' 0 j = 0 := by
      intro j hj
      have hj' := Finset.mem_range.1 hj
      have h4 := h3.cells 0 (by omega) j (by rw [l2]; exact hj')
      have h5 := o3 ⟨0, by omega⟩ ⟨j, hj'⟩
      rw [l1] at h4
      rw [h4, hz] at h5
      simpa using h5
    have h6 := h3.rows 0 (by omega)
    rw [l2, Finset.sum_eq_zero e] at h6
    have h7 := count_pos hx ⟨0, by omega⟩
    simp only [List.getElem_ofFn] at h6
    have h8 : #{a | x a = (⟨0, by omega⟩ : Fin r)} = 0 := by exact_mod_cast h6.symm
    rw [h8] at h7
    simp at h7
  have : getChi2 (countTable X).transpose "pearson" = .ok (statistic pearsonCell (countTable X)) := by
    rw [countTable_transpose X]
    exact (get_chi2_value hcount).1
  simp only [f, this]

/-- Non-vacuity: six records, two against three categories: the average chi2 is 12/5 (pedestal 2). -/
example (st : Statics ℝ) : ∃ g : (Fin 2 → ℝ) → ℝ,
    (∀ u X, Yields (![0, 1, 0, 1, 0, 1] : Fin 6 → Fin 2) (![0, 0, 1, 1, 2, 2] : Fin 6 → Fin 3) 7 1 st (List.replicate 6 none) u X →
      getChi2 (countTable X).transpose "pearson" = .ok (g u)) ∧ ∫ u in tapes 2, g u = 12 / 5 := by
  obtain ⟨g, hg⟩ := sampler_chi2_exists (![0, 1, 0, 1, 0, 1] : Fin 6 → Fin 2) (![0, 0, 1, 1, 2, 2] : Fin 6 → Fin 3) (by norm_num) (by norm_num)
    (by decide) (by decide) (by norm_num) (fuel := 7) (passes := 1) le_rfl le_rfl st (buf := List.replicate 6 none) rfl (L := 2) (by norm_num)
  refine ⟨g, hg, ?_⟩
  rw [(sampler_mean_chi2 (![0, 1, 0, 1, 0, 1] : Fin 6 → Fin 2) (![0, 0, 1, 1, 2, 2] : Fin 6 → Fin 3) (by norm_num) (by norm_num) (by norm_num)
    (by decide) (by decide) (by norm_num) (fuel := 7) (passes := 1) le_rfl le_rfl st (buf := List.replicate 6 none) rfl (L := 2) (by norm_num)
    g hg).2]
  norm_num

end Props

end Phik
