import Verif.Lemmas.BinaryMono
import Verif.Props.GaussianMono

/-! # Property C22 for tables with two rows or two columns -/

namespace Phik.Gauss

open Spec Props Set

/-! ### the distance on a grid with two columns -/

theorem edges_two : (uniformEdges 2).getD 0 0 = -5 ∧ (uniformEdges 2).getD 1 0 = 0 ∧ (uniformEdges 2).getD 2 0 = 5 := by
  refine ⟨?_, ?_, ?_⟩
  · rw [uniform_getD (by norm_num)]; norm_num
  · rw [uniform_getD (by norm_num)]; norm_num
  · rw [uniform_getD (by norm_num)]; norm_num

/-- Edge `j` of a grid with bins of width `w`. -/
noncomputable def lat (w : ℝ) (j : ℕ) : ℝ := -5 + j * w

theorem lat_lt {w : ℝ} (hw : 0 < w) (j : ℕ) : lat w j < lat w (j + 1) := by
  unfold lat; push_cast; nlinarith

theorem cell_upper {c : ℕ} {w : ℝ} (hw : c * w = 10) {i : ℕ} (hi : i < c) (ρ : ℝ) :
    gaussMvn ρ (cellRect (uniformEdges c) (uniformEdges 2) i 1) = strip ρ (lat w i) (lat w (i + 1)) := by
  have hc : (c : ℝ) ≠ 0 := by rintro h; rw [h] at hw; norm_num at hw
  unfold cellRect strip lat
  rw [uniform_getD hi.le, uniform_getD (Nat.succ_le_of_lt hi), edges_two.2.1, edges_two.2.2]
  have e : w = 10 / c := by rw [eq_div_iff hc, mul_comm]; exact hw
  rw [e]
  congr 3 <;> ring

theorem cell_lower {c : ℕ} {w : ℝ} (hw : c * w = 10) {i : ℕ} (hi : i < c) (ρ : ℝ) :
    gaussMvn ρ (cellRect (uniformEdges c) (uniformEdges 2) i 0) = strip ρ (lat w (c - 1 - i)) (lat w (c - 1 - i + 1)) := by
  have hc : (c : ℝ) ≠ 0 := by rintro h; rw [h] at hw; norm_num at hw
  unfold cellRect strip
  rw [uniform_getD hi.le, uniform_getD (Nat.succ_le_of_lt hi), edges_two.1, edges_two.2.1, ← gaussian_mvn_spec.symm]
  have e : w = 10 / c := by rw [eq_div_iff hc, mul_comm]; exact hw
  have e1 : ((c - 1 - i : ℕ) : ℝ) = c - 1 - i := by
    rw [Nat.cast_sub (by omega), Nat.cast_sub (by omega)]; norm_num
  have e2 : lat w (c - 1 - i) = -(-5 + 10 * ((i + 1 : ℕ) : ℝ) / c) := by
    unfold lat; rw [e1, e]; push_cast; field_simp; ring
  have e3 : lat w (c - 1 - i + 1) = -(-5 + 10 * (i : ℝ) / c) := by
    unfold lat; push_cast; rw [e1, e]; field_simp; ring
  rw [e2, e3]
  norm_num

theorem two_distance {c : ℕ} {w : ℝ} (hw0 : 0 < w) (hw : c * w = 10) (ρ : ℝ) : distance gaussMvn c 2 ρ =
    2 / halfP * ∑ j ∈ Finset.range c, dev ρ (lat w j) (lat w (j + 1)) ^ 2 / (Φ (lat w (j + 1)) - Φ (lat w j)) := by
  have h : ∀ j, (strip ρ (lat w j) (lat w (j + 1)) - strip 0 (lat w j) (lat w (j + 1))) ^ 2 / strip 0 (lat w j) (lat w (j + 1)) =
      1 / halfP * (dev ρ (lat w j) (lat w (j + 1)) ^ 2 / (Φ (lat w (j + 1)) - Φ (lat w j))) := by
    intro j
    have h1 := halfP_pos
    have h2 : 0 < Φ (lat w (j + 1)) - Φ (lat w j) := sub_pos.2 (Φ_strictMono (lat_lt hw0 j))
    rw [strip_zero (lat_lt hw0 j).le]
    change (strip ρ _ _ - halfP * _) ^ 2 / (halfP * _) = _
    unfold dev
    field_simp
  set F : ℕ → ℝ := fun j => 1 / halfP * (dev ρ (lat w j) (lat w (j + 1)) ^ 2 / (Φ (lat w (j + 1)) - Φ (lat w j))) with hF
  have hsum : distance gaussMvn c 2 ρ = ∑ i ∈ Finset.range c, (F (c - 1 - i) + F i) := by
    rw [distance_sum]
    refine Finset.sum_congr rfl fun i hi => ?_
    have hi := Finset.mem_range.1 hi
    rw [Finset.sum_range_succ, Finset.sum_range_one, cell_lower hw hi, cell_lower hw hi, cell_upper hw hi, cell_upper hw hi, h, h]
  rw [hsum, Finset.sum_add_distrib, Finset.sum_range_reflect F c, hF, ← Finset.mul_sum]
  ring

/-- **C22.** With the true bivariate normal integrals and two bins for one of the variables, the distance of the binned distribution
from the uncorrelated one increases strictly with the correlation, whatever the number of bins of the other variable. -/
theorem columns_distance_strict {c : ℕ} (hc : 2 ≤ c) : StrictMonoOn (distance gaussMvn c 2) (Icc 0 1) := by
  rcases hc.eq_or_lt with rfl | hc3
  · exact square_distance_strict (by norm_num)
  have hc0 : (0 : ℝ) < c := by positivity
  obtain ⟨w, hw⟩ : ∃ w : ℝ, c * w = 10 := ⟨10 / c, by field_simp⟩
  have hw0 : 0 < w := by by_contra h; nlinarith
  refine StrictMonoOn.congr (f₁ := fun ρ => 2 / halfP * ∑ j ∈ Finset.range c, dev ρ (lat w j) (lat w (j + 1)) ^ 2 /
    (Φ (lat w (j + 1)) - Φ (lat w j))) ?_ (fun ρ _ => (two_distance hw0 hw ρ).symm)
  refine strictMonoOn_of_deriv_pos (convex_Icc 0 1) ?_ ?_
  · refine continuousOn_const.mul (continuousOn_finset_sum _ fun j _ => ContinuousOn.div_const (ContinuousOn.pow ?_ 2) _)
    exact (strip_cont _ _).sub continuousOn_const
  · intro ρ hρ
    rw [interior_Icc] at hρ
    have h1 : HasDerivAt (fun ρ => 2 / halfP * ∑ j ∈ Finset.range c, dev ρ (lat w j) (lat w (j + 1)) ^ 2 /
        (Φ (lat w (j + 1)) - Φ (lat w j))) (2 / halfP * ∑ j ∈ Finset.range c,
          (2 * dev ρ (lat w j) (lat w (j + 1)) * dstrip ρ (lat w j) (lat w (j + 1))) / (Φ (lat w (j + 1)) - Φ (lat w j))) ρ := by
      refine HasDerivAt.const_mul _ (HasDerivAt.fun_sum fun j _ => HasDerivAt.div_const ?_ _)
      have h2 : HasDerivAt (fun ρ => dev ρ (lat w j) (lat w (j + 1))) (dstrip ρ (lat w j) (lat w (j + 1))) ρ :=
        (strip_deriv (mem_of hρ) (lat_lt hw0 j).le).sub_const _
      exact (h2.pow 2).congr_deriv (by norm_num)
    rw [h1.deriv]
    have h2 := all_bins_pos hρ hc3 hw
    have h3 : ∑ j ∈ Finset.range c, (2 * dev ρ (lat w j) (lat w (j + 1)) * dstrip ρ (lat w j) (lat w (j + 1))) /
        (Φ (lat w (j + 1)) - Φ (lat w j)) = 2 * ∑ j ∈ Finset.range c, dev ρ (lat w j) (lat w (j + 1)) *
          dstrip ρ (lat w j) (lat w (j + 1)) / (Φ (lat w (j + 1)) - Φ (lat w j)) := by
      rw [Finset.mul_sum]; exact Finset.sum_congr rfl fun j _ => by ring
    rw [h3]
    have h4 := halfP_pos
    exact mul_pos (by positivity) (mul_pos two_pos h2)

/-- The same number of bins for both variables, or one of the variables with two bins. -/
def SquareOrBinary (r c : ℕ) : Prop := r = c ∨ r = 2 ∨ c = 2

/-- **C22.** With the true bivariate normal integrals, on square grids and on grids with two bins for one of the variables, the distance
of the binned distribution from the uncorrelated one increases strictly with the correlation. -/
theorem grid_distance_strict {r c : ℕ} (hr : 2 ≤ r) (hc : 2 ≤ c) (h : SquareOrBinary r c) :
    StrictMonoOn (distance gaussMvn r c) (Icc 0 1) := by
  rcases h with rfl | rfl | rfl
  · exact square_distance_strict (by omega)
  · exact (columns_distance_strict hc).congr fun x _ => (distance_swap gaussian_mvn_spec 2 c x)
  · exact columns_distance_strict hr

/-- **C22.** The theoretical curve is strictly increasing for square tables and for tables with two rows or two columns. -/
theorem grid_theory_strict {r c : ℕ} (hr : 2 ≤ r) (hc : 2 ≤ c) (h : SquareOrBinary r c) {n ped : ℝ}
    (hmax : ped < n * (min (r - 1) (c - 1) : ℕ)) : StrictMonoOn (theoryChi2 gaussMvn r c n ped) (Icc 0 1) := by
  intro x hx y hy hxy
  have h3 := div_lt_div_of_pos_right (grid_distance_strict hr hc h hx hy hxy) (distance_one_pos gaussian_mvn_spec hr hc)
  have := mul_lt_mul_of_pos_left h3 (sub_pos.2 hmax)
  unfold theoryChi2
  linarith

/-- **C22.** With the true bivariate normal integrals, for a square table and for a table with two rows or two columns, converting a
correlation to chi2 and back returns it up to the tolerance of the root finder, for every correlation in [0, 1]. -/
theorem grid_round_trip {brentq : (ℝ → ℝ) → ℝ → ℝ → ℝ → Except Err ℝ} (hb : BrentqSpec brentq) {r c : ℕ} (hr : 2 ≤ r) (hc : 2 ≤ c)
    (h : SquareOrBinary r c) {n ped rho : ℝ} (hn : 0 < n) (hp : 0 ≤ ped) (hmax : ped < n * (min (r - 1) (c - 1) : ℕ))
    (h0 : 0 ≤ rho) (h1 : rho ≤ 1) :
    ∃ chi2 x : ℝ, chi2FromPhik gaussMvn rho n 0 none none none none ped r c = .ok chi2 ∧
      phikFromChi2 gaussMvn brentq chi2 n r c none none ped = .ok x ∧
      |x - rho| ≤ 1 / 10 ^ 5 + 4 * 2 ^ (-52 : ℤ) * |rho| :=
  phik_round_trip gaussian_mvn_spec hb hr hc hn hp hmax (grid_theory_strict hr hc h hmax) h0 h1

/-- The round trip for a table with two rows and seven columns, 100 records and pedestal 6. -/
example : ∃ chi2 x : ℝ, chi2FromPhik gaussMvn (1 / 2) 100 0 none none none none 6 (2 : ℕ) (7 : ℕ) = .ok chi2 ∧
    phikFromChi2 gaussMvn idealBrentq chi2 100 (2 : ℕ) (7 : ℕ) none none 6 = .ok x ∧
    |x - 1 / 2| ≤ 1 / 10 ^ 5 + 4 * 2 ^ (-52 : ℤ) * |(1 / 2 : ℝ)| :=
  grid_round_trip idealBrentq_spec (by norm_num) (by norm_num) (.inr (.inl rfl)) (by norm_num) (by norm_num) (by norm_num)
    (by norm_num) (by norm_num)

end Phik.Gauss
