import Verif.Lemmas.Bivariate
import Verif.Props.Stats
import Verif.Lemmas.BinData

/-! # From chi2 to phik -/

namespace Phik

open Spec

theorem uniform_getD {n i : ℕ} (hi : i ≤ n) : (uniformEdges n).getD i 0 = -5 + 10 * (i : ℝ) / n := by
  unfold uniformEdges
  rw [List.getD_eq_getElem?_getD, List.getElem?_map, List.getElem?_range (by omega)]
  rfl

theorem uniform_length (n : ℕ) : (uniformEdges n).length = n + 1 := by simp [uniformEdges]

theorem uniform_lt {n i : ℕ} (hi : i < n) : (uniformEdges n).getD i 0 < (uniformEdges n).getD (i + 1) 0 := by
  rw [uniform_getD (by omega), uniform_getD (by omega)]
  have : (0 : ℝ) < n := by exact_mod_cast (by omega : 0 < n)
  have h2 : 10 * (i : ℝ) / n < 10 * ((i + 1 : ℕ) : ℝ) / n := by
    rw [div_lt_div_iff_of_pos_right this]
    push_cast
    linarith
  linarith

theorem grid_pos {mvn : ℝ → Rect → ℝ} (hm : MvnSpec mvn) {r c : ℕ} {R : Rect}
    (hR : R ∈ gridCells (uniformEdges r) (uniformEdges c)) : 0 < mvn 0 R := by
  unfold gridCells at hR
  rw [uniform_length, uniform_length] at hR
  simp only [List.mem_flatMap, List.mem_range, List.mem_map] at hR
  obtain ⟨i, hi, j, hj, rfl⟩ := hR
  exact hm.pos _ _ _ _ (uniform_lt (by omega)) (uniform_lt (by omega))

theorem distance_nonneg {mvn : ℝ → Rect → ℝ} (hm : MvnSpec mvn) (r c : ℕ) (rho : ℝ) :
    0 ≤ distance mvn r c rho := by
  unfold distance
  apply List.sum_nonneg
  intro x hx
  obtain ⟨R, hR, rfl⟩ := List.mem_map.1 hx
  exact div_nonneg (sq_nonneg _) (grid_pos hm hR).le

theorem distance_zero (mvn : ℝ → Rect → ℝ) (r c : ℕ) : distance mvn r c 0 = 0 := by
  unfold distance
  apply List.sum_eq_zero
  intro x hx
  obtain ⟨R, _, rfl⟩ := List.mem_map.1 hx
  simp

theorem distance_one_pos {mvn : ℝ → Rect → ℝ} (hm : MvnSpec mvn) {r c : ℕ} (hr : 2 ≤ r) (hc : 2 ≤ c) :
    0 < distance mvn r c 1 := by
  have hmem : cellRect (uniformEdges r) (uniformEdges c) 0 (c - 1) ∈
      gridCells (uniformEdges r) (uniformEdges c) := by
    unfold gridCells cellRect
    rw [uniform_length, uniform_length]
    simp only [List.mem_flatMap, List.mem_range, List.mem_map]
    exact ⟨0, by omega, c - 1, by omega, rfl⟩
  have hp := grid_pos hm hmem
  have hd : mvn 1 (cellRect (uniformEdges r) (uniformEdges c) 0 (c - 1)) = 0 := by
    unfold cellRect
    apply hm.diag
    · exact uniform_lt (by omega)
    · exact uniform_lt (by omega)
    · rw [uniform_getD (by omega), uniform_getD (by omega)]
      have h1 : (0 : ℝ) < r := by exact_mod_cast (by omega : 0 < r)
      have h2 : (0 : ℝ) < c := by exact_mod_cast (by omega : 0 < c)
      have h3 : (2 : ℝ) ≤ r := by exact_mod_cast hr
      have h4 : (2 : ℝ) ≤ c := by exact_mod_cast hc
      have h5 : 10 * ((0 + 1 : ℕ) : ℝ) / r ≤ 5 := by
        rw [div_le_iff₀ h1]; push_cast; linarith
      have h6 : 5 ≤ 10 * ((c - 1 : ℕ) : ℝ) / c := by
        rw [le_div_iff₀ h2, Nat.cast_sub (by omega)]; push_cast; linarith
      linarith
  refine lt_of_lt_of_le hp ?_
  unfold distance
  refine le_trans (le_of_eq ?_) (List.single_le_sum ?_ _ (List.mem_map.2 ⟨_, hmem, rfl⟩))
  · rw [hd]; field_simp; ring
  · intro x hx
    obtain ⟨R, hR, rfl⟩ := List.mem_map.1 hx
    exact div_nonneg (sq_nonneg _) (grid_pos hm hR).le

theorem distance_cont {mvn : ℝ → Rect → ℝ} (hm : MvnSpec mvn) (r c : ℕ) :
    ContinuousOn (distance mvn r c) (Set.Icc 0 1) := by
  unfold distance
  generalize gridCells (uniformEdges r) (uniformEdges c) = l
  induction l with
  | nil => simpa using continuousOn_const
  | cons R l ih =>
    simp only [List.map_cons, List.sum_cons]
    exact (((hm.cont R).sub continuousOn_const).pow 2 |>.div_const _).add ih

theorem ratioSum_distance {mvn : ℝ → Rect → ℝ} (hm : MvnSpec mvn) {r c : ℕ} (hr : 1 ≤ r) (hc : 1 ≤ c)
    (rho : ℝ) : ratioSum (mvnArray (mvn rho) (uniformEdges r) (uniformEdges c))
      (mvnArray (mvn 0) (uniformEdges r) (uniformEdges c)) = distance mvn r c rho :=
  ratioSum_grid (uniform_symmetric hr) (uniform_symmetric hc) (hm.symm rho) (hm.symm 0)

theorem chi2Max_nat (n : ℝ) {r c : ℕ} (hr : 1 ≤ r) (hc : 1 ≤ c) :
    chi2Max n r c = n * (min (r - 1) (c - 1) : ℕ) := by
  unfold chi2Max
  have : (min ((r : ℤ) - 1) ((c : ℤ) - 1)) = ((min (r - 1) (c - 1) : ℕ) : ℤ) := by omega
  rw [this]
  norm_cast

/-- The clamped chi2 of `phik_from_chi2`. -/
noncomputable def clampChi2 (chi2 mx : ℝ) : ℝ :=
  if mx < chi2 ∧ |chi2 - mx| ≤ 1 / 10 ^ 14 + 1 / 10 ^ 5 * |mx| then mx else chi2

theorem phikFromChi2_eq {mvn : ℝ → Rect → ℝ} (hm : MvnSpec mvn)
    (brentq : (ℝ → ℝ) → ℝ → ℝ → ℝ → Except Err ℝ) {r c : ℕ} (hr : 1 ≤ r) (hc : 1 ≤ c) (chi2 n : ℝ)
    {ped : ℝ} (hp : 0 ≤ ped) :
    phikFromChi2 mvn brentq chi2 n r c none none ped =
      if clampChi2 chi2 (n * (min (r - 1) (c - 1) : ℕ)) ≤ ped then .ok 0
      else if n * (min (r - 1) (c - 1) : ℕ) ≤ clampChi2 chi2 (n * (min (r - 1) (c - 1) : ℕ)) then .ok 1
      else if n * distance mvn r c 1 = 0 then .error .nonfinite
      else brentq (fun rho => ped + n * distance mvn r c rho *
        ((n * (min (r - 1) (c - 1) : ℕ) - ped) / (n * distance mvn r c 1)) -
          clampChi2 chi2 (n * (min (r - 1) (c - 1) : ℕ))) 0 1 (1 / 10 ^ 5) := by
  unfold phikFromChi2
  have hb : (chi2Rho mvn n (clampChi2 chi2 (n * (min (r - 1) (c - 1) : ℕ)))
        (mvnArray (mvn 0) (uniformEdges r) (uniformEdges c))
        ((n * (min (r - 1) (c - 1) : ℕ) - ped) / (n * distance mvn r c 1))
        (uniformEdges r) (uniformEdges c) ped) = (fun rho => ped + n * distance mvn r c rho *
        ((n * (min (r - 1) (c - 1) : ℕ) - ped) / (n * distance mvn r c 1)) -
          clampChi2 chi2 (n * (min (r - 1) (c - 1) : ℕ))) := by
    funext rho
    simp only [chi2Rho, ratioSum_distance hm hr hc]
  rw [← hb]
  simp only [not_lt.2 hp, if_false, Option.isSome_none, Bool.false_eq_true, false_and,
    edgesOr_uniform hr, edgesOr_uniform hc, ratioSum_distance hm hr hc, chi2Max_nat n hr hc, bind,
    Except.bind, pure, Except.pure]
  rfl

theorem theory_eq {mvn : ℝ → Rect → ℝ} {r c : ℕ} {n ped : ℝ} (hn : n ≠ 0) (rho : ℝ) :
    ped + n * distance mvn r c rho *
      ((n * (min (r - 1) (c - 1) : ℕ) - ped) / (n * distance mvn r c 1)) =
    theoryChi2 mvn r c n ped rho := by
  unfold theoryChi2
  congr 1
  rw [mul_div_assoc', mul_assoc, mul_div_mul_left _ _ hn]
  ring

end Phik
