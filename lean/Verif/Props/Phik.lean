import Verif.Lemmas.Phik

/-!
# Properties C15-C17, C20-C22, C27: phik of a contingency table
-/

namespace Phik.Props

open Spec

/-- **C21.** For edges symmetric around zero and a point-symmetric integrand, the half-grid evaluation
gives the integrals of all cells, each exactly once (as a list up to order). -/
theorem half_grid_complete {sx sy : List ℝ} (hx : SymmetricEdges sx) (hy : SymmetricEdges sy)
    {cell : Rect → ℝ} (hc : ∀ a b c d : ℝ, cell ((-c, -d), (-a, -b)) = cell ((a, b), (c, d))) :
    (mvnArray cell sx sy).Perm ((gridCells sx sy).map cell) := mvnArray_perm hx hy hc

example : SymmetricEdges [-2, -1, 1, 2] ∧ SymmetricEdges (uniformEdges 7) :=
  ⟨by simp [SymmetricEdges], uniform_symmetric (by norm_num)⟩

/-- **C21 (needs symmetric edges).** For edges that are not symmetric the half-grid evaluation can give
a different total, even for a point-symmetric integrand (here the area). -/
theorem half_grid_incomplete : ∃ (sx sy : List ℝ) (cell : Rect → ℝ),
    (∀ a b c d : ℝ, cell ((-c, -d), (-a, -b)) = cell ((a, b), (c, d))) ∧
    (mvnArray cell sx sy).sum ≠ ((gridCells sx sy).map cell).sum := by
  refine ⟨[0, 1, 3], [0, 1], fun R => (R.2.1 - R.1.1) * (R.2.2 - R.1.2), ?_, ?_⟩
  · intro a b c d; ring
  · norm_num [mvnArray, mvnRanges, gridCells, cellRect, List.range_succ]

/-- **C15.** Whenever phik of a table is a number, it lies in [0, 1]: for every table, every integral
function and every root finder that stays in its bracket. -/
theorem phik_range {mvn : ℝ → Rect → ℝ} {brentq : (ℝ → ℝ) → ℝ → ℝ → ℝ → Except Err ℝ}
    (hb : BrentqSpec brentq) {a : Arr2 ℝ} {noise : Bool} {x : ℝ}
    (h : phikFromHist2d mvn brentq a noise = .ok x) : 0 ≤ x ∧ x ≤ 1 := by
  unfold phikFromHist2d at h
  obtain ⟨chi2, -, h⟩ := except_bind_ok h
  revert h
  simp only
  generalize ((if (if noise = true then estimateSimpleNdof a else 0) < 0 then 0
    else (if noise = true then estimateSimpleNdof a else 0 : ℤ) : ℤ) : ℝ) = ped
  intro h
  unfold phikFromChi2 at h
  simp only [bind, Except.bind, pure, Except.pure, throw, throwThe, MonadExceptOf.throw] at h
  repeat' split at h
  all_goals first
    | exact hb.inside _ _ _ _ _ zero_le_one h
    | (simp only [Except.ok.injEq] at h; subst h; norm_num)
    | (simp at h)

/-- **C16.** `phik_from_chi2` on a uniform grid: 0 whenever chi2 does not exceed the pedestal, 1 whenever
chi2 reaches the maximum (and exceeds the pedestal), and otherwise the root finder's answer for the
theoretical curve. -/
theorem phik_from_chi2_cases {mvn : ℝ → Rect → ℝ} (hm : MvnSpec mvn)
    (brentq : (ℝ → ℝ) → ℝ → ℝ → ℝ → Except Err ℝ) {r c : ℕ} (hr : 2 ≤ r) (hc : 2 ≤ c) {chi2 n ped : ℝ}
    (hp : 0 ≤ ped) (hn : 0 < n) (hmax : ped < n * (min (r - 1) (c - 1) : ℕ)) :
    (chi2 ≤ ped → phikFromChi2 mvn brentq chi2 n r c none none ped = .ok 0) ∧
    (n * (min (r - 1) (c - 1) : ℕ) ≤ chi2 → phikFromChi2 mvn brentq chi2 n r c none none ped = .ok 1) ∧
    (ped < chi2 → chi2 < n * (min (r - 1) (c - 1) : ℕ) →
      phikFromChi2 mvn brentq chi2 n r c none none ped =
        brentq (fun rho => theoryChi2 mvn r c n ped rho - chi2) 0 1 (1 / 10 ^ 5)) := by
  rw [phikFromChi2_eq hm brentq (by omega) (by omega) chi2 n hp]
  have hc0 : chi2 < n * (min (r - 1) (c - 1) : ℕ) →
      clampChi2 chi2 (n * (min (r - 1) (c - 1) : ℕ)) = chi2 := by
    intro h; unfold clampChi2; rw [if_neg (fun h' => absurd h'.1 (not_lt.2 h.le))]
  refine ⟨fun h => ?_, fun h => ?_, fun h h' => ?_⟩
  · rw [hc0 (by linarith), if_pos h]
  · have h1 : n * (min (r - 1) (c - 1) : ℕ) ≤ clampChi2 chi2 (n * (min (r - 1) (c - 1) : ℕ)) := by
      unfold clampChi2; split
      · exact le_rfl
      · exact h
    rw [if_neg (by linarith), if_pos h1]
  · rw [hc0 h', if_neg (by linarith), if_neg (by linarith),
      if_neg (mul_pos hn (distance_one_pos hm hr hc)).ne']
    simp only [theory_eq hn.ne']

/-- The theoretical curve runs from the pedestal to the maximum. -/
theorem theory_ends {mvn : ℝ → Rect → ℝ} (hm : MvnSpec mvn) {r c : ℕ} (hr : 2 ≤ r) (hc : 2 ≤ c)
    (n ped : ℝ) :
    theoryChi2 mvn r c n ped 0 = ped ∧ theoryChi2 mvn r c n ped 1 = n * (min (r - 1) (c - 1) : ℕ) := by
  unfold theoryChi2
  rw [distance_zero, div_self (distance_one_pos hm hr hc).ne']
  constructor <;> ring

theorem theory_cont {mvn : ℝ → Rect → ℝ} (hm : MvnSpec mvn) (r c : ℕ) (n ped : ℝ) :
    ContinuousOn (theoryChi2 mvn r c n ped) (Set.Icc 0 1) := by
  unfold theoryChi2
  exact continuousOn_const.add (continuousOn_const.mul ((distance_cont hm r c).div_const _))

section Data
variable {a : Arr2 ℝ} (h : DataTable a) (hr : 2 ≤ a.r) (hc : 2 ≤ a.c)
include h hr

theorem data_nonneg (i j) : 0 ≤ a.v i j := by
  obtain ⟨k, hk⟩ := h.counts i j; rw [hk]; positivity

theorem data_total_ge : (a.r : ℝ) ≤ a.total := by
  have : ∀ i, 1 ≤ a.rowSum i := by
    intro i
    obtain ⟨j, hj⟩ := h.rows i
    obtain ⟨k, hk⟩ := h.counts i j
    have h1 : 1 ≤ a.v i j := by
      rw [hk] at hj ⊢
      exact_mod_cast Nat.one_le_iff_ne_zero.2 (by exact_mod_cast hj)
    exact h1.trans (Finset.single_le_sum (f := fun j => a.v i j) (fun j _ => data_nonneg h hr i j)
      (Finset.mem_univ j))
  calc (a.r : ℝ) = ∑ i : Fin a.r, (1 : ℝ) := by simp
    _ ≤ ∑ i, a.rowSum i := Finset.sum_le_sum fun i _ => this i

theorem data_isCount : IsCount a :=
  ⟨data_nonneg h hr, lt_of_lt_of_le (by positivity) (data_total_ge h hr)⟩

include hc

theorem data_total_ge_cols : (a.c : ℝ) ≤ a.total := by
  have := data_total_ge (a := a.transpose) ⟨fun i j => h.counts j i, h.cols, h.rows⟩ hc
  rwa [show a.transpose.total = a.total from Finset.sum_comm] at this

/-- **C17 (maximum above pedestal).** For a table built from data the largest possible chi2 exceeds the
noise pedestal. -/
theorem data_max_above_pedestal :
    (((a.r : ℤ) - 1) * ((a.c : ℤ) - 1) : ℤ) < a.total * (min (a.r - 1) (a.c - 1) : ℕ) := by
  have h1 := data_total_ge h hr
  have h2 := data_total_ge_cols h hr hc
  have hr1 : (2 : ℝ) ≤ a.r := by exact_mod_cast hr
  have hc1 : (2 : ℝ) ≤ a.c := by exact_mod_cast hc
  rcases le_total (a.r - 1) (a.c - 1) with hl | hl
  · rw [min_eq_left hl, Nat.cast_sub (by omega)]
    push_cast
    nlinarith
  · rw [min_eq_right hl, Nat.cast_sub (by omega)]
    push_cast
    nlinarith

end Data

/-- **C16 and C17.** For every contingency table built from data (integer counts, no empty row or
column, at least two of each) phik is a number: the maximum exceeds the pedestal; phik is 0 when chi2
does not exceed the pedestal, 1 when it reaches the maximum, and otherwise, up to the tolerance of the
root finder, a correlation whose theoretical chi2 is the observed chi2. -/
theorem phik_of_data {mvn : ℝ → Rect → ℝ} (hm : MvnSpec mvn)
    {brentq : (ℝ → ℝ) → ℝ → ℝ → ℝ → Except Err ℝ} (hb : BrentqSpec brentq) {a : Arr2 ℝ}
    (h : DataTable a) (hr : 2 ≤ a.r) (hc : 2 ≤ a.c) (noise : Bool) :
    ∃ chi2 ped mx x : ℝ, getChi2 a "pearson" = .ok chi2 ∧
      ped = (if noise then (((a.r : ℤ) - 1) * ((a.c : ℤ) - 1) : ℤ) else 0 : ℤ) ∧
      mx = a.total * (min (a.r - 1) (a.c - 1) : ℕ) ∧ ped < mx ∧ chi2 ≤ mx ∧
      phikFromHist2d mvn brentq a noise = .ok x ∧ 0 ≤ x ∧ x ≤ 1 ∧
      (chi2 ≤ ped → x = 0) ∧ (chi2 = mx → x = 1) ∧
      (ped < chi2 → chi2 < mx → ∃ x₀, 0 ≤ x₀ ∧ x₀ ≤ 1 ∧
        theoryChi2 mvn a.r a.c a.total ped x₀ = chi2 ∧
        |x - x₀| ≤ 1 / 10 ^ 5 + 4 * 2 ^ (-52 : ℤ) * |x₀|) := by
  have ha := data_isCount h hr
  have hchi := (get_chi2_value ha).1
  obtain ⟨hx0, -, hxm⟩ := pearson_bounds ha hchi
  set chi2 := statistic pearsonCell a
  have hend : estimateSimpleNdof a = ((a.r : ℤ) - 1) * ((a.c : ℤ) - 1) :=
    (estimate_simple_ndof_full ha).2 h.rows h.cols
  have hnn : (0 : ℤ) ≤ ((a.r : ℤ) - 1) * ((a.c : ℤ) - 1) := by
    apply mul_nonneg <;> omega
  set ped : ℤ := if noise then ((a.r : ℤ) - 1) * ((a.c : ℤ) - 1) else 0 with hped
  have hp0 : (0 : ℤ) ≤ ped := by rw [hped]; split <;> simp [hnn]
  have hp : (0 : ℝ) ≤ (ped : ℝ) := by exact_mod_cast hp0
  have hmx := data_max_above_pedestal h hr hc
  have hmx' : (ped : ℝ) < a.total * (min (a.r - 1) (a.c - 1) : ℕ) := by
    refine lt_of_le_of_lt ?_ hmx
    rw [hped]
    split
    · exact le_rfl
    · exact_mod_cast hnn
  have hrun : phikFromHist2d mvn brentq a noise =
      phikFromChi2 mvn brentq chi2 a.total a.r a.c none none ped := by
    unfold phikFromHist2d
    rw [hchi]
    simp only [bind, Except.bind, hend]
    rw [← hped, if_neg (not_lt.2 hp0)]
  obtain ⟨c1, c2, c3⟩ := phik_from_chi2_cases hm brentq hr hc (chi2 := chi2) hp ha.pos hmx'
  refine ⟨chi2, ped, a.total * (min (a.r - 1) (a.c - 1) : ℕ), ?_⟩
  suffices hs : ∃ x, phikFromHist2d mvn brentq a noise = .ok x ∧ (chi2 ≤ ped → x = 0) ∧
      (chi2 = a.total * (min (a.r - 1) (a.c - 1) : ℕ) → x = 1) ∧
      ((ped : ℝ) < chi2 → chi2 < a.total * (min (a.r - 1) (a.c - 1) : ℕ) → ∃ x₀, 0 ≤ x₀ ∧ x₀ ≤ 1 ∧
        theoryChi2 mvn a.r a.c a.total ped x₀ = chi2 ∧
        |x - x₀| ≤ 1 / 10 ^ 5 + 4 * 2 ^ (-52 : ℤ) * |x₀|) by
    obtain ⟨x, e1, e2, e3, e4⟩ := hs
    exact ⟨x, hchi, rfl, rfl, hmx', hxm, e1, (phik_range hb e1).1, (phik_range hb e1).2, e2, e3, e4⟩
  rw [hrun]
  rcases le_or_gt chi2 (ped : ℝ) with hle | hgt
  · exact ⟨0, c1 hle, fun _ => rfl, fun e => by linarith, fun e => by linarith⟩
  · rcases hxm.lt_or_eq with hlt | heq
    · obtain ⟨t0, t1⟩ := theory_ends hm hr hc a.total ped
      obtain ⟨x, e1, -, x₀, h0, h1, h2⟩ := hb.root (fun rho => theoryChi2 mvn a.r a.c a.total ped rho - chi2)
        0 1 (1 / 10 ^ 5) zero_le_one (by norm_num) ((theory_cont hm _ _ _ _).sub continuousOn_const)
        (by simp only [t0]; linarith) (by simp only [t1]; linarith)
      exact ⟨x, (c3 hgt hlt).trans e1, fun e => by linarith, fun e => by linarith,
        fun _ _ => ⟨x₀, h0.1, h0.2, by linarith, h2⟩⟩
    · exact ⟨1, c2 heq.ge, fun e => by linarith, fun _ => rfl, fun _ e => by linarith⟩

end Phik.Props
