import Verif.Spec.GivenEdges
import Verif.Props.GaussianMono

/-! # Property C80: bin edges given by the caller -/

namespace Phik
open Spec Props

/-! ### symmetric grids -/

theorem uniform_good {n : ℕ} (hn : 2 ≤ n) : GoodEdges (uniformEdges n) := by
  refine ⟨?_, uniform_symmetric (by omega), by rw [uniform_length]; omega⟩
  unfold uniformEdges
  rw [List.pairwise_map]
  refine (List.pairwise_lt_range (n := n + 1)).imp fun {i j} h => ?_
  have : (0 : ℝ) < n := by exact_mod_cast (by omega : 0 < n)
  have h2 : 10 * (i : ℝ) / n < 10 * (j : ℝ) / n := by
    rw [div_lt_div_iff_of_pos_right this]
    have : (i : ℝ) < j := by exact_mod_cast h
    linarith
  linarith

theorem gridOf_good {s : Option (List ℝ)} (h : ∀ l, s = some l → GoodEdges l) {n : ℕ} (hn : 2 ≤ n) :
    GoodEdges (gridOf s n) := by
  cases s with
  | none => exact uniform_good hn
  | some l => exact h l rfl

theorem edgesOr_gridOf (s : Option (List ℝ)) {n : ℕ} (hn : 1 ≤ n) : edgesOr s n = .ok (gridOf s n) := by
  cases s with
  | none => exact edgesOr_uniform hn
  | some l => rfl

theorem edges_lt {s : List ℝ} (h : GoodEdges s) {i j : ℕ} (hij : i < j) (hj : j < s.length) : s.getD i 0 < s.getD j 0 := by
  rw [List.getD_eq_getElem?_getD, List.getD_eq_getElem?_getD, List.getElem?_eq_getElem hj,
    List.getElem?_eq_getElem (hij.trans hj)]
  exact List.pairwise_iff_getElem.1 h.incr i j (hij.trans hj) hj hij

theorem edges_mirror {s : List ℝ} (h : GoodEdges s) {i : ℕ} (hi : i < s.length) :
    s.getD (s.length - 1 - i) 0 = - s.getD i 0 := by
  have e : s.reverse[i]? = (s.map fun x => -x)[i]? := by rw [h.symm]
  rw [List.getElem?_map, List.getElem?_reverse hi] at e
  rw [List.getD_eq_getElem?_getD, e, List.getD_eq_getElem?_getD]
  rw [List.getElem?_eq_getElem hi]
  rfl

theorem edges_mid {s : List ℝ} (h : GoodEdges s) : s.getD 1 0 ≤ 0 ∧ 0 ≤ s.getD (s.length - 2) 0 := by
  have h3 := h.bins
  have e := edges_mirror h (i := 1) (by omega)
  rw [show s.length - 1 - 1 = s.length - 2 by omega] at e
  have : s.getD 1 0 ≤ s.getD (s.length - 2) 0 := by
    rcases Nat.lt_or_ge 1 (s.length - 2) with h1 | h1
    · exact (edges_lt h h1 (by omega)).le
    · rw [show s.length - 2 = 1 by omega]
  constructor <;> linarith

section
variable {mvn : ℝ → Rect → ℝ} (hm : MvnSpec mvn) {sx sy : List ℝ} (hx : GoodEdges sx) (hy : GoodEdges sy)
include hm hx hy

theorem gridCell_pos {R : Rect} (hR : R ∈ gridCells sx sy) : 0 < mvn 0 R := by
  unfold gridCells at hR
  simp only [List.mem_flatMap, List.mem_range, List.mem_map] at hR
  obtain ⟨i, hi, j, hj, rfl⟩ := hR
  exact hm.pos _ _ _ _ (edges_lt hx (by omega) (by omega)) (edges_lt hy (by omega) (by omega))

theorem gridDistance_nonneg (rho : ℝ) : 0 ≤ gridDistance mvn sx sy rho := by
  unfold gridDistance
  apply List.sum_nonneg
  intro x hx'
  obtain ⟨R, hR, rfl⟩ := List.mem_map.1 hx'
  exact div_nonneg (sq_nonneg _) (gridCell_pos hm hx hy hR).le

theorem gridDistance_one_pos : 0 < gridDistance mvn sx sy 1 := by
  have h1 := hx.bins
  have h2 := hy.bins
  have hmem : cellRect sx sy 0 (sy.length - 2) ∈ gridCells sx sy := by
    unfold gridCells cellRect
    simp only [List.mem_flatMap, List.mem_range, List.mem_map]
    exact ⟨0, by omega, sy.length - 2, by omega, rfl⟩
  have hp := gridCell_pos hm hx hy hmem
  have hd : mvn 1 (cellRect sx sy 0 (sy.length - 2)) = 0 := by
    unfold cellRect
    exact hm.diag _ _ _ _ (edges_lt hx (by omega) (by omega)) (edges_lt hy (by omega) (by omega))
      ((edges_mid hx).1.trans (edges_mid hy).2)
  refine lt_of_lt_of_le hp ?_
  unfold gridDistance
  refine le_trans (le_of_eq ?_) (List.single_le_sum ?_ _ (List.mem_map.2 ⟨_, hmem, rfl⟩))
  · rw [hd]; field_simp; ring
  · intro x hx'
    obtain ⟨R, hR, rfl⟩ := List.mem_map.1 hx'
    exact div_nonneg (sq_nonneg _) (gridCell_pos hm hx hy hR).le

theorem ratioSum_gridDistance (rho : ℝ) :
    ratioSum (mvnArray (mvn rho) sx sy) (mvnArray (mvn 0) sx sy) = gridDistance mvn sx sy rho :=
  ratioSum_grid hx.symm hy.symm (hm.symm rho) (hm.symm 0)

end

theorem gridDistance_zero (mvn : ℝ → Rect → ℝ) (sx sy : List ℝ) : gridDistance mvn sx sy 0 = 0 := by
  unfold gridDistance
  apply List.sum_eq_zero
  intro x hx
  obtain ⟨R, -, rfl⟩ := List.mem_map.1 hx
  simp

theorem gridTheory_cont {mvn : ℝ → Rect → ℝ} (hm : MvnSpec mvn) (sx sy : List ℝ) (mx ped : ℝ) :
    ContinuousOn (gridTheory mvn sx sy mx ped) (Set.Icc 0 1) := by
  have : ContinuousOn (gridDistance mvn sx sy) (Set.Icc 0 1) := by
    unfold gridDistance
    generalize gridCells sx sy = l
    induction l with
    | nil => simpa using continuousOn_const
    | cons R l ih =>
      simp only [List.map_cons, List.sum_cons]
      exact (((hm.cont R).sub continuousOn_const).pow 2 |>.div_const _).add ih
  unfold gridTheory
  exact continuousOn_const.add (continuousOn_const.mul (this.div_const _))

theorem gridTheory_ends {mvn : ℝ → Rect → ℝ} (hm : MvnSpec mvn) {sx sy : List ℝ} (hx : GoodEdges sx) (hy : GoodEdges sy)
    (mx ped : ℝ) : gridTheory mvn sx sy mx ped 0 = ped ∧ gridTheory mvn sx sy mx ped 1 = mx := by
  unfold gridTheory
  rw [gridDistance_zero, div_self (gridDistance_one_pos hm hx hy).ne']
  constructor <;> ring

namespace Props

/-- **C80 (arguments).** `phik_from_chi2` raises ValueError for a negative pedestal, and when edges are given without the
number of bins (two or more). -/
theorem given_edges_errors (mvn : ℝ → Rect → ℝ) (brentq : (ℝ → ℝ) → ℝ → ℝ → ℝ → Except Err ℝ) (chi2 n : ℝ) (nx ny : ℤ)
    (sx sy : Option (List ℝ)) (ped : ℝ)
    (h : ped < 0 ∨ (sx ≠ none ∧ nx ≤ 1) ∨ (sy ≠ none ∧ ny ≤ 1)) :
    phikFromChi2 mvn brentq chi2 n nx ny sx sy ped = .error .value := by
  have hed : ∀ e, edgesOr sx nx = .error e → e = .value := by
    intro e he
    unfold edgesOr linspace at he
    cases sx with
    | some l => cases he
    | none =>
      simp only at he
      split at he
      · cases he; rfl
      · cases he
  unfold phikFromChi2
  by_cases h1 : ped < 0
  · rw [if_pos h1]; rfl
  · rw [if_neg h1]
    by_cases h2 : sx.isSome = true ∧ nx ≤ 1
    · simp only [h2, and_self, if_true]; rfl
    · simp only [h2, if_false]
      cases hs : edgesOr sx nx with
      | error e => rw [hed e hs]; rfl
      | ok l =>
        have h3 : sy.isSome = true ∧ ny ≤ 1 := by
          rcases h with h | ⟨ha, hb⟩ | ⟨ha, hb⟩
          · exact absurd h h1
          · exact absurd ⟨Option.isSome_iff_ne_none.2 ha, hb⟩ h2
          · exact ⟨Option.isSome_iff_ne_none.2 ha, hb⟩
        simp only [h3, and_self, if_true]; rfl

/-- **C80 (chi2).** For every grid symmetric around zero, given or by number of bins, `chi2_from_phik` is the curve of that
grid from the pedestal at 0 to `n min(nx-1, ny-1)` at 1; with a scale it is the pedestal plus the scaled distance summed
over all cells of the grid. -/
theorem given_edges_chi2 {mvn : ℝ → Rect → ℝ} (hm : MvnSpec mvn) {sx sy : Option (List ℝ)}
    (hsx : ∀ l, sx = some l → GoodEdges l) (hsy : ∀ l, sy = some l → GoodEdges l) {nx ny : ℕ} (hx : 2 ≤ nx) (hy : 2 ≤ ny)
    {n : ℝ} (hn : 0 < n) (ped sub rho : ℝ) :
    chi2FromPhik mvn rho n sub none none sx sy ped nx ny =
      .ok (gridTheory mvn (gridOf sx nx) (gridOf sy ny) (n * (min (nx - 1) (ny - 1) : ℕ)) ped rho - sub) ∧
    ∀ scale, chi2FromPhik mvn rho n sub none (some scale) sx sy ped nx ny =
      .ok (ped + n * gridDistance mvn (gridOf sx nx) (gridOf sy ny) rho * scale - sub) := by
  have gx := gridOf_good hsx hx
  have gy := gridOf_good hsy hy
  have hD := gridDistance_one_pos hm gx gy
  have hone : n * gridDistance mvn (gridOf sx nx) (gridOf sy ny) 1 ≠ 0 := (mul_pos hn hD).ne'
  constructor
  · unfold chi2FromPhik
    simp only [edgesOr_gridOf _ (show 1 ≤ nx by omega), edgesOr_gridOf _ (show 1 ≤ ny by omega), bind,
      Except.bind, Option.getD_none, ratioSum_gridDistance hm gx gy,
      if_neg hone, pure, Except.pure, chi2Rho, chi2Max_nat n (show 1 ≤ nx by omega) (show 1 ≤ ny by omega)]
    congr 2
    unfold gridTheory
    have := hn.ne'
    have := hD.ne'
    field_simp
  · intro scale
    unfold chi2FromPhik
    simp only [edgesOr_gridOf _ (show 1 ≤ nx by omega), edgesOr_gridOf _ (show 1 ≤ ny by omega), bind,
      Except.bind, Option.getD_none, pure, Except.pure, chi2Rho, ratioSum_gridDistance hm gx gy]

/-- **C80 (phik).** For every grid symmetric around zero `phik_from_chi2` is 0 when chi2 does not exceed the pedestal, 1 when
it reaches `n min(nx-1, ny-1)`, and otherwise the root finder's answer for the curve of that grid. -/
theorem given_edges_cases {mvn : ℝ → Rect → ℝ} (hm : MvnSpec mvn) (brentq : (ℝ → ℝ) → ℝ → ℝ → ℝ → Except Err ℝ)
    {sx sy : Option (List ℝ)} (hsx : ∀ l, sx = some l → GoodEdges l) (hsy : ∀ l, sy = some l → GoodEdges l) {nx ny : ℕ}
    (hx : 2 ≤ nx) (hy : 2 ≤ ny) {chi2 n ped : ℝ} (hp : 0 ≤ ped) (hn : 0 < n)
    (hmax : ped < n * (min (nx - 1) (ny - 1) : ℕ)) :
    (chi2 ≤ ped → phikFromChi2 mvn brentq chi2 n nx ny sx sy ped = .ok 0) ∧
    (n * (min (nx - 1) (ny - 1) : ℕ) ≤ chi2 → phikFromChi2 mvn brentq chi2 n nx ny sx sy ped = .ok 1) ∧
    (ped < chi2 → chi2 < n * (min (nx - 1) (ny - 1) : ℕ) →
      phikFromChi2 mvn brentq chi2 n nx ny sx sy ped =
        brentq (fun rho => gridTheory mvn (gridOf sx nx) (gridOf sy ny) (n * (min (nx - 1) (ny - 1) : ℕ)) ped rho - chi2)
          0 1 (1 / 10 ^ 5)) := by
  have gx := gridOf_good hsx hx
  have gy := gridOf_good hsy hy
  have hD := gridDistance_one_pos hm gx gy
  have hone : n * gridDistance mvn (gridOf sx nx) (gridOf sy ny) 1 ≠ 0 := (mul_pos hn hD).ne'
  set mx := n * ((min (nx - 1) (ny - 1) : ℕ) : ℝ) with hmx
  have key : phikFromChi2 mvn brentq chi2 n nx ny sx sy ped =
      if clampChi2 chi2 mx ≤ ped then .ok 0 else if mx ≤ clampChi2 chi2 mx then .ok 1
      else brentq (fun rho => gridTheory mvn (gridOf sx nx) (gridOf sy ny) mx ped rho - clampChi2 chi2 mx)
          0 1 (1 / 10 ^ 5) := by
    have hb : (chi2Rho mvn n (clampChi2 chi2 mx) (mvnArray (mvn 0) (gridOf sx nx) (gridOf sy ny))
        ((mx - ped) / (n * gridDistance mvn (gridOf sx nx) (gridOf sy ny) 1)) (gridOf sx nx) (gridOf sy ny) ped) =
        (fun rho => gridTheory mvn (gridOf sx nx) (gridOf sy ny) mx ped rho - clampChi2 chi2 mx) := by
      funext rho
      simp only [chi2Rho, ratioSum_gridDistance hm gx gy]
      unfold gridTheory
      have := hn.ne'
      have := hD.ne'
      congr 1
      field_simp
    rw [← hb]
    have e1 : ¬ ((nx : ℤ) ≤ 1) := by omega
    have e2 : ¬ ((ny : ℤ) ≤ 1) := by omega
    unfold phikFromChi2
    simp only [not_lt.2 hp, if_false, e1, e2, and_false, edgesOr_gridOf _ (show 1 ≤ nx by omega),
      edgesOr_gridOf _ (show 1 ≤ ny by omega), ratioSum_gridDistance hm gx gy,
      chi2Max_nat n (show 1 ≤ nx by omega) (show 1 ≤ ny by omega), bind, Except.bind, pure, Except.pure, if_neg hone, ← hmx]
    rfl
  rw [key]
  have hc : clampChi2 chi2 mx = chi2 ∨ (mx < chi2 ∧ clampChi2 chi2 mx = mx) := by
    unfold clampChi2
    split
    · next h => exact .inr ⟨h.1, rfl⟩
    · exact .inl rfl
  refine ⟨fun h => ?_, fun h => ?_, fun h1 h2 => ?_⟩
  · rcases hc with hc | ⟨hc, -⟩
    · rw [hc, if_pos h]
    · linarith
  · have : mx ≤ clampChi2 chi2 mx := by
      rcases hc with hc | ⟨-, hc⟩
      · rw [hc]; exact h
      · rw [hc]
    rw [if_neg (by linarith), if_pos this]
  · rcases hc with hc | ⟨hc, -⟩
    · rw [hc, if_neg (by linarith), if_neg (by linarith)]
    · linarith

/-- **C80 (round trip).** When the curve of the grid is strictly increasing, converting a correlation to chi2 and back
returns it up to the tolerance of the root finder. -/
theorem given_edges_round_trip {mvn : ℝ → Rect → ℝ} (hm : MvnSpec mvn)
    {brentq : (ℝ → ℝ) → ℝ → ℝ → ℝ → Except Err ℝ} (hb : BrentqSpec brentq) {sx sy : Option (List ℝ)}
    (hsx : ∀ l, sx = some l → GoodEdges l) (hsy : ∀ l, sy = some l → GoodEdges l) {nx ny : ℕ} (hx : 2 ≤ nx) (hy : 2 ≤ ny)
    {n ped rho : ℝ} (hn : 0 < n) (hp : 0 ≤ ped) (hmax : ped < n * (min (nx - 1) (ny - 1) : ℕ))
    (hmono : StrictMonoOn (gridDistance mvn (gridOf sx nx) (gridOf sy ny)) (Set.Icc 0 1)) (h0 : 0 ≤ rho) (h1 : rho ≤ 1) :
    ∃ chi2 x : ℝ, chi2FromPhik mvn rho n 0 none none sx sy ped nx ny = .ok chi2 ∧
      phikFromChi2 mvn brentq chi2 n nx ny sx sy ped = .ok x ∧
      |x - rho| ≤ 1 / 10 ^ 5 + 4 * 2 ^ (-52 : ℤ) * |rho| := by
  have gx := gridOf_good hsx hx
  have gy := gridOf_good hsy hy
  have hD := gridDistance_one_pos hm gx gy
  set mx := n * ((min (nx - 1) (ny - 1) : ℕ) : ℝ) with hmx
  have hmono' : StrictMonoOn (gridTheory mvn (gridOf sx nx) (gridOf sy ny) mx ped) (Set.Icc 0 1) := by
    intro a ha b hb hab
    unfold gridTheory
    have h3 := div_lt_div_of_pos_right (hmono ha hb hab) hD
    have := mul_lt_mul_of_pos_left h3 (sub_pos.2 hmax)
    linarith
  have hchi := (given_edges_chi2 hm hsx hsy hx hy hn ped 0 rho).1
  rw [sub_zero, ← hmx] at hchi
  obtain ⟨c1, c2, c3⟩ := given_edges_cases hm brentq hsx hsy hx hy
    (chi2 := gridTheory mvn (gridOf sx nx) (gridOf sy ny) mx ped rho) hp hn hmax
  rw [← hmx] at c2 c3
  obtain ⟨t0, t1⟩ := gridTheory_ends hm gx gy mx ped
  refine ⟨gridTheory mvn (gridOf sx nx) (gridOf sy ny) mx ped rho, ?_⟩
  suffices hs : ∃ x, phikFromChi2 mvn brentq (gridTheory mvn (gridOf sx nx) (gridOf sy ny) mx ped rho) n nx ny sx sy ped =
      .ok x ∧ |x - rho| ≤ 1 / 10 ^ 5 + 4 * 2 ^ (-52 : ℤ) * |rho| by
    obtain ⟨x, hx⟩ := hs; exact ⟨x, hchi, hx⟩
  have mem0 : (0 : ℝ) ∈ Set.Icc (0 : ℝ) 1 := ⟨le_rfl, zero_le_one⟩
  have mem1 : (1 : ℝ) ∈ Set.Icc (0 : ℝ) 1 := ⟨zero_le_one, le_rfl⟩
  rcases h0.eq_or_lt with rfl | h0
  · refine ⟨0, c1 t0.le, ?_⟩; norm_num
  rcases h1.eq_or_lt with rfl | h1
  · refine ⟨1, c2 t1.ge, ?_⟩; norm_num
  have m0 := hmono' mem0 ⟨h0.le, h1.le⟩ h0
  have m1 := hmono' ⟨h0.le, h1.le⟩ mem1 h1
  rw [t0] at m0
  rw [t1] at m1
  obtain ⟨x, e1, -, x₀, g0, g1, g2⟩ := hb.root
    (fun r' => gridTheory mvn (gridOf sx nx) (gridOf sy ny) mx ped r' - gridTheory mvn (gridOf sx nx) (gridOf sy ny) mx ped rho)
    0 1 (1 / 10 ^ 5) zero_le_one (by norm_num) ((gridTheory_cont hm _ _ _ _).sub continuousOn_const)
    (by simp only [t0]; linarith) (by simp only [t1]; linarith)
  have : x₀ = rho := hmono'.injOn g0 ⟨h0.le, h1.le⟩ (by linarith)
  subst this
  exact ⟨x, (c3 m0 m1).trans e1, g2⟩

/-- **C80 (edges without the number of bins; violated).** `chi2_from_phik` takes `sx`, `sy` as an alternative to `nx`,
`ny`; with edges given and the numbers of bins left at their default -1, the value is not positive for any correlation, and
`-2 n` for correlation 1. -/
theorem given_edges_default {mvn : ℝ → Rect → ℝ} (hm : MvnSpec mvn) {sx sy : List ℝ} (hx : GoodEdges sx) (hy : GoodEdges sy)
    {n : ℝ} (hn : 0 < n) (rho : ℝ) :
    ∃ x, chi2FromPhik mvn rho n 0 none none (some sx) (some sy) 0 (-1) (-1) = .ok x ∧ x ≤ 0 ∧
      (gridDistance mvn sx sy rho ≠ 0 → x < 0) ∧ (rho = 1 → x = -2 * n) := by
  have hD := gridDistance_one_pos hm hx hy
  have hone : n * gridDistance mvn sx sy 1 ≠ 0 := (mul_pos hn hD).ne'
  have hnn := gridDistance_nonneg hm hx hy rho
  refine ⟨-2 * n * (gridDistance mvn sx sy rho / gridDistance mvn sx sy 1), ?_, ?_, fun h => ?_, ?_⟩
  · unfold chi2FromPhik
    simp only [edgesOr, bind, Except.bind, Option.getD_none, ratioSum_gridDistance hm hx hy, if_neg hone, pure, Except.pure,
      chi2Rho, chi2Max]
    congr 1
    have := hn.ne'
    have := hD.ne'
    have e : ((min ((-1 : ℤ) - 1) (-1 - 1) : ℤ) : ℝ) = -2 := by norm_num
    rw [e]
    field_simp
    ring
  · have : 0 ≤ gridDistance mvn sx sy rho / gridDistance mvn sx sy 1 := div_nonneg hnn hD.le
    nlinarith
  · have : 0 < gridDistance mvn sx sy rho / gridDistance mvn sx sy 1 := div_pos (lt_of_le_of_ne hnn (Ne.symm h)) hD
    nlinarith
  · rintro rfl
    rw [div_self hD.ne', mul_one]

/-- **C80 (the same edges on both axes).** With the true bivariate normal integrals and any strictly increasing edges, used
on both axes, the distance from the uncorrelated distribution increases strictly with the correlation. -/
theorem same_edges_strict {s : List ℝ} (hs : s.Pairwise (· < ·)) (h2 : 2 ≤ s.length) :
    StrictMonoOn (gridDistance gaussMvn s s) (Set.Icc 0 1) := by
  have hlt : ∀ i, i + 1 < s.length → s.getD i 0 < s.getD (i + 1) 0 := fun i hi => by
    rw [List.getD_eq_getElem?_getD, List.getD_eq_getElem?_getD, List.getElem?_eq_getElem hi,
      List.getElem?_eq_getElem (by omega)]
    exact List.pairwise_iff_getElem.1 hs _ _ _ hi (by omega)
  refine (Gauss.cells_distance_strict (n := s.length - 1) (by omega) (lo := fun i => s.getD i 0)
    (hi := fun i => s.getD (i + 1) 0) fun i => hlt i (by omega)).congr fun r hr => ?_
  unfold gridDistance gridCells
  rw [List.map_flatMap, List.flatMap, List.sum_flatten]
  simp only [List.map_map]
  rw [list_range_sum, Finset.sum_range]
  refine Finset.sum_congr rfl fun i _ => ?_
  simp only [Function.comp_apply]
  rw [list_range_sum, Finset.sum_range]
  exact Finset.sum_congr rfl fun j _ => (Gauss.cell_term hr _ _ _ _).symm

/-- **C80 (round trip, the same edges on both axes).** Unconditionally for the true integrals. -/
theorem same_edges_round_trip {brentq : (ℝ → ℝ) → ℝ → ℝ → ℝ → Except Err ℝ} (hb : BrentqSpec brentq) {s : List ℝ}
    (hs : GoodEdges s) {nx ny : ℕ} (hx : 2 ≤ nx) (hy : 2 ≤ ny) {n ped rho : ℝ} (hn : 0 < n) (hp : 0 ≤ ped)
    (hmax : ped < n * (min (nx - 1) (ny - 1) : ℕ)) (h0 : 0 ≤ rho) (h1 : rho ≤ 1) :
    ∃ chi2 x : ℝ, chi2FromPhik gaussMvn rho n 0 none none (some s) (some s) ped nx ny = .ok chi2 ∧
      phikFromChi2 gaussMvn brentq chi2 n nx ny (some s) (some s) ped = .ok x ∧
      |x - rho| ≤ 1 / 10 ^ 5 + 4 * 2 ^ (-52 : ℤ) * |rho| :=
  given_edges_round_trip Gauss.gaussian_mvn_spec hb (by rintro l ⟨⟩; exact hs) (by rintro l ⟨⟩; exact hs) hx hy hn hp hmax
    (same_edges_strict hs.incr (show 2 ≤ s.length by have := hs.bins; omega)) h0 h1

theorem gaussMvn_one (a b c d : ℝ) :
    gaussMvn 1 ((a, b), (c, d)) = (ProbabilityTheory.gaussianReal 0 1).real (Set.Icc a c ∩ Set.Icc b d) := by
  rw [Gauss.gaussMvn_K (by norm_num), Gauss.K_eq 1 (Gauss.ind_BM _ _) (Gauss.ind_BM _ _)]
  have e : ∀ z, Gauss.T 1 (Gauss.ind b d) z = Gauss.ind b d z := fun z => by simp [Gauss.T]
  simp only [e]
  rw [← MeasureTheory.integral_indicator_one (measurableSet_Icc.inter measurableSet_Icc)]
  refine MeasureTheory.integral_congr_ae (Filter.Eventually.of_forall fun z => ?_)
  simp only [Gauss.ind, Set.indicator, Set.mem_inter_iff, Pi.one_apply]
  by_cases h1 : z ∈ Set.Icc a c <;> by_cases h2 : z ∈ Set.Icc b d <;> simp [h1, h2]

theorem gaussMvn_zero (a b c d : ℝ) : gaussMvn 0 ((a, b), (c, d)) =
    (ProbabilityTheory.gaussianReal 0 1).real (Set.Icc a c) * (ProbabilityTheory.gaussianReal 0 1).real (Set.Icc b d) := by
  rw [Gauss.gaussMvn_K (by norm_num), Gauss.K_zero (Gauss.ind_BM _ _) (Gauss.ind_BM _ _), Gauss.integral_ind, Gauss.integral_ind]

open ProbabilityTheory in
/-- **C80 (edges that are not symmetric; violated).** With edges that are not symmetric around zero the sum is not the one
over the cells of the grid, also for the true integrals. -/
theorem asymmetric_edges {n : ℝ} (hn : 0 < n) :
    ∃ x, chi2FromPhik gaussMvn 1 n 0 none (some 1) (some [-1, 0, 2]) (some [-1, 0, 1]) 0 2 2 = .ok x ∧
      x ≠ n * gridDistance gaussMvn [-1, 0, 2] [-1, 0, 1] 1 := by
  have hm := Gauss.gaussian_mvn_spec
  set p := (gaussianReal 0 1).real (Set.Icc (-1 : ℝ) 0) with hp
  set q := (gaussianReal 0 1).real (Set.Icc (0 : ℝ) 2) with hq
  have hp' : (gaussianReal 0 1).real (Set.Icc (0 : ℝ) 1) = p := by
    have h1 := hm.symm 1 0 0 1 1
    rw [gaussMvn_one, gaussMvn_one] at h1
    simpa using h1.symm
  have p0 : 0 < p := Gauss.γ_Icc_pos (by norm_num)
  have q0 : 0 < q := Gauss.γ_Icc_pos (by norm_num)
  have hpq : p < q := by
    have h1 : Set.Icc (0 : ℝ) 1 ∪ Set.Icc (3 / 2) 2 ⊆ Set.Icc 0 2 := by
      rintro x (⟨h, h'⟩ | ⟨h, h'⟩) <;> constructor <;> linarith
    have h2 := MeasureTheory.measureReal_mono (μ := gaussianReal 0 1) h1
    rw [MeasureTheory.measureReal_union (by
      rw [Set.disjoint_left]; rintro x ⟨-, h⟩ ⟨h', -⟩; linarith) measurableSet_Icc, hp'] at h2
    have := Gauss.γ_Icc_pos (show (3 / 2 : ℝ) < 2 by norm_num)
    linarith
  have hsum : p + q ≤ 1 := by
    have h0 : (gaussianReal 0 1).real (Set.Ioc (0 : ℝ) 2) = q := by
      rw [hq]
      have : MeasureTheory.NullSingletonClass (gaussianReal 0 1) := nullSingletonClass_gaussianReal one_ne_zero
      exact MeasureTheory.measureReal_congr MeasureTheory.Ioc_ae_eq_Icc
    rw [← h0, hp, ← MeasureTheory.measureReal_union (by
      rw [Set.disjoint_left]; rintro x ⟨-, h⟩ ⟨h', -⟩; linarith) measurableSet_Ioc]
    exact MeasureTheory.measureReal_le_one
  have one : ∀ a b : ℝ, a < 0 → 0 < b → gaussMvn 1 ((a, 0), (0, b)) = 0 := fun a b ha hb => hm.diag _ _ _ _ ha hb le_rfl
  have one' : ∀ a b : ℝ, a < 0 → 0 < b → gaussMvn 1 ((0, a), (b, 0)) = 0 := fun a b ha hb => by
    exact (hm.swap 1 a 0 0 b).trans (one a b ha hb)
  have c00 : gaussMvn 1 ((-1, -1), (0, 0)) = p := by rw [gaussMvn_one, Set.inter_self]
  have c11 : gaussMvn 1 ((0, 0), (2, 1)) = p := by
    rw [gaussMvn_one, ← hp']
    congr 1
    ext x
    simp only [Set.mem_inter_iff, Set.mem_Icc]
    constructor
    · rintro ⟨⟨a, b⟩, c, d⟩; exact ⟨a, d⟩
    · rintro ⟨a, b⟩; exact ⟨⟨a, by linarith⟩, a, b⟩
  refine ⟨_, rfl, ?_⟩
  simp only [chi2Rho, ratioSum, mvnArray, mvnRanges, cellRect, gridDistance, gridCells]
  norm_num [List.range_succ]
  simp only [c00, c11, one _ _ (by norm_num : (-1 : ℝ) < 0) (by norm_num : (0 : ℝ) < 1),
    one' _ _ (by norm_num : (-1 : ℝ) < 0) (by norm_num : (0 : ℝ) < 2), gaussMvn_zero, hp', ← hp, ← hq]
  have hpp : p * p ≠ 0 := (mul_pos p0 p0).ne'
  simp only [hpp, if_false]
  refine ⟨fun h => ?_, hn.ne'⟩
  have hp0 := p0.ne'
  have hq0 := q0.ne'
  have e1 : (p - p * p) ^ 2 / (p * p) = (1 - p) ^ 2 := by field_simp
  have e2 : (0 - p * p) ^ 2 / (p * p) = p ^ 2 := by field_simp; ring
  have e3 : (0 - q * p) ^ 2 / (q * p) = q * p := by field_simp; ring
  have e4 : (p - q * p) ^ 2 / (q * p) = p * (1 - q) ^ 2 / q := by field_simp
  rw [e1, e2, e3, e4] at h
  have h5 : (1 - p) ^ 2 + p ^ 2 - q * p = p * (1 - q) ^ 2 / q := by linarith
  rw [eq_div_iff hq0] at h5
  have h6 : (q - p) * (1 - 2 * p * q) = 0 := by linarith
  rcases mul_eq_zero.1 h6 with h7 | h7
  · linarith
  · nlinarith [sq_nonneg (p - q)]

theorem theoryLoop_index {cell : Rect → ℝ} {sx sy : List ℝ} {rows cols : ℕ} (l : List (ℕ × ℕ))
    (t : ℕ → ℕ → ℝ) (hl : ∃ p ∈ l, ¬ (p.2 < rows ∧ p.1 < cols)) :
    theoryLoop cell sx sy rows cols l t = .error .index := by
  induction l generalizing t with
  | nil => obtain ⟨p, hp, -⟩ := hl; cases hp
  | cons p l ih =>
    obtain ⟨i, j⟩ := p
    rw [theoryLoop]
    split
    · next h =>
      apply ih
      obtain ⟨q, hq, hn⟩ := hl
      rcases List.mem_cons.1 hq with rfl | hq
      · exact absurd h hn
      · exact ⟨q, hq, hn⟩
    · rfl

/-- **C80 (theoretical table).** With given edges and `nx`, `ny` at least the numbers of bins the table has `ny` rows and `nx`
columns, with `n` times the integrals over the cells in the corner of the table, raised to machine epsilon, which also
fills the rest; with more bins than `nx` or `ny` it is an IndexError. -/
theorem theory_table_given (mvn : ℝ → Rect → ℝ) (rho : ℝ) (nx ny : ℕ) {n : ℝ} (hn : 1 ≤ n) (sx sy : List ℝ) :
    (sx.length ≤ nx + 1 → sy.length ≤ ny + 1 → ∃ t : Arr2 ℝ,
      bivariateNormalTheory mvn rho nx ny n (some sx) (some sy) = .ok t ∧ t.r = ny ∧ t.c = nx ∧
      ∀ (j : Fin t.r) (i : Fin t.c), t.v j i =
        if h : (i : ℕ) + 1 < sx.length ∧ (j : ℕ) + 1 < sy.length then
          max (2 ^ (-52 : ℤ)) (n * mvn rho ((sx[(i : ℕ)], sy[(j : ℕ)]), (sx[(i : ℕ) + 1], sy[(j : ℕ) + 1])))
        else 2 ^ (-52 : ℤ)) ∧
    (2 ≤ sx.length → 2 ≤ sy.length → nx + 1 < sx.length ∨ ny + 1 < sy.length →
      bivariateNormalTheory mvn rho nx ny n (some sx) (some sy) = .error .index) := by
  constructor
  · intro hx hy
    unfold bivariateNormalTheory
    simp only [not_lt.2 hn, if_false, edgesOr, bind, Except.bind, pure, Except.pure, Int.toNat_natCast]
    rw [if_neg (by omega)]
    obtain ⟨t', h1, h2⟩ := theoryLoop_ok (cell := mvn rho) (sx := sx) (sy := sy) (rows := ny) (cols := nx)
      ((List.range (sx.length - 1)).flatMap fun i => (List.range (sy.length - 1)).map fun j => (i, j)) (fun _ _ => 0) (by
        intro p hp
        simp only [List.mem_flatMap, List.mem_range, List.mem_map] at hp
        obtain ⟨i, hi, j, hj, rfl⟩ := hp
        exact ⟨by change j < ny; omega, by change i < nx; omega⟩)
    simp only [h1]
    refine ⟨_, rfl, rfl, rfl, ?_⟩
    intro j i
    change Fin ny at j
    change Fin nx at i
    change (if _ < _ then _ else _) = _
    have hmem : ((i : ℕ), (j : ℕ)) ∈ (List.range (sx.length - 1)).flatMap (fun i => (List.range (sy.length - 1)).map
        fun j => (i, j)) ↔ (i : ℕ) + 1 < sx.length ∧ (j : ℕ) + 1 < sy.length := by
      simp only [List.mem_flatMap, List.mem_range, List.mem_map, Prod.mk.injEq]
      constructor
      · rintro ⟨a, ha, b, hb, rfl, rfl⟩; omega
      · rintro ⟨h3, h4⟩; exact ⟨i, by omega, j, by omega, rfl, rfl⟩
    have hval : ∀ x : ℝ, (if x < 2 ^ (-52 : ℤ) then (2 : ℝ) ^ (-52 : ℤ) else x) = max (2 ^ (-52 : ℤ)) x := by
      intro x
      split
      · next h => rw [max_eq_left h.le]
      · next h => rw [max_eq_right (not_lt.1 h)]
    rw [hval, h2]
    by_cases hin : (i : ℕ) + 1 < sx.length ∧ (j : ℕ) + 1 < sy.length
    · rw [if_pos (hmem.2 hin), dif_pos hin, mul_comm]
      unfold cellRect
      have hx' : ∀ (s : List ℝ) (k : ℕ) (hk : k < s.length), s.getD k 0 = s[k] := fun s k hk => by
        rw [List.getD_eq_getElem?_getD, List.getElem?_eq_getElem hk]; rfl
      rw [hx' sx _ (by omega), hx' sx _ hin.1, hx' sy _ (by omega), hx' sy _ hin.2]
    · rw [if_neg (fun h => hin (hmem.1 h)), dif_neg hin, zero_mul, max_eq_left (by positivity)]
  · intro hx hy hor
    unfold bivariateNormalTheory
    simp only [not_lt.2 hn, if_false, edgesOr, bind, Except.bind, pure, Except.pure, Int.toNat_natCast]
    rw [if_neg (by omega), theoryLoop_index]
    rcases hor with h | h
    · refine ⟨(nx, 0), ?_, by simp⟩
      simp only [List.mem_flatMap, List.mem_range, List.mem_map]
      exact ⟨nx, by omega, 0, by omega, rfl⟩
    · refine ⟨(0, ny), ?_, by simp⟩
      simp only [List.mem_flatMap, List.mem_range, List.mem_map]
      exact ⟨0, by omega, ny, by omega, rfl⟩

/-! ### the hypotheses can be met -/

theorem exEdges_good : GoodEdges [-3, -1 / 2, 1 / 2, 3] :=
  ⟨by norm_num, by norm_num [SymmetricEdges], by norm_num⟩

/-- The round trip for three bins of unequal width on both axes, with a pedestal. -/
example : ∃ chi2 x : ℝ, chi2FromPhik gaussMvn (1 / 2) 100 0 none none (some [-3, -1 / 2, 1 / 2, 3])
      (some [-3, -1 / 2, 1 / 2, 3]) 4 (3 : ℕ) (3 : ℕ) = .ok chi2 ∧
    phikFromChi2 gaussMvn idealBrentq chi2 100 (3 : ℕ) (3 : ℕ) (some [-3, -1 / 2, 1 / 2, 3])
      (some [-3, -1 / 2, 1 / 2, 3]) 4 = .ok x ∧
    |x - 1 / 2| ≤ 1 / 10 ^ 5 + 4 * 2 ^ (-52 : ℤ) * |(1 / 2 : ℝ)| :=
  same_edges_round_trip idealBrentq_spec exEdges_good (by norm_num) (by norm_num) (by norm_num) (by norm_num) (by norm_num)
    (by norm_num) (by norm_num)

/-- chi2 above the pedestal and below the maximum, edges for one axis and a number of bins for the other. -/
example : phikFromChi2 gaussMvn idealBrentq 300 100 (3 : ℕ) (4 : ℕ) (some [-3, -1 / 2, 1 / 2, 3]) none 2 = .ok 1 :=
  (given_edges_cases Gauss.gaussian_mvn_spec idealBrentq (sx := some [-3, -1 / 2, 1 / 2, 3]) (sy := none)
    (by rintro l ⟨⟩; exact exEdges_good) (by rintro l ⟨⟩) (nx := 3) (ny := 4) (by norm_num) (by norm_num) (by norm_num)
    (by norm_num) (by norm_num)).2.1 (by norm_num)

/-- The chi2 of full correlation for 100 records is -200 when the numbers of bins are left out. -/
example : ∃ x, chi2FromPhik gaussMvn 1 100 0 none none (some [-3, -1 / 2, 1 / 2, 3]) (some [-3, -1 / 2, 1 / 2, 3]) 0 (-1)
    (-1) = .ok x ∧ x = -200 := by
  obtain ⟨x, h1, -, -, h2⟩ := given_edges_default Gauss.gaussian_mvn_spec exEdges_good exEdges_good
    (show (0 : ℝ) < 100 by norm_num) 1
  exact ⟨x, h1, by rw [h2 rfl]; norm_num⟩

/-- A three by three table of given edges, and one with too few bins announced. -/
example : (∃ t : Arr2 ℝ, bivariateNormalTheory gaussMvn (1 / 2) (3 : ℕ) (3 : ℕ) 10 (some [-3, -1 / 2, 1 / 2, 3])
      (some [-3, -1 / 2, 1 / 2, 3]) = .ok t ∧ t.r = 3 ∧ t.c = 3) ∧
    bivariateNormalTheory gaussMvn (1 / 2) (2 : ℕ) (3 : ℕ) 10 (some [-3, -1 / 2, 1 / 2, 3])
      (some [-3, -1 / 2, 1 / 2, 3]) = .error .index := by
  constructor
  · obtain ⟨t, h1, h2, h3, -⟩ := (theory_table_given gaussMvn (1 / 2) 3 3 (n := 10) (by norm_num) [-3, -1 / 2, 1 / 2, 3]
      [-3, -1 / 2, 1 / 2, 3]).1 (by simp) (by simp)
    exact ⟨t, h1, h2, h3⟩
  · exact (theory_table_given gaussMvn (1 / 2) 2 3 (n := 10) (by norm_num) [-3, -1 / 2, 1 / 2, 3]
      [-3, -1 / 2, 1 / 2, 3]).2 (by simp) (by simp) (.inl (by simp))

end Props
end Phik
