import Verif.Spec.HistPlot
import Mathlib.Tactic

/-! # Property C64: `plot_hist_and_func` -/

namespace Phik.Props
open Spec

theorem linspace_exact (n : ℕ) (hn : 1 ≤ n) (a b : ℚ) :
    linspace (fun x => x) a b ((n : ℤ) + 1) = .ok (equalBins n a b) := by
  have e : ((n : ℤ) + 1).toNat = n + 1 := by omega
  have hn0 : (0 : ℚ) < n := by exact_mod_cast hn
  unfold linspace equalBins
  rw [if_neg (by omega)]
  rw [e]
  refine congrArg Except.ok ?_
  apply List.map_congr_left
  intro i hi
  have hi' : i < n + 1 := List.mem_range.1 hi
  push_cast
  simp only [add_sub_cancel_right]
  by_cases h : i = n
  · subst h
    rw [if_pos (by omega)]
    field_simp
    ring
  · rw [if_neg (by omega), if_pos hn0]
    split
    · rw [add_comm]; congr 1; ring
    · rw [add_comm]

theorem equalBins_sorted (n : ℕ) {a b : ℚ} (hab : a ≤ b) : (equalBins n a b).Pairwise (· ≤ ·) := by
  unfold equalBins
  rw [List.pairwise_map]
  refine (List.pairwise_lt_range (n := n + 1)).imp ?_
  intro i j hij
  have : (i : ℚ) ≤ j := by exact_mod_cast hij.le
  have h : 0 ≤ (b - a) / n := div_nonneg (by linarith) (by positivity)
  nlinarith

theorem histBars_spec (data edges : List ℚ) (h : 2 ≤ edges.length) :
    (histBars data edges).length + 1 = edges.length ∧ ∀ (i : ℕ) (b : Bar), (histBars data edges)[i]? = some b →
    edges[i]? = some b.lo ∧ edges[i + 1]? = some b.hi ∧
    b.count = (data.filter fun x => decide (b.lo ≤ x ∧ (x < b.hi ∨ x = b.hi ∧ i + 2 = edges.length))).length := by
  induction edges with
  | nil => simp at h
  | cons a l ih =>
    match l, ih with
    | [], _ => simp at h
    | [b], _ =>
      refine ⟨rfl, ?_⟩
      rintro (_ | i) c hc
      · simp only [histBars, List.getElem?_cons_zero, Option.some.injEq] at hc
        subst hc
        refine ⟨rfl, rfl, ?_⟩
        simp only [List.countP_eq_length_filter]
        refine congrArg (fun f => (List.filter f data).length) ?_
        funext x
        simp [le_iff_lt_or_eq (a := x)]
      · simp [histBars] at hc
    | b :: c :: rest, ih =>
      obtain ⟨i1, i2⟩ := ih (by simp)
      refine ⟨by simp only [histBars, List.length_cons] at i1 ⊢; omega, ?_⟩
      rintro (_ | i) d hd
      · simp only [histBars, List.getElem?_cons_zero, Option.some.injEq] at hd
        subst hd
        refine ⟨rfl, rfl, ?_⟩
        simp only [List.countP_eq_length_filter]
        refine congrArg (fun f => (List.filter f data).length) ?_
        funext x
        simp
      · simp only [histBars, List.getElem?_cons_succ] at hd
        obtain ⟨j1, j2, j3⟩ := i2 i d hd
        refine ⟨by simpa using j1, by simpa using j2, ?_⟩
        rw [j3]
        congr 2
        funext x
        simp

/-- The figure for given sorted edges. -/
theorem plot_edges (data : List ℚ) (func : ℚ → ℝ) (bins : HistBins) (xlimit : Option (ℚ × ℚ)) {edges : List ℚ}
    (he : histEdges data bins xlimit = .ok (some edges)) (hs : edges.Pairwise (· ≤ ·)) (h2 : 2 ≤ edges.length) :
    ∃ fig, plotHistFunc data func bins xlimit = .ok fig ∧ ShowsBars data edges fig ∧
      fig.curve = fig.bars.map fun b => (b.lo + (edges.getD 1 0 - edges.getD 0 0) / 2,
        (data.length : ℝ) * ((edges.getD 1 0 - edges.getD 0 0 : ℚ) : ℝ) *
          func (b.lo + (edges.getD 1 0 - edges.getD 0 0) / 2)) := by
  have hb := histBars_spec data edges h2
  unfold plotHistFunc
  rw [he]
  simp only [bind, Except.bind]
  rw [if_neg (by simpa using hs)]
  match edges, h2, hb with
  | e0 :: e1 :: rest, _, hb =>
    refine ⟨_, rfl, hb, ?_⟩
    simp only
    have : (e0 :: e1 :: rest).dropLast = (histBars data (e0 :: e1 :: rest)).map Bar.lo := by
      apply List.ext_getElem?
      intro i
      obtain ⟨b1, b2⟩ := hb
      rw [List.getElem?_dropLast, List.getElem?_map]
      by_cases hi : i < (e0 :: e1 :: rest).length - 1
      · rw [if_pos hi]
        have hlt : i < (histBars data (e0 :: e1 :: rest)).length := by omega
        rw [List.getElem?_eq_getElem hlt]
        exact (b2 i _ (List.getElem?_eq_getElem hlt)).1
      · rw [if_neg hi, List.getElem?_eq_none (by omega)]; rfl
    rw [this]
    simp

theorem equalBins_getElem? {n i : ℕ} {a b x : ℚ} (h : (equalBins n a b)[i]? = some x) : x = a + i * ((b - a) / n) := by
  unfold equalBins at h
  rw [List.getElem?_map] at h
  rcases lt_or_ge i (n + 1) with hi | hi
  · rw [List.getElem?_range hi] at h
    exact (Option.some.inj h).symm
  · rw [List.getElem?_eq_none (by simpa using hi)] at h
    cases h

theorem plot_equal (data : List ℚ) (func : ℚ → ℝ) (bins : HistBins) (xlimit : Option (ℚ × ℚ)) {n : ℕ} (hn : 1 ≤ n) {a b : ℚ}
    (hab : a ≤ b) (he : histEdges data bins xlimit = .ok (some (equalBins n a b))) :
    ∃ fig, plotHistFunc data func bins xlimit = .ok fig ∧ ShowsBars data (equalBins n a b) fig ∧
      ShowsCurve data func fig := by
  have hlen : (equalBins n a b).length = n + 1 := by simp [equalBins]
  obtain ⟨fig, h1, h2, h3⟩ := plot_edges data func bins xlimit he (equalBins_sorted n hab) (by omega)
  refine ⟨fig, h1, h2, ?_⟩
  have hw : (equalBins n a b).getD 1 0 - (equalBins n a b).getD 0 0 = (b - a) / n := by
    have e0 : (equalBins n a b)[0]? = some ((equalBins n a b).getD 0 0) := by
      rw [List.getD_eq_getElem?_getD, List.getElem?_eq_getElem (by omega)]; rfl
    have e1 : (equalBins n a b)[1]? = some ((equalBins n a b).getD 1 0) := by
      rw [List.getD_eq_getElem?_getD, List.getElem?_eq_getElem (by omega)]; rfl
    rw [equalBins_getElem? e0, equalBins_getElem? e1]
    push_cast
    ring
  unfold ShowsCurve
  rw [h3, hw]
  apply List.map_congr_left
  intro c hc
  obtain ⟨i, hi⟩ := List.mem_iff_getElem?.1 hc
  obtain ⟨j1, j2, -⟩ := h2.2 i c hi
  have k1 := equalBins_getElem? j1
  have k2 := equalBins_getElem? j2
  push_cast at k2
  have m1 : c.hi - c.lo = (b - a) / n := by rw [k1, k2]; ring
  have m2 : c.lo + (b - a) / n / 2 = (c.lo + c.hi) / 2 := by linarith
  rw [m1, m2]

theorem truncQ_nat (n : ℕ) : truncQ ((n : ℚ) + 1) = (n : ℤ) + 1 := by
  unfold truncQ
  rw [if_pos (by positivity)]
  have : ((n : ℚ) + 1) = (((n : ℤ) + 1 : ℤ) : ℚ) := by push_cast; rfl
  rw [this, Int.floor_intCast]

theorem truncQ_fifty (m : ℕ) : truncQ ((m : ℚ) / 50 + 1) = ((m / 50 : ℕ) : ℤ) + 1 := by
  unfold truncQ
  rw [if_pos (by positivity), Int.floor_add_one]
  congr 1
  have := Rat.floor_intCast_div_natCast (m : ℤ) 50
  push_cast at this ⊢
  exact this

/-- **C64.** With a number of bins and limits, the histogram has that many bins of equal width between the limits and
the curve goes through the expected numbers, provided that the largest record is not 0. -/
theorem hist_limits (data : List ℚ) (func : ℚ → ℝ) {n : ℕ} (hn : 1 ≤ n) {a b m : ℚ} (hab : a ≤ b)
    (hm : data.max? = some m) (h0 : m ≠ 0) :
    ∃ fig, plotHistFunc data func (.num n) (some (a, b)) = .ok fig ∧ ShowsBars data (equalBins n a b) fig ∧
      ShowsCurve data func fig := by
  refine plot_equal data func _ _ hn hab ?_
  have hmin : ∃ l, data.min? = some l := by
    cases data with
    | nil => simp at hm
    | cons x t => exact ⟨_, rfl⟩
  obtain ⟨l, hl⟩ := hmin
  unfold histEdges
  rw [if_neg (by simp), hl, hm]
  simp only [if_pos h0, bind, Except.bind, truncQ_nat, linspace_exact n hn]
  rfl

/-- **C64 violated.** When the largest record is 0, the upper limit is ignored: the histogram ends at 0. -/
theorem hist_upper_violated (data : List ℚ) (func : ℚ → ℝ) {n : ℕ} (hn : 1 ≤ n) {a b : ℚ} (ha : a ≤ 0)
    (hm : data.max? = some 0) :
    ∃ fig, plotHistFunc data func (.num n) (some (a, b)) = .ok fig ∧ ShowsBars data (equalBins n a 0) fig ∧
      ShowsCurve data func fig := by
  refine plot_equal data func _ _ hn ha ?_
  have hmin : ∃ l, data.min? = some l := by
    cases data with
    | nil => simp at hm
    | cons x t => exact ⟨_, rfl⟩
  obtain ⟨l, hl⟩ := hmin
  unfold histEdges
  rw [if_neg (by simp), hl, hm]
  simp only [ne_eq, not_true, if_false, bind, Except.bind, truncQ_nat, linspace_exact n hn]
  rfl

/-- **C64.** Without bins and limits there is one bin per fifty records, from the smallest to the largest one. -/
theorem hist_default (data : List ℚ) (func : ℚ → ℝ) (h50 : 50 ≤ data.length) {a b : ℚ}
    (ha : data.min? = some a) (hb : data.max? = some b) :
    ∃ fig, plotHistFunc data func .off none = .ok fig ∧ ShowsBars data (equalBins (data.length / 50) a b) fig ∧
      ShowsCurve data func fig := by
  have hab : a ≤ b := by
    have h1 := List.min?_mem ha
    exact (List.max?_le_iff hb).1 le_rfl a h1
  refine plot_equal data func _ _ (by omega) hab ?_
  unfold histEdges
  rw [if_pos ⟨rfl, rfl⟩, ha, hb]
  simp only [bind, Except.bind, truncQ_fifty]
  rw [linspace_exact _ (by omega)]
  rfl

/-- **C64 violated.** By default fewer than fifty records raise an IndexError, no records a ValueError. -/
theorem hist_few_violated (data : List ℚ) (func : ℚ → ℝ) (h50 : data.length < 50) :
    plotHistFunc data func .off none = .error (if data = [] then .value else .index) := by
  cases data with
  | nil => rfl
  | cons x t =>
    unfold plotHistFunc histEdges
    rw [if_pos ⟨rfl, rfl⟩]
    simp only [List.min?_cons', List.max?_cons', bind, Except.bind, truncQ_fifty]
    rw [Nat.div_eq_of_lt h50]
    simp [linspace, pure, Except.pure]

/-- **C64 violated.** A number of bins without limits raises a TypeError, unless the largest record is 0. -/
theorem hist_nbins_violated (data : List ℚ) (func : ℚ → ℝ) {q m : ℚ} (hq : q ≠ 0) (hm : data.max? = some m) (h0 : m ≠ 0) :
    plotHistFunc data func (.num q) none = .error .type := by
  have hmin : ∃ l, data.min? = some l := by
    cases data with
    | nil => simp at hm
    | cons x t => exact ⟨_, rfl⟩
  obtain ⟨l, hl⟩ := hmin
  unfold plotHistFunc histEdges
  rw [if_neg (by simp [HistBins.any, hq]), hl, hm]
  simp only [if_pos h0, bind, Except.bind]

/-- **C64 (zero bins).** Zero bins without limits mean the default binning; with limits they raise an IndexError (or a ValueError if there
are no records). -/
theorem hist_zero_bins (data : List ℚ) (func : ℚ → ℝ) (xlimit : Option (ℚ × ℚ)) :
    (xlimit = none → plotHistFunc data func (.num 0) xlimit = plotHistFunc data func .off xlimit) ∧
    (xlimit ≠ none → plotHistFunc data func (.num 0) xlimit = .error (if data = [] then .value else .index)) := by
  refine ⟨?_, fun h => ?_⟩
  · rintro rfl
    simp [plotHistFunc, histEdges, HistBins.any]
  · obtain ⟨l, rfl⟩ := Option.ne_none_iff_exists'.1 h
    have ht : truncQ (0 + 1) = 1 := by simpa using truncQ_nat 0
    cases data with
    | nil => simp [plotHistFunc, histEdges, bind, Except.bind]
    | cons x xs =>
      simp only [plotHistFunc, histEdges, reduceCtorEq, and_false, if_false, List.min?_cons', List.max?_cons', ht]
      by_cases hm : xs.foldl max x = 0 <;>
        simp [hm, bind, Except.bind, pure, Except.pure, linspace, List.range_succ]

/-- **C64.** With a list of edges the bars are those of the list.  The point of the curve of a bar is over its middle, and its
height is computed with its width, exactly if the bar has the width of the first one; so bins of unequal widths get
a wrong curve. -/
theorem hist_edges (data : List ℚ) (func : ℚ → ℝ) (xlimit : Option (ℚ × ℚ)) {edges : List ℚ} (hs : edges.Pairwise (· < ·))
    (h2 : 2 ≤ edges.length) :
    ∃ fig, plotHistFunc data func (.edges edges) xlimit = .ok fig ∧ ShowsBars data edges fig ∧
      fig.curve.length = fig.bars.length ∧
      ∀ (i : ℕ) (b b0 : Bar) (p : ℚ × ℝ), fig.bars[0]? = some b0 → fig.bars[i]? = some b → fig.curve[i]? = some p →
        p.2 = (data.length : ℝ) * ((b0.hi - b0.lo : ℚ) : ℝ) * func p.1 ∧
        (p.1 = (b.lo + b.hi) / 2 ↔ b.hi - b.lo = b0.hi - b0.lo) := by
  have hany : (HistBins.edges edges).any = true := by
    match edges, h2, hs with
    | x :: y :: rest, _, hs =>
      simp only [HistBins.any, List.any_cons, Bool.or_eq_true, decide_eq_true_eq, ne_eq]
      have hxy : x < y := (List.pairwise_cons.1 hs).1 y (by simp)
      by_contra hc
      push Not at hc
      obtain ⟨c1, c2, -⟩ := hc
      linarith
  have he : histEdges data (.edges edges) xlimit = .ok (some edges) := by
    unfold histEdges
    rw [if_neg (by simp [hany])]
  obtain ⟨fig, k1, k2, k3⟩ := plot_edges data func _ xlimit he (hs.imp fun h => le_of_lt h) h2
  refine ⟨fig, k1, k2, by rw [k3]; simp, ?_⟩
  intro i b b0 p h0 hb hp
  obtain ⟨a1, a2, -⟩ := k2.2 0 b0 h0
  have e0 : edges.getD 0 0 = b0.lo := by rw [List.getD_eq_getElem?_getD, a1]; rfl
  have e1 : edges.getD 1 0 = b0.hi := by rw [List.getD_eq_getElem?_getD, a2]; rfl
  rw [k3, List.getElem?_map, hb, e0, e1] at hp
  simp only [Option.map_some, Option.some.injEq] at hp
  subst hp
  refine ⟨rfl, ?_⟩
  simp only
  constructor
  · intro h; linarith
  · intro h; linarith

/-- The curve is wrong for bins of unequal widths: the second point for the edges 0, 1, 3 is at 3/2, not at 2. -/
example (data : List ℚ) (func : ℚ → ℝ) : ∃ fig, plotHistFunc data func (.edges [0, 1, 3]) none = .ok fig ∧
    ¬ ShowsCurve data func fig := by
  obtain ⟨fig, h1, h2, h3, h4⟩ := hist_edges data func none (edges := [0, 1, 3]) (by decide) (by decide)
  refine ⟨fig, h1, fun hc => ?_⟩
  have hl : fig.bars.length = 2 := by have := h2.1; simpa using this
  have g0 := List.getElem?_eq_getElem (l := fig.bars) (i := 0) (by omega)
  have g1 := List.getElem?_eq_getElem (l := fig.bars) (i := 1) (by omega)
  have gc := List.getElem?_eq_getElem (l := fig.curve) (i := 1) (by omega)
  have h := (h4 1 _ _ _ g0 g1 gc).2
  obtain ⟨a1, a2, -⟩ := h2.2 0 _ g0
  obtain ⟨b1, b2, -⟩ := h2.2 1 _ g1
  simp only [List.getElem?_cons_zero, List.getElem?_cons_succ, Option.some.injEq] at a1 a2 b1 b2
  unfold ShowsCurve at hc
  have hp : fig.curve[1]? = (fig.bars[1]?).map fun b : Bar =>
    ((b.lo + b.hi) / 2, (data.length : ℝ) * ((b.hi - b.lo : ℚ) : ℝ) * func ((b.lo + b.hi) / 2)) := by
    conv_lhs => rw [hc]
    rw [List.getElem?_map]
  rw [gc, g1] at hp
  simp only [Option.map_some, Option.some.injEq] at hp
  have := h.1 (by rw [hp])
  rw [← a1, ← a2, ← b1, ← b2] at this
  norm_num at this

example (func : ℚ → ℝ) : ∃ fig, plotHistFunc [1, 2, 3, 5] func (.num 2) (some (0, 4)) = .ok fig ∧
    ShowsBars [1, 2, 3, 5] (equalBins 2 0 4) fig ∧ ShowsCurve [1, 2, 3, 5] func fig :=
  hist_limits [1, 2, 3, 5] func (by decide) (by decide) (m := 5) (by decide) (by decide)

example (func : ℚ → ℝ) : ∃ fig, plotHistFunc ((List.range 120).map fun i : ℕ => (i : ℚ)) func .off none = .ok fig ∧
    fig.bars.length = 2 := by
  obtain ⟨fig, h1, h2, -⟩ := hist_default ((List.range 120).map fun i : ℕ => (i : ℚ)) func (by simp) (a := 0) (b := 119)
    (by decide +kernel) (by decide +kernel)
  refine ⟨fig, h1, ?_⟩
  have := h2.1
  simpa [equalBins] using this

end Phik.Props
