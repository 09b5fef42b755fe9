import Verif.Props.Report

/-! # What is written in the three figures of `correlation_report`

The figures of the report are characterised in `Props/Report.lean` as the figures of
`plot_correlation_matrix` for the three results.  Here the texts and the colours in them are written out. -/

open Phik Phik.Spec
namespace Phik.Props

/-- What is written for a global correlation: the number with two decimals, or `NaN` for a value that is not a number. -/
def globalText (fmt2 : EReal → String) : GVal → String
  | .num x => fmt2 (x : EReal)
  | .nan => "NaN"
  | .byZero => "NaN"

/-- **C53.** The figure of the global correlations in the report has one cell per variable, and in it the number of that
variable is written, or `NaN` if it has none; nothing else is written.  The number is white on a dark
cell: at least 0.7, below 0, or missing. -/
theorem global_figure_notes (fmt0 : ℚ → String) (fmt2 : EReal → String) (g : List GVal) (rows : List Cell) {fig : Figure}
    (h : plotCorrelation fmt0 fmt2 ⟨g.length, 1, fun i _ => fvalOfG g[i]⟩ [.str ""] rows 0 1 20 none true true = .ok fig) :
    (∀ n : Note, n ∈ fig.notes ↔ ∃ i : Fin g.length, n.x = 1 / 2 ∧ n.y = (i : ℕ) + 1 / 2 ∧
      n.text = globalText fmt2 g[i] ∧ (n.white = true ↔ ∀ x, g[i] = .num x → x < 0 ∨ 7 / 10 ≤ x)) ∧
    ∃ m : Fin g.length → Fin 1 → FVal, fig.mesh = ⟨g.length, 1, m⟩ ∧
      ∀ i k, (∀ x : ℝ, g[i] = .num x → m i k = some (x : EReal)) ∧ ((∀ x, g[i] ≠ .num x) → m i k = none) := by
  obtain ⟨-, -, -, -, hm, hn⟩ := plot_correct fmt0 fmt2 (fun i _ => fvalOfG g[i]) [.str ""] rows 0 1 20 none true true h
  constructor
  · intro n
    rw [hn]
    simp only [Option.isSome_none, Bool.false_and, Bool.false_eq_true, if_false, Option.getD_none]
    have hp : ∀ k : Fin 1, (((place true k).val : ℕ) : ℚ) + 1 / 2 = 1 / 2 := by
      intro k
      have : (place true k).val = 0 := by omega
      rw [this]; norm_num
    have htext : ∀ v : GVal, shownNumber fmt2 (fvalOfG v) = globalText fmt2 v := by
      intro v; cases v <;> rfl
    have hwhite : ∀ v : GVal, OnDark 0 1 (fvalOfG v) ↔ ∀ x, v = .num x → x < 0 ∨ 7 / 10 ≤ x := by
      intro v
      cases v with
      | nan => simp [fvalOfG, OnDark]
      | byZero => simp [fvalOfG, OnDark]
      | num x =>
        simp only [fvalOfG, OnDark, GVal.num.injEq]
        constructor
        · rintro h y rfl
          rcases h with h | h
          · left; have := EReal.coe_lt_coe_iff.1 h; simpa using this
          · right
            have := EReal.coe_le_coe_iff.1 h
            norm_num at this ⊢; linarith
        · intro h
          rcases h x rfl with h | h
          · left; exact EReal.coe_lt_coe_iff.2 (by simpa using h)
          · right; exact EReal.coe_le_coe_iff.2 (by norm_num at h ⊢; linarith)
    constructor
    · rintro ⟨i, k, h1, h2, h3, h4⟩
      exact ⟨i, h1.trans (hp k), h3, h4.trans (htext _), h2.trans (hwhite _)⟩
    · rintro ⟨i, h1, h3, h4, h2⟩
      exact ⟨i, 0, h1.trans (hp 0).symm, h2.trans (hwhite _).symm, h3, h4.trans (htext _).symm⟩
  · obtain ⟨m, h1, h2⟩ := hm
    refine ⟨m, h1, fun i k => ?_⟩
    have hk : place true k = k := by omega
    have := h2 i k
    rw [hk] at this
    rw [this]
    constructor
    · intro x hx; simp only [hx, fvalOfG]
    · intro hne
      cases hg : g[i] with
      | num x => exact absurd hg (hne x)
      | nan => rfl
      | byZero => rfl

/-- **C53.** The figure of the phik matrix in the report: the cell in the row of variable `i` and the (mirrored) column of
variable `j` shows their phik with two decimals, or `NaN` if it is missing. -/
theorem phik_figure_notes (fmt0 : ℚ → String) (fmt2 : EReal → String) (t : LTable) {fig : Figure}
    (h : plotCorrelation fmt0 fmt2 (t.values.map fvalOfReal) (t.cols.map .str) (t.rows.map .str) 0 1 20 none true true =
      .ok fig) (n : Note) :
    n ∈ fig.notes ↔ ∃ (i : Fin t.rows.length) (j : Fin t.cols.length),
      n.x = ((t.cols.length - 1 - j : ℕ) : ℚ) + 1 / 2 ∧ n.y = (i : ℕ) + 1 / 2 ∧
      (∀ x : ℝ, t.v t.rows[i] t.cols[j] = some x → n.text = fmt2 (x : EReal) ∧ (n.white = true ↔ x < 0 ∨ 7 / 10 ≤ x)) ∧
      (t.v t.rows[i] t.cols[j] = none → n.text = "NaN" ∧ n.white = true) := by
  obtain ⟨-, -, -, -, hm, hn⟩ := plot_correct fmt0 fmt2 (r := t.rows.length) (c := t.cols.length)
    (fun i j => fvalOfReal (t.v t.rows[i] t.cols[j])) (t.cols.map .str) (t.rows.map .str) 0 1 20 none true true h
  rw [hn]
  simp only [Option.isSome_none, Bool.false_and, Bool.false_eq_true, if_false, Option.getD_none]
  have hp : ∀ j : Fin t.cols.length, (place true j).val = t.cols.length - 1 - j := by
    intro j; simp [place, Fin.rev]; omega
  refine exists_congr fun i => exists_congr fun j => ?_
  rw [hp j]
  cases hv : t.v t.rows[i] t.cols[j] with
  | none =>
    simp only [fvalOfReal, Option.map_none, OnDark, shownNumber, iff_true, reduceCtorEq, IsEmpty.forall_iff, forall_const,
      true_implies, true_and]
    tauto
  | some x =>
    have hw : OnDark 0 1 (fvalOfReal (some x)) ↔ x < 0 ∨ 7 / 10 ≤ x := by
      simp only [fvalOfReal, Option.map_some, OnDark]
      rw [EReal.coe_lt_coe_iff, EReal.coe_le_coe_iff]
      constructor <;> (intro h; rcases h with h | h) <;> first
        | (left; norm_num at h ⊢; linarith)
        | (right; norm_num at h ⊢; linarith)
    rw [hw]
    simp only [fvalOfReal, Option.map_some, shownNumber, Option.some.injEq, reduceCtorEq, IsEmpty.forall_iff, and_true]
    constructor
    · rintro ⟨h1, h2, h3, h4⟩
      refine ⟨h1, h3, ?_⟩
      rintro y rfl
      exact ⟨h4, h2⟩
    · rintro ⟨h1, h3, h5⟩
      obtain ⟨h4, h2⟩ := h5 x rfl
      exact ⟨h1, h2, h3, h4⟩

/-- **C53.** The figure of the significances in the report: a missing significance is shown as the number 0. -/
theorem significance_figure_notes (fmt0 : ℚ → String) (fmt2 : EReal → String) (t : LTab EReal) {fig : Figure}
    (h : plotCorrelation fmt0 fmt2 (t.values.map fun z => some (z.getD 0)) (t.cols.map .str) (t.rows.map .str) (-5) 5 20
      none true true = .ok fig) (n : Note) :
    n ∈ fig.notes ↔ ∃ (i : Fin t.rows.length) (j : Fin t.cols.length),
      n.x = ((t.cols.length - 1 - j : ℕ) : ℚ) + 1 / 2 ∧ n.y = (i : ℕ) + 1 / 2 ∧
      ∃ z : EReal, (t.v t.rows[i] t.cols[j] = some z ∨ t.v t.rows[i] t.cols[j] = none ∧ z = 0) ∧
        n.text = fmt2 z ∧ (n.white = true ↔ z < ((-7 / 2 : ℝ) : EReal) ∨ ((7 / 2 : ℝ) : EReal) ≤ z) := by
  obtain ⟨-, -, -, -, hm, hn⟩ := plot_correct fmt0 fmt2 (r := t.rows.length) (c := t.cols.length)
    (fun i j => some ((t.v t.rows[i] t.cols[j]).getD 0)) (t.cols.map .str) (t.rows.map .str) (-5) 5 20 none true true h
  rw [hn]
  simp only [Option.isSome_none, Bool.false_and, Bool.false_eq_true, if_false, Option.getD_none]
  have hp : ∀ j : Fin t.cols.length, (place true j).val = t.cols.length - 1 - j := by
    intro j; simp [place, Fin.rev]; omega
  refine exists_congr fun i => exists_congr fun j => ?_
  rw [hp j]
  have e1 : (0.7 * (-5) : ℝ) = -7 / 2 := by norm_num
  have e2 : (0.7 * 5 : ℝ) = 7 / 2 := by norm_num
  simp only [OnDark, shownNumber, e1, e2]
  cases hv : t.v t.rows[i] t.cols[j] with
  | none =>
    simp only [Option.getD_none, reduceCtorEq, false_or, true_and, exists_eq_left]
    tauto
  | some z =>
    simp only [Option.getD_some, Option.some.injEq, reduceCtorEq, false_and, or_false, exists_eq_left']
    tauto

/-- Non-vacuity: two variables, one without a global correlation. -/
example (fmt0 : ℚ → String) (fmt2 : EReal → String) : ∃ fig,
    plotCorrelation fmt0 fmt2 ⟨[GVal.num (1 / 2), .nan].length, 1, fun i _ => fvalOfG [GVal.num (1 / 2), .nan][i]⟩ [.str ""]
      [.str "a", .str "b"] 0 1 20 none true true = .ok fig ∧ ⟨1 / 2, 3 / 2, "NaN", true⟩ ∈ fig.notes := by
  obtain ⟨fig, hfig⟩ := plot_returns fmt0 fmt2 (r := 2) (c := 1)
    (fun i _ => fvalOfG [GVal.num (1 / 2), .nan][i]) [.str ""] [.str "a", .str "b"] 0 1 20 none true true
    (by norm_num) (.inl rfl) (.inl rfl) (fun _ => ⟨_, rfl⟩) (by simp)
  refine ⟨fig, hfig, ?_⟩
  rw [(global_figure_notes fmt0 fmt2 [GVal.num (1 / 2), .nan] [.str "a", .str "b"] hfig).1]
  refine ⟨⟨1, by simp⟩, rfl, by norm_num, rfl, ?_⟩
  simp

end Phik.Props
