import Verif.Model.Report

/-! # Specifications for the report -/

namespace Phik.Spec

/-- Column `k` of `n` columns is drawn at this place, counted from the left: the same place, or mirrored
when the layout with the diagonal from the top left to the bottom right is asked for. -/
def place (identity : Bool) {n : ℕ} (k : Fin n) : Fin n := if identity then k.rev else k

/-- An axis with `n` cells of which cell `k` is drawn at `at k`: with one label per cell the label of a cell is
written at its middle; with one label more, the labels of the two edges of a cell are written at its two ends.
At most one label is written at any place. -/
structure AxisShows (text : Cell → String) (n : ℕ) (identity : Bool) (labels : List Cell) (ticks : List (ℚ × String)) :
    Prop where
  count : ticks.length = labels.length
  distinct : (ticks.map Prod.fst).Nodup
  middle : labels.length = n → ∀ (k : Fin n) l, labels[k.val]? = some l → (((place identity k).val : ℚ) + 1 / 2, text l) ∈ ticks
  edges : labels.length = n + 1 → ∀ (k : Fin n) l l', labels[k.val]? = some l → labels[k.val + 1]? = some l' →
    if identity then (((place identity k).val : ℚ), text l') ∈ ticks ∧ (((place identity k).val : ℚ) + 1, text l) ∈ ticks
    else (((place identity k).val : ℚ), text l) ∈ ticks ∧ (((place identity k).val : ℚ) + 1, text l') ∈ ticks

/-- A number as text; `fmt2` writes it with two decimals. -/
def shownNumber (fmt2 : EReal → String) : FVal → String
  | none => "NaN"
  | some x => fmt2 x

/-- A label as text; `fmt0` writes a number without decimals.  A text of more than `top` characters is cut to its first 17
characters, followed by three dots. -/
def shownLabel (fmt0 : ℚ → String) (top : ℕ) (lab : Cell) : String :=
  let cut := fun s : String => if s.length ≤ top then s else String.ofList (s.toList.take 17) ++ "..."
  match lab with
  | .nan => cut "NaN"
  | .num q => cut (fmt0 q)
  | .str s => cut s

/-- A cell on which the numbers are written in white: no value, or a colour near either end of the scale. -/
def OnDark (vmin vmax : ℝ) : FVal → Prop
  | none => True
  | some x => x < ((0.7 * vmin : ℝ) : EReal) ∨ ((0.7 * vmax : ℝ) : EReal) ≤ x

/-- The figure has the cells of `colors`; in the cell of row `j` and column `k` the number of that cell in
`numbers` is written, in the middle, or above the number of `colors` if both are asked for; nothing else is
written. -/
structure ShowsCells {r c : ℕ} (fmt2 : EReal → String) (white : FVal → Prop) (identity both : Bool)
    (numbers colors : Fin r → Fin c → FVal) (fig : Figure) : Prop where
  mesh : ∃ m, fig.mesh = ⟨r, c, m⟩ ∧ ∀ j k, m j (place identity k) = colors j k
  notes : ∀ n : Note, n ∈ fig.notes ↔ ∃ (j : Fin r) (k : Fin c),
    n.x = ((place identity k).val : ℚ) + 1 / 2 ∧ (n.white = true ↔ white (colors j k)) ∧
    if both then n.y = (j : ℕ) + 7 / 10 ∧ n.text = shownNumber fmt2 (numbers j k) ∨
      n.y = (j : ℕ) + 1 / 4 ∧ n.text = shownNumber fmt2 (colors j k)
    else n.y = (j : ℕ) + 1 / 2 ∧ n.text = shownNumber fmt2 (numbers j k)

end Phik.Spec

namespace Phik.Spec

/-- A pair of variables is selected for the evaluation of outliers: its significance is at least the threshold in absolute
value, and its correlation at least the other threshold.  NaN counts as selected. -/
def Selected (sigThr corrThr : ℝ) (sig : Option EReal) (phik : Option ℝ) : Prop :=
  (∀ z, sig = some z → z ≤ ((-sigThr : ℝ) : EReal) ∨ (sigThr : EReal) ≤ z) ∧ (∀ p, phik = some p → corrThr ≤ p)

end Phik.Spec

namespace Phik.Spec

/-- The significances with either kind of bins, by the public steps: the quality check, `bin_data` and
`significance_from_rebinned_df`.  Without quantile bins this is `significance_matrix`. -/
noncomputable def significancesOf {F : Type} (S : SigNum) (R : ℕ → SimRun F) (fl : ℚ → ℚ)
    (pf : String → Option (Option ℚ)) (r : Ref) (intervalCols : Option (List String)) (bins : Bins) (quantile : Bool)
    (sigMethod : String) : M (LTab EReal) := do
  let df ← M.read r
  let (clean, icClean) ← dqCheck r (intervalCols.getD (guessIntervalCols df)) true
  let (binned, _) ← binData fl pf clean icClean bins quantile
  sigFromRebinned S R binned sigMethod true true true

theorem significancesOf_uniform {F : Type} (S : SigNum) (R : ℕ → SimRun F) (fl : ℚ → ℚ)
    (pf : String → Option (Option ℚ)) (r : Ref) (ic : Option (List String)) (bins : Bins) (sigMethod : String) :
    significancesOf S R fl pf r ic bins false sigMethod = significanceMatrix S R fl pf r ic bins sigMethod true true true :=
  rfl

end Phik.Spec

namespace Phik.Spec

/-- The name of a pair in the report: the two names joined by a colon, with underscores for the spaces. -/
def pairLabel (a b : String) : String :=
  String.ofList ((a.toList ++ ':' :: b.toList).map fun c => if c = ' ' then '_' else c)

/-- `l` has the entries of the list `src` of keys and values, where of entries with equal keys the last one is kept. -/
def LastOfEachKey {α : Type} (src l : List (String × α)) : Prop :=
  (l.map Prod.fst).Nodup ∧ ∀ k v, (k, v) ∈ l ↔ ∃ i : ℕ, src[i]? = some (k, v) ∧ ∀ (j : ℕ) v', i < j → src[j]? ≠ some (k, v')

/-- The files listed by the report, if one file is written for each of the plots, in the folder `d`. -/
def EachFile (d : String) (sel : List (String × String)) (files : List (String × String)) : Prop :=
  (files.map Prod.fst).Nodup ∧ ∀ k f, (k, f) ∈ files ↔
    (∃ m ∈ ["phik_matrix", "global_phik", "significance_matrix"], k = m ∧ f = d ++ m ++ ".pdf") ∨
    ∃ p ∈ sel, k = pairLabel p.1 p.2 ∧ f = d ++ "pulls_" ++ pairLabel p.1 p.2 ++ ".pdf"

end Phik.Spec
