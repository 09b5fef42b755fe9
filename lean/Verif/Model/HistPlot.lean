import Verif.Model.Binning
import Mathlib.Data.Real.Basic

/-!
# Model of `plot_hist_and_func` (phik/report.py:34-87)

Exact arithmetic.  Titles, colours and legends are left out.
-/

namespace Phik

/-- The binning argument of `plot_hist_and_func`: not given (`False`), a number, or a list of edges
(report.py:34). -/
inductive HistBins
  | off
  | num (q : ℚ)
  | edges (l : List ℚ)

/-- A bar of the histogram: from, to, and number of records (report.py:71). -/
structure Bar where
  lo : ℚ
  hi : ℚ
  count : ℕ

/-- The figure: the bars and the points of the curve (report.py:71, 77). -/
structure HistFigure where
  bars : List Bar
  curve : List (ℚ × ℝ)

/-- `np.any(xbins)` (report.py:55). -/
def HistBins.any : HistBins → Bool
  | .off => false
  | .num q => decide (q ≠ 0)
  | .edges l => l.any fun x => decide (x ≠ 0)

/-- `xbins` after the choice of the binning (report.py:54-68).  `np.min` of no data is a ValueError; without
`xlimit`, `xlimit[1]` is a TypeError.  `None` is returned if `xbins` remains `False`. -/
def histEdges (data : List ℚ) (bins : HistBins) (xlimit : Option (ℚ × ℚ)) : Except Err (Option (List ℚ)) :=
  if bins.any = false ∧ xlimit = none then
    match data.min?, data.max? with
    | some lo, some hi => do
      let e ← linspace (fun x => x) lo hi (truncQ ((data.length : ℚ) / 50 + 1))
      pure (some e)
    | _, _ => .error .value
  else match bins with
    | .off => .ok none
    | .edges l => .ok (some l)
    | .num q =>
      match data.min?, data.max? with
      | some lo, some hi => do
        let xmin := match xlimit with
          | some l => l.1
          | none => lo
        -- report.py:65 tests `xmax`, not `xlimit`
        let xmax ← if hi ≠ 0 then
            match xlimit with
            | some l => Except.ok l.2
            | none => Except.error Err.type
          else Except.ok hi
        let e ← linspace (fun x => x) xmin xmax (truncQ (q + 1))
        pure (some e)
      | _, _ => .error .value

/-- The bars of `plt.hist(data, bins=edges)` (report.py:71): half-open bins, the last one closed. -/
def histBars (data : List ℚ) : List ℚ → List Bar
  | [] => []
  | [_] => []
  | [a, b] => [⟨a, b, data.countP fun x => decide (a ≤ x ∧ x ≤ b)⟩]
  | a :: b :: rest => ⟨a, b, data.countP fun x => decide (a ≤ x ∧ x < b)⟩ :: histBars data (b :: rest)

/-- `plot_hist_and_func` (report.py:34-87).  `plt.hist` rejects `bins=False` and edges that are not sorted
(ValueError); fewer than two edges have no first width (IndexError). -/
noncomputable def plotHistFunc (data : List ℚ) (func : ℚ → ℝ) (bins : HistBins) (xlimit : Option (ℚ × ℚ)) :
    Except Err HistFigure := do
  match ← histEdges data bins xlimit with
  | none => .error .value
  | some edges =>
    if ¬ edges.Pairwise (· ≤ ·) then .error .value
    else match edges with
      | e0 :: e1 :: rest =>
        -- xbins[:-1] + np.diff(xbins)[0]/2
        let xvals := (e0 :: e1 :: rest).dropLast.map fun x => x + (e1 - e0) / 2
        let bw := e1 - e0
        .ok ⟨histBars data (e0 :: e1 :: rest), xvals.map fun x => (x, (data.length : ℝ) * (bw : ℝ) * func x)⟩
      | _ => .error .index

end Phik
