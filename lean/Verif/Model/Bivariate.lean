import Verif.Model.Binning
import Verif.Model.Stats

/-!
# Model of `phik/bivariate.py` and of `phik_from_hist2d`

Arithmetic is exact.  Two library functions are parameters:
* `mvn rho (lower, upper)` is `mvn.mvnun(lower, upper, [0,0], [[1,rho],[rho,1]])[0]`, the integral of the
  bivariate normal density over a rectangle (`_mvn_un` and `_calc_mvnun`, bivariate.py:24-37, 78-79);
* `brentq f a b xtol` is `optimize.brentq`.
-/

namespace Phik

/-- Lower and upper corner of a cell. (phik/bivariate.py:43-75, 107-108) -/
abbrev Rect := (ℝ × ℝ) × (ℝ × ℝ)

/-- The cell with indices `i`, `j` of the grid with the given edges. (phik/bivariate.py:43-75, 107-108) -/
def cellRect (sx sy : List ℝ) (i j : ℕ) : Rect :=
  ((sx.getD i 0, sy.getD j 0), (sx.getD (i + 1) 0, sy.getD (j + 1) 0))

/-- The cells `_mvn_array` integrates over (bivariate.py:58-70), and the flag `odd_odd`.  The edges are
non-empty lists. -/
def mvnRanges (sx sy : List ℝ) : List Rect × Bool :=
  let nx := sx.length - 1
  let ny := sy.length - 1
  let ranges := (List.range (nx / 2)).flatMap fun i => (List.range ny).map fun j => cellRect sx sy i j
  if nx % 2 = 1 then
    let i := nx / 2
    let ranges := ranges ++ (List.range (ny / 2)).map fun j => cellRect sx sy i j
    if ny % 2 = 1 then
      let j := ny / 2
      (ranges ++ [cellRect sx sy i j], true)
    else (ranges, false)
  else (ranges, false)

/-- `_mvn_array` (bivariate.py:40-75). -/
def mvnArray (cell : Rect → ℝ) (sx sy : List ℝ) : List ℝ :=
  let (ranges, oddOdd) := mvnRanges sx sy
  let corr := ranges.map cell
  corr ++ (if oddOdd then corr.dropLast else corr)

/-- `np.linspace(-5, 5, nx+1)` or the given edges. (phik/bivariate.py:99-102, 141-145, 194-199) -/
noncomputable def edgesOr (s : Option (List ℝ)) (nx : ℤ) : Except Err (List ℝ) :=
  match s with
  | some l => .ok l
  | none => (linspace (fun x => x) (-5) 5 (nx + 1)).map fun l => l.map fun q : ℚ => (q : ℝ)

open scoped Classical in
/-- `np.sum(np.divide((corr - corr0)**2, corr0, out=zeros, where=corr0!=0))`.
(phik/bivariate.py:153-155, 162-164, 211-213) -/
noncomputable def ratioSum (corr corr0 : List ℝ) : ℝ :=
  (List.zipWith (fun c c0 => if c0 ≠ 0 then (c - c0) ^ 2 / c0 else 0) corr corr0).sum

/-- The last part of `chi2_from_phik` (bivariate.py:160-168). -/
noncomputable def chi2Rho (mvn : ℝ → Rect → ℝ) (n subtract : ℝ) (corr0 : List ℝ) (scale : ℝ)
    (sx sy : List ℝ) (pedestal rho : ℝ) : ℝ :=
  let corrr := mvnArray (mvn rho) sx sy
  let chi2_rho := n * ratioSum corrr corr0
  let chi2 := pedestal + chi2_rho * scale
  chi2 - subtract

/-- Largest possible chi2 (bivariate.py:157, 212). -/
def chi2Max (n : ℝ) (nx ny : ℤ) : ℝ := n * ((min (nx - 1) (ny - 1) : ℤ) : ℝ)

/-- `chi2_from_phik` (bivariate.py:120-168).  A zero `chi2_one` makes the scale infinite or NaN. -/
noncomputable def chi2FromPhik (mvn : ℝ → Rect → ℝ) (rho n subtract : ℝ) (corr0 : Option (List ℝ))
    (scale : Option ℝ) (sx sy : Option (List ℝ)) (pedestal : ℝ) (nx ny : ℤ) : Except Err ℝ := do
  let sx ← edgesOr sx nx
  let sy ← edgesOr sy ny
  let corr0 := corr0.getD (mvnArray (mvn 0) sx sy)
  let scale ← match scale with
    | some s => pure s
    | none =>
      let corr1 := mvnArray (mvn 1) sx sy
      let chi2_one := n * ratioSum corr1 corr0
      if chi2_one = 0 then throw .nonfinite
      else pure ((chi2Max n nx ny - pedestal) / chi2_one)
  pure (chi2Rho mvn n subtract corr0 scale sx sy pedestal rho)

/-- `phik_from_chi2` (bivariate.py:171-227).  Simplification: the warning about many cells is left out. -/
noncomputable def phikFromChi2 (mvn : ℝ → Rect → ℝ)
    (brentq : (ℝ → ℝ) → ℝ → ℝ → ℝ → Except Err ℝ) (chi2 n : ℝ) (nx ny : ℤ)
    (sx sy : Option (List ℝ)) (pedestal : ℝ) : Except Err ℝ := do
  if pedestal < 0 then throw .value
  if sx.isSome ∧ nx ≤ 1 then throw .value
  let sx ← edgesOr sx nx
  if sy.isSome ∧ ny ≤ 1 then throw .value
  let sy ← edgesOr sy ny
  let corr0 := mvnArray (mvn 0) sx sy
  let corr1 := mvnArray (mvn 1) sx sy
  let chi2_one := n * ratioSum corr1 corr0
  let chi2_max := chi2Max n nx ny
  -- np.isclose(chi2, chi2_max, atol=1E-14)
  let chi2 := if chi2_max < chi2 ∧ |chi2 - chi2_max| ≤ 1 / 10 ^ 14 + 1 / 10 ^ 5 * |chi2_max|
    then chi2_max else chi2
  if chi2 ≤ pedestal then return 0
  if chi2_max ≤ chi2 then return 1
  if chi2_one = 0 then throw .nonfinite
  let scale := (chi2_max - pedestal) / chi2_one
  brentq (chi2Rho mvn n chi2 corr0 scale sx sy pedestal) 0 1 (1 / 10 ^ 5)

/-- `phik_from_hist2d` (phik.py:76-101). -/
noncomputable def phikFromHist2d (mvn : ℝ → Rect → ℝ)
    (brentq : (ℝ → ℝ) → ℝ → ℝ → ℝ → Except Err ℝ) (observed : Arr2 ℝ) (noise : Bool) :
    Except Err ℝ := do
  let chi2 ← getChi2 observed "pearson"
  let endof : ℤ := if noise then estimateSimpleNdof observed else 0
  let pedestal := if endof < 0 then 0 else endof
  phikFromChi2 mvn brentq chi2 observed.total observed.r observed.c none none pedestal

/-- The loops of `bivariate_normal_theory` (bivariate.py:105-110): the assignments `bvn[j, i] = p` in
order; an assignment outside of the table is an IndexError. -/
def theoryLoop (cell : Rect → ℝ) (sx sy : List ℝ) (rows cols : ℕ) :
    List (ℕ × ℕ) → (ℕ → ℕ → ℝ) → Except Err (ℕ → ℕ → ℝ)
  | [], t => .ok t
  | (i, j) :: rest, t =>
    if j < rows ∧ i < cols then
      theoryLoop cell sx sy rows cols rest fun j' i' =>
        if j' = j ∧ i' = i then cell (cellRect sx sy i j) else t j' i'
    else .error .index

open scoped Classical in
/-- `bivariate_normal_theory` (bivariate.py:82-117).  `np.zeros` of a negative dimension is a ValueError;
machine epsilon is `2^-52`. -/
noncomputable def bivariateNormalTheory (mvn : ℝ → Rect → ℝ) (rho : ℝ) (nx ny : ℤ) (n : ℝ)
    (sx sy : Option (List ℝ)) : Except Err (Arr2 ℝ) := do
  if n < 1 then throw .value
  let sx ← edgesOr sx nx
  let sy ← edgesOr sy ny
  if ny < 0 ∨ nx < 0 then throw .value
  let idx := (List.range (sx.length - 1)).flatMap fun i => (List.range (sy.length - 1)).map fun j => (i, j)
  let bvn ← theoryLoop (mvn rho) sx sy ny.toNat nx.toNat idx fun _ _ => 0
  pure ⟨ny.toNat, nx.toNat, fun j i =>
    let x := bvn j i * n
    if x < 2 ^ (-52 : ℤ) then 2 ^ (-52 : ℤ) else x⟩

end Phik
