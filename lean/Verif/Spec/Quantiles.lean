import Verif.Spec.Consistency
import Verif.Spec.Outliers

/-! # The bins of a distribution: what automatic binning of ever more records settles on -/

namespace Phik.Spec

open scoped Classical in
/-- The probability of an event, for records that are in `S`. -/
noncomputable def probOf {α : Type} (S : Finset α) (raw : α → ℝ) (P : α → Prop) : ℝ := ∑ x ∈ S with P x, raw x

/-- `x` is the quantile of order `t` of the numbers of a variable: it occurs, either it is the smallest number or less than `t` of the numbers are below, and
either it is the largest number or more than `t` of the numbers are not above.  `u` is a margin for the rounding of `t`. -/
structure QuantileAt {α : Type} (S : Finset α) (raw : α → ℝ) (var : α → Cell) (u t x : ℚ) : Prop where
  occurs : ∃ z, raw z ≠ 0 ∧ var z = .num x
  below : (∀ z y, raw z ≠ 0 → var z = .num y → x ≤ y) ∨
    probOf S raw (fun z => ∃ y, var z = .num y ∧ y < x) < t * (1 - u) * probOf S raw (fun z => ∃ y, var z = .num y)
  above : (∀ z y, raw z ≠ 0 → var z = .num y → y ≤ x) ∨
    t * (1 + u) * probOf S raw (fun z => ∃ y, var z = .num y) < probOf S raw (fun z => ∃ y, var z = .num y ∧ y ≤ x)

/-- `e` are the edges that a bin specification asks for, when applied to the distribution of a variable: the given edges; for a number of bins, equal bins between
the smallest and the largest number, or the quantiles of the distribution (the first of them lowered by 1e-14). -/
inductive SettlesOn {α : Type} (S : Finset α) (raw : α → ℝ) (var : α → Cell) (fl : ℚ → ℚ) (u : ℚ) : Bool → BinSpec → List ℚ → Prop
  | edges (quantile : Bool) (l : List ℚ) : SettlesOn S raw var fl u quantile (.edges l) l
  | uniform {q lo hi : ℚ} {l : List ℚ} (hr : HasRange raw var lo hi) (h : binEdges fl [lo, hi] (truncQ q) false = .ok l) :
      SettlesOn S raw var fl u false (.num q) l
  | quantile {q x : ℚ} {xs qs : List ℚ} (hqs : linspace fl 0 1 (truncQ q + 1) = .ok qs) (h : List.Forall₂ (QuantileAt S raw var u) qs (x :: xs)) :
      SettlesOn S raw var fl u true (.num q) (fl (x - fl (1 / 10 ^ 14)) :: xs)

/-- What binning makes of the entries of a column with the distribution of a variable: nothing if it is not binned; otherwise the labels of the edges on which
the binning settles, which must be in ascending order. -/
inductive LimitBins {α : Type} (S : Finset α) (raw : α → ℝ) (var : α → Cell) (fl : ℚ → ℚ) (u : ℚ) (quantile : Bool) : Option BinSpec → (Cell → Cell) → Prop
  | none : LimitBins S raw var fl u quantile none id
  | some {s : BinSpec} {e : List ℚ} (h : SettlesOn S raw var fl u quantile s e) (hs : e.Pairwise (· ≤ ·)) :
      LimitBins S raw var fl u quantile (some s) (binLabel e)

/-- The edges on which the binning of a column settles: none if it is not binned. -/
def LimitEdges {α : Type} (S : Finset α) (raw : α → ℝ) (var : α → Cell) (fl : ℚ → ℚ) (u : ℚ) (quantile : Bool) : Option BinSpec → Option (List ℚ) → Prop
  | none, none => True
  | some s, some e => SettlesOn S raw var fl u quantile s e
  | _, _ => False

/-- A column is not binned (`none`), or binned as specified. -/
def BinsAs (ic : List String) (bins : Bins) (name : String) : Option BinSpec → Prop
  | none => name ∉ ic
  | some s => name ∈ ic ∧ EntryFor bins name s

end Phik.Spec
