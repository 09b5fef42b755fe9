import Verif.Model.PhikMatrix
import Verif.Spec.Binning
import Verif.Spec.Bivariate
import Mathlib.Data.Set.Card

/-! # Specifications for the matrix functions -/

namespace Phik.Spec

/-- Number of distinct values of a column, missing values not counted. -/
noncomputable def distinct (c : Column) : ℕ := {x | x ∈ c.cells ∧ x ≠ Cell.nan}.ncard

/-- The columns that survive the quality check: interval columns with at least two distinct values, other
columns with at least two, or with at least one when missing values are kept. -/
def Kept (ic : List String) (dropna : Bool) (c : Column) : Prop :=
  if c.name ∈ ic ∨ dropna = true then 2 ≤ distinct c else 1 ≤ distinct c

/-- The schedule runs each of `n` tasks once. -/
def ValidSched (n : ℕ) (sched : Option (List ℕ)) : Prop :=
  ∀ order, sched = some order → order.Perm (List.range n)

/-- The records of two columns as they enter the contingency table. -/
def records (dropna du dof : Bool) (a b : Column) : List (Option Cell × Option Cell) :=
  (a.cells.zip b.cells).map fun p => (view dropna du dof p.1, view dropna du dof p.2)

/-- `v` is phik of the records: NaN when their contingency table has fewer than two rows or columns,
otherwise the number `phik_from_hist2d` gives for the table. -/
def IsPhik (nm : Numerics) (noise : Bool) (recs : List (Option Cell × Option Cell)) (v : Option ℝ) : Prop :=
  ∃ h : Hist, IsTable recs h ∧
    ((h.rows.length < 2 ∨ h.cols.length < 2) ∧ v = none ∨
     2 ≤ h.rows.length ∧ 2 ≤ h.cols.length ∧
      ∃ x, phikFromHist2d nm.mvn nm.brentq h.values noise = .ok x ∧ v = some x)

/-- `t` is a symmetric table over `names` with ones on the diagonal whose entry for two different names
(in the order of `names`) satisfies `entry`. -/
structure IsCorrTable (names : List String) (entry : String → String → Option ℝ → Prop) (t : LTable) :
    Prop where
  rows : t.rows = names
  cols : t.cols = names
  diag : ∀ a ∈ names, t.v a a = some 1
  symm : ∀ a ∈ names, ∀ b ∈ names, t.v a b = t.v b a
  entry : ∀ a b, [a, b].Sublist names → entry a b (t.v a b)

/-- The phik matrix of a binned frame. -/
def IsPhikMatrix (nm : Numerics) (noise dropna du dof : Bool) (f : Frame) (t : LTable) : Prop :=
  IsCorrTable f.names (fun a b v => ∃ ca ∈ f.cols, ∃ cb ∈ f.cols, ca.name = a ∧ cb.name = b ∧
    IsPhik nm noise (records dropna du dof ca cb) v) t

/-- The numbers of a square table. -/
noncomputable def tableMatrix (t : LTable) : Matrix (Fin t.rows.length) (Fin t.rows.length) ℝ :=
  fun i j => (t.v t.rows[i] t.rows[j]).getD 0

/-- All entries of the table are numbers. -/
def AllNumbers (t : LTable) : Prop := ∀ a ∈ t.rows, ∀ b ∈ t.rows, t.v a b ≠ none

/-- The numerical libraries meet their contracts. -/
structure GoodNumerics (nm : Numerics) : Prop where
  mvn : MvnSpec nm.mvn
  brentq : BrentqSpec nm.brentq

end Phik.Spec
