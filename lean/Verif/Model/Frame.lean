import Verif.Model.Core
import Mathlib.Data.String.Basic
import Mathlib.Data.Rat.Floor
import Mathlib.Data.Sum.Order
import Mathlib.Data.Prod.Lex
import Mathlib.Order.WithBot
import Mathlib.Data.Finset.Sort
import Mathlib.Data.Finset.Image
import Mathlib.Data.List.Dedup

/-!
# Data frames

The part of pandas the library uses, as plain functional data structures.

Simplifications, for all models of frame functions:
* numbers are rationals; there are no infinities and no negative zero;
* a column holds numbers, strings and missing values (no dates, booleans, categoricals);
* column names are strings, and a frame with two columns of the same name is not considered
  (hypothesis `Frame.WF` where it matters);
* the row index is not modelled: rows are positions.
-/

namespace Phik

/-- One entry of a column: missing, a number or a string.
(pandas, the data of phik/binning.py and phik/phik.py) -/
inductive Cell
  | nan
  | num (q : ℚ)
  | str (s : String)
  deriving DecidableEq

namespace Cell

/-- Encoding used to order cells: missing values first, then numbers, then strings.  The relative order
of numbers and strings is that of pandas' `safe_sort` for mixed values.
(pandas sorts the groups of phik/binning.py:165) -/
def enc : Cell → WithBot (ℚ ⊕ₗ String)
  | nan => ⊥
  | num q => ((Sum.inlₗ q : ℚ ⊕ₗ String) : WithBot (ℚ ⊕ₗ String))
  | str s => ((Sum.inrₗ s : ℚ ⊕ₗ String) : WithBot (ℚ ⊕ₗ String))

theorem enc_injective : Function.Injective enc := by
  intro a b h
  cases a <;> cases b <;> simp_all [enc]

instance : LinearOrder Cell := LinearOrder.lift' enc enc_injective

/-- `pandas.isna` of one entry. (pandas, phik/binning.py:157-162) -/
def isNan : Cell → Bool
  | nan => true
  | _ => false

end Cell

/-- A column: name, whether its dtype is a subtype of `np.number`, entries. (pandas, phik/utils.py:20-31) -/
structure Column where
  name : String
  numeric : Bool
  cells : List Cell
  deriving DecidableEq

/-- A frame: its columns from left to right. (pandas, the `df` of phik/phik.py:185) -/
structure Frame where
  nrows : ℕ
  cols : List Column
  deriving DecidableEq

namespace Frame

/-- `df.columns`. (pandas, phik/phik.py:141) -/
def names (f : Frame) : List String := f.cols.map (·.name)

/-- A proper frame: all columns have the same length and distinct names. (pandas) -/
structure WF (f : Frame) : Prop where
  len : ∀ c ∈ f.cols, c.cells.length = f.nrows
  nodup : f.names.Nodup

/-- `df[name]`; `none` is a KeyError. (pandas, e.g. phik/binning.py:106) -/
def col? (f : Frame) (name : String) : Option Column := f.cols.find? (fun c => c.name == name)

/-- `df[name]`, raising KeyError. (pandas, e.g. phik/binning.py:106) -/
def getCol (f : Frame) (name : String) : Except Err Column :=
  match f.col? name with
  | some c => .ok c
  | none => .error .key

/-- `df[name] = values` for an existing column (the position is kept).  Assigning to a new name, which
would append a column, does not occur in the library. (pandas, phik/binning.py:112) -/
def setCol (f : Frame) (name : String) (c : Column) : Frame :=
  { f with cols := f.cols.map fun d => if d.name == name then c else d }

/-- Cell-wise update of all columns: `df.replace(..., inplace=True)`, `df.fillna(..., inplace=True)`.
Simplification: the dtype flag is kept (a numeric column filled with a string would become an object
column; no function of the library looks at the dtype after these calls).
(pandas, phik/binning.py:157-162, phik/phik.py:127-132) -/
def mapCells (f : Frame) (g : Cell → Cell) : Frame :=
  { f with cols := f.cols.map fun c => { c with cells := c.cells.map g } }

end Frame

/-- Warnings issued through `warnings.warn`, with the data that identifies them.
(phik/data_quality.py:56-80, 106-120, phik/outliers.py:406, phik/significance.py:278, phik/bivariate.py:208) -/
inductive Warning
  | manyUnique (col : String)
  | notEnoughUnique (col : String)
  | tooFew (r c : ℕ)
  | manyBinsX (r : ℕ)
  | manyBinsY (c : ℕ)
  | manyCells (n : ℕ)
  | lowStats (a b : String)
  | tooFewSig (a : String) (r : ℕ) (b : String) (c : ℕ)
  | tooFewOut (a : String) (r : ℕ) (b : String) (c : ℕ)
  deriving DecidableEq

/-- The Python process as seen by the library: all data frames that exist, and the warnings issued.
(not in /repo: the state of the Python process) -/
structure World where
  heap : List Frame
  warns : List Warning

/-- A reference to a data frame: its position in the heap. (not in /repo: Python object identity) -/
abbrev Ref := ℕ

/-- Programs that may raise, change frames in place, create frames and issue warnings.  The world after
an exception is the world at the moment it was raised. (not in /repo: Python semantics) -/
def M (α : Type) : Type := World → Except Err α × World

instance : Monad M where
  pure a := fun w => (.ok a, w)
  bind m f := fun w => match m w with
    | (.ok a, w') => f a w'
    | (.error e, w') => (.error e, w')

instance : MonadExcept Err M where
  throw e := fun w => (.error e, w)
  tryCatch m h := fun w => match m w with
    | (.ok a, w') => (.ok a, w')
    | (.error e, w') => h e w'

namespace M

/-- Run a program. (not in /repo: Python semantics) -/
def exec {α : Type} (m : M α) (w : World) : Except Err α × World := m w

/-- Read the frame behind a reference.  A dangling reference cannot occur in Python; it is `type`.
(not in /repo: Python semantics) -/
def read (r : Ref) : M Frame := fun w =>
  match w.heap[r]? with
  | some f => (.ok f, w)
  | none => (.error .type, w)

/-- Create a new frame. (`copy()`, phik/binning.py:101, phik/data_quality.py:83, phik/outliers.py:510) -/
def alloc (f : Frame) : M Ref := fun w => (.ok w.heap.length, { w with heap := w.heap ++ [f] })

/-- Change a frame in place. (`inplace=True`, phik/binning.py:158-162, phik/phik.py:128-132) -/
def write (r : Ref) (f : Frame) : M Unit := fun w => (.ok (), { w with heap := w.heap.set r f })

/-- `warnings.warn`. (phik/data_quality.py:57) -/
def warn (x : Warning) : M Unit := fun w => (.ok (), { w with warns := w.warns ++ [x] })

/-- Raise the exception of a pure computation, or return its value. (not in /repo: Python semantics) -/
def ofExcept {α : Type} (e : Except Err α) : M α :=
  match e with
  | .ok a => pure a
  | .error e => throw e

end M

end Phik
