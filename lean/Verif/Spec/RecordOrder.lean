import Verif.Model.Frame

/-! # The same records in another order -/

namespace Phik.Spec

/-- The entries of `l` at the positions `idx`. -/
def pick (idx : List ℕ) (l : List Cell) : List Cell := idx.map fun i => l.getD i .nan

/-- `g` holds the records of `f`, in another order: the columns have the same names and types, and the same reordering of the
rows has been applied to all of them. -/
def Shuffled (f g : Frame) : Prop :=
  (∀ c ∈ f.cols, c.cells.length = f.nrows) ∧ g.nrows = f.nrows ∧
    ∃ idx, idx.Perm (List.range f.nrows) ∧ g.cols = f.cols.map fun c => { c with cells := pick idx c.cells }

/-- All frames of the process hold the same records, possibly in another order, and the same warnings have been issued. -/
def SameWorld (w w' : World) : Prop := w.warns = w'.warns ∧ List.Forall₂ Shuffled w.heap w'.heap

/-- Two runs end alike: both return the same value, or both raise the same exception; and afterwards all frames hold the same
records and the same warnings have been issued. -/
def SameEnd {α : Type} (a b : Except Err α × World) : Prop := a.1 = b.1 ∧ SameWorld a.2 b.2

end Phik.Spec
