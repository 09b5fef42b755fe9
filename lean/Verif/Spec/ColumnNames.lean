import Verif.Model.PhikMatrix

/-! # Other names for the columns -/

namespace Phik.Spec

/-- The frame with its columns renamed. -/
def renameFrame (ρ : String → String) (f : Frame) : Frame :=
  { f with cols := f.cols.map fun c => { c with name := ρ c.name } }

/-- The `bins` argument for the renamed columns. -/
def renameBins (ρ : String → String) : Bins → Bins
  | .one s => .one s
  | .dict d => .dict (d.map fun p => (ρ p.1, p.2))

/-- A dictionary for the renamed columns. -/
def renameKeys {α : Type} (ρ : String → String) (d : List (String × α)) : List (String × α) := d.map fun p => (ρ p.1, p.2)

/-- A list with an entry for every pair of columns, for the renamed columns. -/
def renamePairs {α : Type} (ρ : String → String) (d : List (String × String × α)) : List (String × String × α) :=
  d.map fun p => (ρ p.1, ρ p.2.1, p.2.2)

/-- The warning about the renamed columns. -/
def renameWarning (ρ : String → String) : Warning → Warning
  | .manyUnique c => .manyUnique (ρ c)
  | .notEnoughUnique c => .notEnoughUnique (ρ c)
  | .lowStats a b => .lowStats (ρ a) (ρ b)
  | .tooFewSig a r b c => .tooFewSig (ρ a) r (ρ b) c
  | .tooFewOut a r b c => .tooFewOut (ρ a) r (ρ b) c
  | .tooFew r c => .tooFew r c
  | .manyBinsX r => .manyBinsX r
  | .manyBinsY c => .manyBinsY c
  | .manyCells n => .manyCells n

/-- The table `t'` is the table `t` with other labels: the rows and columns are in the same order, and hold the same values. -/
def SameLabelled {α : Type} (ρ : String → String) (t t' : LTab α) : Prop :=
  t'.rows = t.rows.map ρ ∧ t'.cols = t.cols.map ρ ∧ ∀ a b, t'.v (ρ a) (ρ b) = t.v a b

/-- The state of the process after the second run, compared with that after the first; both started with the frames and
warnings of `w`, but for frame number `r`.  Frame number `r` and the new frames have the renamed columns, all other frames are
the same; the new warnings are the same about the renamed columns, possibly in another order. -/
def SameState (ρ : String → String) (w : World) (r : Ref) (a b : World) : Prop :=
  w.heap.length ≤ a.heap.length ∧ a.heap.length = b.heap.length ∧
  (∀ i, (i = r ∨ w.heap.length ≤ i) → b.heap[i]? = a.heap[i]?.map (renameFrame ρ)) ∧
  (∀ i, ¬ (i = r ∨ w.heap.length ≤ i) → b.heap[i]? = a.heap[i]?) ∧
  ∃ l l' : List Warning, a.warns = w.warns ++ l ∧ b.warns = w.warns ++ l' ∧ l'.Perm (l.map (renameWarning ρ))

/-- Two runs end alike: both raise the same exception, or both return, with results related by `R`; and the states of the
process agree. -/
def EndAlike {α β : Type} (ρ : String → String) (w : World) (r : Ref) (R : α → β → Prop) (a : Except Err α × World)
    (b : Except Err β × World) : Prop :=
  (match a.1, b.1 with
    | .ok x, .ok y => R x y
    | .error e, .error e' => e = e'
    | _, _ => False) ∧
  SameState ρ w r a.2 b.2

end Phik.Spec
