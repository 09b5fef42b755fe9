import Verif.Spec.Stats

/-! # Specification: a table after further records (C103) -/

namespace Phik.Spec

open Phik

/-- The table `v` after further records, given by their cells.  Cells, rows and columns may have been empty before. -/
def withRecords {r c : ℕ} (v : Fin r → Fin c → ℝ) (l : List (Fin r × Fin c)) : Arr2 ℝ := ⟨r, c, fun i j => v i j + l.count (i, j)⟩

end Phik.Spec
