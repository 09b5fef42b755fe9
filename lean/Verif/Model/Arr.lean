import Mathlib.Algebra.BigOperators.Fin
import Mathlib.Data.List.FinRange

/-! # Two-dimensional numpy arrays -/

namespace Phik

/-- A two-dimensional array of shape `(r, c)`.
(numpy array of a contingency table, e.g. phik/statistics.py:35-58) -/
structure Arr2 (K : Type*) where
  r : ℕ
  c : ℕ
  v : Fin r → Fin c → K

namespace Arr2

variable {K : Type*} {L : Type*}

/-- Element-wise function application. (numpy broadcasting, e.g. phik/statistics.py:55-56) -/
def map (f : K → L) (a : Arr2 K) : Arr2 L := ⟨a.r, a.c, fun i j => f (a.v i j)⟩

/-- `a.T`. (phik/statistics.py:52, phik/simulation.py:119) -/
def transpose (a : Arr2 K) : Arr2 K := ⟨a.c, a.r, fun j i => a.v i j⟩

/-- `a[mask]` for a boolean mask over the rows: the rows whose mask is true, in order.
(phik/statistics.py:51-52) -/
def filterRows (a : Arr2 K) (p : Fin a.r → Bool) : Arr2 K :=
  ⟨((List.finRange a.r).filter p).length, a.c, fun i j => a.v (((List.finRange a.r).filter p).get i) j⟩

/-- `a.size`. (phik/statistics.py:87, 105) -/
def size (a : Arr2 K) : ℕ := a.r * a.c

section Sums
variable [AddCommMonoid K]

/-- `a.sum()`. (phik/phik.py:101, phik/significance.py:180) -/
def total (a : Arr2 K) : K := ∑ i, ∑ j, a.v i j

/-- `a.sum(axis=1)[i]`. (phik/outliers.py:262, phik/simulation.py:92) -/
def rowSum (a : Arr2 K) (i : Fin a.r) : K := ∑ j, a.v i j

/-- `a.sum(axis=0)[j]`. (phik/outliers.py:263, phik/simulation.py:93) -/
def colSum (a : Arr2 K) (j : Fin a.c) : K := ∑ i, a.v i j

end Sums
end Arr2
end Phik
