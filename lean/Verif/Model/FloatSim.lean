import Verif.Model.FloatStats
import Verif.Model.Simulation

/-!
# `phik/simulation.py` in floating point arithmetic

As in `Model/FloatStats.lean`: numbers are rationals, every operation is followed by the rounding `fl`, and the order of the additions in a
sum is any tree.  The random results are those of `Model/Simulation.lean`; the binomial generator is asked with rounded probabilities.
-/

namespace Phik

/-- `np.sum` with one order of the additions. (phik/simulation.py:55, 60, 92-93) -/
def npSum (fl : ℚ → ℚ) (ord : List ℚ → SumTree) (l : List ℚ) : ℚ := if l = [] then 0 else (ord l).eval fl

/-- The loop of `kahan_sum` (numpy/random/_common.pyx, used by `np.random.multinomial`, called at phik/simulation.py:62). -/
def kahanGo (fl : ℚ → ℚ) : ℚ → ℚ → List ℚ → ℚ
  | s, _, [] => s
  | s, c, p :: ps =>
    let y := fl (p - c)
    let t := fl (s + y)
    kahanGo fl t (fl (fl (t - s) - y)) ps

/-- `kahan_sum` (numpy/random/_common.pyx, used by `np.random.multinomial`, called at phik/simulation.py:62). -/
def kahanSum (fl : ℚ → ℚ) : List ℚ → ℚ
  | [] => 0
  | p :: ps => kahanGo fl p 0 ps

/-- The loop of `np.random.multinomial` (numpy/random/mtrand.pyx): conditional binomial draws, `S` is the remaining probability.  A division by
a remaining probability 0 is left to the generator. (called at phik/simulation.py:62) -/
noncomputable def flMultiLoop (fl : ℚ → ℚ) (binom : ℕ → ℕ → ℝ → ℕ) : ℕ → ℚ → ℕ → List ℚ → List ℕ
  | _, _, _, [] => []
  | _, _, dn, [_] => [dn]
  | j, S, dn, p :: q :: ps =>
    let x := binom j dn ((fl (p / S) : ℚ) : ℝ)
    if dn - x = 0 then x :: List.replicate (ps.length + 1) 0
    else x :: flMultiLoop fl binom (j + 1) (fl (S - p)) (dn - x) (q :: ps)

/-- `np.random.multinomial(n, pvals)` with its checks. (called at phik/simulation.py:62) -/
noncomputable def flMultinomial (fl : ℚ → ℚ) (binom : ℕ → ℕ → ℝ → ℕ) (n : ℕ) (pvals : List ℚ) : Except Err (List ℕ) :=
  if ∃ p ∈ pvals, p < 0 ∨ 1 < p then .error .value
  else if fl (1 + fl (1 / 10 ^ 12)) < kahanSum fl pvals.dropLast then .error .value
  else .ok (flMultiLoop fl binom 0 1 n pvals)

/-- `sim_2d_data` (simulation.py:43-64) on the flattened table.  The number of trials is converted to an integer by truncation. -/
noncomputable def flSimVec (fl : ℚ → ℚ) (ord : List ℚ → SumTree) (binom : ℕ → ℕ → ℝ → ℕ) (hist : List ℚ) (ndata : ℚ) : Except Err (List ℕ) :=
  let nd := if ndata ≤ 0 then npSum fl ord hist else ndata
  if nd ≤ 0 then .error .value
  else if npSum fl ord hist = 0 then .error .value
  else flMultinomial fl binom ⌊nd⌋₊ (hist.map fun x => fl (x / npSum fl ord hist))

/-- `sim_2d_data` (simulation.py:43-64) of a two-dimensional table. -/
noncomputable def flSim2dData (fl : ℚ → ℚ) (ord : List ℚ → SumTree) (binom : ℕ → ℕ → ℝ → ℕ) (a : Arr2 ℚ) (ndata : ℚ) :
    Except Err (Arr2 ℤ) := do
  let out ← flSimVec fl ord binom a.ravel ndata
  pure (reshape out a.r a.c)

/-- `np.array([list(sim_2d_data(data[i])) for i in range(data.shape[0])])` (simulation.py:117); `ord i` is the order of additions in row `i`. -/
noncomputable def flSimRows (fl : ℚ → ℚ) (ord : ℕ → List ℚ → SumTree) (binom : ℕ → ℕ → ℕ → ℝ → ℕ) (a : Arr2 ℚ) : Except Err (Arr2 ℤ) := do
  let out ← (List.finRange a.r).mapM fun i : Fin a.r => flSimVec fl (ord i.val) (binom i.val) ((List.finRange a.c).map (a.v i)) 0
  pure ⟨a.r, a.c, fun i j => ((out.getD i []).getD j 0 : ℕ)⟩

/-- `sim_2d_product_multinominal` (simulation.py:106-121). -/
noncomputable def flSimProduct (fl : ℚ → ℚ) (ord : ℕ → List ℚ → SumTree) (binom : ℕ → ℕ → ℕ → ℝ → ℕ) (a : Arr2 ℚ) (axis : ℤ) :
    Except Err (Arr2 ℤ) :=
  if axis = 1 then flSimRows fl ord binom a
  else if axis = 0 then do
    let t ← flSimRows fl ord binom a.transpose
    pure t.transpose
  else .error .notImplemented

/-- `sim_2d_data_patefield` (simulation.py:67-103): the margins are rounded sums, rounded to integers; the rest as in `simPatefield`.
`ord i` and `ord' j` are the orders of additions in the rows and columns. -/
noncomputable def flSimPatefield {F : Type} (fl : ℚ → ℚ) (ord ord' : ℕ → List ℚ → SumTree) (env : SimEnv F) (d : Draws F) (a : Arr2 ℚ)
    (seed : Option ℤ) : Except Err (Arr2 ℤ) := do
  if !env.cpp then throw .notImplemented
  let nrowt := (List.finRange a.r).map fun i => rhe (npSum fl (ord i.val) ((List.finRange a.c).map (a.v i)))
  let ncolt := (List.finRange a.c).map fun j => rhe (npSum fl (ord' j.val) ((List.finRange a.r).map fun i => a.v i j))
  if !(nrowt ++ ncolt).all fun x => decide (inInt32 x) then throw .overflow
  let seed := match seed with
    | some s => if s = 0 then d.seed else s
    | none => d.seed
  if ¬ inInt32 seed then throw .type
  let (_, res) ← runCall env.ops env.fuel env.passes d.statics ⟨nrowt, ncolt, seed⟩
  let buf ← res
  let l ← readAll buf
  pure ⟨a.c, a.r, fun i j => l.getD (i * a.r + j) 0⟩

/-- The orders of all additions of one simulation: `all` for sums over the table, `row`, `col` for single rows and columns.
(phik/simulation.py:55, 60, 92-93) -/
structure SimOrders where
  all : List ℚ → SumTree
  row : ℕ → List ℚ → SumTree
  col : ℕ → List ℚ → SumTree

/-- `sim_data` (simulation.py:125-152). -/
noncomputable def flSimData {F : Type} (fl : ℚ → ℚ) (ords : SimOrders) (env : SimEnv F) (d : Draws F) (a : Arr2 ℚ) (method : String) :
    Except Err (Arr2 ℤ) :=
  if method = "multinominal" then flSim2dData fl ords.all (d.binom 0) a 0
  else if method = "hypergeometric" then flSimPatefield fl ords.row ords.col env d a none
  else if method = "row_product_multinominal" then flSimProduct fl ords.col d.binom a 0
  else if method = "col_product_multinominal" then flSimProduct fl ords.row d.binom a 1
  else .error .notImplemented

/-- One simulated data set of `sim_chi2_distribution` (simulation.py:155-182): the expected frequencies (or the table itself with
`alt_hypothesis=True`), sampled. `order` are the orders of additions within `expected_freq`. -/
noncomputable def flSimulated {F : Type} (fl : ℚ → ℚ) (order : SumSite → List ℚ → SumTree) (ords : SimOrders) (env : SimEnv F) (d : Draws F)
    (a : Arr2 ℚ) (method : String) (alt : Bool) : Except Err (Arr2 ℤ) :=
  if alt then flSimData fl ords env d a method
  else if flSum fl order .total (cellList a.v) = 0 then .error .nonfinite
  else flSimData fl ords env d ⟨a.r, a.c, flExpected fl order a⟩ method

end Phik
