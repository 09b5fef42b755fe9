import Verif.Model.Rcont2
import Verif.Model.Stats
import Verif.Model.PhikMatrix

/-!
# Model of `phik/simulation.py`

Arithmetic on tables is exact.  Randomness: a simulation is given all results of the random number
generators it will ask for (`Draws`), and theorems quantify over them.
-/

namespace Phik

/-- The random results used by one simulated data set, and the state of the process it runs in:
`binom i j n p` is the result of the binomial generator for the `j`-th category of the `i`-th multinomial
draw, asked with `n` trials of probability `p`; `seed` is the result of
`np.random.randint(0, NUMPY_INT_MAX)`; `statics` are the static variables of the C++ extension in the
process that runs the simulation. (phik/simulation.py:62, 96, 102) -/
structure Draws (F : Type) where
  binom : ℕ → ℕ → ℕ → ℝ → ℕ
  seed : ℤ
  statics : Statics F

/-- The C++ extension: its floating point arithmetic, the iterations it is granted (see `rcont2`), and
whether it is installed (`CPP_SUPPORT`, simulation.py:24-28). -/
structure SimEnv (F : Type) where
  ops : FloatOps F
  fuel : ℕ
  passes : ℕ
  cpp : Bool

/-- The loop of `numpy.random.multinomial` (numpy/random/mtrand.pyx): conditional binomial draws, `S` is
the remaining probability and `dn` the number of remaining trials; the last category gets the rest. -/
noncomputable def multiLoop (binom : ℕ → ℕ → ℝ → ℕ) : ℕ → ℝ → ℕ → List ℝ → List ℕ
  | _, _, _, [] => []
  | _, _, dn, [_] => [dn]
  | j, S, dn, p :: q :: ps =>
    let x := binom j dn (p / S)
    if dn - x = 0 then x :: List.replicate (ps.length + 1) 0
    else x :: multiLoop binom (j + 1) (S - p) (dn - x) (q :: ps)

/-- `np.random.multinomial(n, pvals)` with its checks. (phik/simulation.py:62) -/
noncomputable def multinomial (binom : ℕ → ℕ → ℝ → ℕ) (n : ℕ) (pvals : List ℝ) : Except Err (List ℕ) :=
  open scoped Classical in
  if ∃ p ∈ pvals, p < 0 ∨ 1 < p then .error .value
  else if 1 + 1 / 10 ^ 12 < pvals.dropLast.sum then .error .value
  else .ok (multiLoop binom 0 1 n pvals)

/-- `sim_2d_data` (simulation.py:43-64) on the flattened table.  The number of trials is converted to an
integer by truncation. -/
noncomputable def simVec (binom : ℕ → ℕ → ℝ → ℕ) (hist : List ℝ) (ndata : ℝ) : Except Err (List ℕ) :=
  let nd := if ndata ≤ 0 then hist.sum else ndata
  if nd ≤ 0 then .error .value
  -- dividing by a zero sum yields NaN and infinities, which numpy rejects as probabilities
  else if hist.sum = 0 then .error .value
  else multinomial binom ⌊nd⌋₊ (hist.map fun x => x / hist.sum)

/-- `a.ravel()`: row after row. (phik/simulation.py:60) -/
def Arr2.ravel {K : Type} (a : Arr2 K) : List K :=
  (List.finRange a.r).flatMap fun i => (List.finRange a.c).map fun j => a.v i j

/-- `np.reshape(l, (r, c))`. (phik/simulation.py:63, 103) -/
def reshape (l : List ℕ) (r c : ℕ) : Arr2 ℤ := ⟨r, c, fun i j => (l.getD (i * c + j) 0 : ℕ)⟩

/-- `sim_2d_data` (simulation.py:43-64) of a two-dimensional table. -/
noncomputable def sim2dData (binom : ℕ → ℕ → ℝ → ℕ) (a : Arr2 ℝ) (ndata : ℝ) : Except Err (Arr2 ℤ) := do
  let out ← simVec binom a.ravel ndata
  pure (reshape out a.r a.c)

/-- `np.array([list(sim_2d_data(data[i])) for i in range(data.shape[0])])` (simulation.py:117).
Simplification: for a table without rows numpy returns a one-dimensional empty array; here it is the
table itself. -/
noncomputable def simRows (binom : ℕ → ℕ → ℕ → ℝ → ℕ) (a : Arr2 ℝ) : Except Err (Arr2 ℤ) := do
  let out ← (List.finRange a.r).mapM fun i : Fin a.r => simVec (binom i.val) ((List.finRange a.c).map (a.v i)) 0
  pure ⟨a.r, a.c, fun i j => ((out.getD i []).getD j 0 : ℕ)⟩

/-- `sim_2d_product_multinominal` (simulation.py:106-121). -/
noncomputable def simProduct (binom : ℕ → ℕ → ℕ → ℝ → ℕ) (a : Arr2 ℝ) (axis : ℤ) : Except Err (Arr2 ℤ) :=
  if axis = 1 then simRows binom a
  else if axis = 0 then do
    let t ← simRows binom a.transpose
    pure t.transpose
  else .error .notImplemented

/-- `np.rint`: nearest integer, halves to even. (phik/simulation.py:92-93) -/
noncomputable def rint (x : ℝ) : ℤ :=
  if x - ⌊x⌋ < 1 / 2 then ⌊x⌋
  else if 1 / 2 < x - ⌊x⌋ then ⌊x⌋ + 1
  else if ⌊x⌋ % 2 = 0 then ⌊x⌋ else ⌊x⌋ + 1

/-- The values of a buffer; reading a cell that was never written is `uninit`. (phik/simulation.py:103) -/
def readAll : List (Option ℤ) → Except Err (List ℤ)
  | [] => .ok []
  | none :: _ => .error .uninit
  | some x :: xs => (readAll xs).map (x :: ·)

/-- `sim_2d_data_patefield` (simulation.py:67-103).  `seed = none` is `None`.  A margin outside of the
32-bit range would be changed by `astype(np.int32)`: such runs are `overflow`.  A seed outside of the
32-bit range is rejected by pybind11 (TypeError). -/
noncomputable def simPatefield {F : Type} (env : SimEnv F) (d : Draws F) (a : Arr2 ℝ) (seed : Option ℤ) :
    Except Err (Arr2 ℤ) := do
  if !env.cpp then throw .notImplemented
  let nrowt := (List.finRange a.r).map fun i => rint (a.rowSum i)
  let ncolt := (List.finRange a.c).map fun j => rint (a.colSum j)
  if !(nrowt ++ ncolt).all fun x => decide (inInt32 x) then throw .overflow
  let seed := match seed with
    | some s => if s = 0 then d.seed else s
    | none => d.seed
  if ¬ inInt32 seed then throw .type
  let (_, res) ← runCall env.ops env.fuel env.passes d.statics ⟨nrowt, ncolt, seed⟩
  let buf ← res
  let l ← readAll buf
  pure ⟨a.c, a.r, fun i j => l.getD (i * a.r + j) 0⟩

/-- `sim_data` (simulation.py:125-152). -/
noncomputable def simData {F : Type} (env : SimEnv F) (d : Draws F) (a : Arr2 ℝ) (method : String) :
    Except Err (Arr2 ℤ) :=
  if method = "multinominal" then sim2dData (d.binom 0) a 0
  else if method = "hypergeometric" then simPatefield env d a none
  else if method = "row_product_multinominal" then simProduct d.binom a 0
  else if method = "col_product_multinominal" then simProduct d.binom a 1
  else .error .notImplemented

/-- An array of integers as an array of numbers. (phik/simulation.py:63) -/
def Arr2.toReal (a : Arr2 ℤ) : Arr2 ℝ := a.map fun x : ℤ => (x : ℝ)

/-- `_simulate_and_fit` (simulation.py:178-183). -/
noncomputable def simulateAndFit {F : Type} (env : SimEnv F) (a : Arr2 ℝ) (method lambda : String)
    (d : Draws F) : Except Err ℝ := do
  let s ← simData env d a method
  getChi2 s.toReal lambda

/-- `sim_chi2_distribution` (simulation.py:155-175); `draws i` are the random results of the `i`-th
simulation, `sched` the order in which the workers finish.  The expected frequencies of a table with
total zero are NaN and infinities: such runs are `nonfinite` (unless no simulation is asked for). -/
noncomputable def simChi2 {F : Type} (env : SimEnv F) (draws : ℕ → Draws F) (sched : Option (List ℕ))
    (a : Arr2 ℝ) (nsim : ℕ) (lambda method : String) (alt : Bool) : Except Err (List ℝ) :=
  if alt then runTasks sched ((List.range nsim).map fun i => simulateAndFit env a method lambda (draws i))
  else if a.total = 0 ∧ 0 < nsim then .error .nonfinite
  else
    let e : Arr2 ℝ := ⟨a.r, a.c, expected a⟩
    runTasks sched ((List.range nsim).map fun i => simulateAndFit env e method lambda (draws i))

end Phik
