import Verif.Model.Core
import Mathlib.Data.Int.Init

/-!
# Model of phik/simcore/asa159.cpp (`r8_uniform_01`, `i4vec_sum`, `rcont2`) and of the wrapper in
phik/simcore/simulation.hpp

The C++ `int`s are `ℤ` with an explicit check (`int32`) after every arithmetic operation: leaving the
32-bit range is undefined behaviour in C++ and is the error `Err.overflow` here.  Arrays are lists
with checked access (`Err.oob`), uninitialised memory is `none` (`Err.uninit` when read).
`double`s are an abstract type `F` with operations `FloatOps F`, so that every statement proved
holds for IEEE doubles as for any other arithmetic meeting the stated laws.
Unbounded loops carry a fuel argument; running out of it is `Err.fuel`.
The random number generator is a parameter `gen` with a state of any type; the program's is `r8Uniform01`
on the seed (`simPatefieldCpp`), so that statements about an ideal source of random numbers are about the same code.
Not modelled: the `cout` diagnostics, failure of `new`, and `delete[]`.
-/

namespace Phik

/-- Operations on C++ `double` used by asa159.cpp. `uni` is the literal `4.656612875E-10`
(asa159.cpp:436), `half` the literal `0.5` (asa159.cpp:660), `zero` the literal `0.0`. -/
structure FloatOps (F : Type) where
  ofInt : Int → F
  add : F → F → F
  sub : F → F → F
  mul : F → F → F
  div : F → F → F
  exp : F → F
  log : F → F
  zero : F
  half : F
  uni : F
  le : F → F → Bool
  toInt : F → Int

/-- The range of a C++ `int`. (C++, phik/simcore/asa159.cpp:377-778) -/
def inInt32 (x : Int) : Prop := -2147483648 ≤ x ∧ x ≤ 2147483647

instance (x : Int) : Decidable (inInt32 x) := by unfold inInt32; infer_instance

/-- Result of a C++ `int` operation: undefined behaviour when outside the 32-bit range.
(C++, phik/simcore/asa159.cpp:377-778) -/
def int32 (x : Int) : Except Err Int := if inInt32 x then .ok x else .error .overflow

/-- Read `a[i]` of a fully initialised array. (C++, phik/simcore/asa159.cpp:442-778) -/
def rd {α : Type} (a : List α) (i : Int) : Except Err α :=
  if i < 0 then .error .oob else
    match a[i.toNat]? with
    | some v => .ok v
    | none => .error .oob

/-- Read `a[i]` of a possibly uninitialised array. (C++, phik/simcore/asa159.cpp:442-778) -/
def rdO (a : List (Option Int)) (i : Int) : Except Err Int := do
  match ← rd a i with
  | some v => .ok v
  | none => .error .uninit

/-- Write `a[i] = v`. (C++, phik/simcore/asa159.cpp:442-778) -/
def wr (a : List (Option Int)) (i : Int) (v : Int) : Except Err (List (Option Int)) :=
  if 0 ≤ i ∧ i.toNat < a.length then .ok (a.set i.toNat (some v)) else .error .oob

/-- asa159.cpp:427-434, the integer part of `r8_uniform_01`: the new value of `*seed`. -/
def nextSeed (seed : Int) : Except Err Int := do
  let k := seed.tdiv 127773
  let a ← int32 (k * 127773)
  let b ← int32 (seed - a)
  let c ← int32 (16807 * b)
  let d ← int32 (k * 2836)
  let s ← int32 (c - d)
  if s < 0 then int32 (s + 2147483647) else .ok s

/-- asa159.cpp:377-439 `r8_uniform_01`: the variate and the new seed. -/
def r8Uniform01 {F : Type} (O : FloatOps F) (seed : Int) : Except Err (F × Int) := do
  let s ← nextSeed seed
  .ok (O.mul (O.ofInt s) O.uni, s)

/-- asa159.cpp:367-373, the loop of `i4vec_sum` from index `i` on (`n` steps left). -/
def i4vecSumFrom (a : List Int) : Nat → Int → Int → Except Err Int
  | 0, _, acc => .ok acc
  | n + 1, i, acc => do
    let v ← rd a i
    let acc ← int32 (acc + v)
    i4vecSumFrom a n (i + 1) acc

/-- asa159.cpp:321-374 `i4vec_sum`. -/
def i4vecSum (n : Int) (a : List Int) : Except Err Int := i4vecSumFrom a n.toNat 0 0

/-- asa159.cpp:602-608: the table of log-factorials, `fact[0..n]`; `x` is the running sum. -/
def factFrom {F : Type} (O : FloatOps F) : Nat → Nat → F → List F
  | 0, _, _ => []
  | n + 1, i, x =>
    let x' := O.add x (O.log (O.ofInt (i : Int)))
    x' :: factFrom O n (i + 1) x'

/-- asa159.cpp:598-608 `fact = new double[ntotal+1]` and its initialisation. -/
def factTable {F : Type} (O : FloatOps F) (ntotal : Int) : List F :=
  O.zero :: factFrom O ntotal.toNat 1 O.zero

/-- Local variables of the search for one entry, asa159.cpp:674-756. -/
structure Srch (F : Type) where
  nlm : Int
  nll : Int
  x : F
  y : F
  sumprb : F
  lsp : Bool
  lsm : Bool
  done1 : Bool
  done2 : Option Bool

section
variable {F : Type} (O : FloatOps F) {σ : Type} (gen : σ → Except Err (F × σ))

/-- asa159.cpp:706-735, `while ( !lsm )`: decrement the entry. -/
def decLoop (r : F) (ia id ii : Int) : Nat → Srch F → Except Err (Srch F)
  | 0, _ => .error .fuel
  | n + 1, s =>
    if s.lsm then .ok s else do
      let t ← int32 (ii + s.nll)
      let j ← int32 (s.nll * t)
      if j = 0 then .ok { s with lsm := true }
      else do
        let nll ← int32 (s.nll - 1)
        let a ← int32 (id - nll)
        let b ← int32 (ia - nll)
        let d ← int32 (a * b)
        if d = 0 then .error .zeroDiv else
        let y := O.div (O.mul s.y (O.ofInt j)) (O.ofInt d)
        let sumprb := O.add s.sumprb y
        if O.le r sumprb then
          .ok { s with nll := nll, y := y, sumprb := sumprb, nlm := nll, done2 := some true }
        else if s.lsp = false then .ok { s with nll := nll, y := y, sumprb := sumprb }
        else decLoop r ia id ii n { s with nll := nll, y := y, sumprb := sumprb }

/-- asa159.cpp:685-702, one increment step: `(state, true)` when the loop is left with `done1`. -/
def incStep (r : F) (ia id ii : Int) (s : Srch F) : Except Err (Srch F × Bool) := do
  let a ← int32 (id - s.nlm)
  let b ← int32 (ia - s.nlm)
  let j ← int32 (a * b)
  if j = 0 then .ok ({ s with lsp := true }, false)
  else do
    let nlm ← int32 (s.nlm + 1)
    let t ← int32 (ii + nlm)
    let d ← int32 (nlm * t)
    if d = 0 then .error .zeroDiv else
    let x := O.div (O.mul s.x (O.ofInt j)) (O.ofInt d)
    let sumprb := O.add s.sumprb x
    if O.le r sumprb then .ok ({ s with nlm := nlm, x := x, sumprb := sumprb, done1 := true }, true)
    else .ok ({ s with nlm := nlm, x := x, sumprb := sumprb }, false)

/-- asa159.cpp:683-742, `while ( !lsp )`. `fuel` bounds the inner loop. -/
def incLoop (fuel : Nat) (r : F) (ia id ii : Int) : Nat → Srch F → Except Err (Srch F)
  | 0, _ => .error .fuel
  | n + 1, s =>
    if s.lsp then .ok s else do
      let (s1, brk) ← incStep O r ia id ii s
      if brk then .ok s1
      else do
        let s2 ← decLoop O r ia id ii fuel { s1 with done2 := some false }
        match s2.done2 with
        | none => .error .uninit
        | some true => .ok s2
        | some false => incLoop fuel r ia id ii n s2

/-- asa159.cpp:660-668: the conditional expectation `nlm` and the probability `x` of the entry. -/
def firstGuess (fact : List F) (ia ib ic id ie ii : Int) : Except Err (Int × F) := do
  let p ← int32 (ia * id)
  let nlm ← int32 (O.toInt (O.add (O.div (O.ofInt p) (O.ofInt ie)) O.half))
  let iap ← int32 (ia + 1)
  let idp ← int32 (id + 1)
  let igp ← int32 (idp - nlm)
  let ihp ← int32 (iap - nlm)
  let nlmp ← int32 (nlm + 1)
  let iip ← int32 (ii + nlmp)
  let f1 ← rd fact (iap - 1)
  let f2 ← rd fact ib
  let f3 ← rd fact ic
  let f4 ← rd fact (idp - 1)
  let f5 ← rd fact ie
  let f6 ← rd fact (nlmp - 1)
  let f7 ← rd fact (igp - 1)
  let f8 ← rd fact (ihp - 1)
  let f9 ← rd fact (iip - 1)
  .ok (nlm, O.exp (O.sub (O.sub (O.sub (O.sub (O.sub (O.add (O.add (O.add f1 f2) f3) f4) f5) f6) f7) f8) f9))

/-- asa159.cpp:658-757, `for ( ; ; )`: returns the entry and the new seed.  The first argument
bounds the number of passes, `gen` stands for `r8_uniform_01`; `done2` is the (possibly uninitialised) flag left by the last pass. -/
def cellLoop (fact : List F) (fuel : Nat) (ia ib ic id ie ii : Int) :
    Nat → F → σ → Option Bool → Except Err (Int × σ)
  | 0, _, _, _ => .error .fuel
  | n + 1, r, seed, done2 => do
    let (nlm, x) ← firstGuess O fact ia ib ic id ie ii
    if O.le r x then .ok (nlm, seed)
    else do
      let s ← incLoop O fuel r ia id ii fuel
        { nlm := nlm, nll := nlm, x := x, y := x, sumprb := x, lsp := false, lsm := false,
          done1 := false, done2 := done2 }
      if s.done1 then .ok (s.nlm, seed)
      else match s.done2 with
        | none => .error .uninit
        | some true => .ok (s.nlm, seed)
        | some false => do
          let (u, seed) ← gen seed
          cellLoop fact fuel ia ib ic id ie ii n (O.mul s.sumprb u) seed s.done2

/-- Variables changed by the loop over the columns, asa159.cpp:630-763. -/
structure RowSt (σ : Type) where
  ia : Int
  ic : Int
  ib : Option Int
  seed : σ
  jwork : List (Option Int)
  matrix : List (Option Int)

/-- asa159.cpp:643-646: `for ( j = m; j < ncol; j++ ) matrix[l+j*nrow] = 0` (`k` steps left). -/
def zeroFill (l nrow : Int) : Nat → Int → List (Option Int) → Except Err (List (Option Int))
  | 0, _, mat => .ok mat
  | k + 1, j, mat => do
    let t ← int32 (j * nrow)
    let ix ← int32 (l + t)
    let mat ← wr mat ix 0
    zeroFill l nrow k (j + 1) mat

/-- asa159.cpp:630-763, the loop over the columns `m < ncol - 1` (`k` steps left). -/
def rowLoop (fact : List F) (fuel passes : Nat) (l nrow ncol : Int) :
    Nat → Int → RowSt σ → Except Err (RowSt σ)
  | 0, _, s => .ok s
  | k + 1, m, s => do
    let id ← rdO s.jwork m
    let ie := s.ic
    let ic ← int32 (s.ic - id)
    let ib ← int32 (ie - s.ia)
    let ii ← int32 (ib - id)
    if ie = 0 then do
      let mat ← zeroFill l nrow (ncol - m).toNat m s.matrix
      .ok { s with ia := 0, ic := ic, ib := some ib, matrix := mat }
    else do
      let (r, seed) ← gen s.seed
      let (nlm, seed) ← cellLoop O gen fact fuel s.ia ib ic id ie ii passes r seed none
      let t ← int32 (m * nrow)
      let ix ← int32 (l + t)
      let mat ← wr s.matrix ix nlm
      let ia ← int32 (s.ia - nlm)
      let jm ← rdO s.jwork m
      let jm' ← int32 (jm - nlm)
      let jw ← wr s.jwork m jm'
      rowLoop fact fuel passes l nrow ncol k (m + 1)
        { ia := ia, ic := ic, ib := some ib, seed := seed, jwork := jw, matrix := mat }

/-- Variables changed by the loop over the rows, asa159.cpp:623-765. -/
structure RowsSt (σ : Type) where
  jc : Int
  ib : Option Int
  seed : σ
  jwork : List (Option Int)
  matrix : List (Option Int)

/-- asa159.cpp:623-765, the loop over the rows `l < nrow - 1` (`k` steps left). -/
def rowsLoop (fact : List F) (fuel passes : Nat) (nrow ncol : Int) (nrowt : List Int) :
    Nat → Int → RowsSt σ → Except Err (RowsSt σ)
  | 0, _, s => .ok s
  | k + 1, l, s => do
    let nrowtl ← rd nrowt l
    let jc ← int32 (s.jc - nrowtl)
    let t ← rowLoop O gen fact fuel passes l nrow ncol (ncol - 1).toNat 0
      { ia := nrowtl, ic := s.jc, ib := s.ib, seed := s.seed, jwork := s.jwork, matrix := s.matrix }
    let c ← int32 (ncol - 1)
    let d ← int32 (c * nrow)
    let ix ← int32 (l + d)
    let mat ← wr t.matrix ix t.ia
    rowsLoop fact fuel passes nrow ncol nrowt k (l + 1)
      { jc := jc, ib := t.ib, seed := t.seed, jwork := t.jwork, matrix := mat }

/-- asa159.cpp:769-772: copy `jwork` into the last row (`k` steps left). -/
def lastRow (nrow : Int) (jwork : List (Option Int)) : Nat → Int → List (Option Int) →
    Except Err (List (Option Int))
  | 0, _, mat => .ok mat
  | k + 1, j, mat => do
    let v ← rdO jwork j
    let t ← int32 (j * nrow)
    let ix ← int32 (nrow - 1 + t)
    let mat ← wr mat ix v
    lastRow nrow jwork k (j + 1) mat

/-- asa159.cpp:616-619: `jwork[i] = ncolt[i]` for `i < ncol - 1` (`k` steps left). -/
def initWork (ncolt : List Int) : Nat → Int → List (Option Int) → Except Err (List (Option Int))
  | 0, _, jw => .ok jw
  | k + 1, i, jw => do
    let v ← rd ncolt i
    let jw ← wr jw i v
    initWork ncolt k (i + 1) jw

/-- The `static` variables of `rcont2`, asa159.cpp:501 and :525. -/
structure Statics (F : Type) where
  fact : Option (List F)
  ntotal : Int

/-- What a call of `rcont2` leaves behind: `*ierror`, the static variables, `*seed`, the buffer.
(phik/simcore/asa159.cpp:442-443, 501) -/
structure RcontOut (F σ : Type) where
  ierror : Nat
  statics : Statics F
  seed : σ
  matrix : List (Option Int)

/-- asa159.cpp:558-580: the loop that rejects non-positive totals; `true` when all are positive. -/
def allPos (a : List Int) : Nat → Int → Except Err Bool
  | 0, _ => .ok true
  | n + 1, i => do
    let v ← rd a i
    if v ≤ 0 then .ok false else allPos a n (i + 1)

/-- asa159.cpp:612-778: build the matrix from the static tables. -/
def rcont2Body (fuel passes : Nat) (nrow ncol : Int) (nrowt ncolt : List Int)
    (st : Statics F) (seed : σ) (matrix : List (Option Int)) : Except Err (RcontOut F σ) := do
  let fact ← match st.fact with
    | some f => .ok f
    | none => .error .uninit
  let jwork ← initWork ncolt (ncol - 1).toNat 0 (List.replicate ncol.toNat none)
  let s ← rowsLoop O gen fact fuel passes nrow ncol nrowt (nrow - 1).toNat 0
    { jc := st.ntotal, ib := none, seed := seed, jwork := jwork, matrix := matrix }
  let mat ← lastRow nrow s.jwork (ncol - 1).toNat 0 s.matrix
  let ib ← match s.ib with
    | some v => .ok v
    | none => .error .uninit
  let p ← int32 ((ncol - 2) * nrow)
  let ip ← int32 (nrow - 1 + p)
  let v ← rdO mat ip
  let q ← int32 ((ncol - 1) * nrow)
  let iq ← int32 (nrow - 1 + q)
  let w ← int32 (ib - v)
  let mat ← wr mat iq w
  .ok ⟨0, st, s.seed, mat⟩

/-- asa159.cpp:442-778 `rcont2`. -/
def rcont2 (fuel passes : Nat) (nrow ncol : Int) (nrowt ncolt : List Int) (key : Bool)
    (st : Statics F) (seed : σ) (matrix : List (Option Int)) : Except Err (RcontOut F σ) :=
  if key then rcont2Body O gen fuel passes nrow ncol nrowt ncolt st seed matrix
  else if nrow ≤ 1 then .ok ⟨1, st, seed, matrix⟩
  else if ncol ≤ 1 then .ok ⟨2, st, seed, matrix⟩
  else do
    if !(← allPos nrowt nrow.toNat 0) then .ok ⟨3, st, seed, matrix⟩
    else if !(← allPos ncolt ncol.toNat 0) then .ok ⟨4, st, seed, matrix⟩
    else do
      let a ← i4vecSum ncol ncolt
      let b ← i4vecSum nrow nrowt
      if a ≠ b then .ok ⟨6, st, seed, matrix⟩
      else do
        let _ ← int32 (a + 1)
        let st' : Statics F := ⟨some (factTable O a), a⟩
        rcont2Body O gen fuel passes nrow ncol nrowt ncolt st' seed matrix

/-- phik/simcore/simulation.hpp:24-45 `_sim_2d_data_patefield`: `key` is always false on entry; a
non-zero `ierror` is thrown as `simulation_error`.  Returns the new static variables also when it
throws, and the buffer when it succeeds. -/
def simPatefieldCpp (fuel passes : Nat) (nrow ncol : Int) (nrowt ncolt : List Int)
    (st : Statics F) (seed : Int) (result : List (Option Int)) :
    Except Err (Statics F × Except Err (List (Option Int))) := do
  let out ← rcont2 O (r8Uniform01 O) fuel passes nrow ncol nrowt ncolt false st seed result
  if out.ierror ≠ 0 then .ok (out.statics, .error .simulation)
  else .ok (out.statics, .ok out.matrix)

/-- One call of the extension function `_sim_2d_data_patefield` as made by phik/simulation.py:98-103:
the shape is that of the margins and the result buffer is freshly allocated with `np.empty`. -/
structure Call where
  nrowt : List Int
  ncolt : List Int
  seed : Int

/-- The call `c` in a process whose static variables are `st`. (phik/simcore/asa159.cpp:442) -/
def runCall (fuel passes : Nat) (st : Statics F) (c : Call) :
    Except Err (Statics F × Except Err (List (Option Int))) :=
  simPatefieldCpp O fuel passes c.nrowt.length c.ncolt.length c.nrowt c.ncolt st c.seed
    (List.replicate (c.nrowt.length * c.ncolt.length) none)

/-- The static variables at process start, asa159.cpp:501 and :525. -/
def initStatics : Statics F := ⟨none, 0⟩

/-- A sequence of calls in one process; nothing is said about what follows undefined behaviour.
(phik/simcore/asa159.cpp:442, called at phik/simulation.py:119-175) -/
def runHistory (fuel passes : Nat) : Statics F → List Call → List (Except Err (Except Err (List (Option Int))))
  | _, [] => []
  | st, c :: cs =>
    match runCall O fuel passes st c with
    | .error e => [.error e]
    | .ok (st', r) => .ok r :: runHistory fuel passes st' cs

end

end Phik
