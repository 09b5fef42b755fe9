import Verif.Model.Core
import Verif.Model.FVal
import Mathlib.Analysis.SpecialFunctions.Gamma.Basic

/-!
# Model of `phik/betainc.py`

Exact real arithmetic, except that the exponential function `fexp` is a parameter (it underflows to 0 in
floating point).  A division by zero, which gives an infinity or NaN in numpy, is `nonfinite`.
-/

namespace Phik

/-- The variables of the loop of `contfractbeta`. (phik/betainc.py:33-60) -/
structure CFState where
  am : ℝ
  bm : ℝ
  az : ℝ
  bz : ℝ

/-- One iteration of the loop of `contfractbeta` (betainc.py:45-57) with `em = float(i+1)`. -/
noncomputable def cfStep (a b x : ℝ) (i : ℕ) (s : CFState) : Except Err CFState :=
  let qab := a + b
  let qap := a + 1
  let qam := a - 1
  let em : ℝ := (i : ℝ) + 1
  let tem := em + em
  if (qam + tem) * (a + tem) = 0 ∨ (qap + tem) * (a + tem) = 0 then .error .nonfinite
  else
    let d := em * (b - em) * x / ((qam + tem) * (a + tem))
    let ap := s.az + d * s.am
    let bp := s.bz + d * s.bm
    let d := -(a + em) * (qab + em) * x / ((qap + tem) * (a + tem))
    let app := ap + d * s.az
    let bpp := bp + d * s.bz
    if bpp = 0 then .error .nonfinite
    else .ok ⟨ap / bpp, bp / bpp, app / bpp, 1⟩

/-- The loop of `contfractbeta` (betainc.py:44-61): `n` iterations are left, the next one has index `i`;
the first argument counts down. -/
noncomputable def cfLoop (a b x eps : ℝ) : ℕ → ℕ → CFState → Except Err ℝ
  | 0, _, _ => .error .value
  | n + 1, i, s => do
    let t ← cfStep a b x i s
    if |t.az - s.az| < eps * |t.az| then pure t.az
    else cfLoop a b x eps n (i + 1) t

/-- `contfractbeta` (betainc.py:20-61). -/
noncomputable def contfractbeta (a b x : ℝ) (itmax : ℤ) (eps : ℝ) : Except Err ℝ :=
  if a + 1 = 0 then .error .nonfinite
  else cfLoop a b x eps (itmax + 1).toNat 0 ⟨1, 1, 1, 1 - (a + b) * x / (a + 1)⟩

/-- `contfractbeta(a, b, x)` with the default precision. (phik/betainc.py:20, called at 89-92, 125, 130) -/
noncomputable def contfract0 (a b x : ℝ) : Except Err ℝ := contfractbeta a b x 5000 (1 / 10 ^ 7)

/-- `lbeta` (betainc.py:87, 121). -/
noncomputable def lbeta (a b x : ℝ) : ℝ :=
  Real.log (Real.Gamma (a + b)) - Real.log (Real.Gamma a) - Real.log (Real.Gamma b) +
    a * Real.log x + b * Real.log (1 - x)

/-- `incompbeta` (betainc.py:64-92).  Parameters outside of the documented domain are `nonfinite`. -/
noncomputable def incompbeta (fexp : ℝ → ℝ) (a b x : ℝ) : Except Err ℝ := do
  if x = 0 then return 0
  else if x = 1 then return 1
  if a ≤ 0 ∨ b ≤ 0 ∨ x < 0 ∨ 1 < x then throw .nonfinite
  if x < (a + 1) / (a + b + 2) then
    let c ← contfract0 a b x
    pure (fexp (lbeta a b x) * c / a)
  else
    let c ← contfract0 b a (1 - x)
    pure (1 - fexp (lbeta a b x) * c / b)

/-- `log_incompbeta` (betainc.py:95-131). -/
noncomputable def logIncompbeta (fexp : ℝ → ℝ) (a b x : ℝ) : Except Err (FVal × FVal) := do
  if x = 0 then return (some ⊥, FVal.ofReal 0)
  else if x = 1 then return (FVal.ofReal 0, some ⊥)
  if a ≤ 0 ∨ b ≤ 0 ∨ x < 0 ∨ 1 < x then throw .nonfinite
  if x < (a + 1) / (a + b + 2) then
    let c ← contfract0 a b x
    let p := fexp (lbeta a b x) * c / a
    pure (FVal.sub (FVal.add (FVal.ofReal (lbeta a b x)) (FVal.log c)) (FVal.log a), FVal.log (1 - p))
  else
    let c ← contfract0 b a (1 - x)
    let p := 1 - fexp (lbeta a b x) * (c / b)
    pure (FVal.log p, FVal.sub (FVal.add (FVal.ofReal (lbeta a b x)) (FVal.log c)) (FVal.log b))

end Phik
