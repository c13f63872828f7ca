import Verif.Model.Array
import Mathlib.Analysis.SpecialFunctions.Trigonometric.Basic

/-!
# Model: evaluation of trigonometric series (funpy/trig/eval.py)

One column of coefficients is a `List ℂ`; the abscissa is real.
-/

namespace Funpy.Trig
open Complex

/-- The loop `for j in range(n-2, 0, -1): q = c[j] + z*q`, funpy/trig/eval.py:24-25, 33-34 and 52-53;
the first argument is the current `j`. -/
noncomputable def hornerLoop (z : ℂ) (c : List ℂ) : ℕ → ℂ → ℂ
  | 0, q => q
  | j + 1, q => hornerLoop z c j (c.getD (j + 1) 0 + z * q)

/-- `horner_scl_cmplx` at one point, funpy/trig/eval.py:43-60, and one column of `horner_vec_cmplx`,
funpy/trig/eval.py:8-41 (its three code paths - constant, one point, many points - perform the same
operations on each column and point). -/
noncomputable def hornerCmplx (x : ℝ) (c : List ℂ) : ℂ :=
  let n := c.length
  if n = 1 then c.getD 0 0
  else
    let z := cexp (I * Real.pi * x)
    let q := hornerLoop z c (n - 2) (c.getD (n - 1) 0)
    if n % 2 = 1 then cexp (-(I * Real.pi * ((n - 1) / 2 : ℕ) * x)) * (c.getD 0 0 + z * q)
    else cexp (-(I * Real.pi * ((n / 2 : ℕ) - 1) * x)) * q
      + (Real.cos ((n / 2 : ℕ) * Real.pi * x) : ℝ) * c.getD 0 0

/-- The array after `a[n-1] *= 0.5; b[n-1] = 0` in `horner_scl_real`, funpy/trig/eval.py:66-74, and
`horner_vec_real`, funpy/trig/eval.py:97-105.  `c[n-1::-1, :]`, `np.real` and `np.imag` are numpy
*views* of the caller's array and position `n-1` of the reversed view is row 0, so for even length
the statement overwrites row 0 of the coefficients stored in the object. -/
noncomputable def hornerRealMut (c : List ℂ) : List ℂ :=
  if c.length % 2 = 0 then c.set 0 ((0.5 * (c.getD 0 0).re : ℝ) : ℂ) else c

/-- The loop `for j in range(n-2, 0, -1)` on the pair `(co, si)`, funpy/trig/eval.py:84-87 and
115-118. -/
noncomputable def realLoop (u v : ℝ) (a b : ℕ → ℝ) : ℕ → ℝ × ℝ → ℝ × ℝ
  | 0, s => s
  | j + 1, (co, si) =>
    realLoop u v a b j (a (j + 1) + u * co + v * si, b (j + 1) + u * si - v * co)

/-- `horner_scl_real` at one point, funpy/trig/eval.py:62-89, and one column of `horner_vec_real`,
funpy/trig/eval.py:91-120. -/
noncomputable def hornerReal (x : ℝ) (c : List ℂ) : ℝ :=
  let N := c.length
  let n := (N + 2) / 2          -- ceil((N+1)/2)
  let c' := hornerRealMut c
  let a : ℕ → ℝ := fun j => (c'.getD (n - 1 - j) 0).re
  let b : ℕ → ℝ := fun j => (c'.getD (n - 1 - j) 0).im
  if N = 1 then a 0
  else
    let u := Real.cos (Real.pi * x)
    let v := Real.sin (Real.pi * x)
    let s := realLoop u v a b (n - 2) (a (n - 1), b (n - 1))
    a 0 + 2 * (u * s.1 + v * s.2)

/-- `horner`, funpy/trig/eval.py:122-134: all columns at one point.  Result and the coefficient array
after the call.  (`~scalarValued` is `-2` or `-1`, hence always true; the second branch is reached
only for several columns.) -/
noncomputable def horner (x : ℝ) (cols : List (List ℂ)) (isReal : List Bool) :
    List ℂ × List (List ℂ) :=
  if isReal.all id then (cols.map fun c => ((hornerReal x c : ℝ) : ℂ), cols.map hornerRealMut)
  else (List.zipWith (fun c r => if r then (((hornerCmplx x c).re : ℝ) : ℂ) else hornerCmplx x c)
    cols isReal, cols)

end Funpy.Trig
