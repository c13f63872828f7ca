import Mathlib.Data.Matrix.Mul
import Mathlib.Analysis.SpecialFunctions.Trigonometric.Basic

/-!
# Model: the Fourier collocation differentiation matrices, funpy/colloc/trigcolloc/matrices.py:18-93
-/

namespace Funpy.TrigColloc
open Matrix

/-- The grid spacing `h = 2π/n`, funpy/colloc/trigcolloc/matrices.py:31. -/
noncomputable def spacing (n : ℕ) : ℝ := 2 * Real.pi / n

/-- The entries of `column` before the change of signs, funpy/colloc/trigcolloc/matrices.py:36-76 (`m = 1, 2, 3`). -/
noncomputable def rawColumn (n m v : ℕ) : ℝ :=
  let h := spacing n
  let t := 0.5 * v * h
  if m = 1 then
    if v = 0 then 0
    else if n % 2 = 1 then 0.5 / Real.sin t
    else 0.5 / Real.tan t
  else if m = 2 then
    if n % 2 = 1 then
      if v = 0 then Real.pi ^ 2 / 3 / h ^ 2 - 1 / 12 else (0.5 / Real.sin t) * (1 / Real.tan t)
    else
      if v = 0 then Real.pi ^ 2 / 3 / h ^ 2 + 1 / 6 else 0.5 / Real.sin t ^ 2
  else
    if v = 0 then 0
    else if n % 2 = 1 then
      let csc := 1 / Real.sin t
      let cot := 1 / Real.tan t
      3 / 8 * csc * cot ^ 2 + 3 / 8 * csc ^ 3 - Real.pi ^ 2 / 2 / h ^ 2 * csc
    else
      3 / 4 * ((1 / Real.sin t ^ 2) * (1 / Real.tan t)) - Real.pi ^ 2 / 2 / h ^ 2 / Real.tan t

/-- `column`: every second entry changes its sign, `[1::2]` for the first derivative (matrices.py:46), `[::2]` for the second and third
(matrices.py:59, 74). -/
noncomputable def column (n m v : ℕ) : ℝ :=
  if m = 1 then (if v % 2 = 1 then -rawColumn n m v else rawColumn n m v)
  else (if v % 2 = 0 then -rawColumn n m v else rawColumn n m v)

/-- `row = column[np.roll(np.arange(n)[::-1], 1)]` for odd `m` (matrices.py:47, 75); `toeplitz(column)` takes the column for the row. -/
noncomputable def row (n m v : ℕ) : ℝ :=
  if m = 2 then column n m v
  else if v = 0 then column n m 0 else column n m (n - v)

/-- `diffmat(n, m)`, funpy/colloc/trigcolloc/matrices.py:18-93; `none`: not implemented (`n = 0`) or raises (`m ≥ 4`:
`np.hstack(())`). For `n = 1` the code returns the scalar array `np.asarray(0)`, here the 1×1 zero matrix. -/
noncomputable def diffmat (n m : ℕ) : Option (Matrix (Fin n) (Fin n) ℝ) :=
  if n = 0 then none
  else if n = 1 then some 0
  else if m = 0 then some 1
  else if 4 ≤ m then none
  else some (Real.pi ^ m • of fun i j : Fin n =>
    if (j : ℕ) ≤ i then column n m (i - j) else row n m (j - i))

end Funpy.TrigColloc
