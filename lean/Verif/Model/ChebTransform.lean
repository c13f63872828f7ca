import Verif.Model.ChebEval
import Mathlib.Analysis.SpecialFunctions.Trigonometric.Basic

/-!
# Model: Chebyshev points and the value/coefficient transforms
-/

namespace Funpy.Cheb
open Finset Real

/-- The unnormalised DCT-I of scipy (`pypocketfft.dct(·, 1, axes, 0, …)`, used in
funpy/cheb/detail.pyx:72 and 106), by its documented formula
`y_k = x_0 + (-1)^k x_{N-1} + 2 ∑_{n=1}^{N-2} x_n cos(π k n / (N-1))` (for `N ≥ 2`). -/
noncomputable def dct1 (x : List ℝ) : List ℝ :=
  let N := x.length
  (List.range N).map fun k : ℕ =>
    x.getD 0 0 + (-1) ^ k * x.getD (N - 1) 0
      + 2 * ∑ n ∈ Ico 1 (N - 1), x.getD n 0 * cos (π * k * n / ((N - 1 : ℕ) : ℝ))

/-- `polyfit` of one column, funpy/cheb/detail.pyx:52-78 (`N == 0` is an out-of-bounds access in
the code and is excluded in the theorems). -/
noncomputable def polyfitCol (sampled : List ℝ) : List ℝ :=
  let N := sampled.length
  if N = 1 then sampled
  else
    let c := (List.range N).map fun i => sampled.getD (N - i - 1) 0 / ((N - 1 : ℕ) : ℝ)
    let c := dct1 c
    let c := c.set 0 (c.getD 0 0 / 2)
    c.set (N - 1) (c.getD (N - 1) 0 / 2)

/-- `polyval` of one column, funpy/cheb/detail.pyx:84-109. -/
noncomputable def polyvalCol (chebcoeff : List ℝ) : List ℝ :=
  let N := chebcoeff.length
  if N = 1 then chebcoeff
  else
    let v := (List.range N).map fun i =>
      if 1 ≤ i ∧ i < N - 1 then chebcoeff.getD i 0 / 2 else chebcoeff.getD i 0
    (dct1 v).reverse

/-- `polyfit`, funpy/cheb/detail.pyx:52-78. -/
noncomputable def polyfit (a : Arr ℝ) : Arr ℝ := a.mapCols a.n polyfitCol

/-- `polyval`, funpy/cheb/detail.pyx:84-109. -/
noncomputable def polyval (a : Arr ℝ) : Arr ℝ := a.mapCols a.n polyvalCol

/-- `chebpts_type2_compute`, funpy/cheb/pts.py:89-95; `np.arange(-N+1, N, 2)` has the `N` entries
`-N+1+2k`. -/
noncomputable def chebpts2 (N : ℕ) : List ℝ :=
  if N = 0 then []
  else if N = 1 then [0]
  else (List.range N).map fun k : ℕ => sin (π * (-(N : ℝ) + 1 + 2 * k) / (2 * ((N : ℝ) - 1)))

/-- `chebpts_type1_compute`, funpy/cheb/pts.py:79-85. -/
noncomputable def chebpts1 (N : ℕ) : List ℝ :=
  if N = 0 then []
  else if N = 1 then [0]
  else (List.range N).map fun k : ℕ => sin (π * (-(N : ℝ) + 1 + 2 * k) / (2 * (N : ℝ)))

/-- `chebtech.from_values` (coefficients), funpy/cheb/chebtech.py:80-82. -/
noncomputable def fromValues (values : Arr ℝ) : Arr ℝ := polyfit values

end Funpy.Cheb
