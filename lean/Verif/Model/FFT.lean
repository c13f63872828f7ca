import Mathlib.Analysis.SpecialFunctions.Complex.Circle
import Mathlib.Analysis.SpecialFunctions.Complex.Log

/-!
# Model: `scipy.fft.fft` and `scipy.fft.ifft` on one column

The library routines are modelled by the documented sums (exact arithmetic).
-/

namespace Funpy
open Finset Complex

/-- `fft(x)[k] = ∑_j x[j] exp(-2πi j k / n)`; used at funpy/cheb/ufuncs.pyx:141-142. -/
noncomputable def fft (x : List ℂ) : List ℂ :=
  (List.range x.length).map fun k : ℕ =>
    ∑ j ∈ range x.length, x.getD j 0 * cexp (-(2 * Real.pi * I * j * k / x.length))

/-- `ifft(y)[j] = (1/n) ∑_k y[k] exp(2πi j k / n)`; used at funpy/cheb/ufuncs.pyx:143,
funpy/cheb/pts.py:28. -/
noncomputable def ifft (y : List ℂ) : List ℂ :=
  (List.range y.length).map fun j : ℕ =>
    (∑ k ∈ range y.length, y.getD k 0 * cexp (2 * Real.pi * I * j * k / y.length)) / y.length

end Funpy
