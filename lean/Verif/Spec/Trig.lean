import Mathlib.Analysis.SpecialFunctions.Trigonometric.Basic
import Mathlib.Algebra.BigOperators.Group.Finset.Basic

/-!
# Specification vocabulary for periodic functions on `[-1, 1]`

Nothing in this file refers to the model of the code.
-/

namespace Spec

open Finset Complex

/-- The wave number of coefficient `k` in a centred Fourier series with `n` coefficients:
`-(n-1)/2, …, (n-1)/2` for odd `n` and `-n/2, …, n/2-1` for even `n`. -/
def wave (n k : ℕ) : ℤ := (k : ℤ) - (n / 2 : ℕ)

/-- The basis function of coefficient `k`: `exp(iπ·wave·x)`, except that the unpaired lowest mode of
an even-length series is the cosine `cos(n/2·πx)`. -/
noncomputable def trigMode (n k : ℕ) (x : ℝ) : ℂ :=
  if n % 2 = 0 ∧ k = 0 then ((Real.cos ((n / 2 : ℕ) * Real.pi * x) : ℝ) : ℂ)
  else cexp (I * Real.pi * (wave n k) * x)

/-- The value at `x` of the centred Fourier series with coefficients `c`. -/
noncomputable def trigEval (c : List ℂ) (x : ℝ) : ℂ :=
  ∑ k ∈ range c.length, c.getD k 0 * trigMode c.length k x

/-- The `j`-th of `n` equispaced points of `[-1, 1)`. -/
noncomputable def equi (n j : ℕ) : ℝ := -1 + 2 * j / n

end Spec
