import Verif.Spec.Ultra
import Mathlib.Data.Nat.Factorial.Basic
import Mathlib.Data.Nat.Choose.Basic
import Mathlib.Algebra.BigOperators.Intervals

/-!
# Specification vocabulary for Jacobi series

Nothing in this file refers to the model of the code.
-/

namespace Spec
open Finset Polynomial

/-- Rising factorial `a (a+1) ⋯ (a+k-1)`. -/
noncomputable def rising (a : ℝ) (k : ℕ) : ℝ := ∏ i ∈ range k, (a + i)

/-- The Jacobi polynomial `P_n^{(a,b)}(x)`, by its explicit expansion at `x = 1`:
`(1/n!) ∑_k C(n,k) (n+a+b+1)_k (a+k+1)_{n-k} ((x-1)/2)^k`. -/
noncomputable def jacobi (a b : ℝ) (n : ℕ) (x : ℝ) : ℝ :=
  ∑ k ∈ range (n + 1), (n.choose k : ℝ) * rising (n + a + b + 1) k * rising (a + k + 1) (n - k) / n.factorial
    * ((x - 1) / 2) ^ k

/-- The function with the coefficients `c` in the Jacobi basis `P_k^{(a,b)}`. -/
noncomputable def jacobiSeries (a b : ℝ) (c : List ℝ) (x : ℝ) : ℝ :=
  ∑ k ∈ range c.length, c.getD k 0 * jacobi a b k x

/-- The basis `C^{(lam)}` for a real order: Chebyshev polynomials for `lam = 0`, ultraspherical polynomials
otherwise. -/
noncomputable def ultraBasisR (lam : ℝ) (k : ℕ) (x : ℝ) : ℝ :=
  open Classical in if lam = 0 then (Chebyshev.T ℝ k).eval x else gegenbauer lam k x

/-- The function with `C^{(lam)}` coefficients `c`. -/
noncomputable def ultraSeriesR (lam : ℝ) (c : List ℝ) (x : ℝ) : ℝ :=
  ∑ k ∈ range c.length, c.getD k 0 * ultraBasisR lam k x

end Spec
