import Mathlib.RingTheory.Polynomial.Chebyshev
import Mathlib.Data.Real.Basic

/-!
# Specification vocabulary for ultraspherical (Gegenbauer) series

Nothing in this file refers to the model of the code.
-/

namespace Spec
open Finset Polynomial

/-- The ultraspherical polynomial `C_n^{(lam)}(x)` by its three-term recurrence
`n C_n = 2 (n - 1 + lam) x C_{n-1} - (n - 2 + 2 lam) C_{n-2}`. -/
noncomputable def gegenbauer (lam : ℝ) : ℕ → ℝ → ℝ
  | 0, _ => 1
  | 1, x => 2 * lam * x
  | n + 2, x => (2 * (n + 1 + lam) * x * gegenbauer lam (n + 1) x - (n + 2 * lam) * gegenbauer lam n x) / (n + 2)

/-- The basis "C^{(lam)}" of the ultraspherical spectral method: Chebyshev polynomials of the first kind
for `lam = 0`, ultraspherical polynomials for `lam ≥ 1`. -/
noncomputable def ultraBasis : ℕ → ℕ → ℝ → ℝ
  | 0, k, x => (Chebyshev.T ℝ k).eval x
  | lam + 1, k, x => gegenbauer ((lam : ℝ) + 1) k x

/-- The function with `C^{(lam)}` coefficients `v`. -/
noncomputable def ultraSeries (lam : ℕ) {n : ℕ} (v : Fin n → ℝ) (x : ℝ) : ℝ :=
  ∑ k : Fin n, v k * ultraBasis lam k x

end Spec
