import Verif.Model.QR

/-! # What a pivoted QR factorisation is -/

namespace Funpy.QR

open Matrix

/-- LAPACK's promise: `Q` orthogonal, `R` upper triangular (trapezoidal), `A[:, C] = Q R`, and `Q` is a product of `k`
(real) Householder reflections, hence `det Q = (-1)^k`. -/
structure IsQR {m n : ℕ} (A : Matrix (Fin m) (Fin n) ℝ) (f : Fact m n) : Prop where
  orth : f.Qᵀ * f.Q = 1
  upper : ∀ (i : Fin m) (j : Fin n), j.val < i.val → f.R i j = 0
  eq : ∀ i j, A i (f.C j) = (f.Q * f.R) i j
  detQ : f.Q.det = (-1) ^ f.k

/-- Minimum norm least squares: `x` satisfies the normal equations and is orthogonal to the kernel of `A`. -/
def IsPinvSolution {m n : ℕ} (A : Matrix (Fin m) (Fin n) ℝ) (b : Fin m → ℝ) (x : Fin n → ℝ) : Prop :=
  Aᵀ *ᵥ (A *ᵥ x) = Aᵀ *ᵥ b ∧ ∀ z, A *ᵥ z = 0 → x ⬝ᵥ z = 0

end Funpy.QR
