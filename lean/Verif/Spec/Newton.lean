import Verif.Model.Newton
import Mathlib.Analysis.InnerProductSpace.Basic

/-!
# Specification vocabulary for the Newton drivers
-/

namespace Funpy.Spec
open Funpy.Newton

variable {X R : Type} [AddCommGroup X] [Module ℝ X] [AddCommGroup R]

/-- Newton's iteration: `x₀, x₁ = x₀ + solve(x₀, -F(x₀)), …`. -/
def newtonIter (P : Problem X R) (x0 : X) : ℕ → X
  | 0 => x0
  | n + 1 => newtonIter P x0 n + (P.solve (newtonIter P x0 n) (-P.F (newtonIter P x0 n))).1

/-- The `n`-th Newton correction. -/
def newtonCorr (P : Problem X R) (x0 : X) (n : ℕ) : X :=
  (P.solve (newtonIter P x0 n) (-P.F (newtonIter P x0 n))).1

/-- `r` reports the sum `y + d` of a point `y` and a correction `d` of size at most `tol` which is the solution the
linear solver, set up at `s`, returned for the residual of `y`. -/
def HonestSuccess (P : Problem X R) (inner : X → X → ℝ) (tol : ℝ) (r : Result X) : Prop :=
  ∃ y s d, P.solve s (-P.F y) = (d, true) ∧ r.x = y + d ∧ Real.sqrt (inner d d) ≤ tol ∧ r.sys = some s

end Funpy.Spec

namespace Funpy.Spec

open scoped RealInnerProductSpace in
/-- Broyden's "good" rank-one updates of an approximate inverse Jacobian `S`:
`H₀ = S`, `H_{k+1} = (I + d_{k+1} d_kᵀ / ‖d_k‖²) H_k`. -/
noncomputable def broyden {X R : Type} [NormedAddCommGroup X] [InnerProductSpace ℝ X] (S : R → X) (d : ℕ → X) :
    ℕ → R → X
  | 0, b => S b
  | k + 1, b => broyden S d k b + (inner ℝ (broyden S d k b) (d k) / ‖d k‖ ^ 2) • d (k + 1)

/-- The points reached from `x0` by the steps `d`. -/
def path {X : Type} [AddCommGroup X] (x0 : X) (d : ℕ → X) : ℕ → X
  | 0 => x0
  | k + 1 => path x0 d k + d k

end Funpy.Spec
