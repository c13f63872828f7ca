import Mathlib.RingTheory.Polynomial.Chebyshev
import Mathlib.Algebra.BigOperators.Group.List.Basic

/-!
# Specification vocabulary for Chebyshev functions

Nothing in this file refers to the model of the code.
-/

namespace Spec

open Polynomial Finset

variable {R : Type*} [CommRing R]

/-- The polynomial `∑ k, c_k T_k` represented by a column of Chebyshev coefficients. -/
noncomputable def chebPoly (c : List R) : R[X] :=
  ∑ k ∈ range c.length, Polynomial.C (c.getD k 0) * Chebyshev.T R k

/-- The value at `x` of the Chebyshev series with coefficients `c`. -/
noncomputable def chebEval (c : List R) (x : R) : R :=
  ∑ k ∈ range c.length, c.getD k 0 * (Chebyshev.T R k).eval x

/-- `v` has the entries `f 0, …, f (n-1)`. -/
def IsVec {α : Type*} (v : List α) (n : ℕ) (f : ℕ → α) : Prop :=
  v.length = n ∧ ∀ j < n, v[j]? = some (f j)

end Spec
