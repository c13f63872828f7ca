import Mathlib.Analysis.Calculus.Deriv.Basic
import Verif.Model.ChebEval

/-!
# Model: `Mapping` and evaluation of a `Fun` on its domain
-/

namespace Funpy

/-- The two-vector `ends` of funpy/mapping.py:8-16 (piecewise domains are not modelled). -/
structure Ends where
  /-- `ends[0]` -/
  e0 : ℝ
  /-- `ends[1]` -/
  e1 : ℝ

namespace Mapping

/-- `np.diff(self.ends)` for a two-vector, funpy/mapping.py:28-29. -/
noncomputable def diff (e : Ends) : ℝ := e.e1 - e.e0

/-- `fwd`, funpy/mapping.py:27. -/
noncomputable def fwd (e : Ends) (y : ℝ) : ℝ := (e.e1 * (y + 1) + e.e0 * (1 - y)) / 2

/-- `der`, funpy/mapping.py:28. -/
noncomputable def der (e : Ends) (y : ℝ) : ℝ := diff e / 2 + 0 * y

/-- `bwd`, funpy/mapping.py:29.  Division by `np.diff(ends)`: for a degenerate domain numpy
returns NaN/inf, so the model is only meant for `e0 ≠ e1`. -/
noncomputable def bwd (e : Ends) (x : ℝ) : ℝ := (2 * x - e.e0 - e.e1) / diff e

end Mapping

/-- `Fun.__call__`, funpy/fun.py:129-133, for a vector of abscissae: the assertion on the mapped
points, then `feval` of the underlying function (an arbitrary evaluation procedure here).
`none` is the `AssertionError`; `np.min` of an empty array raises as well. -/
noncomputable def funCall {β : Type} (e : Ends) (feval : List ℝ → β) (xs : List ℝ) : Option β :=
  open Classical in
  let z := xs.map (Mapping.bwd e)
  if z ≠ [] ∧ (∀ w ∈ z, -1 ≤ w) ∧ (∀ w ∈ z, w ≤ 1) then some (feval z) else none

end Funpy
