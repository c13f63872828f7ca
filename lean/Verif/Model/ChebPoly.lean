import Verif.Model.UltraS
import Mathlib.LinearAlgebra.Matrix.NonsingularInverse

/-!
# Model: `chebpoly`, funpy/chebpoly.py

The module imports `fun` and `colloc` by their top-level names, so it can be imported only with the directory `funpy` on the
path; the model describes the function itself.
-/

namespace Funpy.ChebPoly
open UltraS Matrix

/-- What the argument `n` may be, funpy/chebpoly.py:13-14: a number is wrapped into a list. -/
inductive Deg
  /-- a number -/
  | one (n : ℕ)
  /-- a list -/
  | list (l : List ℕ)

/-- `if not isinstance(n, list): n = [n]`, funpy/chebpoly.py:13-14. -/
def Deg.toList : Deg → List ℕ
  | .one n => [n]
  | .list l => l

/-- `np.max(n) + 1`, funpy/chebpoly.py:16 -/
def size (l : List ℕ) : ℕ := l.foldr max 0 + 1

/-- A column of the identity, funpy/chebpoly.py:17-18. -/
def unit (N k : ℕ) : Fin N → ℝ := fun i => if (i : ℕ) = k then 1 else 0

/-- The columns of coefficients of `chebpoly(n, domain, kind)`, funpy/chebpoly.py:11-25 (`from_coeffs` with `simplify=False` stores them
on the domain).  `none`: an exception.
* another `kind`: the assertion;
* an empty list: `np.max` raises;
* `kind = 2` with `N = 1`: `np.ones(-1)` in `spconvert` raises;
* `kind = 2` with one degree: `spsolve` returns a one-dimensional array for a matrix with one column, which has no method `todense`.

`spsolve` solves with the (regular) matrix. -/
noncomputable def chebpoly (n : Deg) (kind : ℕ) : Option (List (List ℝ)) :=
  let l := n.toList
  if kind ≠ 1 ∧ kind ≠ 2 then none
  else if l = [] then none
  else
    let N := size l
    if kind = 2 then
      if N = 1 then none
      else if l.length = 1 then none
      else some (l.map fun k => List.ofFn ((convertmat N 0 0)⁻¹ *ᵥ unit N k))
    else some (l.map fun k => List.ofFn (unit N k))

end Funpy.ChebPoly
