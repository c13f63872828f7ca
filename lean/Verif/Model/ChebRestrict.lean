import Verif.Model.ChebNorm

/-!
# Model: restriction to a subinterval, functionals
-/

namespace Funpy.Cheb
open Real

/-- `np.diff(s)` -/
noncomputable def listDiff (s : List ℝ) : List ℝ := List.zipWith (fun a b => b - a) s (s.drop 1)

/-- The new grid of `restrict` for one interval, funpy/cheb/chebtech.py:313. -/
noncomputable def restrictGrid (n : ℕ) (a b : ℝ) : List ℝ :=
  (chebpts2 n).map fun x => 0.5 * ((1 - x) * a + (1 + x) * b)

/-- `chebtech.restrict(s)`, funpy/cheb/chebtech.py:298-326.  `none`: an exception.
* fewer than two numbers: index error;
* an invalid interval: the assertion (303-304);
* one coefficient: `self.x` is the Python list `[0]`, `1 - self.x` raises;
* one column: `feval` squeezes the values to a vector, `polyfit` accepts two-dimensional arrays only;
* more than one interval (and more than one column): the column index of line 320 is out of range. -/
noncomputable def Tech.restrict (t : Tech) (s : List ℝ) : Option Tech :=
  open Classical in
  if s.length < 2 then none
  else if s.getD 0 0 < -1 ∨ s.getD 1 0 > 1 ∨ ∃ d ∈ listDiff s, d ≤ 0 then none
  else if s = [-1, 1] then some t
  else if t.coeffs.n = 1 then none
  else if t.coeffs.m = 1 then none
  else if 1 < s.length - 1 then none
  else
    let y := restrictGrid t.coeffs.n (s.getD 0 0) (s.getD 1 0)
    let values : Arr ℝ := ⟨t.coeffs.n, t.coeffs.cols.map fun c => y.map fun x => clenshawScalar x c⟩
    Tech.mk' (polyfit values) t.eps t.ishappy false t.hscale t.maxLength

/-- One block of the row vector of an unweighted `Functional`, funpy/functional.py:33: `np.rot90` of a row is the column
in reverse order, `np.rot90(·, -1)` of a column is the row in reverse order. -/
noncomputable def functionalBlock (c : List ℝ) : List ℝ :=
  let row := List.zipWith (· * ·) (quadwts c.length) (polyvalCol c)
  (polyvalCol row.reverse).reverse

end Funpy.Cheb

namespace Funpy.ChebFun
open Cheb Real

/-- `Functional(f, n=n)` without weight, funpy/functional.py:16-35: the row vector, and the function afterwards (`prolong`
works in place). -/
noncomputable def functional (f : ChebFun) (n : Option ℕ) : List ℝ × ChebFun :=
  let f' : ChebFun := match n with
    | none => f
    | some n => ⟨f.dom, { f.onefun with coeffs := prolong f.onefun.coeffs n }⟩
  ((f'.onefun.coeffs.cols.flatMap functionalBlock).map (· * (0.5 * Mapping.diff f'.dom)), f')

/-- `np.dot(F, g)` for an unweighted functional, funpy/functional.py:59-61, with the flattened coefficients of `g`
(funpy/cheb/chebtech.py:109-113); `none`: shapes do not match. -/
noncomputable def functionalDot (F : List ℝ) (g : ChebFun) : Option ℝ :=
  let c := g.onefun.coeffs.cols.flatten
  if F.length = c.length then some (List.zipWith (· * ·) F c).sum else none

/-- `np.dot(Functional(f, weighted=True), g)`, funpy/functional.py:25-28: for one column both operands have shape `(n, 1)`,
which numpy accepts for `n = 1` only (a constant `g` would give an array, not a number, which is reported as `none` here as
well); for several columns the flattened vectors are used. -/
noncomputable def weightedDot (f g : ChebFun) : Option ℝ :=
  let c := f.onefun.coeffs.cols.flatten
  let d := g.onefun.coeffs.cols.flatten
  let F := (c.take 1).map (· * π) ++ (c.drop 1).map (· * (0.5 * π))
  if f.onefun.coeffs.m = 1 ∧ ¬ (c.length = 1 ∧ d.length = 1) then none
  else if F.length = d.length then some (List.zipWith (· * ·) F d).sum else none

end Funpy.ChebFun
