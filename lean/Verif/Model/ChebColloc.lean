import Verif.Model.ChebDiffmat
import Verif.Model.ChebEval

/-!
# Model: `chebcolloc2`, `ChebOpConstraint` and the boundary rows of a coefficient discretisation

A boundary condition is compiled by the code into a Python function `op(u)` whose body is an
expression in evaluations of (derivatives of) `u` (funpy/colloc/source/BoundaryConditionSource.py:31-60).
The very same function is called on a `Fun` (to measure the residual) and on a collocation object
holding the identity matrix (to obtain the row of the linear system).  `BC` is the abstract syntax of
these expressions.
-/

namespace Funpy.Cheb
open Finset Real

/-- A `chebcolloc2` object, funpy/colloc/chebcolloc/chebcolloc2.py:17-21 and
funpy/colloc/valsDiscretization.py:12-23: a domain and an `n × m` array of values (entries with
index `i < n`, `j < m`). -/
structure Colloc where
  /-- `self.domain` -/
  dom : Ends
  /-- `len(self)` -/
  n : ℕ
  /-- `self.m` -/
  m : ℕ
  /-- `self.values` -/
  vals : ℕ → ℕ → ℝ

namespace Colloc

/-- `self.functionPoints()`, funpy/colloc/chebcolloc/chebcolloc2.py:50-51. -/
noncomputable def pts (f : Colloc) : Pts := chebptsType2 f.n f.dom

/-- `chebcolloc2(values=np.eye(n), domain=domain)`, funpy/colloc/chebOpConstraint.py:50. -/
def eye (dom : Ends) (n : ℕ) : Colloc := ⟨dom, n, n, fun i j => if i = j then 1 else 0⟩

/-- `np.diff(f, n=k)`, funpy/colloc/chebcolloc/chebcolloc2.py:56-69 and 87-90 (one interval): the
identity for `k = 0`, otherwise `diffmat(self.x, k)`.  With fewer than two points `diffmat` returns
`None` or an empty matrix and the product raises. -/
noncomputable def diff (f : Colloc) (k : ℕ) : Option Colloc :=
  if k = 0 then some f
  else if f.n < 2 then none
  else some { f with vals := fun i j => ∑ l ∈ range f.n, diffmat f.pts.x k i l * f.vals l j }

/-- The finite entries of a row of `barymat`; `none` when an entry is not finite (the code would go on
with that entry; no theorem covers that case, and C55 and C96 show that it does not occur). -/
noncomputable def finRow : List Ieee → Option (List ℝ)
  | [] => some []
  | Ieee.fin r :: l => (finRow l).map (r :: ·)
  | _ :: _ => none

/-- `f(y)`, funpy/colloc/chebcolloc/chebcolloc2.py:34-48: the assertion on the location, then
`barymat(y, self.x, self.v) @ self.values`; a row of `m` numbers. -/
noncomputable def call (f : Colloc) (y : ℝ) : Option (List ℝ) :=
  open Classical in
  if f.dom.e0 ≤ y ∧ y ≤ f.dom.e1 then
    (finRow (barymatRow f.pts.x f.pts.v y)).map fun r =>
      (List.range f.m).map fun j => ∑ l ∈ range f.n, r.getD l 0 * f.vals l j
  else none

end Colloc

/-! ### Boundary conditions -/

/-- The function-valued subexpressions of a boundary condition: the unknown and its derivatives
(`np.diff(f, n)` with `n ≥ 1`). -/
inductive FE where
  /-- the unknown -/
  | u
  /-- `np.diff(f, k + 1)` -/
  | diff (k : ℕ) (f : FE)

/-- The body of a compiled boundary condition.  The `TODO` in
funpy/colloc/source/BoundaryConditionSource.py:45-48 explains why evaluations have to be distributed
over the terms: collocation objects have no arithmetic, only their values have. -/
inductive BC where
  /-- `f(y)` -/
  | ev (f : FE) (y : ℝ)
  /-- a number -/
  | const (c : ℝ)
  /-- `a + b` -/
  | add (a b : BC)
  /-- `a - b` -/
  | sub (a b : BC)
  /-- `-a` -/
  | neg (a : BC)
  /-- `c * a` -/
  | smul (c : ℝ) (a : BC)

/-- A number or a row (numpy array of shape `(1, m)`). -/
inductive BVal where
  /-- a Python number -/
  | num (c : ℝ)
  /-- a row -/
  | row (r : List ℝ)

namespace BVal

/-- numpy broadcasting of a binary operation on numbers and rows; `none` is the `ValueError`. -/
noncomputable def bin (op : ℝ → ℝ → ℝ) : BVal → BVal → Option BVal
  | num a, num b => some (num (op a b))
  | num a, row r => some (row (r.map (op a ·)))
  | row r, num b => some (row (r.map (op · b)))
  | row r, row s =>
      if r.length = s.length then some (row (List.zipWith op r s))
      else if r.length = 1 then some (row (s.map (op (r.getD 0 0) ·)))
      else if s.length = 1 then some (row (r.map (op · (s.getD 0 0))))
      else none

/-- A unary operation on numbers and rows. -/
noncomputable def un (op : ℝ → ℝ) : BVal → BVal
  | num a => num (op a)
  | row r => row (r.map op)

end BVal

namespace BC

/-- Running the compiled function, given the meaning of the evaluations `f(y)`. -/
noncomputable def run (ev : FE → ℝ → Option (List ℝ)) : BC → Option BVal
  | .ev f y => (ev f y).map BVal.row
  | .const c => some (BVal.num c)
  | .add a b => (run ev a).bind fun x => (run ev b).bind fun y => BVal.bin (· + ·) x y
  | .sub a b => (run ev a).bind fun x => (run ev b).bind fun y => BVal.bin (· - ·) x y
  | .neg a => (run ev a).map (BVal.un (- ·))
  | .smul c a => (run ev a).map (BVal.un (c * ·))

end BC

namespace FE

/-- The function-valued expressions on a collocation object. -/
noncomputable def onColloc (u : Colloc) : FE → Option Colloc
  | .u => some u
  | .diff k f => (onColloc u f).bind fun g => g.diff (k + 1)

/-- The function-valued expressions on a `Fun`. -/
noncomputable def onFun (u : ChebFun) : FE → Option ChebFun
  | .u => some u
  | .diff k f => (onFun u f).bind fun g => g.diff (k + 1)

end FE

/-- `f(y)` for a `Fun`, funpy/fun.py:129-133. -/
noncomputable def funEval (g : ChebFun) (y : ℝ) : Option (List ℝ) :=
  (funCall g.dom (fun z => clenshaw z g.onefun.coeffs) [y]).map fun rows => rows.getD 0 []

/-- The compiled boundary condition applied to a collocation object. -/
noncomputable def BC.onColloc (b : BC) (u : Colloc) : Option BVal :=
  b.run fun f y => (f.onColloc u).bind fun g => g.call y

/-- The compiled boundary condition applied to a function. -/
noncomputable def BC.onFun (b : BC) (u : ChebFun) : Option BVal :=
  b.run fun f y => (f.onFun u).bind fun g => funEval g y

/-- `self.residual(u) = self.op(*u) - self.values` with the default `values = [0.0]`, for one
function `u`, funpy/colloc/chebOpConstraint.py:26, 53-55 (`np.atleast_1d` makes a row of length 1). -/
noncomputable def BC.residual (b : BC) (u : ChebFun) : Option BVal :=
  (b.onFun u).bind fun v => BVal.bin (· - ·) v (BVal.row [0])

/-- `zeros(1, domain)`, funpy/fun.py:280-282 (`eps` is the tolerance of the technology). -/
noncomputable def zeroFun (dom : Ends) (eps : ℝ) : Option ChebFun :=
  (Tech.mk' ⟨1, [[0]]⟩ eps false false).map fun t => ⟨dom, t⟩

/-- `ChebOpConstraint(op=b, domain=dom)(n)`: the offset computed in the constructor, then the
functional applied to the collocation identity; funpy/colloc/chebOpConstraint.py:15-35, 49-51. -/
noncomputable def BC.functional (b : BC) (dom : Ends) (eps : ℝ) (n : ℕ) : Option BVal :=
  (zeroFun dom eps).bind fun zf =>
    (b.residual zf).bind fun r =>
      (b.onColloc (Colloc.eye dom n)).bind fun v => BVal.bin (· + ·) v (BVal.un (- ·) r)

/-- One block of `convertFunctional` for one equation,
funpy/colloc/coeffsDiscretization.py:130-144: the row is rotated to a column (which reverses it),
transformed by `polyval` and rotated back.  `functional[:, 0:n]` requires an array (`none` for a
number), and the assignment to a block of `n` columns requires `n` columns. -/
noncomputable def convertRow (n : ℕ) : BVal → Option (List ℝ)
  | .num _ => none
  | .row r => if r.length = n then some (polyvalCol r.reverse).reverse else none

/-- One row of `getConstraints(n)` for a scalar equation,
funpy/colloc/coeffsDiscretization.py:94-145. -/
noncomputable def BC.row (b : BC) (dom : Ends) (eps : ℝ) (n : ℕ) : Option (List ℝ) :=
  (b.functional dom eps n).bind (convertRow n)

end Funpy.Cheb
