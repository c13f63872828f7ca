import Verif.Model.TrigTech

/-!
# Model: the Riesz functional of a Sobolev space, funpy/support/Functional.py
-/

namespace Funpy.Riesz
open Complex ComplexConjugate

/-- The values of the keyword `basis`, funpy/support/Functional.py:21. -/
inductive Basis | coeff | value | trigspec | trigval | real
  deriving DecidableEq

/-- What the constructor and the call may raise. -/
inductive Err | moduleNotFound | nameError | typeError | attributeError | valueError
  deriving DecidableEq

/-- `f / rescaleFactor` for a periodic function and an array of size one, funpy/trig/ufuncs.py:326-332. -/
noncomputable def divBy (f : TrigFun) (r : ℝ) : TrigFun :=
  ⟨f.dom, Trig.Tech.ofBoth f.onefun.n (f.onefun.cols.map fun c => c.map fun z => z / (r : ℂ))
    (f.onefun.vals.map fun v => v.map fun z => z / (r : ℂ))⟩

/-- One row vector of the `trigspec` branch, funpy/support/Functional.py:74-79. -/
noncomputable def row (r : ℝ) (f : TrigFun) : List ℂ :=
  f.onefun.cols.flatMap fun c => c.map fun z => 2 * (r : ℂ) * conj z

/-- The loop over the orders, funpy/support/Functional.py:53-83: `k` is the number of orders still to come. -/
noncomputable def rows (r : ℝ) : ℕ → TrigFun → List (List ℂ)
  | 0, f => [row r f]
  | k + 1, f => row r f :: rows r k (divBy (f.diff 1) r)

/-- `Functional(f, basis=basis, order=order)`, funpy/support/Functional.py:16-103, for a periodic `f`: the stored row vectors.
* `coeff` imports `cheb.chebpts` (31): no such module exists in the repository;
* `trigspec` imports the top-level package `trig` (49), which exists only if the directory `funpy` itself is on the search path
  (`trigOnPath`);
* `trigval` returns `NotImplemented` from `__init__` (86): `TypeError`;
* `value` uses `quadwts`, which is bound nowhere in this branch (96): `NameError`;
* `real` stores the values (87-94). -/
noncomputable def construct (trigOnPath : Bool) (b : Basis) (order : ℕ) (f : TrigFun) : Except Err (List (List ℂ)) :=
  match b with
  | .coeff => .error .moduleNotFound
  | .trigspec => if trigOnPath then .ok (rows f.rescale order f) else .error .moduleNotFound
  | .trigval => .error .typeError
  | .real => .ok [f.onefun.vals.flatten]
  | .value => .error .nameError

/-- `np.dot` of two vectors; different lengths raise. -/
noncomputable def dot (a b : List ℂ) : Except Err ℂ :=
  if a.length = b.length then .ok (List.zipWith (· * ·) a b).sum else .error .valueError

/-- The loop of `__call__`, funpy/support/Functional.py:125-131, for a functional with `self.diff = self.diff_trig`
(108-118, the same formula as `np.diff` of a periodic function); `n` is `coeffs.shape[0]`. -/
noncomputable def callLoop (n : ℕ) : List (List ℂ) → List (List ℂ) → ℂ → Except Err ℂ
  | [], _, s => .ok s
  | r :: rs, cols, s =>
    if n = 1 then callLoop n rs cols s
    else (dot r (cols.map (Trig.diffCol 1)).flatten).bind fun d => callLoop n rs (cols.map (Trig.diffCol 1)) (s + d)

/-- `__call__` on an array of coefficients with `n` rows and the given columns, funpy/support/Functional.py:120-133, basis
`trigspec`. -/
noncomputable def call (F : List (List ℂ)) (n : ℕ) (cols : List (List ℂ)) : Except Err ℂ :=
  match F with
  | [] => .error .valueError
  | r :: rs => (dot r cols.flatten).bind fun s => callLoop n rs cols s

/-- `F(u)` for a function `u`, funpy/support/Functional.py:122. -/
noncomputable def callFun (F : List (List ℂ)) (u : TrigFun) : Except Err ℂ := call F u.onefun.n u.onefun.cols

/-- `u.reshape((n, m))` of a vector (row-major order), by columns. -/
def reshape (n m : ℕ) (v : List ℂ) : List (List ℂ) :=
  (List.range m).map fun j => (List.range n).map fun i => v.getD (i * m + j) 0

/-- `F(c)` for a vector `c` of coefficients, funpy/support/Functional.py:122; `shape` is the shape of the generating function. -/
noncomputable def callVec (F : List (List ℂ)) (n m : ℕ) (c : List ℂ) : Except Err ℂ :=
  if c.length = n * m then call F n (reshape n m c) else .error .valueError

end Funpy.Riesz
