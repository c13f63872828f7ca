import Verif.Model.OpDisc
import Verif.Model.TrigSpec

/-!
# Model: discretisation of systems of `m` equations for `m` unknowns

funpy/colloc/OpDiscretization.py, coeffsDiscretization.py, trigspec/trigspec.py, ultraS/ultraS.py, LinSys.py.  Matrices are lists of rows,
vectors are lists, so that the order in which the blocks are put together is visible.
-/

namespace Funpy.SysDisc
open Matrix

variable {𝕜 : Type} [CommSemiring 𝕜]

/-- `u.flatten(order='F')`: the coefficients of the first function, then those of the second, …; funpy/cheb/chebtech.py, funpy/fun.py
(`flatten`). -/
def flat {α : Type} {m n : ℕ} (u : Fin m → Fin n → α) : List α := (List.ofFn u).flatMap List.ofFn

/-- A list of rows applied to a vector. -/
def matvec (M : List (List 𝕜)) (x : List 𝕜) : List 𝕜 := M.map fun r => (List.zipWith (· * ·) r x).sum

/-- `scipy.sparse.bmat` of the array of blocks `A i j`: below each other for `i`, side by side for `j`;
funpy/colloc/trigspec/matrices.py:146-159, ultraS/ultraS.py:118-121 (there the blocks of one column are first put below each other, matrices.py:256-257, and
the columns then side by side). -/
def bmat {m p n : ℕ} (A : Fin m → Fin m → Fin p → Fin n → 𝕜) : List (List 𝕜) :=
  (List.ofFn fun i => List.ofFn fun k => (List.ofFn fun j => List.ofFn (A i j k)).flatten).flatten

/-- `trigspec.matrix()` for a system without boundary conditions: `instantiate` (funpy/colloc/coeffsDiscretization.py:52-73) calls `quasi2diffmat` for each
block, `reduce` (funpy/colloc/trigspec/trigspec.py:74-79) puts the blocks together with `blockmat` (funpy/colloc/trigspec/matrices.py:146-159), which takes
blocks with a single column to be vectors and puts all of them below each other. -/
noncomputable def trigMatrix {m : ℕ} (n : ℕ) (len eps : ℝ) (s : Fin m → Fin m → TrigSpec.Source) : List (List ℂ) :=
  if n = 1 then
    (List.ofFn fun i => (List.ofFn fun j => List.ofFn fun k => List.ofFn ((TrigSpec.quasi2diffmat n len eps (s i j)) k)).flatten).flatten
  else bmat fun i j => TrigSpec.quasi2diffmat n len eps (s i j)

/-- A system for `ultraS`. -/
structure Sys (m : ℕ) where
  /-- `self.domain` -/
  e : Ends
  /-- `projOrder`, the same for all unknowns, funpy/colloc/LinSysBase.py:69-71 -/
  r : ℕ
  /-- `source.quasiOp` -/
  src : Fin m → Fin m → UltraS.Source
  /-- the boundary conditions, as Python functions of `m` arguments -/
  bcs : List (List (ℝ → ℝ) → ℝ)

/-- Building the constraints, funpy/colloc/LinSys.py:143-152: every generated boundary function has the names of all `m` unknowns as parameters
(funpy/colloc/source/BoundaryConditionSource.py:48-51), but `ChebOpConstraint.__init__` (funpy/colloc/chebOpConstraint.py:29-31) calls it with the
columns of a dummy function with one column: a `TypeError` (`none`) unless `m = 1`. -/
def buildConstraints {m : ℕ} (d : Sys m) : Option (List (List (ℝ → ℝ) → ℝ)) :=
  d.bcs.mapM fun b => if m = 1 then some b else none

/-- The first `n - r` rows: `delete_rows` in `reduceOne`, funpy/colloc/ultraS/matrices.py:226-257 (see `OpDisc.keepRows`). -/
def keep {α : Type} {n : ℕ} (r : ℕ) (A : Fin n → α) (k : Fin (n - r)) : α := A ⟨k, by omega⟩

/-- `ultraS.matrix()` for a system without boundary conditions: `instantiate`, `reduce` (funpy/colloc/ultraS/ultraS.py:95-122). -/
noncomputable def ultraMatrix {m : ℕ} (n : ℕ) (d : Sys m) : List (List ℝ) :=
  bmat fun i j => keep d.r fun k l => (UltraS.quasi2diffmat n (Mapping.diff d.e) d.r (d.src i j)) k l

/-- The matrix of `projection`: `S` has conversion matrices on the diagonal (`basis_conv=(i == j)`, funpy/colloc/coeffsDiscretization.py:62-64) and
zeros elsewhere, reduced like the operator. -/
noncomputable def ultraProjection (m n : ℕ) (r : ℕ) : List (List ℝ) :=
  bmat fun i j : Fin m => keep r fun k l => (if i = j then UltraS.basisConv n r else 0 : Matrix (Fin n) (Fin n) ℝ) k l

/-- `project_vector(f)` without constraints, funpy/colloc/ultraS/ultraS.py:269-293. -/
noncomputable def ultraRhs {m : ℕ} (n : ℕ) (d : Sys m) (f : Fin m → Fin n → ℝ) : List ℝ := matvec (ultraProjection m n d.r) (flat f)

end Funpy.SysDisc
