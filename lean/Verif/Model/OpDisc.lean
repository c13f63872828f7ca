import Verif.Model.ChebColloc
import Verif.Model.UltraS

/-!
# Model: the rectangular discretisation of a scalar linear boundary value problem

`ultraS(source, domain, dimension=n).matrix()` and `project_vector` for one equation.
-/

namespace Funpy.OpDisc
open Matrix Cheb UltraS

/-- What `ultraS` gets from its `LinSys`: the linearised operator `quasiOp[0, 0]`, the boundary
conditions, and the projection order, which is also the output space
(funpy/colloc/LinSysBase.py:65-71); `n` is the dimension, `e` the domain. -/
structure Disc (n : ℕ) where
  /-- `self.domain` -/
  e : Ends
  /-- `projOrder` -/
  r : ℕ
  /-- tolerance of the technology (used by the dummy zero function of the constraints) -/
  eps : ℝ
  /-- `source.quasiOp[0, 0]` -/
  src : Source
  /-- `source.constraints` -/
  bcs : List BC

variable {n : ℕ}

/-- `delete_rows(A, v)` with `v = n - 1, …, n - r`: the first `n - r` rows,
funpy/colloc/ultraS/matrices.py:228-257 (`reduceOne`; see C67 for the sparse representation);
`dimAdjust` is `0` (funpy/colloc/LinSysBase.py:55-63). -/
def keepRows {α : Type*} (r : ℕ) (A : Fin n → α) : List α := ((List.finRange n).take (n - r)).map A

/-- `getConstraints(n)`, funpy/colloc/coeffsDiscretization.py:94-145: one row per boundary condition;
`none` if one of them raises. -/
noncomputable def constraintRows (d : Disc n) : Option (List (Fin n → ℝ)) :=
  d.bcs.mapM fun b => (b.row d.e d.eps n).map fun row i => row.getD i 0

/-- `matrix()`, funpy/colloc/OpDiscretization.py:63-90, as the list of its rows: the constraint rows on
top of the projected operator matrix. -/
noncomputable def matrix (d : Disc n) : Option (List (Fin n → ℝ)) :=
  let M := quasi2diffmat n (Mapping.diff d.e) d.r d.src
  (constraintRows d).map fun B => B ++ keepRows d.r fun i => M i

/-- `project_vector(vector, basis=True, cts=True)`, funpy/colloc/ultraS/ultraS.py:269-293, with
`cts_res = g`: the constraint residuals on top of the projected vector in the output basis. -/
noncomputable def projectVector (d : Disc n) (g : List ℝ) (f : Fin n → ℝ) : List ℝ :=
  g ++ keepRows d.r (basisConv n d.r *ᵥ f)

/-- `project_vector(vector)` with `cts=False`: zeros for the constraints. -/
noncomputable def projectVectorZero (d : Disc n) (f : Fin n → ℝ) : List ℝ :=
  List.replicate d.bcs.length 0 ++ keepRows d.r (basisConv n d.r *ᵥ f)

end Funpy.OpDisc
