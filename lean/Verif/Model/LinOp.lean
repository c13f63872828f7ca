import Verif.Model.OpDisc

/-!
# Model: `linop()`, the discretised operator together with its adjoint

funpy/colloc/OpDiscretization.py:92-128, funpy/colloc/projection.py.
-/

namespace Funpy.OpDisc
open Matrix UltraS

/-- `RectangularProjection(matrix, adjoint)`, funpy/colloc/projection.py:8-32; both matrices with their shapes. -/
structure RectProj where
  /-- rows of `mat` -/
  p : ℕ
  /-- columns of `mat` -/
  q : ℕ
  /-- `self.mat` -/
  mat : Matrix (Fin p) (Fin q) ℝ
  /-- `self.adj`, `None` by default -/
  adj : Option ((p' : ℕ) × (q' : ℕ) × Matrix (Fin p') (Fin q') ℝ)

/-- `A.dot(x)` for a sparse matrix; `none` is the `ValueError` for a vector of the wrong length. -/
noncomputable def dot {p q : ℕ} (A : Matrix (Fin p) (Fin q) ℝ) (x : List ℝ) : Option (List ℝ) :=
  if x.length = q then some (List.ofFn (A *ᵥ fun j => x.getD j 0)) else none

/-- `_matvec`, funpy/colloc/projection.py:23-27 (`squeeze` changes shapes with one entry only). -/
noncomputable def RectProj.matvec (P : RectProj) (x : List ℝ) : Option (List ℝ) := dot P.mat x

/-- `_rmatvec`, funpy/colloc/projection.py:29-33; `None.dot` is an `AttributeError`. -/
noncomputable def RectProj.rmatvec (P : RectProj) (y : List ℝ) : Option (List ℝ) :=
  match P.adj with
  | none => none
  | some ⟨_, _, A⟩ => dot A y

/-- The first `n - r` rows as a matrix, `reduceOne`, funpy/colloc/ultraS/matrices.py:228-257. -/
def topRows {n : ℕ} (r : ℕ) (A : Matrix (Fin n) (Fin n) ℝ) : Matrix (Fin (n - r)) (Fin n) ℝ := fun i => A ⟨i, by omega⟩

/-- `matrix()` creates its projections without an adjoint, funpy/colloc/OpDiscretization.py:86-88. -/
noncomputable def matrixProjection {n : ℕ} (d : Disc n) : RectProj := ⟨n - d.r, n, topRows d.r (basisConv n d.r), none⟩

/-- `linop()` for one equation, funpy/colloc/OpDiscretization.py:92-128: the matrix, the adjoint matrix and the projection.  The adjoint
is assembled with `adjoint=True` and reduced like the matrix (`ultraS.reduce` ignores its argument `adjoint`,
funpy/colloc/ultraS/ultraS.py:95-122); the constraint rows are put on top of both.  Without constraints `getConstraints` returns `None` and
`np.abs(None)` raises (`none`).  The functions `BB` representing the constraints are computed (line 113) and not used. -/
noncomputable def linop {n : ℕ} (d : Disc n) : Option (List (Fin n → ℝ) × List (Fin n → ℝ) × RectProj) :=
  if d.bcs = [] then none
  else (constraintRows d).map fun B =>
    (B ++ keepRows d.r (fun i => (quasi2diffmat n (Mapping.diff d.e) d.r d.src) i),
     B ++ keepRows d.r (fun i => (quasi2diffmat n (Mapping.diff d.e) d.r d.src (adjoint := true)) i),
     ⟨n - d.r, n, topRows d.r (basisConv n d.r), some ⟨n - d.r, n, topRows d.r (basisConv n d.r (adjoint := true))⟩⟩)

end Funpy.OpDisc
