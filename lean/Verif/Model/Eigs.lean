import Verif.Model.OpDisc
import Mathlib.Analysis.Complex.Basic

/-!
# Model: eigenvalues of operators, funpy/colloc/eig.py (scalar equations)
-/

namespace Funpy.Eigs
open Matrix OpDisc UltraS

variable {n : ℕ}

/-- `GeneralizedEigenvalueOp._matvec`, funpy/colloc/eig.py:25-43: zeros for the constraints
(`numConstraints = proj.shape[1] - proj.shape[0]`) on top of the projection in the output basis. -/
noncomputable def geMatvec (d : Disc n) (x : Fin n → ℝ) : List ℝ :=
  let arr := keepRows d.r (basisConv n d.r *ᵥ x)
  List.replicate (n - arr.length) 0 ++ arr

/-- `B.todense()`, funpy/colloc/eig.py:65-69: the columns are the images of the unit vectors. -/
noncomputable def rhsDense (d : Disc n) : Matrix (Fin n) (Fin n) ℂ :=
  of fun i j => (((geMatvec d (Pi.single j 1)).getD i 0 : ℝ) : ℂ)

/-- `M.todense()` for a square matrix given by the list of its rows, funpy/colloc/eig.py:68. -/
noncomputable def dense (M : List (Fin n → ℝ)) : Matrix (Fin n) (Fin n) ℂ :=
  of fun i j => ((M.getD i 0 j : ℝ) : ℂ)

/-- `eigs(op)`, funpy/colloc/eig.py:49-82.  `ordqz` is scipy's generalised Schur decomposition, returning the vectors `α`
and `β`, or raising a `ValueError` (`none`); it raises it for matrices that are not square.  The outer `none`: the
assembly of the matrix raises.  The order in which the eigenvalues are returned (`sort`) is not
modelled. -/
noncomputable def eigs (ordqz : Matrix (Fin n) (Fin n) ℂ → Matrix (Fin n) (Fin n) ℂ → Option ((Fin n → ℂ) × (Fin n → ℂ)))
    (d : Disc n) (tol : ℝ) : Option (Bool × List ℂ) :=
  (matrix d).map fun M =>
    if M.length = n then
      match ordqz (dense M) (rhsDense d) with
      | none => (false, [0])
      | some (α, β) => (true, ((List.finRange n).filter fun i => tol < ‖β i‖).map fun i => α i / β i)
    else (false, [0])

end Funpy.Eigs
