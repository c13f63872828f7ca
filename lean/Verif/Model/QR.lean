import Verif.Model.LinHelpers
import Verif.Model.Bem
import Mathlib.LinearAlgebra.Matrix.NonsingularInverse
import Mathlib.Data.Fin.Tuple.Basic
import Mathlib.Data.Matrix.Basic
import Mathlib.GroupTheory.Perm.Basic

/-!
# QR based solvers

Models `funpy/linalg/qr_solve.py` (class `QR`, dense pivoted branch) and `funpy/linalg/qr_chol.py` (class
`QRCholesky`, dense branch).  The pivoted QR factorisation itself (LAPACK `geqp3`) is an oracle: the record
`Fact` holds its outputs.  `trtrs` / `solve_triangular` is the exact solution of the triangular system
(`R⁻¹ *ᵥ b`), `ormqr` is multiplication by `Q` or `Qᵀ`.
-/

namespace Funpy.QR

open Matrix Equiv

/-- The outputs of the pivoted QR factorisation `A P = Q R`: `Q`, `R`, the pivot array `C` and the number `k` of
Householder reflections, funpy/linalg/qr_solve.py:62-74 and funpy/linalg/qr_chol.py:27. -/
structure Fact (m n : ℕ) where
  Q : Matrix (Fin m) (Fin m) ℝ
  R : Matrix (Fin m) (Fin n) ℝ
  C : Perm (Fin n)
  k : ℕ

variable {m n : ℕ}

/-- `v[P]` with `P = np.argsort(C)`, funpy/linalg/qr_solve.py:77.  (`argsort` of a permutation array is the inverse
permutation.) -/
def Fact.permP (f : Fact m n) (v : Fin n → ℝ) : Fin n → ℝ := fun i => v (f.C.symm i)

/-- The array `P`, funpy/linalg/qr_solve.py:77 (called `C` in funpy/linalg/qr_chol.py:36). -/
def Fact.P (f : Fact m n) : List ℕ := List.ofFn fun i => (f.C.symm i).val

/-- `Rbar = R[:-1, :-1]`, funpy/linalg/qr_solve.py:79. -/
def Fact.Rbar (f : Fact (n + 1) (n + 1)) : Matrix (Fin n) (Fin n) ℝ := f.R.submatrix Fin.castSucc Fin.castSucc

/-- `Sbar = R[:-1, -1]`, funpy/linalg/qr_solve.py:80. -/
def Fact.Sbar (f : Fact (n + 1) (n + 1)) : Fin n → ℝ := fun i => f.R i.castSucc (Fin.last n)

/-- `is_singular`, funpy/linalg/qr_solve.py:83. -/
noncomputable def Fact.isSingular (f : Fact (n + 1) (n + 1)) (tol : ℝ) : Bool := decide (|f.R (Fin.last n) (Fin.last n)| < tol)

/-- `np.hstack((x, a))` -/
def snoc (x : Fin n → ℝ) (a : ℝ) : Fin (n + 1) → ℝ := Fin.snoc (α := fun _ => ℝ) x a

/-- `x[:-1]` -/
def init (x : Fin (n + 1) → ℝ) : Fin n → ℝ := fun i => x i.castSucc

/-- `QR._null`, funpy/linalg/qr_solve.py:105-129. -/
noncomputable def Fact.null (f : Fact (n + 1) (n + 1)) : (Fin (n + 1) → ℝ) × (Fin (n + 1) → ℝ) :=
  let y1 := f.Rbar⁻¹ *ᵥ f.Sbar
  (f.permP (snoc y1 (-1)), f.Q *ᵥ (snoc 0 1))

/-- `QR.particular`, funpy/linalg/qr_solve.py:164-184; `none` is the raised warning. -/
noncomputable def Fact.particular (f : Fact (n + 1) (n + 1)) (tol : ℝ) (b : Fin (n + 1) → ℝ) : Option (Fin (n + 1) → ℝ) :=
  let b := f.Qᵀ *ᵥ b
  if tol < |b (Fin.last n)| then none
  else some (f.permP (snoc (f.Rbar⁻¹ *ᵥ init b) 0))

/-- `QR.particular_adj`, funpy/linalg/qr_solve.py:186-207; `none` is the raised warning. -/
noncomputable def Fact.particularAdj (f : Fact (n + 1) (n + 1)) (tol : ℝ) (b : Fin (n + 1) → ℝ) : Option (Fin (n + 1) → ℝ) :=
  let b : Fin (n + 1) → ℝ := fun j => b (f.C j)
  let x := (f.Rbarᵀ)⁻¹ *ᵥ init b
  if tol < |f.Sbar ⬝ᵥ x - b (Fin.last n)| then none
  else some (f.Q *ᵥ snoc x 0)

/-- `QR.solve`, funpy/linalg/qr_solve.py:209-216; also `QRCholesky.solve_nonsingular_dense`,
funpy/linalg/qr_chol.py:153-163. -/
noncomputable def Fact.solve (f : Fact n n) (b : Fin n → ℝ) : Fin n → ℝ := f.permP (f.R⁻¹ *ᵥ (f.Qᵀ *ᵥ b))

/-- `QR.solve_adj`, funpy/linalg/qr_solve.py:218-226. -/
noncomputable def Fact.solveAdj (f : Fact n n) (b : Fin n → ℝ) : Fin n → ℝ := f.Q *ᵥ ((f.Rᵀ)⁻¹ *ᵥ fun j => b (f.C j))

/-- `np.argmax` of a list of naturals: the first position of the maximum. -/
def argmax (l : List ℕ) : ℕ := l.idxOf (l.foldr max 0)

/-- `m` in `det` and `det_sign`, funpy/linalg/qr_solve.py:139-143, 151-155 and funpy/linalg/qr_chol.py:98-102. -/
def Fact.swaps (f : Fact m n) : ℕ :=
  if m < n then LinHelpers.minimumSwaps (f.P.eraseIdx (argmax f.P)) else LinHelpers.minimumSwaps f.P

/-- `R.diagonal()` for `m ≤ n`. -/
def Fact.diagR (f : Fact m n) (h : m ≤ n) : List ℝ := List.ofFn fun i : Fin m => f.R i (Fin.castLE h i)

/-- `QR.det_sign`, funpy/linalg/qr_solve.py:137-147, for `m ≤ n`. -/
noncomputable def Fact.detSign (f : Fact m n) (h : m ≤ n) : ℝ :=
  (-1) ^ (f.k + f.swaps) * ((f.diagR h).map fun x => (SignType.sign x : ℝ)).prod

/-- `QR.det`, funpy/linalg/qr_solve.py:149-162, and `QRCholesky.det`, funpy/linalg/qr_chol.py:92-108.  With a zero on
the diagonal numpy computes `0 * exp(-inf) = 0`; here the sign factor is `0` as well. -/
noncomputable def Fact.det (f : Fact m n) (h : m ≤ n) : ℝ :=
  f.detSign h * Real.exp ((f.diagR h).map fun x => Real.log |x|).sum

/-- The `QR` object as seen by `BEM`; a raised warning is represented by the zero vector. -/
noncomputable def Fact.toSolver (f : Fact (n + 1) (n + 1)) (tol : ℝ) : Bem.Solver (Fin (n + 1)) ℝ where
  isSingular := f.isSingular tol
  solve := f.solve
  solveAdj := f.solveAdj
  null := f.null
  particular := fun b => (f.particular tol b).getD 0
  particularAdj := fun b => (f.particularAdj tol b).getD 0
  det := f.det le_rfl

/-! ## QRCholesky -/

/-- `pseudo_rank(R)` from the diagonal of `R`, funpy/linalg/qr_chol.py:146-151.  For `r[0] = 0` the quotients are
`nan` and the comparisons are false. -/
noncomputable def pseudoRank (eps : ℝ) (diag : List ℝ) : ℕ :=
  let r := diag.map fun x => |x|
  let r0 := r.getD 0 0
  let s := (r.drop 1).map fun x => decide (r0 ≠ 0 ∧ x / r0 ≤ r0 * eps)
  if s.all (fun b => !b) then r.length else s.idxOf true + 1

/-- `R = Rtot[:rank, :rank]`, funpy/linalg/qr_chol.py:50, with `Rtot` of shape `(r+e, r+d)`. -/
def Fact.Rr {r e d : ℕ} (f : Fact (r + e) (r + d)) : Matrix (Fin r) (Fin r) ℝ := f.R.submatrix (Fin.castAdd e) (Fin.castAdd d)

/-- `S = Rtot[:rank, rank:]`, funpy/linalg/qr_chol.py:51. -/
def Fact.Sr {r e d : ℕ} (f : Fact (r + e) (r + d)) : Matrix (Fin r) (Fin d) ℝ := f.R.submatrix (Fin.castAdd e) (Fin.natAdd r)

/-- `jbar = solve_triangular(R, S)`, funpy/linalg/qr_chol.py:55. -/
noncomputable def Fact.jbar {r e d : ℕ} (f : Fact (r + e) (r + d)) : Matrix (Fin r) (Fin d) ℝ := f.Rr⁻¹ * f.Sr

/-- `M = np.eye(max(m, n) - rank) + jbar.T @ jbar`, funpy/linalg/qr_chol.py:58, for `m ≤ n` (otherwise the shapes do
not match). -/
noncomputable def Fact.M {r e d : ℕ} (f : Fact (r + e) (r + d)) : Matrix (Fin d) (Fin d) ℝ := 1 + f.jbarᵀ * f.jbar

/-- `solve_singular_dense`, funpy/linalg/qr_chol.py:177-200.  `L` is the output of `LA.cholesky(M)`, the *upper*
triangular factor with `Lᵀ L = M`; `solve_triangular(L, tmp, trans=1)` solves with `Lᵀ`. -/
noncomputable def Fact.solveSingular {r e d : ℕ} (f : Fact (r + e) (r + d)) (L : Matrix (Fin d) (Fin d) ℝ)
    (b : Fin (r + e) → ℝ) : Fin (r + d) → ℝ :=
  let c := f.Qᵀ *ᵥ b
  let Pyk := -(f.Rr⁻¹ *ᵥ fun i => c (Fin.castAdd e i))
  let Qyk := f.jbarᵀ *ᵥ Pyk
  let tmp := L⁻¹ *ᵥ Qyk
  let Qxk := (Lᵀ)⁻¹ *ᵥ tmp
  let Pxk := Pyk - f.jbar *ᵥ Qxk
  fun i => -f.permP (Fin.append Pxk Qxk) i

/-- `tangent_vector()`, funpy/linalg/qr_chol.py:131-137, for rank deficiency one. -/
noncomputable def Fact.tangent {r e : ℕ} (f : Fact (r + e) (r + 1)) : Fin (r + 1) → ℝ :=
  let w : Fin r → ℝ := fun i => f.jbar i 0
  let s := Real.sqrt (1 + w ⬝ᵥ w)
  f.permP (fun i => snoc (-w) 1 i / s)

/-- The pivot array with the entry of the last column removed and renumbered, funpy/linalg/qr_chol.py:116-123. -/
def Fact.nC (f : Fact n (n + 1)) : List ℕ :=
  let toDelete := (f.C.symm (Fin.last n)).val
  let idx := f.P.idxOf toDelete
  (f.P.eraseIdx idx).map fun x => if toDelete < x then x - 1 else x

/-- `H = np.delete(Rtot, to_delete, 1)` as a function of row and column numbers, funpy/linalg/qr_chol.py:127. -/
def Fact.H (f : Fact n (n + 1)) (i j : ℕ) : ℝ :=
  let j' := if j < (f.C.symm (Fin.last n)).val then j else j + 1
  if h : i < n ∧ j' < n + 1 then f.R ⟨i, h.1⟩ ⟨j', h.2⟩ else 0

/-- `QRCholesky.detH()`, funpy/linalg/qr_chol.py:110-129, for an `n × (n+1)` matrix; `none` is the exception raised by
`slogdet_hessenberg` for a singular matrix. -/
noncomputable def Fact.detH (f : Fact n (n + 1)) (eps : ℝ) : Option ℝ :=
  (LinHelpers.slogdetHessenberg eps n f.H).map fun sl =>
    (-1) ^ (LinHelpers.minimumSwaps f.nC + f.k) * sl.P * Real.exp sl.logdet

end Funpy.QR
