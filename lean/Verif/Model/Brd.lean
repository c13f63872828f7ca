import Verif.Model.QR
import Verif.Model.Lucp

/-!
# Bordered systems

Models `funpy/linalg/brd_solve.py`.  The class `BMatrix` (exported by `funpy.linalg`) works on the output of the pivoted QR
factorisation of LAPACK, which is an oracle (`QR.Fact`, as in Model/QR); `solve_triangular` is the exact solution of the
triangular system.  The functions `solve`, `solve_nonsing`, `solve_sing`, `solve_null_nonsing`, `nullvector`, `brd_null_simp` and
`brd_null` work on an LU factorisation with row and column permutations (SuperLU of scipy, an oracle, or `lucp`, Model/Lucp).

Vectors of length `n + 1` passed to or returned by `BMatrix` are functions on `Fin n ⊕ Unit`.
-/

namespace Funpy.Brd

open Matrix Funpy.QR

/-! ## `BMatrix` -/

variable {n : ℕ}

/-- A `BMatrix`, funpy/linalg/brd_solve.py:29-63: the four blocks, the factorisation and the tolerance. -/
structure BMatrix (n : ℕ) where
  /-- block -/
  A : Matrix (Fin (n + 1)) (Fin (n + 1)) ℝ
  /-- last row -/
  b : Fin (n + 1) → ℝ
  /-- last column -/
  c : Fin (n + 1) → ℝ
  /-- corner -/
  d : ℝ
  /-- `qr(self.A, pivoting=True, mode='full')` -/
  f : Fact (n + 1) (n + 1)
  /-- `tol` -/
  tol : ℝ

/-- Vectors of the bordered system: `np.hstack((x, z))`. -/
def hstack (x : Fin n → ℝ) (z : ℝ) : Fin n ⊕ Unit → ℝ := Sum.elim x fun _ => z

/-- `BMatrix.mat`, funpy/linalg/brd_solve.py:69-77. -/
def BMatrix.mat (M : BMatrix n) : Matrix (Fin (n + 1) ⊕ Unit) (Fin (n + 1) ⊕ Unit) ℝ := fun i j =>
  match i, j with
  | .inl i, .inl j => M.A i j
  | .inr _, .inl j => M.b j
  | .inl i, .inr _ => M.c i
  | .inr _, .inr _ => M.d

/-- `BMatrix._matvec(x)`, funpy/linalg/brd_solve.py:79-81. -/
def BMatrix.matvec (M : BMatrix n) (x : Fin (n + 1) ⊕ Unit → ℝ) : Fin (n + 1) ⊕ Unit → ℝ :=
  hstack (M.A *ᵥ (fun i => x (.inl i)) + x (.inr ()) • M.c) (M.b ⬝ᵥ (fun i => x (.inl i)) + x (.inr ()) * M.d)

/-- `BMatrix.part(b)`, funpy/linalg/brd_solve.py:98-101. -/
noncomputable def BMatrix.part (M : BMatrix n) (b : Fin (n + 1) → ℝ) : Fin (n + 1) → ℝ :=
  M.f.permP (snoc (M.f.Rbar⁻¹ *ᵥ init (M.f.Qᵀ *ᵥ b)) 0)

/-- `BMatrix.null()`, funpy/linalg/brd_solve.py:83-96: as `QR.null` (Model/QR). -/
noncomputable def BMatrix.null (M : BMatrix n) : (Fin (n + 1) → ℝ) × (Fin (n + 1) → ℝ) :=
  (M.f.permP (snoc (M.f.Rbar⁻¹ *ᵥ M.f.Sbar) (-1)), M.f.Q *ᵥ (snoc 0 1))

/-- `BMatrix.solve_singular(b)`, funpy/linalg/brd_solve.py:103-119. -/
noncomputable def BMatrix.solveSingular (M : BMatrix n) (b : Fin (n + 1) ⊕ Unit → ℝ) : Fin (n + 1) ⊕ Unit → ℝ :=
  let phi := M.null.1
  let psi := M.null.2
  let f : Fin (n + 1) → ℝ := fun i => b (.inl i)
  let h := b (.inr ())
  let z := (psi ⬝ᵥ f) / (psi ⬝ᵥ M.c)
  let xp := M.part (f - z • M.c)
  let al := (h - M.d * z - M.b ⬝ᵥ xp) / (M.b ⬝ᵥ phi)
  hstack (xp + al • phi) z

/-- `beta`, funpy/linalg/brd_solve.py:123, 147. -/
noncomputable def BMatrix.beta (M : BMatrix n) : Fin (n + 1) → ℝ := (M.f.Rᵀ)⁻¹ *ᵥ fun j => M.b (M.f.C j)

/-- `gamma`, funpy/linalg/brd_solve.py:124, 148. -/
noncomputable def BMatrix.gamma (M : BMatrix n) : Fin (n + 1) → ℝ := M.f.Qᵀ *ᵥ M.c

/-- `delta`, funpy/linalg/brd_solve.py:125, 149. -/
noncomputable def BMatrix.delta (M : BMatrix n) : ℝ := M.d - M.beta ⬝ᵥ M.gamma

/-- `BMatrix.solve_nonsingular(b)`, funpy/linalg/brd_solve.py:121-138. -/
noncomputable def BMatrix.solveNonsingular (M : BMatrix n) (b : Fin (n + 1) ⊕ Unit → ℝ) : Fin (n + 1) ⊕ Unit → ℝ :=
  let fhat := M.f.Qᵀ *ᵥ fun i => b (.inl i)
  let hhat := b (.inr ()) - M.beta ⬝ᵥ fhat
  let z := hhat / M.delta
  let xhat := M.f.R⁻¹ *ᵥ (fhat - z • M.gamma)
  hstack (M.f.permP xhat) z

/-- `is_singular`, funpy/linalg/brd_solve.py:57. -/
noncomputable def BMatrix.isSingular (M : BMatrix n) : Bool := M.f.isSingular M.tol

/-- `BMatrix.solve`, funpy/linalg/brd_solve.py:58. -/
noncomputable def BMatrix.solve (M : BMatrix n) (b : Fin (n + 1) ⊕ Unit → ℝ) : Fin (n + 1) ⊕ Unit → ℝ :=
  if M.isSingular then M.solveSingular b else M.solveNonsingular b

/-- `BMatrix.solve_null`, funpy/linalg/brd_solve.py:59, 140-155. -/
noncomputable def BMatrix.solveNull (M : BMatrix n) : Fin (n + 1) ⊕ Unit → ℝ :=
  if M.isSingular then hstack M.null.1 0
  else
    let z := 1 / M.delta
    hstack (M.f.permP (M.f.R⁻¹ *ᵥ (-z • M.gamma))) z

/-! ## The functions working on an LU factorisation -/

section lu

variable {K : Type*} [Field K] [LinearOrder K]

/-- `permutation(arr, p)`, funpy/linalg/brd_solve.py:21-26: the loop `oarr[p[i]] = arr[i]` over the `n` entries. -/
def permutation (n : ℕ) (arr : ℕ → K) (p : ℕ → ℕ) : ℕ → K :=
  (List.range n).foldl (fun o i => LinHelpers.setAt o (p i) (arr i)) (fun _ => 0)

/-- An LU factorisation of an `n × n` matrix with its two permutation vectors (the attributes of the object returned by `splu`, or `LUCP`,
funpy/linalg/brd_solve.py:472-482).  `L` and `U` are functions of the row and column number. -/
structure LU (K : Type*) where
  /-- `lu.shape[0]` -/
  n : ℕ
  /-- lower factor -/
  L : ℕ → ℕ → K
  /-- upper factor -/
  U : ℕ → ℕ → K
  /-- `perm_r` -/
  permR : Equiv.Perm ℕ
  /-- `perm_c` -/
  permC : Equiv.Perm ℕ

/-- `LAS.spsolve_triangular(L, b, lower=True)` for an `N × N` matrix by forward substitution. -/
def forsub (N : ℕ) (L : ℕ → ℕ → K) (b : ℕ → K) : ℕ → K :=
  (List.range N).foldl (fun x i => LinHelpers.setAt x i ((b i - ∑ j ∈ Finset.range i, L i j * x j) / L i i)) b

/-- `lu.U.transpose()`. -/
def transp (M : ℕ → ℕ → K) : ℕ → ℕ → K := fun i j => M j i

/-- `gamma`, funpy/linalg/brd_solve.py:181, 375, 568. -/
def LU.gamma (lu : LU K) (c : ℕ → K) : ℕ → K := forsub lu.n lu.L (permutation lu.n c lu.permR)

/-- `beta`, funpy/linalg/brd_solve.py:182, 376, 569. -/
def LU.beta (lu : LU K) (b : ℕ → K) : ℕ → K := forsub lu.n (transp lu.U) (permutation lu.n b lu.permC)

/-- `np.dot` of vectors of length `n`. -/
def dot (n : ℕ) (x y : ℕ → K) : K := ∑ i ∈ Finset.range n, x i * y i

/-- `delta`, funpy/linalg/brd_solve.py:183, 377, 570. -/
def LU.delta (lu : LU K) (b c : ℕ → K) (d : K) : K := d - dot lu.n (lu.beta b) (lu.gamma c)

/-- `solve(A, b, c, d, f)` after `lu = LAS.splu(A)`, funpy/linalg/brd_solve.py:158-191.  The result has the length `n + 1`. -/
def LU.solve (lu : LU K) (b c : ℕ → K) (d : K) (f : ℕ → K) : ℕ → K :=
  let n := lu.n
  let gamma := lu.gamma c
  let beta := lu.beta b
  let delta := lu.delta b c d
  let fhat := forsub n lu.L (permutation n f lu.permR)
  let hhat := f n - dot n beta fhat
  let xn := hhat / delta
  let x := Lucp.backsub n lu.U (fun i => fhat i - xn * gamma i)
  fun i => if i < n then x (lu.permC i) else xn

/-- `solve_nonsing(lu, b, c, d)`, funpy/linalg/brd_solve.py:346-383, and the first vector of `solve_null_nonsing`, 567-574. -/
def LU.solveNonsing (lu : LU K) (b c : ℕ → K) (d : K) : ℕ → K :=
  let n := lu.n
  let vn := 1 / lu.delta b c d
  let x := Lucp.backsub n lu.U (fun i => -vn * lu.gamma c i)
  fun i => if i < n then x (lu.permC i) else vn

/-- The second vector of `solve_null_nonsing`, funpy/linalg/brd_solve.py:576-583. -/
def LU.solveNonsingAdj (lu : LU K) (b c : ℕ → K) (d : K) : ℕ → K :=
  let n := lu.n
  let gamma := lu.beta b
  let beta := lu.gamma c
  let delta := d - dot n beta gamma
  let wn := 1 / delta
  let x := Lucp.backsub n (transp lu.L) (fun i => -wn * gamma i)
  fun i => if i < n then x (lu.permR i) else wn

/-- The right null vector of `solve_sing`, `brd_solve` and `nullvector`, funpy/linalg/brd_solve.py:405-414, 494-504. -/
def LU.phi (lu : LU K) : ℕ → K :=
  let n := lu.n
  let x := Lucp.backsub (n - 1) lu.U (fun i => lu.U i (n - 1))
  let phi := fun i => if i < n - 1 then x i else -1
  fun i => phi (lu.permC i)

/-- The left null vector of `solve_sing`, funpy/linalg/brd_solve.py:417-426. -/
def LU.psi (lu : LU K) : ℕ → K :=
  let n := lu.n
  let y := Lucp.backsub (n - 1) (transp lu.L) (fun j => lu.L (n - 1) j)
  let psi := fun i => if i < n - 1 then y i else -1
  permutation n psi lu.permR

/-- `solve_sing(lu, b, c, d)`, funpy/linalg/brd_solve.py:386-469. -/
def LU.solveSing (lu : LU K) (b c : ℕ → K) (d : K) : ℕ → K :=
  let n := lu.n
  let phi := lu.phi
  let psi := lu.psi
  let xp : ℕ → K := fun _ => 0
  let z := dot n psi xp / dot n psi c
  let xp := fun i => xp i - c i * z
  let xp := forsub n lu.L (fun i => xp (lu.permR i))
  let x1 := Lucp.backsub (n - 1) lu.U xp
  let xp := fun i => if i < n - 1 then x1 i else 0
  let xp := permutation n xp lu.permR
  let alpha := (1 - d * z - dot n b xp) / dot n b phi
  fun i => if i < n then xp i + alpha * phi i else z

/-- `LUCP(A)`, funpy/linalg/brd_solve.py:472-478, with the default tolerance of `lucp` as an argument. -/
def LU.ofLucp (n : ℕ) (tol : K) (A : ℕ → ℕ → K) : LU K :=
  let s := (Lucp.lucp n n tol A).1
  ⟨n, Lucp.lower s.A, Lucp.upper s.A, s.p, s.q⟩

/-- `nullvector(A)`, funpy/linalg/brd_solve.py:485-506. -/
def nullvector (n : ℕ) (tol : K) (A : ℕ → ℕ → K) : ℕ → K := (LU.ofLucp n tol A).phi

/-- `brd_null_simp(A, b, c, d, eps)`, funpy/linalg/brd_solve.py:509-529 (`tol` is the default of `lucp`). -/
def brdNullSimp (n : ℕ) (tol eps : K) (A : ℕ → ℕ → K) (b c : ℕ → K) (d : K) : ℕ → K :=
  let lu := LU.ofLucp n tol A
  if |lu.U (n - 1) (n - 1)| < eps then lu.solveSing b c d else lu.solveNonsing b c d

/-- `brd_null(A, b, c, d, eps)` after `lu = LAS.splu(A)`, funpy/linalg/brd_solve.py:588-606.  `none`: `solve_null_sing` is not defined
(`NameError`).  Note the missing absolute value. -/
def LU.brdNull (lu : LU K) (eps : K) (b c : ℕ → K) (d : K) : Option ((ℕ → K) × (ℕ → K)) :=
  if lu.U (lu.n - 1) (lu.n - 1) < eps then none else some (lu.solveNonsing b c d, lu.solveNonsingAdj b c d)

end lu

end Funpy.Brd
