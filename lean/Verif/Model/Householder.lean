import Verif.Model.QR
import Mathlib.Data.Matrix.Mul
import Mathlib.Data.Real.Sqrt
import Mathlib.Data.Complex.Basic

/-!
# Model: the Householder QR factorisation behind `funpy.linalg.qr` and `QR(A)`

`funpy/linalg/qr.py` and `funpy/linalg/qr_solve.py` call LAPACK (`geqp3`, `geqrf`, `orgqr`) and count the nonzero
factors `tau`.  Here LAPACK's documented algorithm is modelled in exact real arithmetic: every step chooses a pivot
column, swaps it to the front and reflects it onto a multiple of a unit vector (`larfg`).  The choice of the pivot column
is a parameter.  The array `qr` of LAPACK holds `R` in its upper triangle and the vectors `v` below; here they are kept
separately.
-/

namespace Funpy.QR

open Matrix Equiv

variable {m n : ℕ}

/-- The state after some steps: the partially reduced matrix, the pivot array and the pairs `(v, tau)`. -/
structure HState (m n : ℕ) where
  R : Matrix (Fin m) (Fin n) ℝ
  C : Perm (Fin n)
  vs : List ((Fin m → ℝ) × ℝ)

/-- LAPACK `dlarfg`: `beta` and `tau` for a column with leading entry `alpha` and squared norm `x2` of the entries
below. -/
noncomputable def larfg (alpha x2 : ℝ) : ℝ × ℝ :=
  if x2 = 0 then (alpha, 0)
  else
    let beta := if 0 ≤ alpha then -Real.sqrt (alpha ^ 2 + x2) else Real.sqrt (alpha ^ 2 + x2)
    (beta, (beta - alpha) / beta)

/-- The squared norm of the entries of column `j` in the rows below row `i`. -/
def below (R : Matrix (Fin m) (Fin n) ℝ) (i : ℕ) (j : Fin n) : ℝ := ∑ a : Fin m, if i < a.val then R a j ^ 2 else 0

/-- The vector of the reflection: `0` above row `i`, `1` in row `i`, the entries of column `i` divided by `alpha - beta`
below. -/
noncomputable def hvec (R : Matrix (Fin m) (Fin n) ℝ) (i : Fin m) (j : Fin n) (beta : ℝ) : Fin m → ℝ := fun a =>
  if a.val < i.val then 0 else if a = i then 1 else R a j / (R i j - beta)

/-- LAPACK `dlarf`: `M - tau v (vᵀ M)`. -/
def larf (v : Fin m → ℝ) (tau : ℝ) (M : Matrix (Fin m) (Fin n) ℝ) : Matrix (Fin m) (Fin n) ℝ := M - tau • vecMulVec v (v ᵥ* M)

/-- One step of `geqp3` (with the identity as pivot choice: of `geqrf`), called from funpy/linalg/qr.py:48-55 and
funpy/linalg/qr_solve.py:67. -/
noncomputable def hstep (piv : ℕ → Matrix (Fin m) (Fin n) ℝ → Fin n) (s : HState m n) (i : ℕ) : HState m n :=
  if h : i < m ∧ i < n then
    let r : Fin m := ⟨i, h.1⟩
    let c : Fin n := ⟨i, h.2⟩
    let sw := Equiv.swap c (piv i s.R)
    let R := s.R.submatrix id sw
    let bt := larfg (R r c) (below R i c)
    let v := hvec R r c bt.1
    ⟨larf v bt.2 R, sw.trans s.C, s.vs ++ [(v, bt.2)]⟩
  else s

/-- All `min(m, n)` steps. -/
noncomputable def hrun (piv : ℕ → Matrix (Fin m) (Fin n) ℝ → Fin n) (A : Matrix (Fin m) (Fin n) ℝ) : HState m n :=
  (List.range (min m n)).foldl (hstep piv) ⟨A, Equiv.refl _, []⟩

/-- LAPACK `orgqr`: the product of the reflections `1 - tau v vᵀ`, funpy/linalg/qr.py:72-87. -/
def orgqr (vs : List ((Fin m → ℝ) × ℝ)) : Matrix (Fin m) (Fin m) ℝ :=
  vs.foldl (fun Q p => Q * (1 - p.2 • vecMulVec p.1 p.1)) 1

/-- `np.count_nonzero` -/
noncomputable def countNonzero (l : List ℝ) : ℕ := l.countP fun t => decide (t ≠ 0)

/-- The result of `qr(A, pivoting=..., mode='full')`, funpy/linalg/qr.py:31-99, and the attributes of `QR(A)`,
funpy/linalg/qr_solve.py:62-77: `R = np.triu(qr)`, and the number `k` of reflections (qr.py:94-97, qr_solve.py:71). -/
noncomputable def qr (piv : ℕ → Matrix (Fin m) (Fin n) ℝ → Fin n) (A : Matrix (Fin m) (Fin n) ℝ) : Fact m n :=
  let s := hrun piv A
  let tau := s.vs.map Prod.snd
  { Q := orgqr s.vs
    R := fun a j => if j.val < a.val then 0 else s.R a j
    C := s.C
    k := if m ≤ n then countNonzero tau.dropLast else countNonzero tau }

end Funpy.QR

namespace Funpy.QR

/-- LAPACK `zlarfg` for a single complex entry: unlike the real case it produces a nontrivial factor unless the entry is
real. -/
noncomputable def larfgComplexOne (alpha : ℂ) : ℂ × ℂ :=
  if alpha.im = 0 then (alpha, 0)
  else
    let beta : ℝ := if 0 ≤ alpha.re then -Real.sqrt (alpha.re ^ 2 + alpha.im ^ 2) else Real.sqrt (alpha.re ^ 2 + alpha.im ^ 2)
    (beta, ⟨(beta - alpha.re) / beta, -alpha.im / beta⟩)

/-- `QR(A).det()` for a complex `1 × 1` matrix, funpy/linalg/qr_solve.py:62-77, 149-162: `k` counts the nonzero entries of
`tau[:-1]`, which is empty; `np.sign` of the real number `beta`. -/
noncomputable def detComplexOne (alpha : ℂ) : ℝ :=
  let beta := (larfgComplexOne alpha).1.re
  (-1) ^ (countNonzero [] + 0) * SignType.sign beta * Real.exp (Real.log |beta|)

end Funpy.QR
