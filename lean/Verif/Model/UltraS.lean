import Verif.Model.ChebChop
import Mathlib.Data.Matrix.Mul

/-!
# Model: matrices of the ultraspherical spectral method
(funpy/colloc/ultraS/matrices.py, funpy/colloc/ultraS/transform.py)

Sparse matrices are modelled by the matrices they denote (`Matrix (Fin n) (Fin n) ℝ`); the memory
format (`format=`) and the `lru_cache` decorators have no influence on the entries.
-/

namespace Funpy.UltraS
open Matrix

/-- One diagonal of `scipy.sparse.spdiags(data, offset, n, n)`: the entry in column `j` is `data[j]`; columns
beyond the length of `data` are not filled. -/
def spdiag (n : ℕ) (data : List ℝ) (offset : ℤ) : Matrix (Fin n) (Fin n) ℝ :=
  fun i j => if (j : ℤ) - i = offset ∧ (j : ℕ) < data.length then data.getD j 0 else 0

/-- The loop `for s in range(1, m): D = spdiags(2*s*ones(n), 1, n, n) * D`,
funpy/colloc/ultraS/matrices.py:43-44; `cnt` remaining iterations starting at `s`. -/
def diffLoop (n : ℕ) : ℕ → ℕ → Matrix (Fin n) (Fin n) ℝ → Matrix (Fin n) (Fin n) ℝ
  | 0, _, D => D
  | cnt + 1, s, D => diffLoop n cnt (s + 1) (spdiag n (List.replicate n (2 * (s : ℝ) * 1)) 1 * D)

/-- `diffmat(n, m)`, funpy/colloc/ultraS/matrices.py:39-49, for `m ≥ 0` (a negative `m` gives
`NotImplemented`). -/
def diffmat (n m : ℕ) : Matrix (Fin n) (Fin n) ℝ :=
  if m > 0 then diffLoop n (m - 1) 1 (spdiag n ((List.range n).map fun k : ℕ => (k : ℝ)) 1) else 1

/-- `spconvert(n, lam)`, funpy/colloc/ultraS/transform.py:92-106.  (`np.ones(n - 2)` raises for
`n < 2` when `lam = 0`; the theorems assume `2 ≤ n` there.) -/
noncomputable def spconvert (n lam : ℕ) : Matrix (Fin n) (Fin n) ℝ :=
  if lam = 0 then
    let dg : List ℝ := List.replicate (n - 2) (0.5 * 1)
    spdiag n ([1, 0.5] ++ dg) 0 + spdiag n ([0, 0] ++ dg.map (- ·)) 2
  else
    let dg : List ℝ := (List.range (n - 2)).map fun i : ℕ => (lam : ℝ) / (lam + ((i : ℝ) + 2))
    spdiag n ([1, (lam : ℝ) / (lam + 1)] ++ dg) 0 + spdiag n ([0, 0] ++ dg.map (- ·)) 2

/-- `convertmat(n, K1, K2)`, funpy/colloc/ultraS/matrices.py:53-68; the loop
`for s in range(K1, K2 + 1): S = spconvert(n, s) * S` with `cnt = K2 + 1 - K1` iterations. -/
noncomputable def convertLoop (n : ℕ) : ℕ → ℕ → Matrix (Fin n) (Fin n) ℝ → Matrix (Fin n) (Fin n) ℝ
  | 0, _, S => S
  | cnt + 1, s, S => convertLoop n cnt (s + 1) (spconvert n s * S)

/-- `convertmat(n, K1, K2)`, funpy/colloc/ultraS/matrices.py:53-68.  `K2 = -1` (passed by the callers for
output space 0) makes the range empty, so `K2` is an integer. -/
noncomputable def convertmat (n K1 : ℕ) (K2 : ℤ) : Matrix (Fin n) (Fin n) ℝ :=
  convertLoop n (K2 + 1 - K1).toNat K1 1

/-- `scipy.sparse.diags(nn * [dg], np.arange(0, n, 2))`: on every even offset the entries are `dg[i]` in row
`i` (`diags` numbers the entries from the start of the diagonal and drops the surplus). -/
def evenUpper (n : ℕ) (dg : List ℝ) : Matrix (Fin n) (Fin n) ℝ :=
  fun i j => if (i : ℕ) ≤ j ∧ ((j : ℕ) - i) % 2 = 0 then dg.getD i 0 else 0

/-- `spconvert_inv(n, lam)`, funpy/colloc/ultraS/transform.py:109-123. -/
noncomputable def spconvertInv (n lam : ℕ) : Matrix (Fin n) (Fin n) ℝ :=
  if lam = 0 then evenUpper n ([1] ++ List.replicate (n - 1) (2 * 1))
  else evenUpper n ([1] ++ (List.range (n - 1)).map fun i : ℕ => ((lam : ℝ) + ((i : ℝ) + 1)) / lam)

/-- The loop `for s in range(K2, K1 - 1, -1)` of `convertmat_inv`,
funpy/colloc/ultraS/matrices.py:75-76; `cnt` iterations, the last one with `s = K1`. -/
noncomputable def convertInvLoop (n K1 : ℕ) : ℕ → Matrix (Fin n) (Fin n) ℝ → Matrix (Fin n) (Fin n) ℝ
  | 0, S => S
  | cnt + 1, S => convertInvLoop n K1 cnt (spconvertInv n (K1 + cnt) * S)

/-- `convertmat_inv(n, K1, K2)`, funpy/colloc/ultraS/matrices.py:71-78. -/
noncomputable def convertmatInv (n K1 : ℕ) (K2 : ℤ) : Matrix (Fin n) (Fin n) ℝ :=
  convertInvLoop n K1 (K2 + 1 - K1).toNat 1

/-! ### Multiplication operators -/

open Classical in
/-- The positions `ic` of the non-zero entries, `find(col)`, funpy/colloc/ultraS/transform.py:12-19. -/
noncomputable def nonzeros (col : List ℝ) : List ℕ :=
  (List.range col.length).filter fun k => decide (col.getD k 0 ≠ 0)

/-- `sptoeplitz_fast(col)`, funpy/colloc/ultraS/transform.py:22-47, with its three branches: one
non-zero entry, a dense Toeplitz matrix (both for fewer than 100 entries), and the construction by
diagonals, which lists the upper diagonals `ic[1:]` and the lower diagonals `-ic`. -/
noncomputable def sptoeplitzFast (k : ℕ) (col : List ℝ) : Matrix (Fin k) (Fin k) ℝ :=
  if col.length < 100 then
    match nonzeros col with
    | [Ic] =>
      if Ic = 0 then spdiag k (List.replicate col.length (col.getD Ic 0 * 1)) 0
      else spdiag k (List.replicate col.length (col.getD Ic 0 * 1)) (-(Ic : ℤ)) +
        spdiag k (List.replicate col.length (col.getD Ic 0 * 1)) Ic
    | _ => fun i j => col.getD ((i : ℤ) - j).natAbs 0
  else
    let ic := nonzeros col
    let d : List (ℤ × ℝ) := ((ic.drop 1).map fun a : ℕ => ((a : ℤ), col.getD a 0)) ++
      ic.map fun a : ℕ => (-(a : ℤ), col.getD a 0)
    (d.map fun p => spdiag k (List.replicate col.length p.2) p.1).sum

/-- `sphankel(r)[i, j]`, funpy/colloc/ultraS/transform.py:82-89: the upper triangular Toeplitz matrix of
the flipped vector (diagonals with a zero entry are not stored), columns flipped. -/
noncomputable def sphankel (r : List ℝ) (i j : ℕ) : ℝ :=
  let n := r.length
  let j' := n - 1 - j
  if i ≤ j' then r.reverse.getD (j' - i) 0 else 0

/-- The machine epsilon `np.finfo(float).eps`, the default of `eps` in
funpy/colloc/ultraS/matrices.py:81. -/
noncomputable def machEps : ℝ := 2 ^ (-52 : ℤ)

/-- The coefficient vector used by `multmat`, funpy/colloc/ultraS/matrices.py:95-106: optional chopping, then
padding with zeros or truncation to `k` entries. -/
noncomputable def multCoeffs (k : ℕ) (c : List ℝ) (eps : ℝ) : List ℝ :=
  open Classical in
  let c := if eps > machEps then
      let cutoff := max 1 (Cheb.standardChop c eps 2)
      if cutoff < c.length then c.take (cutoff + 1) else c
    else c
  if c.length < k then c ++ List.replicate (k - c.length) 0 else c.take k

/-- The multiplication by `x` in the `C^{(lam)}` basis, `Mx`,
funpy/colloc/ultraS/matrices.py:126-128. -/
noncomputable def multX (m lam : ℕ) : Matrix (Fin m) (Fin m) ℝ :=
  let d1 : List ℝ := [1 / 1] ++ (List.range (m - 1)).map fun i : ℕ =>
    (2 * (lam : ℝ) + i) / (2 * ((lam : ℝ) + 1 + i))
  let d2 : List ℝ := (List.range m).map fun i : ℕ => (1 + (i : ℝ)) / (2 * ((lam : ℝ) + i))
  spdiag m d2 (-1) + spdiag m d1 1

open Classical in
/-- The loop `for nn in range(c.size - 2)`, funpy/colloc/ultraS/matrices.py:135-141, with `cnt` remaining
iterations; it is left as soon as all later coefficients are below `eps`. -/
noncomputable def multLoop {m : ℕ} (lam : ℕ) (c : List ℝ) (eps : ℝ) (Mx : Matrix (Fin m) (Fin m) ℝ) :
    ℕ → ℕ → Matrix (Fin m) (Fin m) ℝ → Matrix (Fin m) (Fin m) ℝ → Matrix (Fin m) (Fin m) ℝ →
      Matrix (Fin m) (Fin m) ℝ
  | 0, _, _, _, M => M
  | cnt + 1, nn, M0, M1, M =>
    let M2 := (2 * (1 + (nn : ℝ) + lam) / (nn + 2)) • (Mx * M1) - (((nn : ℝ) + 2 * lam) / (nn + 2)) • M0
    let M := M + c.getD (nn + 2) 0 • M2
    if ∀ z ∈ c.drop (nn + 3), |z| < eps then M
    else multLoop lam c eps Mx cnt (nn + 1) M1 M2 M

/-- The upper left `k × k` block `M[:k, :k]` of a `2k × 2k` matrix,
funpy/colloc/ultraS/matrices.py:144. -/
def corner (k : ℕ) (M : Matrix (Fin (2 * k)) (Fin (2 * k)) ℝ) : Matrix (Fin k) (Fin k) ℝ :=
  fun i j => M ⟨i, by omega⟩ ⟨j, by omega⟩

/-- `multmat(k, f, lam, eps=eps)` for a function with the Chebyshev coefficients `c`,
funpy/colloc/ultraS/matrices.py:81-147.  (For `lam = 1` and `k = 2` the code builds an empty
Hankel matrix; the theorems assume `3 ≤ k` there.) -/
noncomputable def multmat (k : ℕ) (c : List ℝ) (lam : ℕ) (eps : ℝ := machEps) : Matrix (Fin k) (Fin k) ℝ :=
  if c.length = 1 then c.getD 0 0 • (1 : Matrix (Fin k) (Fin k) ℝ)
  else
    let c := multCoeffs k c eps
    if lam = 0 then
      let c := c.map (· / 2)
      let M := sptoeplitzFast k ((2 * c.getD 0 0) :: c.drop 1)
      let H : Matrix (Fin k) (Fin k) ℝ := fun i j =>
        if 1 ≤ (i : ℕ) ∧ (j : ℕ) < k - 1 then sphankel (c.drop 1) (i - 1) j else 0
      M + H
    else if lam = 1 then
      let M := sptoeplitzFast k ((2 * c.getD 0 0) :: c.drop 1)
      let M := (1 / 2 : ℝ) • M
      let H : Matrix (Fin k) (Fin k) ℝ := fun i j =>
        if (i : ℕ) < k - 2 ∧ (j : ℕ) < k - 2 then sphankel ((c.drop 2).map (· / 2)) i j else 0
      M - H
    else
      let cv := (convertmat k 0 ((lam : ℤ) - 1)).mulVec fun i : Fin k => c.getD i 0
      let c := List.ofFn cv
      let Mx := multX (2 * k) lam
      let M1 := (2 * (lam : ℝ)) • Mx
      let M := c.getD 0 0 • (1 : Matrix (Fin (2 * k)) (Fin (2 * k)) ℝ) + c.getD 1 0 • M1
      corner k (multLoop lam c eps Mx (c.length - 2) 0 1 M1 M)

/-- The weights of `intmat(k)`, funpy/colloc/ultraS/matrices.py:165-167. -/
noncomputable def intWeights (k : ℕ) : List ℝ :=
  let w := [2, 0] ++ (List.range (k - 2)).map fun i : ℕ => 2 / (1 - ((i : ℝ) + 2) ^ 2)
  w.mapIdx fun j a => if j % 2 = 1 then 0 else a

/-- `intmat(k)`, funpy/colloc/ultraS/matrices.py:150-170 (`k ≥ 2`). -/
noncomputable def intmat (k : ℕ) : Matrix (Fin k) (Fin k) ℝ :=
  fun i j => if (i : ℕ) = 0 then (intWeights k).getD j 0 else 0

/-! ### Discretisation of a linear operator -/

/-- `ultraS.diff(m)` on one interval of length `len`, funpy/colloc/ultraS/ultraS.py:53-67. -/
noncomputable def discDiff (n m : ℕ) (len : ℝ) : Matrix (Fin n) (Fin n) ℝ :=
  if m = 0 then 1 else ((2 / len) ^ m) • diffmat n m

/-- `ultraS.int()` on one interval of length `len`, funpy/colloc/ultraS/ultraS.py:69-78. -/
noncomputable def discInt (n : ℕ) (len : ℝ) : Matrix (Fin n) (Fin n) ℝ := len • (0.5 : ℝ) • intmat n

/-- `ultraS.convert(K1)` on one interval with output space `out`, funpy/colloc/ultraS/ultraS.py:31-40. -/
noncomputable def discConvert (n K1 out : ℕ) : Matrix (Fin n) (Fin n) ℝ := convertmat n K1 ((out : ℤ) - 1)

/-- `ultraS.iconvert(K1)`, funpy/colloc/ultraS/ultraS.py:42-51. -/
noncomputable def discIConvert (n K1 out : ℕ) : Matrix (Fin n) (Fin n) ℝ := convertmatInv n K1 ((out : ℤ) - 1)

/-- The linear operator handed to `quasi2diffmat`: the Chebyshev coefficients of the coefficient functions
`a_0, a_1, …` with the flags `info[j]` (false: the term is known to vanish and is skipped), and the
pairs `(c, d)` of the integral terms `c(x) ∫ d u`. -/
structure Source where
  /-- `source.getCoeffs()` with `source.info()` -/
  coeff : List (Bool × List ℝ)
  /-- `source.getICoeffs()` and `source.getIntegrand()`; empty if `info[-1]` is false -/
  integral : List (List ℝ × List ℝ)

/-- The matrix `L` of `quasi2diffmat`, funpy/colloc/ultraS/ultraS.py:157-214, on one interval of
length `len` with output space `out`. -/
noncomputable def quasi2diffmat (n : ℕ) (len : ℝ) (out : ℕ) (s : Source) (adjoint : Bool := false) :
    Matrix (Fin n) (Fin n) ℝ :=
  let term (j : ℕ) (p : Bool × List ℝ) : Matrix (Fin n) (Fin n) ℝ :=
    if p.1 then
      let A := discConvert n j out * multmat n p.2 j * discDiff n j len
      if adjoint && j % 2 == 1 then -A else A
    else 0
  let iterm (p : List ℝ × List ℝ) : Matrix (Fin n) (Fin n) ℝ :=
    let q := if adjoint then (p.2, p.1) else p
    discConvert n 0 out * multmat n q.1 0 * discInt n len * multmat n q.2 0
  (s.coeff.mapIdx term).sum + (s.integral.map iterm).sum

/-- The matrix `S` of `quasi2diffmat` with `basis_conv=True`, funpy/colloc/ultraS/ultraS.py:216-222. -/
noncomputable def basisConv (n out : ℕ) (adjoint : Bool := false) : Matrix (Fin n) (Fin n) ℝ :=
  if adjoint then discIConvert n 0 out else discConvert n 0 out

end Funpy.UltraS
