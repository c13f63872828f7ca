import Verif.Model.TrigTech
import Mathlib.Data.Matrix.Mul
import Mathlib.Data.Matrix.Diagonal
import Mathlib.Analysis.SpecialFunctions.Trigonometric.Basic

/-!
# Model: the Fourier spectral discretisation of linear operators
(funpy/colloc/trigspec/matrices.py, funpy/colloc/trigspec/trigspec.py, `sptoeplitz` of funpy/colloc/ultraS/transform.py)

Sparse matrices are modelled by the matrices they denote; the storage format has no influence on the entries.  One interval
(`numIntervals = 1`), the only case the surrounding code supports.
-/

namespace Funpy.TrigSpec
open Matrix Complex Trig

/-- Entry `k` of `np.arange(-(n-1)/2, n/2, 1)` (odd `n`) or `np.arange(-n/2, n/2, 1)` (even `n`),
funpy/colloc/trigspec/matrices.py:24, 32, 127-130. -/
noncomputable def waveArr (n k : ℕ) : ℝ := if n % 2 = 1 then -((n : ℝ) - 1) / 2 + k else -(n : ℝ) / 2 + k

/-- `diffmat(n, m)`, funpy/colloc/trigspec/matrices.py:15-38, with the default `flag=False` (with `flag=True` an entry of a matrix in
diagonal format is assigned, which scipy does not support). `spdiags(d, 0, n, n)**m` is a matrix power. -/
noncomputable def diffmat (n m : ℕ) : Matrix (Fin n) (Fin n) ℂ :=
  if m > 0 then
    if n % 2 = 1 then I ^ m • (diagonal fun k : Fin n => (waveArr n k : ℂ)) ^ m
    else if m % 2 = 1 then I ^ m • (diagonal fun k : Fin n => if (k : ℕ) = 0 then 0 else ((-(n : ℝ) / 2 + 1 + ((k : ℝ) - 1) : ℝ) : ℂ)) ^ m
    else I ^ m • (diagonal fun k : Fin n => (waveArr n k : ℂ)) ^ m
  else 1

/-- One diagonal of `spdiags(data, offset, n, n)` with the constant entry `a` repeated `len` times. -/
def spdiag (n len : ℕ) (a : ℂ) (offset : ℤ) : Matrix (Fin n) (Fin n) ℂ :=
  fun i j => if (j : ℤ) - i = offset ∧ (j : ℕ) < len then a else 0

open Classical in
/-- `find(col)`, funpy/colloc/ultraS/transform.py:12-19. -/
noncomputable def nonzeros (col : List ℂ) : List ℕ := (List.range col.length).filter fun k => decide (col.getD k 0 ≠ 0)

/-- The diagonals listed in `d` with values `B`, funpy/colloc/ultraS/transform.py:74-77. -/
noncomputable def diagSum (k len : ℕ) (d : List (ℤ × ℂ)) : Matrix (Fin k) (Fin k) ℂ := (d.map fun p => spdiag k len p.2 p.1).sum

/-- The few-entries case of `sptoeplitz`, funpy/colloc/ultraS/transform.py:56-68: one nonzero in each of the column and the row, or
`scipy.linalg.toeplitz(col, row)`; `ic`, `ir` are `find(col)`, `find(row)`. -/
noncomputable def smallToeplitz (k : ℕ) (col row : List ℂ) (ic ir : List ℕ) : Matrix (Fin k) (Fin k) ℂ :=
  if ic.length = 1 ∧ ir.length = 1 then
    let Ic := ic.getD 0 0
    let Ir := ir.getD 0 0
    if Ic = 0 then spdiag k col.length (col.getD Ic 0 * 1) 0
    else spdiag k col.length (col.getD Ic 0 * 1) (-(Ic : ℤ)) + spdiag k row.length (row.getD Ir 0 * 1) Ir
  else fun i j => if (j : ℕ) ≤ i then col.getD (i - j) 0 else row.getD (j - i) 0

/-- `sptoeplitz(col, row)`, funpy/colloc/ultraS/transform.py:50-79, for `col` and `row` of the same length `k`. -/
noncomputable def sptoeplitz (k : ℕ) (col row : List ℂ) : Matrix (Fin k) (Fin k) ℂ :=
  if col.length < 100 ∧ row.length < 100 then smallToeplitz k col row (nonzeros col) (nonzeros row)
  else
    let ic := nonzeros col
    let row := row.set 0 0
    let ir := nonzeros row
    diagSum k (min col.length row.length) ((ir.map fun a : ℕ => ((a : ℤ), row.getD a 0)) ++ ic.map fun a : ℕ => (-(a : ℤ), col.getD a 0))

/-- `multmat(k, f)` for a function with the coefficients `c`, funpy/colloc/trigspec/matrices.py:40-75.  The even case splits the
unpaired mode (`splitEven` is the same statement).  When truncating, the upper bound `k-Na-1` of `c[Na:k-Na-1]` is negative and counts from the end. -/
noncomputable def multmat (k : ℕ) (c : List ℂ) : Matrix (Fin k) (Fin k) ℂ :=
  if c.length = 1 then c.getD 0 0 • (1 : Matrix (Fin k) (Fin k) ℂ)
  else
    let c := splitEven c
    let n := c.length
    let Na := n / 2
    if Na < k then
      sptoeplitz k (c.drop Na ++ List.replicate (k - Na - 1) 0) ((c.take (Na + 1)).reverse ++ List.replicate (k - Na - 1) 0)
    else
      sptoeplitz k ((c.take (n + k - Na - 1)).drop Na) ((List.range k).map fun i => c.getD (Na - i) 0)

/-- `intmat(k)`, funpy/colloc/trigspec/matrices.py:77-105. -/
noncomputable def intmat (k : ℕ) : Matrix (Fin k) (Fin k) ℂ :=
  let ind := if k % 2 = 1 then (k + 1) / 2 - 1 else k / 2
  fun i j => if (i : ℕ) = ind ∧ (j : ℕ) = ind then 2 else 0

/-- `gen_m0(i, Rscl)`, funpy/colloc/trigspec/matrices.py:107-109. -/
noncomputable def genM0 (i R : ℝ) : ℂ := I * ((if i = 0 then 0 else (1 - Real.cos (R * i)) / (R * i) : ℝ) : ℂ)

/-- `gen_m1(i, Rscl)`, funpy/colloc/trigspec/matrices.py:111-113. -/
noncomputable def genM1 (i R : ℝ) : ℂ := ((if i = 0 then 0 else (1 - Real.cos (R * i)) / R : ℝ) : ℂ)

/-- `aggmat(n, m, rescaleFactor)`, funpy/colloc/trigspec/matrices.py:115-142; other `m` fail the assertion. -/
noncomputable def aggmat (n m : ℕ) (rescale : ℝ) : Option (Matrix (Fin n) (Fin n) ℂ) :=
  let R := rescale * Real.pi
  if m = 0 then some (diagonal fun k : Fin n => genM0 (waveArr n k) R)
  else if m = 1 then some (diagonal fun k : Fin n => genM1 (waveArr n k) R)
  else none

/-- `trigspec.diff(m)` on an interval of length `len`, funpy/colloc/trigspec/trigspec.py:23-35. -/
noncomputable def discDiff (n m : ℕ) (len : ℝ) : Matrix (Fin n) (Fin n) ℂ :=
  if m = 0 then 1 else (((2 * Real.pi / len) ^ m : ℝ) : ℂ) • diffmat n m

/-- `trigspec.int()`, funpy/colloc/trigspec/trigspec.py:37-45. -/
noncomputable def discInt (n : ℕ) (len : ℝ) : Matrix (Fin n) (Fin n) ℂ := (len : ℂ) • (0.5 : ℂ) • intmat n

/-- `trigspec.aggregation(m)`, funpy/colloc/trigspec/trigspec.py:56-71. -/
noncomputable def discAgg (n m : ℕ) (len : ℝ) : Option (Matrix (Fin n) (Fin n) ℂ) := aggmat n m (1 / (0.5 * len))

/-- The operator handed to `quasi2diffmat` (funpy/colloc/quasiOpBlock.py): the Fourier coefficients of the coefficient functions with
the flags `info[j]`, the pairs `(c, d)` of the integral terms (empty if `info[-1]` is false), and the coefficients in front of the derivatives of
the aggregation operator with the flags `nl_info[j]`. -/
structure Source where
  /-- `getCoeffs()` and `info()` -/
  coeff : List (Bool × List ℂ)
  /-- `getICoeffs()` and `getIntegrand()` -/
  integral : List (List ℂ × List ℂ)
  /-- `getNlCoeffs()` and `nl_info()` -/
  nl : List (Bool × List ℂ)

/-- The matrix `L` of `quasi2diffmat` before the call of `eliminate_zeros`, funpy/colloc/trigspec/trigspec.py:81-118.  `self.mult` applied to the
array `getICoeffs()` takes its first entry (trigspec.py:53), and the integrands are not used. -/
noncomputable def assemble (n : ℕ) (len : ℝ) (s : Source) : Matrix (Fin n) (Fin n) ℂ :=
  let term (j : ℕ) (p : Bool × List ℂ) : Matrix (Fin n) (Fin n) ℂ := if p.1 then multmat n p.2 * discDiff n j len else 0
  let iterm : Matrix (Fin n) (Fin n) ℂ := match s.integral with
    | [] => 0
    | p :: _ => multmat n p.1 * discInt n len
  let nlterm (j : ℕ) (p : Bool × List ℂ) : Matrix (Fin n) (Fin n) ℂ :=
    if p.1 then multmat n p.2 * discDiff n j len * (discAgg n 0 len).getD 0 else 0
  (s.coeff.mapIdx term).sum + iterm + (s.nl.mapIdx nlterm).sum

open Classical in
/-- `quasi2diffmat(source)[0]`, funpy/colloc/trigspec/trigspec.py:81-123: entries of modulus below `eps` (the machine epsilon) are dropped
by `eliminate_zeros`, funpy/colloc/sparse/csr.py:47-61. -/
noncomputable def quasi2diffmat (n : ℕ) (len : ℝ) (eps : ℝ) (s : Source) : Matrix (Fin n) (Fin n) ℂ :=
  fun i j => if ‖assemble n len s i j‖ < eps then 0 else assemble n len s i j

end Funpy.TrigSpec
