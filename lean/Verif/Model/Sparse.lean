import Mathlib.Data.List.Sort
import Mathlib.Data.List.Basic
import Mathlib.Data.Int.Order.Basic
import Mathlib.Algebra.Order.Ring.Defs
import Mathlib.Algebra.Order.Group.Abs

/-!
# Compressed sparse matrices and the surgery functions

Models `funpy/colloc/sparse/csr.py`, `funpy/colloc/sparse/csc.py` and
`funpy/colloc/ultraS/matrices.py:190-202, 228-268`.

A `CS` is the storage of scipy's `csr_matrix` (major axis = rows) or `csc_matrix` (major axis =
columns).  All functions mutate or return such a storage; the `isinstance` format checks are not
modelled (the argument always has the right format here).
-/

namespace Funpy.Sparse

variable {R : Type*}

/-- The attributes `data`, `indices`, `indptr`, `_shape` of a scipy compressed matrix; `major` is the
length of the compressed axis (rows for CSR, columns for CSC).
Models the objects handled in funpy/colloc/sparse/csr.py and csc.py. -/
structure CS (R : Type*) where
  major : ℕ
  minor : ℕ
  data : List R
  indices : List ℕ
  indptr : List ℕ

/-- numpy's `x[a:b] = ys` for `ys` of length `b - a` (the overlapping right-hand sides of
funpy/colloc/sparse/csc.py:26-31 are copied by numpy before the assignment). -/
def assignSlice {α : Type*} (x : List α) (a b : ℕ) (ys : List α) : List α :=
  x.take a ++ ys ++ x.drop b

/-- `mat.data[p:-n] = mat.data[q:]; mat.data = mat.data[:-n]`, funpy/colloc/sparse/csc.py:26-29. -/
def cutData {α : Type*} (x : List α) (p q n : ℕ) : List α :=
  let x' := assignSlice x p (x.length - n) (x.drop q)
  x'.take (x'.length - n)

/-- `indptr[i:-1] = indptr[i+1:]; indptr[i:] -= n; indptr = indptr[:-1]`,
funpy/colloc/sparse/csc.py:30-32. -/
def cutPtr (ptr : List ℕ) (i n : ℕ) : List ℕ :=
  let p1 := assignSlice ptr i (ptr.length - 1) (ptr.drop (i + 1))
  let p2 := p1.take i ++ (p1.drop i).map (fun z => z - n)
  p2.take (p2.length - 1)

/-- `delete_col_csc(mat, i)`, funpy/colloc/sparse/csc.py:21-33 (`IndexError` = `none`; negative `i`
not modelled). -/
def deleteColCsc (m : CS R) (i : ℕ) : Option (CS R) :=
  if i + 1 < m.indptr.length then
    let p := m.indptr.getD i 0
    let q := m.indptr.getD (i + 1) 0
    let n := q - p
    some { major := m.major - 1
           minor := m.minor
           data := if 0 < n then cutData m.data p q n else m.data
           indices := if 0 < n then cutData m.indices p q n else m.indices
           indptr := cutPtr m.indptr i n }
  else none

/-- `delete_cols_csc(mat, indices)`, funpy/colloc/sparse/csc.py:36-46: descending order, one at a time. -/
def deleteColsCsc (m : CS R) (is : List ℕ) : Option (CS R) :=
  (is.mergeSort (fun a b => decide (b ≤ a))).foldlM deleteColCsc m

/-- `delete_row_csr(mat, i)`, funpy/colloc/sparse/csr.py:21-33.  Identical to the column version except
for the slice `mat.indices[i+1:]` in the last step. -/
def deleteRowCsr (m : CS R) (i : ℕ) : Option (CS R) :=
  if i + 1 < m.indptr.length then
    let p := m.indptr.getD i 0
    let q := m.indptr.getD (i + 1) 0
    let n := q - p
    some { major := m.major - 1
           minor := m.minor
           data := if 0 < n then cutData m.data p q n else m.data
           indices := if 0 < n then
               (assignSlice m.indices p (m.indices.length - n) (m.indices.drop q)).drop (i + 1)
             else m.indices
           indptr := cutPtr m.indptr i n }
  else none

/-- `csr_vappend(a, b)`, funpy/colloc/sparse/csr.py:8-18.  `a.nnz` is read after `a.data` was replaced but
scipy computes it as `a.indptr[-1]`, which is still the old one. -/
def csrVappend (a b : CS R) : CS R where
  data := a.data ++ b.data
  indices := a.indices ++ b.indices
  indptr := a.indptr ++ (b.indptr.map fun z => z + a.indptr.getD (a.indptr.length - 1) 0).drop 1
  major := a.major + b.major
  minor := b.minor

/-- The stored entries `(minor index, value)` of line `i`, in storage order: the slice
`indptr[i]:indptr[i+1]` of `indices` and `data`. -/
def CS.line (m : CS R) (i : ℕ) : List (ℕ × R) :=
  ((m.indices.zip m.data).drop (m.indptr.getD i 0)).take (m.indptr.getD (i + 1) 0 - m.indptr.getD i 0)

/-- A compressed matrix from its lines: scipy's construction used by `mat[mask]`,
`eliminate_zeros` and `tocsr` (funpy/colloc/sparse/csr.py:44, 59, 70).  numpy/scipy primitive. -/
def ofLines (minor : ℕ) (L : List (List (ℕ × R))) : CS R where
  major := L.length
  minor := minor
  data := L.flatten.map Prod.snd
  indices := L.flatten.map Prod.fst
  indptr := (List.range (L.length + 1)).map fun i => ((L.map List.length).take i).sum

/-- `mat[mask]` with a boolean mask over the rows (scipy primitive), funpy/colloc/sparse/csr.py:44. -/
def selectLines (m : CS R) (mask : List Bool) : CS R :=
  ofLines m.minor (((List.range m.major).filter fun i => mask.getD i false).map m.line)

/-- numpy's `mask[indices] = False`: negative indices count from the end, out of range raises
(`none`); funpy/colloc/sparse/csr.py:43. -/
def setFalse (mask : List Bool) : List ℤ → Option (List Bool)
  | [] => some mask
  | i :: is =>
    if 0 ≤ i ∧ i < mask.length then setFalse (mask.set i.toNat false) is
    else if i < 0 ∧ -(mask.length : ℤ) ≤ i then setFalse (mask.set (i + mask.length).toNat false) is
    else none

/-- `delete_rows_csr(mat, indices)`, funpy/colloc/sparse/csr.py:36-44. -/
def deleteRowsCsr (m : CS R) (is : List ℤ) : Option (CS R) :=
  (setFalse (List.replicate m.major true) is).map (selectLines m)

/-- `eliminate_zeros(mat, eps)`, funpy/colloc/sparse/csr.py:47-60, and `eliminate_zeros_csc`,
csc.py:49-62: small data set to zero, then scipy's `eliminate_zeros` drops stored zeros. -/
def eliminateZeros [Ring R] [LinearOrder R] (m : CS R) (eps : R) : CS R :=
  ofLines m.minor ((List.range m.major).map fun i =>
    ((m.line i).map fun e => (e.1, if |e.2| < eps then 0 else e.2)).filter fun e => decide (e.2 ≠ 0))

/-- `np.argsort(a)`: positions ordered by their value; funpy/colloc/sparse/csr.py:66. -/
def argsort (a : List ℕ) : List ℕ :=
  (List.range a.length).mergeSort fun i j => decide (a.getD i 0 ≤ a.getD j 0)

/-- `mat.tocoo()`: the list of `(row, col, value)` triples, funpy/colloc/sparse/csr.py:65. -/
def CS.toCoo (m : CS R) : List (ℕ × ℕ × R) :=
  (List.range m.major).flatMap fun i => (m.line i).map fun e => (i, e.1, e.2)

/-- `x.tocsr()` from triples (scipy primitive; duplicates kept in order, scipy sums them),
funpy/colloc/sparse/csr.py:70. -/
def ofCoo (major minor : ℕ) (x : List (ℕ × ℕ × R)) : CS R :=
  ofLines minor ((List.range major).map fun i =>
    (x.filter fun t => decide (t.1 = i)).map fun t => (t.2.1, t.2.2))

/-- `flip_rows(mat, idenRows)`, funpy/colloc/sparse/csr.py:63-70; `flip_cols`, csc.py:65-71, is the same
code on the column index of a CSC matrix. -/
def flipLines (m : CS R) (iden : List ℕ) : CS R :=
  let inv := argsort iden
  ofCoo m.major m.minor (m.toCoo.map fun t => (inv.getD t.1 0, t.2.1, t.2.2))

/-- The identity matrix in compressed format, `eye(n, format=...)`,
funpy/colloc/ultraS/matrices.py:241. -/
def eye (R : Type*) [Zero R] [One R] (n : ℕ) : CS R := ofLines n ((List.range n).map fun i => [(i, 1)])

/-- The rows removed by the projection: `nn[0] + n[0] - np.arange(1, m + 1)`,
funpy/colloc/ultraS/matrices.py:246 (scalar `n`). -/
def projRows (n m : ℕ) : List ℤ := (List.range m).map fun (k : ℕ) => (n : ℤ) - (k + 1)

/-- `reduceOne(A, S, m, n)` for one block row (`adjoint=False`), funpy/colloc/ultraS/matrices.py:228-268:
returns `(PA, P)`; `PS` is computed in the same way as `PA`. -/
def reduceOne [Zero R] [One R] (A : CS R) (m n : ℕ) : Option (CS R × CS R) := do
  let P ← deleteRowsCsr (eye R n) (projRows n m)
  let PA ← if P.minor = A.major ∨ P.major = A.minor then deleteRowsCsr A (projRows n m) else some A
  pure (PA, P)

end Funpy.Sparse
