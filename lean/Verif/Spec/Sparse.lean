import Verif.Model.Sparse
import Mathlib.Algebra.BigOperators.Group.List.Basic
import Mathlib.Algebra.BigOperators.Group.Finset.Basic
import Mathlib.Algebra.BigOperators.Intervals

/-!
# What a compressed matrix means

`entry m i j` is the matrix entry represented by the storage: the sum of all stored values on line `i`
whose minor index is `j` (scipy's convention; duplicates are summed).
-/

namespace Funpy.Sparse

variable {R : Type*}

/-- The represented matrix entry, major index `i`, minor index `j`. -/
def entry [AddCommMonoid R] (m : CS R) (i j : ℕ) : R :=
  ∑ p ∈ Finset.Ico (m.indptr.getD i 0) (m.indptr.getD (i + 1) 0),
    if m.indices.getD p 0 = j then m.data.getD p 0 else 0

/-- scipy's format invariants (`check_format`). -/
structure WF (m : CS R) : Prop where
  ptr_len : m.indptr.length = m.major + 1
  ptr_zero : m.indptr.getD 0 0 = 0
  ptr_mono : ∀ i, i < m.major → m.indptr.getD i 0 ≤ m.indptr.getD (i + 1) 0
  ptr_last : m.indptr.getD m.major 0 = m.data.length
  len_eq : m.indices.length = m.data.length
  idx_lt : ∀ j ∈ m.indices, j < m.minor

end Funpy.Sparse
