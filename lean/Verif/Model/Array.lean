import Mathlib.Data.List.Basic
import Mathlib.Algebra.Ring.Defs

/-!
# Model of the two dimensional coefficient arrays

`np.ndarray` of shape `(n, m)`, stored column by column (the code keeps coefficient arrays in
Fortran order, funpy/cheb/detail.pyx:62,91,128).
-/

namespace Funpy

/-- A two dimensional numpy array of shape `(n, m)`; `cols` is the list of its columns.
Models the `coeffs` attribute (funpy/cheb/chebtech.py:186-205, properties `size`, `shape`). -/
structure Arr (R : Type*) where
  /-- number of rows -/
  n : ℕ
  /-- the columns -/
  cols : List (List R)

namespace Arr
variable {R S : Type*}

/-- The shape invariant of a numpy array: all columns have `n` rows. -/
def WF (a : Arr R) : Prop := ∀ c ∈ a.cols, c.length = a.n

/-- Number of columns, funpy/cheb/chebtech.py:191-193 (`size`) and 237-241 (`m`). -/
def m (a : Arr R) : ℕ := a.cols.length

/-- Apply an operation to every column, the new number of rows being `n'`. -/
def mapCols (a : Arr R) (n' : ℕ) (f : List R → List S) : Arr S := ⟨n', a.cols.map f⟩

end Arr
end Funpy
