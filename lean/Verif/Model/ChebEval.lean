import Verif.Model.Array
import Mathlib.Algebra.Field.Defs

/-!
# Model: evaluation, end-point values, flips and prolongation of Chebyshev coefficient columns
-/

namespace Funpy.Cheb

variable {R : Type*}

section Clenshaw
variable [Field R]

/-- The loop `for i in range(n, 1, -2)` of funpy/cheb/detail.pyx:385-388 for one evaluation point;
`x2` is the doubled abscissa (line 384).  The loop variable `i` is the recursion argument: the
body runs for `i ≥ 2` and continues with `i - 2`. -/
def clenshawLoop (c : List R) (x2 : R) : ℕ → R → R → R × R
  | i + 2, bk1, bk2 =>
      let bk2' := c.getD (i + 2) 0 + x2 * bk1 - bk2
      let bk1' := c.getD (i + 1) 0 + x2 * bk2' - bk1
      clenshawLoop c x2 i bk1' bk2'
  | _, bk1, bk2 => (bk1, bk2)

/-- `clenshaw_scalar` for one abscissa, funpy/cheb/detail.pyx:376-401 (`n = len(c) - 1`; empty
coefficient arrays are excluded by the constructor's assertion, funpy/cheb/chebtech.py:60). -/
def clenshawScalar (x : R) (c : List R) : R :=
  let n := c.length - 1
  let x2 := 2 * x
  let b := clenshawLoop c x2 n 0 0
  let b' := if n % 2 = 1 then (c.getD 1 0 + x2 * b.1 - b.2, b.1) else b
  c.getD 0 0 + (1 / 2) * x2 * b'.1 - b'.2

/-- State of `clenshaw_vector` for one abscissa: one pair `(bk1, bk2)` per column,
funpy/cheb/detail.pyx:417-422. The row `i` of the array is `cols.map (·.getD i 0)`. -/
def clenshawVecLoop (cols : List (List R)) (x2 : R) : ℕ → List (R × R) → List (R × R)
  | i + 2, bs =>
      let bs1 := List.zipWith (fun c (b : R × R) => (b.1, c.getD (i + 2) 0 + x2 * b.1 - b.2)) cols bs
      let bs2 := List.zipWith (fun c (b : R × R) => (c.getD (i + 1) 0 + x2 * b.2 - b.1, b.2)) cols bs1
      clenshawVecLoop cols x2 i bs2
  | _, bs => bs

/-- `clenshaw_vector` for one abscissa, funpy/cheb/detail.pyx:407-435: the row of values of all
columns. -/
def clenshawVector (x : R) (a : Arr R) : List R :=
  let n := a.n - 1
  let x2 := 2 * x
  let bs := clenshawVecLoop a.cols x2 n (a.cols.map fun _ => ((0 : R), (0 : R)))
  let bs' := if n % 2 = 1 then
      List.zipWith (fun c (b : R × R) => (c.getD 1 0 + x2 * b.1 - b.2, b.1)) a.cols bs else bs
  List.zipWith (fun c (b : R × R) => c.getD 0 0 + (1 / 2) * x2 * b.1 - b.2) a.cols bs'

/-- `clenshaw`, funpy/cheb/detail.pyx:437-443, together with `feval`,
funpy/cheb/chebtech.py:354-357: one row of column values per abscissa (the `squeeze` only drops
axes of length one and is not modelled). -/
def clenshaw (xs : List R) (a : Arr R) : List (List R) :=
  match a.cols with
  | [c] => xs.map fun x => [clenshawScalar x c]
  | _ => xs.map fun x => clenshawVector x a

end Clenshaw

section Signs
variable [Ring R]

/-- `c[1::2] *= -1` applied to one column: funpy/cheb/chebtech.py:287 and 375. -/
def negOdd : List R → List R
  | [] => []
  | [a] => [a]
  | a :: b :: l => a :: (-1 * b) :: negOdd l

/-- `lval`, funpy/cheb/chebtech.py:285-288. -/
def lval (a : Arr R) : List R := a.cols.map fun c => (negOdd c).sum

/-- `rval`, funpy/cheb/chebtech.py:291-292. -/
def rval (a : Arr R) : List R := a.cols.map List.sum

/-- `flipud`, funpy/cheb/chebtech.py:372-378 (coefficient part). -/
def flipud (a : Arr R) : Arr R := a.mapCols a.n negOdd

/-- `fliplr`, funpy/cheb/chebtech.py:380-384 (coefficient part). -/
def fliplr (a : Arr R) : Arr R := ⟨a.n, a.cols.reverse⟩

end Signs

section Prolong
variable [Zero R]

/-- `prolong` of one column, funpy/cheb/detail.pyx:115-143.  `Nout` may be negative
(`max_idx(Nout, 0)`, line 142). -/
def prolongCol (c : List R) (Nout : ℤ) : List R :=
  let Ndiff : ℤ := Nout - c.length
  if Ndiff = 0 then c
  else if Ndiff > 0 then c ++ List.replicate Ndiff.toNat 0
  else c.take (max Nout 0).toNat

/-- `prolong` of an array, funpy/cheb/detail.pyx:115-143 and chebtech.py:328-337. -/
def prolong (a : Arr R) (Nout : ℤ) : Arr R :=
  a.mapCols (max Nout 0).toNat fun c => prolongCol c Nout

end Prolong

end Funpy.Cheb
