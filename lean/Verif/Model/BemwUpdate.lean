import Verif.Model.Bemw

/-!
# Updates of the multiply bordered solver

Models the construction and `update_row` / `update_col` of `funpy/linalg/bemw_solve.py`.  The lists of borders are
objects in memory which several solvers and their callers can share.
-/

namespace Funpy.BemwUpdate

open Funpy.Bemw

variable {K : Type*} [Field K]

/-- A `BEMW` object, funpy/linalg/bemw_solve.py:27-46: the core solver, the addresses of the lists `bs`, `cs`, `ds`
(the lists of the caller, not copies) and `storage` (`none` is `None`). -/
structure Obj (K : Type*) where
  n : ℕ
  m : ℕ
  core : (ℕ → K) → (ℕ → K)
  coreAdj : (ℕ → K) → (ℕ → K)
  singular : Bool
  bs : ℕ
  cs : ℕ
  ds : ℕ
  storage : Option (ℕ → ℕ → K)

/-- Memory: lists of vectors, lists of numbers and solvers.  Simplification: entries of the lists are values, and lists
of vectors and lists of numbers are different. -/
structure World (K : Type*) where
  rows : ℕ → ℕ → (ℕ → K)
  nums : ℕ → ℕ → K
  obj : ℕ → Obj K

/-- What the methods of object `o` read: the current content of the lists. -/
def data (w : World K) (o : ℕ) : Data K :=
  { n := (w.obj o).n, m := (w.obj o).m, solve := (w.obj o).core, solveAdj := (w.obj o).coreAdj,
    b := w.rows (w.obj o).bs, c := w.rows (w.obj o).cs, d := w.nums (w.obj o).ds }

/-- `if not self.is_singular: self.prepare()`, funpy/linalg/bemw_solve.py:46, 97, 107 (the content of `np.empty` is
arbitrary: `y0`, `st0`). -/
def refresh (w : World K) (o : ℕ) (y0 : ℕ → K) (st0 : ℕ → ℕ → K) : World K :=
  if (w.obj o).singular then w
  else { w with obj := Function.update w.obj o { w.obj o with storage := some (prepare (data w o) y0 st0) } }

/-- `BEMW.__init__`, funpy/linalg/bemw_solve.py:27-46, for lists of equal lengths. -/
def create (w : World K) (o : ℕ) (x : Obj K) (y0 : ℕ → K) (st0 : ℕ → ℕ → K) : World K :=
  refresh { w with obj := Function.update w.obj o { x with storage := none } } o y0 st0

/-- Calls of `update_row(j, b, d)` and `update_col(j, c, d)` of object `o`. -/
inductive Ev (K : Type*) where
  | row (o j : ℕ) (b : ℕ → K) (d : K) (y0 : ℕ → K) (st0 : ℕ → ℕ → K)
  | col (o j : ℕ) (c : ℕ → K) (d : K) (y0 : ℕ → K) (st0 : ℕ → ℕ → K)

/-- `BEMW.update_row`, `BEMW.update_col`, funpy/linalg/bemw_solve.py:89-107.  The assertion fails for `j ≥ m`, before
anything is changed. -/
def step (w : World K) : Ev K → World K
  | .row o j b d y0 st0 =>
    if j < (w.obj o).m then
      refresh { w with
        rows := Function.update w.rows (w.obj o).bs (setAt (w.rows (w.obj o).bs) j b)
        nums := Function.update w.nums (w.obj o).ds (setAt (w.nums (w.obj o).ds) j d) } o y0 st0
    else w
  | .col o j c d y0 st0 =>
    if j < (w.obj o).m then
      refresh { w with
        rows := Function.update w.rows (w.obj o).cs (setAt (w.rows (w.obj o).cs) j c)
        nums := Function.update w.nums (w.obj o).ds (setAt (w.nums (w.obj o).ds) j d) } o y0 st0
    else w

/-- A history of calls. -/
def run (w : World K) (h : List (Ev K)) : World K := h.foldl step w

/-- `BEMW.solve(x)` of object `o`, funpy/linalg/bemw_solve.py:201-202 (`none`: `TypeError`, `storage` is `None`; the
borders may be read before the storage only for `m = 0`, where nothing is read). -/
def solveObj (w : World K) (o : ℕ) (y0 x : ℕ → K) : Option (ℕ → K) :=
  (w.obj o).storage.map fun st => solveDetail (data w o) st y0 (w.obj o).m x

/-- `BEMW.solve_adj(x)` of object `o`, funpy/linalg/bemw_solve.py:204-205. -/
def solveAdjObj (w : World K) (o : ℕ) (y0 x : ℕ → K) : Option (ℕ → K) :=
  (w.obj o).storage.map fun st => solveAdjDetail (data w o) st y0 (w.obj o).m x

end Funpy.BemwUpdate
