import Mathlib.Algebra.Field.Defs
import Mathlib.Algebra.BigOperators.Group.Finset.Basic
import Mathlib.Algebra.Field.Basic

/-!
# Multiply bordered solver `BEMW`

Models `funpy/linalg/bemw_solve.py`.  Vectors are functions `ℕ → K` of which only the indices below the
length matter (`x[:r]` are the indices `< r`).  `storage` is the two-dimensional array of the class.
-/

namespace Funpy.Bemw

variable {K : Type*} [Field K]

/-- The attributes fixed at construction, funpy/linalg/bemw_solve.py:27-41: `solver.solve`,
`solver.solve_adj`, sizes `n`, `m` and the borders. -/
structure Data (K : Type*) where
  n : ℕ
  m : ℕ
  solve : (ℕ → K) → (ℕ → K)
  solveAdj : (ℕ → K) → (ℕ → K)
  b : ℕ → ℕ → K
  c : ℕ → ℕ → K
  d : ℕ → K

/-- `np.dot(u, x[:r])` for vectors of length `r`. -/
def dot (r : ℕ) (u x : ℕ → K) : K := ∑ i ∈ Finset.range r, u i * x i

/-- `x[:r] -= s * u`, the other entries unchanged. -/
def subHead (r : ℕ) (x : ℕ → K) (s : K) (u : ℕ → K) : ℕ → K := fun i => if i < r then x i - s * u i else x i

/-- `x[k] = v`. -/
def setAt {α : Type*} (x : ℕ → α) (k : ℕ) (v : α) : ℕ → α := fun i => if i = k then v else x i

/-- `BEMW.δ`, funpy/linalg/bemw_solve.py:110-111. -/
def stDelta (st : ℕ → ℕ → K) (k : ℕ) : K := st k 0
/-- `BEMW.ε`, funpy/linalg/bemw_solve.py:113-114. -/
def stEps (st : ℕ → ℕ → K) (k : ℕ) : K := st k 1
/-- `BEMW.v`, funpy/linalg/bemw_solve.py:116-118. -/
def stV (D : Data K) (st : ℕ → ℕ → K) (k : ℕ) : ℕ → K :=
  fun i => st (D.m - k - 1) (2 + (D.m - k - 1) + D.n + i)
/-- `BEMW.w`, funpy/linalg/bemw_solve.py:120-121. -/
def stW (st : ℕ → ℕ → K) (k : ℕ) : ℕ → K := fun i => st k (2 + i)

/-- One pass of the downward loop, funpy/linalg/bemw_solve.py:140-148 (resp. 178-186 for the adjoint with
`u = v(k)`, `p = δ(k)`, `border = b[k]`). -/
def downStep (n : ℕ) (u : ℕ → ℕ → K) (p : ℕ → K) (border : ℕ → ℕ → K) (d : ℕ → K)
    (xy : (ℕ → K) × (ℕ → K)) (k : ℕ) : (ℕ → K) × (ℕ → K) :=
  let x := xy.1
  let yk := (x (n + k) - dot (n + k) (u k) x) / p k
  let x1 := subHead (n + k) x yk (border k)
  (setAt x1 (n + k) (x1 (n + k) - d k * yk), setAt xy.2 k yk)

/-- One pass of the upward loop, funpy/linalg/bemw_solve.py:153-159 (resp. 191-197). -/
def upStep (n : ℕ) (u : ℕ → ℕ → K) (p : ℕ → K) (border : ℕ → ℕ → K) (y : ℕ → K) (x : ℕ → K) (k : ℕ) : ℕ → K :=
  let ypp := (x (n + k) - dot (n + k) (border k) x) / p k
  let x1 := setAt x (n + k) (y k)
  let x2 := subHead (n + k) x1 ypp (u k)
  setAt x2 (n + k) (x2 (n + k) + ypp)

/-- The solver `x[:n] = solve(x[:n])`, funpy/linalg/bemw_solve.py:151. -/
def coreStep (n : ℕ) (solve : (ℕ → K) → (ℕ → K)) (x : ℕ → K) : ℕ → K :=
  fun i => if i < n then solve x i else x i

/-- `BEMW.solve_detail(j, x)`, funpy/linalg/bemw_solve.py:123-161 (`y = np.empty(j)` is arbitrary: `y0`). -/
def solveDetail (D : Data K) (st : ℕ → ℕ → K) (y0 : ℕ → K) (j : ℕ) (x : ℕ → K) : ℕ → K :=
  let xy := (List.range j).reverse.foldl (downStep D.n (stW st) (stEps st) D.c D.d) (x, y0)
  (List.range j).foldl (upStep D.n (stV D st) (stDelta st) D.b xy.2) (coreStep D.n D.solve xy.1)

/-- `BEMW.solve_adj_detail(j, x)`, funpy/linalg/bemw_solve.py:163-199. -/
def solveAdjDetail (D : Data K) (st : ℕ → ℕ → K) (y0 : ℕ → K) (j : ℕ) (x : ℕ → K) : ℕ → K :=
  let xy := (List.range j).reverse.foldl (downStep D.n (stV D st) (stDelta st) D.b D.d) (x, y0)
  (List.range j).foldl (upStep D.n (stW st) (stEps st) D.c xy.2) (coreStep D.n D.solveAdj xy.1)

/-- One pass of the loop of `prepare`, funpy/linalg/bemw_solve.py:76-87. -/
def prepareStep (D : Data K) (y0 : ℕ → K) (st : ℕ → ℕ → K) (k : ℕ) : ℕ → ℕ → K :=
  let vk := solveDetail D st y0 k (D.c k)
  let r := D.m - k - 1
  -- self.storage[r, 2 + r + n:] = vk   (the row has length m + 2 n + 1)
  let st1 := setAt st r (fun q => if 2 + r + D.n ≤ q then vk (q - (2 + r + D.n)) else st r q)
  -- self.storage[k, 0] = d[k] - np.dot(b[k], vk)
  let st2 := setAt st1 k (setAt (st1 k) 0 (D.d k - dot (D.n + k) (D.b k) vk))
  let wk := solveAdjDetail D st2 y0 k (D.b k)
  -- self.storage[k, 2:n + k + 2] = wk
  let st3 := setAt st2 k (fun q => if 2 ≤ q ∧ q < D.n + k + 2 then wk (q - 2) else st2 k q)
  -- self.storage[k, 1] = d[k] - np.dot(c[k], wk)
  setAt st3 k (setAt (st3 k) 1 (D.d k - dot (D.n + k) (D.c k) wk))

/-- `BEMW.prepare`, funpy/linalg/bemw_solve.py:48-87 (`np.empty` storage: arbitrary `st0`). -/
def prepare (D : Data K) (y0 : ℕ → K) (st0 : ℕ → ℕ → K) : ℕ → ℕ → K :=
  (List.range D.m).foldl (prepareStep D y0) st0

/-- `BEMW.solve(b)`, funpy/linalg/bemw_solve.py:201-202. -/
def solve (D : Data K) (y0 : ℕ → K) (st0 : ℕ → ℕ → K) (x : ℕ → K) : ℕ → K :=
  solveDetail D (prepare D y0 st0) y0 D.m x

/-- `BEMW.solve_adj(b)`, funpy/linalg/bemw_solve.py:204-205. -/
def solveAdj (D : Data K) (y0 : ℕ → K) (st0 : ℕ → ℕ → K) (x : ℕ → K) : ℕ → K :=
  solveAdjDetail D (prepare D y0 st0) y0 D.m x

/-- `BEMW.solve_null()`, funpy/linalg/bemw_solve.py:207-210: right-hand side `(0, …, 0, 1)`. -/
def solveNull (D : Data K) (y0 : ℕ → K) (st0 : ℕ → ℕ → K) : ℕ → K :=
  solve D y0 st0 (fun i => if i < D.n + D.m - 1 then 0 else 1)

/-- `BEMW.solve_zero(f)`, funpy/linalg/bemw_solve.py:217-219: right-hand side `hstack((f, 0))` with `f` of
length `n + m - 1`. -/
def solveZero (D : Data K) (y0 : ℕ → K) (st0 : ℕ → ℕ → K) (f : ℕ → K) : ℕ → K :=
  solve D y0 st0 (fun i => if i < D.n + D.m - 1 then f i else 0)

/-- `BEMW.min_norm(f)`, funpy/linalg/bemw_solve.py:225-257. -/
def minNorm (D : Data K) (y0 : ℕ → K) (st0 : ℕ → ℕ → K) (f : ℕ → K) : ℕ → K :=
  let x := solveZero D y0 st0 f
  let t := solveNull D y0 st0
  let eta := dot (D.n + D.m) x t / dot (D.n + D.m) t t
  fun i => x i - eta * t i

/-- The matrix of the class, `BEMW.mat`, funpy/linalg/bemw_solve.py:267-287. -/
def mat (D : Data K) (A : ℕ → ℕ → K) (i j : ℕ) : K :=
  if i < D.n ∧ j < D.n then A i j
  else if i < j then D.c (j - D.n) i
  else if j < i then D.b (i - D.n) j
  else D.d (i - D.n)

end Funpy.Bemw
