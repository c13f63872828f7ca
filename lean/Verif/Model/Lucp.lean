import Verif.Model.LinHelpers
import Mathlib.Logic.Equiv.Basic
import Mathlib.GroupTheory.Perm.Basic
import Mathlib.Algebra.Order.Field.Basic
import Mathlib.Algebra.BigOperators.Intervals

/-!
# LU decomposition with complete pivoting, and null vectors

Models `funpy/linalg/lucp.py:22-97` and `funpy/linalg/nullspace.py:14-69`.  An `n × m` array is a function of the row
and column number; exact arithmetic in an ordered field.
-/

namespace Funpy.Lucp

variable {K : Type*} [Field K] [LinearOrder K]

/-- `g[k:n].argmax() + k` (first position of the maximum). -/
def argmaxFrom (g : ℕ → K) (k n : ℕ) : ℕ :=
  (List.range' (k + 1) (n - (k + 1))).foldl (fun best i => if g best < g i then i else best) k

/-- The working array and the pivot vectors of `lucp`, funpy/linalg/lucp.py:22-42.  (`p`, `q` are permutations of
`0..n-1`, `0..m-1`; exchanging two entries is composition with a transposition.) -/
structure St (K : Type*) where
  A : ℕ → ℕ → K
  p : Equiv.Perm ℕ
  q : Equiv.Perm ℕ

/-- Choice of the pivot, funpy/linalg/lucp.py:45-52: maximum over each column, then over the columns. -/
def pivot (n m k : ℕ) (A : ℕ → ℕ → K) : ℕ × ℕ :=
  let ri := fun c => argmaxFrom (fun i => |A i c|) k n
  let cp := argmaxFrom (fun c => |A (ri c) c|) k m
  (ri cp, cp)

/-- The row and column exchanges, funpy/linalg/lucp.py:54-71. -/
def exchange (n m k : ℕ) (s : St K) : St K :=
  let rc := pivot n m k s.A
  { A := fun i j => s.A (Equiv.swap k rc.1 i) (Equiv.swap k rc.2 j)
    p := s.p * Equiv.swap k rc.1
    q := s.q * Equiv.swap k rc.2 }

/-- The elimination, funpy/linalg/lucp.py:73-79. -/
def eliminate (n m k : ℕ) (A : ℕ → ℕ → K) : ℕ → ℕ → K := fun i j =>
  if k < i ∧ i < n then
    if j = k then A i k / A k k
    else if k < j ∧ j < m then A i j - (A i k / A k k) * A k j
    else A i j
  else A i j

/-- The loop from pass `k` on with `fuel` passes left, funpy/linalg/lucp.py:43-82; also returns the number of completed
eliminations. -/
def loop (n m : ℕ) (tol : K) : ℕ → ℕ → St K → St K × ℕ
  | 0, k, s => (s, k)
  | fuel + 1, k, s =>
    let s := exchange n m k s
    if tol ≤ |s.A k k| then loop n m tol fuel (k + 1) { s with A := eliminate n m k s.A }
    else (s, k)

/-- `lucp(A, tol)`: final state and number of eliminations, funpy/linalg/lucp.py:22-82. -/
def lucp (n m : ℕ) (tol : K) (A : ℕ → ℕ → K) : St K × ℕ := loop n m tol (min (n - 1) m) 0 ⟨A, 1, 1⟩

/-- `L = tril(A[:n, :l1], -1) + eye(n, l1)`, funpy/linalg/lucp.py:87, 91. -/
def lower (A : ℕ → ℕ → K) (i l : ℕ) : K := if l < i then A i l else if l = i then 1 else 0

/-- `U = triu(A[:l1, :])`, funpy/linalg/lucp.py:88, 92. -/
def upper (A : ℕ → ℕ → K) (l j : ℕ) : K := if l ≤ j then A l j else 0

/-- `spsolve_triangular(U, b, lower=False)` by back substitution for an `N × N` matrix; used in
funpy/linalg/nullspace.py:41. -/
def backsub (N : ℕ) (U : ℕ → ℕ → K) (b : ℕ → K) : ℕ → K :=
  (List.range N).reverse.foldl
    (fun x i => LinHelpers.setAt x i ((b i - ∑ j ∈ Finset.Ico (i + 1) N, U i j * x j) / U i i)) b

/-- `null_vector(A, right=True, normalize=False)` for an `n × n` matrix, funpy/linalg/nullspace.py:30-47: the vector
`phi[Q]`, where `Q` is the pivot *vector* `q` returned by `lucp`. -/
def nullVector (n : ℕ) (tol : K) (A : ℕ → ℕ → K) : ℕ → K :=
  let s := (lucp n n tol A).1
  let U := upper s.A
  let x := backsub (n - 1) U (fun i => U i (n - 1))
  let phi := fun i => if i < n - 1 then x i else -1
  fun i => phi (s.q i)

end Funpy.Lucp
