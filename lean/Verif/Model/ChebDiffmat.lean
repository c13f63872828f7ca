import Verif.Model.ChebInner

/-!
# Model: `diffmat`, the barycentric differentiation matrix (funpy/cheb/diff.py:28-90)

Matrices are functions of the row and column index (`i, j < N`).
-/

namespace Funpy.Cheb
open Finset Real

/-- `np.fill_diagonal(D, 0); np.fill_diagonal(D, -np.sum(D, axis=1))`, funpy/cheb/diff.py:71-72. -/
noncomputable def negSumTrick (N : ℕ) (D : ℕ → ℕ → ℝ) : ℕ → ℕ → ℝ :=
  let D0 : ℕ → ℕ → ℝ := fun i j => if i = j then 0 else D i j
  fun i j => if i = j then -∑ l ∈ range N, D0 i l else D0 i j

/-- The differences `x_i - x_j`, with the entries right of the anti-diagonal replaced by the negated
rotated ones, and ones on the diagonal; funpy/cheb/diff.py:47-60.  `np.rot90(A, 2)[i,j]` is
`A[N-1-i, N-1-j]` and `np.rot90(not triu)[i,j]` holds iff `i + j > N - 1`. -/
noncomputable def diffDx (x : List ℝ) : ℕ → ℕ → ℝ :=
  let N := x.length
  let Dx : ℕ → ℕ → ℝ := fun i j => x.getD i 0 - x.getD j 0
  let Dx' : ℕ → ℕ → ℝ := fun i j => if i + j > N - 1 then -Dx (N - 1 - i) (N - 1 - j) else Dx i j
  fun i j => if i = j then 1 else Dx' i j

/-- `Dw`, funpy/cheb/diff.py:63-66. -/
noncomputable def diffDw (N : ℕ) : ℕ → ℕ → ℝ :=
  let w := baryWeights N
  fun i j => if i = j then 0 else w.getD j 0 / w.getD i 0

/-- The loop `for n in range(3, k+1)`, funpy/cheb/diff.py:85-88; `cnt` iterations starting at `n`. -/
noncomputable def diffLoop (x : List ℝ) : ℕ → ℕ → (ℕ → ℕ → ℝ) → (ℕ → ℕ → ℝ)
  | 0, _, D => D
  | cnt + 1, n, D =>
      let N := x.length
      let D' : ℕ → ℕ → ℝ := fun i j => n * (1 / diffDx x i j) * (diffDw N i j * D i i - D i j)
      diffLoop x cnt (n + 1) (negSumTrick N D')

/-- `diffmat(x, k)`, funpy/cheb/diff.py:28-90, for at least two points (the code returns
`None` for no points and an empty matrix for one point; both are excluded in the theorems). -/
noncomputable def diffmat (x : List ℝ) (k : ℕ) : ℕ → ℕ → ℝ :=
  let N := x.length
  if k = 0 then fun i j => if i = j then 1 else 0
  else
    let Dxi : ℕ → ℕ → ℝ := fun i j => 1 / diffDx x i j
    let D1 := negSumTrick N fun i j => diffDw N i j * Dxi i j
    if k = 1 then D1
    else
      let D2 := negSumTrick N fun i j => 2 * D1 i j * (D1 i i - Dxi i j)
      if k = 2 then D2
      else diffLoop x (k - 2) 3 D2

end Funpy.Cheb
