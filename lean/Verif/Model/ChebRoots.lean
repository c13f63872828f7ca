import Verif.Model.ChebObj
import Verif.Model.FFT
import Mathlib.LinearAlgebra.Matrix.Determinant.Basic
import Mathlib.Data.List.Sort

/-!
# Model: root finding
-/

namespace Funpy.Cheb
open Finset Real

/-- Number of coefficients kept by `roots_main`, funpy/cheb/detail.pyx:502-508:
`np.max(np.where(np.abs(c) > tailMmax)[0]) + 1` for arrays with more than one entry; `none`: `np.max`
of an empty array raises. -/
noncomputable def keepLen (c : List ℝ) (eps : ℝ) : Option ℕ :=
  open Classical in
  let tail := 5 * eps * (c.map abs).sum
  if c.length ≤ 1 then some c.length
  else (((List.range c.length).filter fun k => decide (tail < |c.getD k 0|)).getLast?).map (· + 1)

/-- The truncation, funpy/cheb/detail.pyx:510-512. -/
def truncateTo (c : List ℝ) (n : ℕ) : List ℝ := if 1 < n ∧ n < c.length then c.take n else c

/-- `LA.norm(c, np.inf)`, funpy/cheb/detail.pyx:545. -/
noncomputable def infNorm (c : List ℝ) : ℝ := maxAbs c

/-- The vector written into the first column of `A` (before `flipud`),
funpy/cheb/detail.pyx:545-548: `c /= norm; c' = -0.5*c[:-1]; c'[-2] += 0.5*c[-1]`. -/
noncomputable def colleagueCol (c : List ℝ) : List ℝ :=
  let c := c.map (· / infNorm c)
  let last := c.getD (c.length - 1) 0
  let c' := (c.take (c.length - 1)).map (-0.5 * ·)
  c'.set (c'.length - 2) (c'.getD (c'.length - 2) 0 + 0.5 * last)

/-- The matrix `A` of the generalised eigenvalue problem, funpy/cheb/detail.pyx:538-549.
`spdiags` with offset `1` uses the data entry of the column, and the data have only `n - 2` columns, so
the last column is not filled; `A[-2, -1] = 1` then sets its entry. -/
noncomputable def colleagueA (c : List ℝ) : Matrix (Fin (c.length - 1)) (Fin (c.length - 1)) ℝ :=
  fun i j =>
    if j.val = 0 then (colleagueCol c).reverse.getD i 0
    else if i.val + 2 = c.length - 1 ∧ j.val + 1 = c.length - 1 then 1
    else if j.val = i.val + 1 ∧ j.val < c.length - 2 then 0.5
    else if i.val = j.val + 1 ∧ j.val < c.length - 2 then 0.5
    else 0

/-- The matrix `B`, funpy/cheb/detail.pyx:544-546. -/
noncomputable def colleagueB (c : List ℝ) : Matrix (Fin (c.length - 1)) (Fin (c.length - 1)) ℝ :=
  fun i j =>
    if i = j then (if i.val = 0 then (c.map (· / infNorm c)).getD (c.length - 1) 0 else 1) else 0

/-- The clean-up of the eigenvalues, funpy/cheb/detail.pyx:555-562 (`all_roots=False`). -/
noncomputable def cleanRoots (htol : ℝ) (r : List ℂ) : List ℝ :=
  open Classical in
  let r := (r.filter fun z => decide (|z.im| < htol)).map Complex.re
  let r := (r.filter fun x => decide (|x| ≤ 1 + htol)).mergeSort (fun a b => decide (a ≤ b))
  let r := r.set 0 (max (r.getD 0 0) (-1))
  r.set (r.length - 1) (min (r.getD (r.length - 1) 0) 1)

/-- `chebptsAB`, funpy/cheb/detail.pyx:43-46. -/
noncomputable def chebptsAB (n : ℕ) (a b : ℝ) : List ℝ :=
  (chebpts2 n).map fun x => 0.5 * (b * (x + 1) + a * (1 - x))

/-- The three-term recurrence filling the columns of `TLeft` and `TRight`,
funpy/cheb/detail.pyx:463-475 (columns 0 and 1 are `1` and `x`). -/
noncomputable def chebRec (x : ℝ) : ℕ → ℝ
  | 0 => 1
  | 1 => x
  | i + 2 => 2 * x * chebRec x (i + 1) - chebRec x i

/-- One column of `fft_weights`, funpy/cheb/detail.pyx:478-489: the even extension
`vstack((T[513:0:-1], T[:512]))`, `real(fft(·)/512)`, first and last entry halved.  The code has
`M = 512`. -/
noncomputable def fftCol (M : ℕ) (v : List ℝ) : List ℝ :=
  let u := (v.drop 1).reverse ++ v.take M
  let w := (fft (u.map fun z : ℝ => (z : ℂ))).map fun z : ℂ => (z / (M : ℂ)).re
  (List.range (M + 1)).map fun k =>
    if k = 0 ∨ k = M then 0.5 * w.getD k 0 else w.getD k 0

/-- The entry `(i, k)` of `TLeft`/`TRight` for the sub-interval `[a, b]`,
funpy/cheb/detail.pyx:449-491 (including `np.triu`). -/
noncomputable def fftWeight (M : ℕ) (a b : ℝ) (i k : ℕ) : ℝ :=
  if i ≤ k then (fftCol M ((chebptsAB (M + 1) a b).map fun x => chebRec x k)).getD i 0 else 0

/-- `np.matmul(T[:n, :n], c)`, funpy/cheb/detail.pyx:574-575. -/
noncomputable def splitFFT (c : List ℝ) (a b : ℝ) : List ℝ :=
  (List.range c.length).map fun i => ∑ k ∈ range c.length, fftWeight 512 a b i k * c.getD k 0

/-- `polyfit(clenshaw(chebptsAB(n, [a, b]), c))`, funpy/cheb/detail.pyx:588-598. -/
noncomputable def splitClenshaw (c : List ℝ) (a b : ℝ) : List ℝ :=
  polyfitCol ((chebptsAB c.length a b).map fun x => clenshawScalar x c)

/-- `roots_main` with the default `all_roots=False` used by all callers,
funpy/cheb/detail.pyx:494-607.  `eig` is the eigenvalue routine `LA.eigvals(A, b=B)`; the recursive
calls use the default `eps = 1.48e-8` and twice the tolerance.  The first argument bounds the recursion
depth. -/
noncomputable def rootsMain (eig : List ℝ → List ℂ) (s : ℝ) : ℕ → List ℝ → ℝ → ℝ → Option (List ℝ)
  | 0, _, _, _ => none
  | fuel + 1, c, htol, eps => do
    let n ← keepLen c eps
    let c := truncateTo c n
    if n = 0 then some [0]
    else if n = 1 then (if c.getD 0 0 = 0 then some [0] else some [])
    else if n = 2 then some [-c.getD 0 0 / c.getD 1 0]
    else if n ≤ 50 then some (cleanRoots htol (eig c))
    else
      let split := if n ≤ 513 then splitFFT c else splitClenshaw c
      let rLeft ← rootsMain eig s fuel (split (-1) s) (2 * htol) 1.48e-8
      let rRight ← rootsMain eig s fuel (split s 1) (2 * htol) 1.48e-8
      some (rLeft.map (fun t => (s - 1) / 2 + (s + 1) / 2 * t) ++
        rRight.map (fun t => (s + 1) / 2 + (1 - s) / 2 * t))

/-- The split point of `roots_scalar`, funpy/cheb/detail.pyx:610. -/
noncomputable def splitPoint : ℝ := -0.004849834917525

/-- `roots_scalar`, funpy/cheb/detail.pyx:609-624, for a `chebtech` with one column. -/
noncomputable def rootsScalar (eig : List ℝ → List ℂ) (fuel : ℕ) (t : Tech) : Option (List ℝ) :=
  let c := t.coeffs.cols.getD 0 []
  if t.coeffs.n = 1 then (if c.getD 0 0 = 0 then some [0] else some [])
  else rootsMain eig splitPoint fuel (c.map (· / (vscale t.coeffs).getD 0 0)) (100 * t.eps) 1.48e-8

/-- `chebtech.roots`, funpy/cheb/chebtech.py:398-401, for one column: `self` is simplified first. -/
noncomputable def Tech.roots (eig : List ℝ → List ℂ) (fuel : ℕ) (t : Tech) : Option (List ℝ) :=
  rootsScalar eig fuel t.simplify

end Funpy.Cheb

namespace Funpy

/-- `roots(f)` for a `Fun`, funpy/fun.py:600-602: the roots are mapped to the domain. -/
noncomputable def ChebFun.roots (eig : List ℝ → List ℂ) (fuel : ℕ) (f : ChebFun) : Option (List ℝ) :=
  (f.onefun.roots eig fuel).map fun r => r.map (Mapping.fwd f.dom)

end Funpy
