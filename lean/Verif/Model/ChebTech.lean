import Verif.Model.ChebChop
import Verif.Model.Mapping

/-!
# Model: the `chebtech` object, its constructor, differentiation and integration

Python attributes become structure fields, methods which mutate `self` return the new object, and an
exception is `none`.
-/

namespace Funpy.Cheb
open Finset Real

/-- A `chebtech` instance, funpy/cheb/chebtech.py:27-38. -/
structure Tech where
  /-- `self.coeffs` -/
  coeffs : Arr ℝ
  /-- `self.eps` -/
  eps : ℝ
  /-- `self.hscale` -/
  hscale : ℝ := 1
  /-- `self.maxLength` -/
  maxLength : ℕ := 1 + 2 ^ 14
  /-- `self.ishappy` -/
  ishappy : Bool := false

/-- Maximum of a list of non-negative numbers (`np.max(np.abs(...))`). -/
noncomputable def maxAbs (l : List ℝ) : ℝ := (l.map abs).foldl max 0

/-- The property `vscale`, funpy/cheb/chebtech.py:155-162: one number per column. -/
noncomputable def vscale (a : Arr ℝ) : List ℝ :=
  if a.n = 1 then a.cols.map fun c => |c.getD 0 0|
  else (polyval a).cols.map maxAbs

/-- The method `happy`, funpy/cheb/chebtech.py:252-257: `(ishappy, cutoff + 1)`. -/
noncomputable def Tech.happy (t : Tech) : Bool × ℕ :=
  let tol := (vscale t.coeffs).map fun v => max t.hscale v * t.eps
  let r := happinessCheck t.coeffs tol
  (r.1, r.2 + 1)

/-- The method `simplify`, funpy/cheb/chebtech.py:339-345 (`force=False`). -/
noncomputable def Tech.simplify (t : Tech) : Tech :=
  if t.ishappy then { t with coeffs := simplifyCoeffs t.coeffs t.eps } else t

/-- The constructor called with `coeffs=...`, funpy/cheb/chebtech.py:27-67 with `op=None`:
assertion on the size, happiness check unless already happy, optional simplification. -/
noncomputable def Tech.mk' (coeffs : Arr ℝ) (eps : ℝ) (ishappy : Bool) (simplify : Bool)
    (hscale : ℝ := 1) (maxLength : ℕ := 1 + 2 ^ 14) : Option Tech :=
  if coeffs.n * coeffs.m = 0 then none
  else
    let t : Tech := ⟨coeffs, eps, hscale, maxLength, ishappy⟩
    let t := if ishappy then t else { t with ishappy := t.happy.1 }
    some (if simplify then t.simplify else t)

/-! ### Differentiation -/

/-- Indices selected by `[s::-2]` on an axis of length `L` (numpy slicing: a negative start counts
from the end, a start beyond the end is clipped), in the order of selection. -/
def sliceDown2 (L : ℕ) (s : ℤ) : List ℕ :=
  let s' : ℤ := if s < 0 then s + L else min s (L - 1)
  if s' < 0 then [] else go s'.toNat
where
  /-- `i, i-2, i-4, …` down to 0 or 1 -/
  go : ℕ → List ℕ
    | 0 => [0]
    | 1 => [1]
    | i + 2 => (i + 2) :: go i

/-- `out[idx] = np.cumsum(v[idx])`, funpy/cheb/diff.py:22-23. -/
def cumAssign {R : Type*} [AddCommMonoid R] (v : List R) (idx : List ℕ) (out : List R) : List R :=
  (idx.foldl (fun (s : R × List R) i => (s.1 + v.getD i 0, s.2.set i (s.1 + v.getD i 0))) (0, out)).2

/-- One column of `computeDerCoeffs`, funpy/cheb/diff.py:17-25 (`n ≥ 2`). -/
noncomputable def derCol (c : List ℝ) : List ℝ :=
  let n := c.length
  let v := (List.range (n - 1)).map fun k : ℕ => 2 * ((k : ℝ) + 1) * c.getD (k + 1) 0
  let out := List.replicate (n - 1) 0
  let out := cumAssign v (sliceDown2 (n - 1) ((n : ℤ) - 2)) out
  let out := cumAssign v (sliceDown2 (n - 1) ((n : ℤ) - 3)) out
  out.set 0 (0.5 * out.getD 0 0)

/-- `computeDerCoeffs`, funpy/cheb/diff.py:8-25.  For `n = 1` the statement `cout[0, :] = ...`
raises an `IndexError` (the result has no rows). -/
noncomputable def computeDerCoeffs (a : Arr ℝ) : Option (Arr ℝ) :=
  if a.n ≤ 1 then none else some (a.mapCols (a.n - 1) derCol)

/-- The loop `for _ in range(1, n): c = computeDerCoeffs(c)`, funpy/cheb/chebtech.py:497-498. -/
noncomputable def derLoop : ℕ → Arr ℝ → Option (Arr ℝ)
  | 0, a => some a
  | k + 1, a => (computeDerCoeffs a).bind (derLoop k)

/-- `np.diff(cheb, n=k)`, funpy/cheb/chebtech.py:478-505. -/
noncomputable def Tech.diff (t : Tech) (k : ℕ) : Option Tech :=
  let c := simplifyCoeffs t.coeffs t.eps
  if c.n ≤ k then
    Tech.mk' (t.coeffs.mapCols t.coeffs.n fun c => List.replicate c.length 0) t.eps t.ishappy false
      t.hscale t.maxLength
  else do
    let c ← computeDerCoeffs c
    let c ← derLoop (k - 1) c
    Tech.mk' c t.eps t.ishappy false t.hscale t.maxLength

/-! ### Integration -/

/-- One column of `np.sum(cheb)`, funpy/cheb/chebtech.py:508-531: the weights
`2, 0, 2/(1-k²)` applied to the coefficients with the odd ones masked out. -/
noncomputable def sumCol (c : List ℝ) : ℝ :=
  let n := c.length
  if n = 1 then 2 * c.getD 0 0
  else
    let w := [2, 0] ++ (List.range (n - 2)).map fun i : ℕ => 2 / (1 - ((i : ℝ) + 2) ^ 2)
    let masked := (List.range n).map fun k => if k % 2 = 1 then c.getD k 0 * 0 else c.getD k 0 * 1
    (List.zipWith (· * ·) w masked).sum

/-- `np.sum(cheb)`, funpy/cheb/chebtech.py:508-531. -/
noncomputable def Tech.sum (t : Tech) : List ℝ := t.coeffs.cols.map sumCol

/-- One column of the coefficients `b` in `np.cumsum(cheb)`, funpy/cheb/chebtech.py:556-566. -/
noncomputable def cumCol (c : List ℝ) : List ℝ :=
  let n := c.length
  let c := c ++ [0, 0]
  let tail := (List.range (n - 1)).map fun i : ℕ =>
    (c.getD (i + 1) 0 - c.getD (i + 3) 0) / (2 * ((i : ℝ) + 2))
  let b1 := c.getD 0 0 - c.getD 2 0 / 2
  let b := b1 :: tail
  let b0 := ((List.range n).map fun j => (if j % 2 = 1 then -1 else 1) * b.getD j 0).sum
  b0 :: b

/-- `np.cumsum(cheb)`, funpy/cheb/chebtech.py:534-580. -/
noncomputable def Tech.cumsum (t : Tech) : Option Tech := do
  let g ← Tech.mk' (t.coeffs.mapCols (t.coeffs.n + 1) cumCol) t.eps t.ishappy false
    t.hscale t.maxLength
  let g := g.simplify
  let lv := lval g.coeffs
  some { g with coeffs := ⟨g.coeffs.n,
    List.zipWith (fun c l => c.set 0 (c.getD 0 0 - l)) g.coeffs.cols lv⟩ }

/-! ### Division by and multiplication with a number -/

/-- `true_divide(cheb, x)` for a number (or an array holding one number) `x`,
funpy/cheb/ufuncs.pyx:304-324: the result is simplified by the constructor. -/
noncomputable def Tech.divScalar (t : Tech) (x : ℝ) : Option Tech :=
  Tech.mk' (t.coeffs.mapCols t.coeffs.n fun c => c.map (· / x)) t.eps t.ishappy true

end Funpy.Cheb
