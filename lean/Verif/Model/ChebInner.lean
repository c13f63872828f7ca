import Verif.Model.Fun

/-!
# Model: quadrature and barycentric weights, points on an interval, inner products
-/

namespace Funpy.Cheb
open Finset Real

/-- `quadwts(N)`, funpy/cheb/pts.py:21-32.  `np.arange(2, N, 2)` has `(N-1)/2` entries.  For `N = 0`
the code raises a `TypeError` (`np.empty()`); the model returns the empty list and no theorem uses
that value. -/
noncomputable def quadwts (N : ℕ) : List ℝ :=
  if N = 0 then []
  else if N = 1 then [2]
  else
    let c : List ℝ := ((1 : ℝ) :: (List.range ((N - 1) / 2)).map fun i : ℕ => 1 - (2 * (i : ℝ) + 2) ^ 2).map (2 / ·)
    let c := c ++ ((c.take (N / 2)).drop 1).reverse
    let w := ifft (c.map Complex.ofReal)
    let w := w.set 0 (0.5 * w.getD 0 0)
    (w ++ [w.getD 0 0]).map Complex.re

/-- `bary_weights(N)`, funpy/cheb/pts.py:11-16: `c = ones(N-1) ++ [0.5]`, `c[-2::-2] = -1`,
`c[0] *= 0.5` (`N ≥ 1`). -/
noncomputable def baryWeights (N : ℕ) : List ℝ :=
  let c := List.replicate (N - 1) 1 ++ [0.5]
  let idx := if N < 2 then [] else sliceDown2 N ((N : ℤ) - 2)
  let c := idx.foldl (fun c i => c.set i (-1)) c
  c.set 0 (c.getD 0 0 * 0.5)

/-- `scaleNodes`, funpy/cheb/pts.py:36-43. -/
noncomputable def scaleNodes (x : List ℝ) (I : Ends) : List ℝ :=
  if I.e0 = -1 ∧ I.e1 = 1 then x
  else x.map fun t => 0.5 * I.e1 * (1 + t) + 0.5 * I.e0 * (1 - t)

/-- `scaleWeights`, funpy/cheb/pts.py:47-54. -/
noncomputable def scaleWeights (w : List ℝ) (I : Ends) : List ℝ :=
  if I.e0 = -1 ∧ I.e1 = 1 then w
  else w.map fun t => 0.5 * Mapping.diff I * t

/-- The four arrays `x, w, v, t` returned by `chebpts`. -/
structure Pts where
  /-- nodes -/
  x : List ℝ
  /-- quadrature weights -/
  w : List ℝ
  /-- barycentric weights -/
  v : List ℝ
  /-- angles -/
  t : List ℝ

/-- `np.pi * np.flip(np.arange(0, N, 1)) / (N - 1)`, funpy/cheb/pts.py:123, 156. -/
noncomputable def angles (N : ℕ) : List ℝ :=
  (List.range N).reverse.map fun k : ℕ => π * k / ((N : ℝ) - 1)

/-- `chebpts(N, interval, type=1)`, funpy/cheb/pts.py:98-125 and 161-175. -/
noncomputable def chebptsType1 (N : ℕ) (I : Ends) : Pts :=
  if N = 0 then ⟨[], [], [], []⟩
  else if N = 1 then ⟨[0], [2], [1], [0.5 * π]⟩
  else ⟨scaleNodes (chebpts1 N) I, scaleWeights (quadwts N) I, baryWeights N, angles N⟩

/-- `chebpts(N, interval, type=2)`, funpy/cheb/pts.py:129-158 and 161-175. -/
noncomputable def chebptsType2 (N : ℕ) (I : Ends) : Pts :=
  if N = 0 then ⟨[], [], [], []⟩
  else if N = 1 then ⟨[0], [2], [1], [0.5 * π]⟩
  else ⟨scaleNodes (chebpts2 N) I, scaleWeights (quadwts N) I, baryWeights N, angles N⟩

/-! ### `barymat` -/

/-- IEEE values as needed by `barymat`: a finite number, a signed infinity or NaN. -/
inductive Ieee where
  /-- a finite number -/
  | fin (r : ℝ)
  /-- `+inf` or `-inf` -/
  | inf (neg : Bool)
  /-- NaN -/
  | nan

namespace Ieee

/-- `a / b` for finite `a`, `b`; only the sign of `a` is used for the sign of the infinity (a
positive zero divisor), which no theorem depends on. -/
noncomputable def divFin (a b : ℝ) : Ieee :=
  if b = 0 then (if a = 0 then nan else inf (decide (a < 0))) else fin (a / b)

/-- IEEE addition. -/
noncomputable def add : Ieee → Ieee → Ieee
  | fin a, fin b => fin (a + b)
  | fin _, inf s => inf s
  | inf s, fin _ => inf s
  | inf s, inf s' => if s = s' then inf s else nan
  | _, _ => nan

/-- IEEE division. -/
noncomputable def div : Ieee → Ieee → Ieee
  | fin a, fin b => divFin a b
  | fin _, inf _ => fin 0
  | inf s, fin b => if b < 0 then inf (!s) else inf s
  | inf _, inf _ => nan
  | _, _ => nan

/-- `P[np.isnan(P)] = 1` -/
noncomputable def fixNan : Ieee → Ieee
  | nan => fin 1
  | a => a

end Ieee

/-- One row of `barymat(y, x, w)`, funpy/cheb/pts.py:58-67. -/
noncomputable def barymatRow (x w : List ℝ) (y : ℝ) : List Ieee :=
  let P := List.zipWith (fun wk xk => Ieee.divFin wk (y - xk)) w x
  let s := P.foldl Ieee.add (Ieee.fin 0)
  P.map fun p => (Ieee.div p s).fixNan

/-- `barymat(y, x, w)`, funpy/cheb/pts.py:58-75. -/
noncomputable def barymat (y x w : List ℝ) : List (List Ieee) := y.map (barymatRow x w)

/-! ### Inner products -/

/-- `np.all(f.coeffs == g.coeffs)` with equal shapes, `chebtech.__eq__`,
funpy/cheb/chebtech.py:386-387. -/
noncomputable def Tech.eq (f g : Tech) : Bool :=
  open Classical in decide (f.coeffs.n = g.coeffs.n ∧ f.coeffs.cols = g.coeffs.cols)

/-- `np.matmul(fvalues.T * w, gvalues)[i, j]`, funpy/cheb/chebtech.py:595. -/
noncomputable def wdot (w u v : List ℝ) : ℝ :=
  (List.zipWith (· * ·) (List.zipWith (· * ·) u w) v).sum

/-- `np.inner` of two `chebtech`s, funpy/cheb/chebtech.py:583-602 (the final `squeeze` only drops
axes of length one): row `i`, column `j` of the matrix. -/
noncomputable def Tech.inner (f g : Tech) : List (List ℝ) :=
  let n := f.coeffs.n + g.coeffs.n
  let fv := polyval (prolong f.coeffs n)
  let gv := polyval (prolong g.coeffs n)
  let w := quadwts n
  let out := fv.cols.map fun u => gv.cols.map fun v => wdot w u v
  if Tech.eq f g then
    out.mapIdx fun i row => row.mapIdx fun j e => if i = j then e - e + |e| else e - 0 + 0
  else out

/-- `innerw` of two `chebtech`s, funpy/cheb/chebtech.py:605-627 (equal numbers of columns; numpy
broadcasting of a single column is not modelled). -/
noncomputable def Tech.innerw (f g : Tech) : List ℝ :=
  let n := min f.coeffs.n g.coeffs.n
  let c1 := prolong f.coeffs n
  let c2 := prolong g.coeffs n
  List.zipWith (fun u v => (u.getD 0 0 * v.getD 0 0 + (List.zipWith (· * ·) u v).sum) * (0.5 * π))
    c1.cols c2.cols

/-- `np.dot` of two `chebtech`s, funpy/cheb/chebtech.py:630-633: the trace of the inner product
matrix (used for equal numbers of columns; with one column against several the code's
`np.diagonal` raises, which is not modelled). -/
noncomputable def Tech.dot (f g : Tech) : ℝ :=
  ((Tech.inner f g).mapIdx fun i row => row.getD i 0).sum

end Funpy.Cheb

namespace Funpy.ChebFun
open Cheb

/-- `np.inner` of two functions, funpy/fun.py:554-560; `none` is the `ValueError` for different
domains. -/
noncomputable def inner (f g : ChebFun) : Option (List (List ℝ)) :=
  open Classical in
  if f.dom = g.dom then some ((f.onefun.inner g.onefun).map fun r => r.map (· * f.rescale)) else none

/-- `innerw` of two functions, funpy/fun.py:563-571. -/
noncomputable def innerw (f g : ChebFun) : Option (List ℝ) :=
  open Classical in
  if f.dom = g.dom then some ((f.onefun.innerw g.onefun).map (· * f.rescale)) else none

/-- `np.dot` of two functions, funpy/fun.py:318-331. -/
noncomputable def dot (f g : ChebFun) : Option ℝ :=
  open Classical in
  if f.dom = g.dom then some (f.onefun.dot g.onefun * f.rescale) else none

end Funpy.ChebFun
