import Verif.Model.ChebRefine
import Verif.Model.ChebInner
import Verif.Model.ChebRoots

/-!
# Model: powers, absolute values, minimum and maximum, norms of functions
-/

namespace Funpy.Cheb
open Real

/-- `chebtech(op=..., minSamples=ms, eps=eps, maxLength=ml, hscale=hs)` for a callable, funpy/cheb/chebtech.py:27-67
(defaults `hscale=1`, `simplify=True`, strategy `'nested'`): like `fromCallable`, with the keyword `minSamples`.  The
number of rounds is bounded by `ml + 1`, which always suffices (theorem `C24_terminates`). -/
noncomputable def ofCallable (fs : List (ℝ → ℝ)) (eps : ℝ) (ml ms : ℕ) (hs : ℝ := 1) : Option Tech :=
  (populate .nested fs (max 9 (min ml ms)) (ml + 1) ⟨⟨0, []⟩, eps, hs, ml, false⟩ ⟨0, []⟩).bind fun r =>
    Tech.mk' r.1.coeffs eps false true hs ml

/-- `power(x1, p)` for a natural number `p`, funpy/cheb/ufuncs.pyx:36-47: the function itself for `p = 1`, otherwise
the adaptive approximation of the pointwise power, first sampled on at least `x1.n` points. -/
noncomputable def Tech.power (t : Tech) (p : ℕ) : Option Tech :=
  if p = 1 then some t
  else ofCallable (t.coeffs.cols.map fun c x => clenshawScalar x c ^ p) t.eps (1 + 2 ^ 14) t.coeffs.n

/-- `absolute(x)`, funpy/cheb/ufuncs.pyx:32-34. -/
noncomputable def Tech.absolute (t : Tech) : Option Tech :=
  ofCallable (t.coeffs.cols.map fun c x => |clenshawScalar x c|) t.eps (2 ^ 10) t.coeffs.n

/-! ### Minimum and maximum -/

/-- `np.argmax` of a list (first position of the largest entry): `np.argmin` (model of
funpy/cheb/detail.pyx:279) of the negated list. -/
noncomputable def argmaxL (v : List ℝ) : ℕ := argmin (v.map (-·))

/-- The two-stage minimum of `minmaxCol`, funpy/cheb/minmax.py:20-30: first over the candidate points `r`, then
over the stored values; returns `(value, position)`. -/
noncomputable def minCol (f : List ℝ) (r xpts : List ℝ) : ℝ × ℝ :=
  open Classical in
  let v := r.map fun x => clenshawScalar x f
  let i := argmin v
  let v0 := v.getD i 0
  let values := v0 :: polyvalCol f
  let k := argmin values
  let mv := values.getD k 0
  if mv < v0 then (mv, xpts.getD (k - 1) 0) else (v0, r.getD i 0)

/-- The two-stage maximum of `minmaxCol`, funpy/cheb/minmax.py:32-42. -/
noncomputable def maxCol (f : List ℝ) (r xpts : List ℝ) : ℝ × ℝ :=
  open Classical in
  let v := r.map fun x => clenshawScalar x f
  let i := argmaxL v
  let v0 := v.getD i 0
  let values := v0 :: polyvalCol f
  let k := argmaxL values
  let mv := values.getD k 0
  if v0 < mv then (mv, xpts.getD (k - 1) 0) else (v0, r.getD i 0)

/-- `minmaxCol(f, fp, xpts)`, funpy/cheb/minmax.py:6-44: `(min, argmin, max, argmax)`; `none`: `fp.roots()` raises.
The value stored for a constant function in line 12 is always overwritten. -/
noncomputable def minmaxCol (eig : List ℝ → List ℂ) (fuel : ℕ) (f : List ℝ) (fp : Tech) (xpts : List ℝ) :
    Option ((ℝ × ℝ) × (ℝ × ℝ)) :=
  (fp.roots eig fuel).map fun rr =>
    let r := [-1] ++ rr ++ [1]
    (minCol f r xpts, maxCol f r xpts)

/-- `fp[i]`, one column of a `chebtech`, funpy/cheb/chebtech.py:207-227 (no simplification). -/
noncomputable def colTech (t : Tech) (c : List ℝ) : Tech :=
  { t with coeffs := ⟨t.coeffs.n, [c]⟩, hscale := 1,
           ishappy := if t.ishappy then true else
             (Tech.happy ⟨⟨t.coeffs.n, [c]⟩, t.eps, 1, t.maxLength, false⟩).1 }

/-- The list of all results, or `none` if one of them raises. -/
def allSome {α : Type} : List (Option α) → Option (List α)
  | [] => some []
  | a :: l => a.bind fun x => (allSome l).map fun xs => x :: xs

/-- `chebtech.minandmax`, funpy/cheb/chebtech.py:403-415: one quadruple per column. -/
noncomputable def Tech.minandmax (eig : List ℝ → List ℂ) (fuel : ℕ) (t : Tech) :
    Option (List ((ℝ × ℝ) × (ℝ × ℝ))) :=
  (t.diff 1).bind fun fp =>
    let x := chebpts2 t.coeffs.n
    if t.coeffs.m = 1 then
      (minmaxCol eig fuel (t.coeffs.cols.getD 0 []) fp x).map fun r => [r]
    else
      allSome (List.zipWith (fun c d => minmaxCol eig fuel c (colTech fp d) x) t.coeffs.cols fp.coeffs.cols)

end Funpy.Cheb

namespace Funpy.ChebFun
open Cheb Real

/-- `minandmax(f)`, funpy/fun.py:605-607: the positions are mapped to the domain. -/
noncomputable def minandmax (eig : List ℝ → List ℂ) (fuel : ℕ) (f : ChebFun) :
    Option (List ((ℝ × ℝ) × (ℝ × ℝ))) :=
  (f.onefun.minandmax eig fuel).map fun l => l.map fun q =>
    ((q.1.1, Mapping.fwd f.dom q.1.2), (q.2.1, Mapping.fwd f.dom q.2.2))

/-- `f ** p`, funpy/fun.py:166-188 with funpy/cheb/ufuncs.pyx:36-47. -/
noncomputable def power (f : ChebFun) (p : ℕ) : Option ChebFun := (f.onefun.power p).map fun t => ⟨f.dom, t⟩

/-- `abs(f)`, funpy/fun.py:166-188 with funpy/cheb/ufuncs.pyx:32-34. -/
noncomputable def absolute (f : ChebFun) : Option ChebFun := f.onefun.absolute.map fun t => ⟨f.dom, t⟩

/-- The index of a norm: an integer or `np.inf`. -/
inductive NormIndex
  /-- an integer -/
  | fin (p : ℤ)
  /-- `np.inf` -/
  | inf

/-- The nested function `detail` of `norm`, funpy/fun.py:374-385, for a finite positive index. -/
noncomputable def normDetail (f : ChebFun) (p : ℕ) : Option ℝ :=
  if p = 1 then (f.absolute).map fun g => g.sum.sum
  else if p % 2 = 1 then (f.absolute).bind fun a => (a.power p).map fun g => g.sum.sum
  else (f.power p).map fun g => |g.sum.sum|

/-- The nested function `detail` of `norm` for `p = np.inf`, funpy/fun.py:378-380. -/
noncomputable def normInf (eig : List ℝ → List ℂ) (fuel : ℕ) (f : ChebFun) : Option ℝ :=
  (f.minandmax eig fuel).map fun l => maxAbs (l.flatMap fun q => [q.1.1, q.2.1])

/-- `norm(f, p, weighted)` for a Chebyshev function, funpy/fun.py:363-406; `none` is the `ValueError` for `p ≤ 0`, the
failed assertion for a weighted norm with `p ≠ 2`, or an exception in one of the operations used. -/
noncomputable def norm (eig : List ℝ → List ℂ) (fuel : ℕ) (f : ChebFun) (p : NormIndex) (weighted : Bool) :
    Option ℝ :=
  match p with
  | .inf => if weighted then none else f.normInf eig fuel
  | .fin p =>
    if p ≤ 0 then none
    else
      let np := if weighted then (if p = 2 then (f.innerw f).map List.sum else none) else f.normDetail p.toNat
      if p = 1 then np else np.map fun s => s ^ (1 / (p : ℝ))

/-- `norm2(f, p, weighted)` for a Chebyshev function and a finite index, funpy/fun.py:409-433 (no absolute value
is taken for even `p`). -/
noncomputable def norm2 (f : ChebFun) (p : ℤ) (weighted : Bool) : Option ℝ :=
  if p ≤ 0 then none
  else if weighted then (if p = 2 then (f.innerw f).map List.sum else none)
  else if p = 1 then (f.absolute).map fun g => g.sum.sum
  else if p % 2 = 1 then (f.absolute).bind fun a => (a.power p.toNat).map fun g => g.sum.sum
  else (f.power p.toNat).map fun g => g.sum.sum

/-- The loop of `wkpnorm`, funpy/fun.py:441-444. -/
noncomputable def wkpLoop (p : ℤ) (weighted : Bool) : ℕ → ChebFun → ℝ → Option ℝ
  | 0, _, acc => some acc
  | k + 1, f, acc =>
    (f.diff 1).bind fun f => (f.norm2 p weighted).bind fun s => wkpLoop p weighted k f (acc + s)

/-- `wkpnorm(f, p, k)`, funpy/fun.py:436-446; `h1norm` and `h2norm` (449-454) are `k = 1` and `k = 2`. -/
noncomputable def wkpnorm (f : ChebFun) (p k : ℤ) (weighted : Bool) : Option ℝ :=
  if k < 0 then none
  else (f.norm2 p weighted).bind fun s => (wkpLoop p weighted k.toNat f s).map fun a => a ^ (1 / (p : ℝ))

/-- `normh(f)`, funpy/fun.py:457-458. -/
noncomputable def normh (f : ChebFun) : Option ℝ := (f.dot f).map fun s => √s

/-- `normalize(u, p, weighted)`, funpy/fun.py:483-484: `true_divide(u, norm)`, funpy/cheb/ufuncs.pyx:304-324. -/
noncomputable def normalize (eig : List ℝ → List ℂ) (fuel : ℕ) (f : ChebFun) (p : NormIndex) (weighted : Bool) :
    Option ChebFun :=
  (f.norm eig fuel p weighted).bind fun v => (f.onefun.divScalar v).map fun t => ⟨f.dom, t⟩

/-- `np.sign` -/
noncomputable def signum (x : ℝ) : ℝ := if x < 0 then -1 else if x = 0 then 0 else 1

/-- `sturm_norm(f, p, weighted)` for one column, funpy/fun.py:461-469 (the keyword `weighted` is used for the norm of
the derivative only). -/
noncomputable def sturmNorm (eig : List ℝ → List ℂ) (fuel : ℕ) (f : ChebFun) (p : NormIndex) (weighted : Bool) :
    Option ℝ :=
  (f.diff 1).bind fun df => (df.norm eig fuel p weighted).bind fun dn =>
    (f.norm eig fuel p false).map fun n =>
      if dn > 1e-7 then
        signum (clenshawScalar (Mapping.bwd df.dom df.dom.e0) (df.onefun.coeffs.cols.getD 0 [])) * n
      else n

end Funpy.ChebFun
