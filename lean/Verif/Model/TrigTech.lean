import Verif.Model.TrigEval
import Verif.Model.TrigTransform
import Verif.Model.Mapping
import Verif.Model.ChebChop

/-!
# Model: the `trigtech` object (funpy/trig/trigtech.py, operations.py, ufuncs.py)

Attributes become structure fields, methods which mutate `self` return the new object, an exception
is `none`.  Arrays are lists of columns.
-/

namespace Funpy.Trig
open Complex ComplexConjugate

/-- A `trigtech` instance, funpy/trig/trigtech.py:29-43. -/
structure Tech where
  /-- number of coefficients, `self.n` -/
  n : ℕ
  /-- `self.coeffs`, by columns -/
  cols : List (List ℂ)
  /-- `self.values`, by columns -/
  vals : List (List ℂ)
  /-- `self.isReal`, one flag per column -/
  isReal : List Bool
  /-- `self.eps` -/
  eps : ℝ
  /-- `self.vscale` -/
  vscale : ℝ
  /-- `self.ishappy` -/
  ishappy : Bool

/-- `np.max(np.hypot(np.real(v), np.imag(v)))` of one column. -/
noncomputable def supNorm (v : List ℂ) : ℝ := (v.map fun z => ‖z‖).foldl max 0

/-- `np.max(np.abs(np.imag(v)))` of one column. -/
noncomputable def supIm (v : List ℂ) : ℝ := (v.map fun z => |z.im|).foldl max 0

/-- `get_vscale`, funpy/trig/trigtech.py:258-267 (one column). -/
noncomputable def getVscale (c : List ℂ) : ℝ :=
  if c.length = 1 then ‖c.getD 0 0‖ else supNorm (coeffs2vals c)

open Classical in
/-- `get_isreal(max(self.vscale, self.get_vscale()))`, funpy/trig/trigtech.py:97-101 and 255-256
(one column with coefficients `c` and values `v`). -/
noncomputable def getIsReal (eps vscale : ℝ) (c v : List ℂ) : Bool :=
  decide (supIm v ≤ 3 * eps * max vscale (getVscale c))

/-- `v[:, isReal] = np.real(v[:, isReal])` for one column. -/
noncomputable def realIf (r : Bool) (v : List ℂ) : List ℂ :=
  if r then v.map fun z => ((z.re : ℝ) : ℂ) else v

/-- The constructor with `coeffs=` and `values=`, funpy/trig/trigtech.py:79-103.  The keywords
`isreal`, `simplify` and `maxLength` passed by many callers are ignored by it; `self.vscale` defaults
to `eps`; `ishappy` is overwritten with `True`.  The flags are recomputed from the values. -/
noncomputable def Tech.make (n : ℕ) (cols vals : List (List ℂ)) (eps : ℝ) : Tech :=
  let isReal := List.zipWith (getIsReal eps eps) cols vals
  { n := n, cols := cols, vals := List.zipWith realIf isReal vals, isReal := isReal,
    eps := eps, vscale := eps, ishappy := true }

/-- The default `eps = 1e-10`, funpy/trig/trigtech.py:32. -/
noncomputable def defaultEps : ℝ := 1e-10

/-- `trigtech(coeffs=...)`, funpy/trig/trigtech.py:79-103: the values are computed. -/
noncomputable def Tech.ofCoeffs (n : ℕ) (cols : List (List ℂ)) (eps : ℝ := defaultEps) : Tech :=
  Tech.make n cols (cols.map coeffs2vals) eps

/-- `trigtech(values=...)`, funpy/trig/trigtech.py:79-103: the coefficients are computed. -/
noncomputable def Tech.ofValues (n : ℕ) (vals : List (List ℂ)) (eps : ℝ := defaultEps) : Tech :=
  Tech.make n (vals.map vals2coeffs) vals eps

/-- `trigtech(coeffs=..., values=...)` with the default tolerance. -/
noncomputable def Tech.ofBoth (n : ℕ) (cols vals : List (List ℂ)) : Tech :=
  Tech.make n cols vals defaultEps

/-- `feval` at one point, funpy/trig/trigtech.py:412-420: the values of the columns, and the object
after the call (see `hornerRealMut`). -/
noncomputable def Tech.feval (t : Tech) (x : ℝ) : List ℂ × Tech :=
  let r := horner x t.cols t.isReal
  (r.1, { t with cols := r.2 })

/-- The method `prolong`, funpy/trig/trigtech.py:270-310. -/
noncomputable def Tech.prolong (t : Tech) (Nout : ℕ) : Tech :=
  if Nout = t.n then t
  else
    let cols := t.cols.map fun c => prolongCol c Nout
    { t with n := Nout, cols := cols, vals := List.zipWith realIf t.isReal (cols.map coeffs2vals) }

/-- `const_index`, funpy/trig/trigtech.py:206-213. -/
def constIndex (n : ℕ) : ℕ := if n % 2 = 1 then (n + 1) / 2 - 1 else n / 2

/-! ### Calculus -/

/-- One column of `np.diff(f, n=p)`, funpy/trig/trigtech.py:566-581. -/
noncomputable def diffCol (p : ℕ) (c : List ℂ) : List ℂ :=
  let m := c.length
  let start : ℤ := if m % 2 = 1 then -(((m - 1) / 2 : ℕ) : ℤ) else -((m / 2 : ℕ) : ℤ)
  c.mapIdx fun k a => a * (I * Real.pi * ((start + k : ℤ) : ℂ)) ^ p

/-- `np.diff(f, n=p)`, funpy/trig/trigtech.py:566-581. -/
noncomputable def Tech.diff (t : Tech) (p : ℕ) : Tech := Tech.ofCoeffs t.n (t.cols.map (diffCol p))

/-- `np.sum(f)`, funpy/trig/trigtech.py:584-596. -/
noncomputable def Tech.sum (t : Tech) : List ℂ :=
  List.zipWith (fun c r =>
    let s := 2 * c.getD ((t.n + 2) / 2 - 1) 0
    if r then ((s.re : ℝ) : ℂ) else s) t.cols t.isReal

/-- The statements of `np.cumsum(f, m=1)` acting in place on `f.coeffs` (one column),
funpy/trig/trigtech.py:636-646: the mode that is set to zero and the halved first row. -/
noncomputable def cumMut (c : List ℂ) : List ℂ :=
  let n := c.length
  if n % 2 = 0 then
    let c := c.set (n / 2) 0
    c.set 0 (0.5 * c.getD 0 0)
  else c.set ((n + 1) / 2) 0

/-- `c * integrationFactor` for one column and `m=1`, funpy/trig/trigtech.py:636-660, before the
constant is fixed. -/
noncomputable def cumScaled (c : List ℂ) : List ℂ :=
  let n := c.length
  let d := cumMut c
  let c' := if n % 2 = 0 then d ++ [d.getD 0 0] else d
  let h : ℕ := n / 2         -- highestDegree, for both parities
  let c' := c'.mapIdx fun k a => a * (if k = h then 0 else -I / (((k : ℤ) - h : ℤ) : ℂ) / Real.pi)
  if n % 2 = 0 then (c'.set 0 0).set n 0 else c'

/-- `np.cumsum(f)` (`m = 1`), funpy/trig/trigtech.py:599-671: result and the mutated `f`.
`none` is the `RuntimeError` for a non-zero mean, or the `IndexError` of `c[(n+1)//2, :]` for a
constant (`n = 1`).  The constant term is the sum over *all* columns (`np.sum` without axis) and is
written at row `highestDegree + 1`. -/
noncomputable def Tech.cumsum (t : Tech) : Option (Tech × Tech) :=
  open Classical in
  if ∃ c ∈ t.cols, ‖c.getD (t.n / 2) 0‖ > 10 * t.vscale * t.eps then none
  else if t.n = 1 then none
  else
    let f' : Tech := { t with cols := t.cols.map cumMut }
    let sc := t.cols.map cumScaled
    let h : ℕ := t.n / 2
    let tot : ℂ := (sc.map fun c => (c.mapIdx fun k a => a * (-1) ^ ((k : ℤ) - h)).sum).sum
    let sc := sc.map fun c => c.set (h + 1) (-tot)
    let sc := if t.n % 2 = 0 then sc.map List.dropLast else sc
    some (Tech.ofCoeffs t.n sc, f')

/-! ### Pointwise real part, imaginary part, conjugate -/

/-- `np.real(f)`, funpy/trig/trigtech.py:511-529. -/
noncomputable def Tech.real (t : Tech) : Tech :=
  open Classical in
  if t.isReal.all id then t
  else
    let fv := t.vals.map fun v => v.map fun z => ((z.re : ℝ) : ℂ)
    if ∀ v ∈ t.vals, ∀ z ∈ v, z.re < t.eps then
      let z := t.cols.map fun c => c.map fun _ => (0 : ℂ)
      Tech.ofBoth t.n z z
    else Tech.ofBoth t.n (fv.map vals2coeffs) fv

/-- `np.imag(f)`, funpy/trig/trigtech.py:531-548. -/
noncomputable def Tech.imag (t : Tech) : Tech :=
  if t.isReal.all id then
    let z := t.cols.map fun c => c.map fun _ => (0 : ℂ)
    Tech.ofBoth t.n z z
  else
    let fv := t.vals.map fun v => v.map fun z => ((z.im : ℝ) : ℂ)
    Tech.ofBoth t.n (fv.map vals2coeffs) fv

/-- `conj(f)`, funpy/trig/trigtech.py:550-563. -/
noncomputable def Tech.conj (t : Tech) : Tech :=
  if t.isReal.all (fun r => !r) then t
  else
    Tech.ofBoth t.n
      (List.zipWith (fun r c => if r then c else (c.map (starRingEnd ℂ)).reverse) t.isReal t.cols)
      (List.zipWith (fun r v => if r then v else v.map (starRingEnd ℂ)) t.isReal t.vals)

/-! ### Inner product -/

/-- `np.inner(f, g)`, funpy/trig/trigtech.py:674-697, as a matrix (list of rows): the values of both
functions on `len(f)+len(g)` points, weighted sum. -/
noncomputable def Tech.inner (f g : Tech) : List (List ℂ) :=
  let n := f.n + g.n
  let fv := List.zipWith (fun r c => realIf r (coeffs2vals (prolongCol c n))) f.isReal f.cols
  let gv := List.zipWith (fun r c => realIf r (coeffs2vals (prolongCol c n))) g.isReal g.cols
  let w := quadwts n
  let out := fv.map fun u => gv.map fun v =>
    ((List.range n).map fun j => u.getD j 0 * (w.getD j 0 : ℝ) * starRingEnd ℂ (v.getD j 0)).sum
  if (f.isReal.all id) && (g.isReal.all id) then
    out.map fun r => r.map fun z => ((z.re : ℝ) : ℂ)
  else out

/-! ### Shifts and convolution (funpy/trig/operations.py) -/

/-- One column of the multiplication by `exp(-iπa)^k`, funpy/trig/operations.py:30-35. -/
noncomputable def shiftCol (a : ℝ) (c : List ℂ) : List ℂ :=
  let n := c.length
  let start : ℤ := if n % 2 = 1 then -(((n - 1) / 2 : ℕ) : ℤ) else -((n / 2 : ℕ) : ℤ)
  c.mapIdx fun k z => z * cexp (-(I * Real.pi * a)) ^ (start + k)

/-- `circshift(f, a)` for real `a`, funpy/trig/operations.py:11-45. -/
noncomputable def Tech.circshift (t : Tech) (a : ℝ) : Tech :=
  open Classical in
  if a = 0 then t
  else
    let nc := t.cols.map (shiftCol a)
    Tech.ofBoth t.n nc (List.zipWith realIf t.isReal (nc.map coeffs2vals))

/-! ### Arithmetic (funpy/trig/ufuncs.py) -/

/-- `-f`, funpy/trig/ufuncs.py:15-21. -/
noncomputable def Tech.neg (t : Tech) : Tech :=
  Tech.ofBoth t.n (t.cols.map fun c => c.map fun z => -1 * z)
    (t.vals.map fun v => v.map fun z => -1 * z)

/-- `f + s` for a number `s`, funpy/trig/ufuncs.py:41-79 and 157. -/
noncomputable def Tech.addNum (t : Tech) (s : ℂ) : Tech :=
  Tech.ofBoth t.n (t.cols.map fun c => c.set (constIndex t.n) (c.getD (constIndex t.n) 0 + s))
    (t.vals.map fun v => v.map fun z => z + s)

/-- The values of all columns after the optional prolongation in `add`, funpy/trig/ufuncs.py:107-115. -/
noncomputable def Tech.valsAt (t : Tech) (N : ℕ) : List (List ℂ) :=
  if t.n < N then
    List.zipWith (fun r c => realIf r (coeffs2vals (prolongCol c N))) t.isReal t.cols
  else t.vals

/-- `f + g` for two trig functions with the same number of columns, funpy/trig/ufuncs.py:88-157
(without `out`).  The zero test uses the new values and coefficients. -/
noncomputable def Tech.add (f g : Tech) : Tech :=
  open Classical in
  let N := max f.n g.n
  let v := List.zipWith (List.zipWith (· + ·)) (f.valsAt N) (g.valsAt N)
  let v := List.zipWith realIf (List.zipWith (· && ·) f.isReal g.isReal) v
  let c := v.map vals2coeffs
  if (∀ col ∈ v, ∀ z ∈ col, z = 0) ∨ (∀ col ∈ c, ∀ z ∈ col, z = 0) then
    let z := v.map fun _ => [(0 : ℂ)]
    Tech.ofBoth 1 z z
  else Tech.ofBoth N c v

/-- `f - g`, funpy/trig/ufuncs.py:159-160. -/
noncomputable def Tech.sub (f g : Tech) : Tech := f.add g.neg

/-- `f * s` for a number `s`, funpy/trig/ufuncs.py:162-185 and 302-303. -/
noncomputable def Tech.mulNum (t : Tech) (s : ℂ) : Tech :=
  Tech.ofBoth t.n (t.cols.map fun c => c.map fun z => z * s) (t.vals.map fun v => v.map fun z => z * s)

open Classical in
/-- `f / s` for a number `s`, funpy/trig/ufuncs.py:308-325 and 346-347; `none` is the
`AssertionError` for `|s| < 1e-16`. -/
noncomputable def Tech.divNum (t : Tech) (s : ℂ) : Option Tech :=
  if ‖s‖ < 1e-16 then none
  else some (Tech.ofBoth t.n (t.cols.map fun c => c.map fun z => z / s)
    (t.vals.map fun v => v.map fun z => z / s))

/-- `s / f` for a number `s`: `true_divide` swaps its arguments, funpy/trig/ufuncs.py:308-311. -/
noncomputable def Tech.numDiv (s : ℂ) (t : Tech) : Option Tech := t.divNum s

/-! ### `Fun` objects over a `trigtech` -/

end Funpy.Trig

namespace Funpy

/-- A `Fun` whose `onefun` is a `trigtech` on a two-point domain, funpy/fun.py:22-62. -/
structure TrigFun where
  /-- `self.domain` -/
  dom : Ends
  /-- `self.onefun` -/
  onefun : Trig.Tech

namespace TrigFun
open Trig

/-- `rescaleFactor = 0.5 * np.diff(f.domain)`, funpy/fun.py:529, 542, 549, 559. -/
noncomputable def rescale (f : TrigFun) : ℝ := 0.5 * Mapping.diff f.dom

/-- `f(x)` at one point, funpy/fun.py:129-133, result and the object afterwards; `none` is the
assertion on the mapped point. -/
noncomputable def call (f : TrigFun) (x : ℝ) : Option (List ℂ × TrigFun) :=
  open Classical in
  let z := Mapping.bwd f.dom x
  if -1 ≤ z ∧ z ≤ 1 then some ((f.onefun.feval z).1, ⟨f.dom, (f.onefun.feval z).2⟩) else none

/-- `np.diff(f, n=k)`, funpy/fun.py:527-536: the division by an array of size one,
funpy/trig/ufuncs.py:326-332 (no test of its size). -/
noncomputable def diff (f : TrigFun) (k : ℕ) : TrigFun :=
  let d := f.onefun.diff k
  let s : ℂ := ((f.rescale ^ k : ℝ) : ℂ)
  ⟨f.dom, Tech.ofBoth d.n (d.cols.map fun c => c.map fun z => z / s)
    (d.vals.map fun v => v.map fun z => z / s)⟩

/-- `np.sum(f)`, funpy/fun.py:539-543. -/
noncomputable def sum (f : TrigFun) : List ℂ := f.onefun.sum.map (· * (f.rescale : ℂ))

/-- `np.inner(f, g)`, funpy/fun.py:554-560; `none` is the domain mismatch error. -/
noncomputable def inner (f g : TrigFun) : Option (List (List ℂ)) :=
  open Classical in
  if f.dom = g.dom then
    some ((f.onefun.inner g.onefun).map fun r => r.map (· * (f.rescale : ℂ)))
  else none

/-- `np.roll(f, a)`, funpy/fun.py:575-580: the shift is handed to `circshift` unscaled. -/
noncomputable def roll (f : TrigFun) (a : ℝ) : TrigFun := ⟨f.dom, f.onefun.circshift a⟩

end TrigFun
end Funpy
