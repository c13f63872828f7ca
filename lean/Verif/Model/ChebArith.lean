import Verif.Model.ChebTech
import Verif.Model.FFT

/-!
# Model: arithmetic on `chebtech` objects (funpy/cheb/ufuncs.pyx)
-/

namespace Funpy.Cheb
open Finset Real

/-- Elementwise combination of two arrays of the same shape. -/
def zipArr {R : Type*} (f : R → R → R) (a b : Arr R) : Arr R :=
  ⟨a.n, List.zipWith (List.zipWith f) a.cols b.cols⟩

/-- `negative`, funpy/cheb/ufuncs.pyx:20-26 (the result has the default `hscale`). -/
noncomputable def Tech.neg (t : Tech) : Option Tech :=
  Tech.mk' (t.coeffs.mapCols t.coeffs.n fun c => c.map ((-1) * ·)) t.eps t.ishappy false 1 t.maxLength

/-- `add` of a number or of an array with one number per column, funpy/cheb/ufuncs.pyx:54-69 (no
`out`): `c[0, :] += other`. -/
noncomputable def Tech.addConst (t : Tech) (s : List ℝ) : Option Tech :=
  Tech.mk' ⟨t.coeffs.n, List.zipWith (fun c x => c.set 0 (c.getD 0 0 + x)) t.coeffs.cols s⟩
    t.eps t.ishappy false

/-- `vscl()`, funpy/cheb/chebtech.py:164-173, followed by the maximum over columns taken by its
caller (funpy/cheb/ufuncs.pyx:107): one number. -/
noncomputable def vsclMax (a : Arr ℝ) : ℝ := maxAbs (vscale a)

/-- The coefficient addition of `add`, funpy/cheb/ufuncs.pyx:82-104, without `out`. -/
noncomputable def addCoeffs (a b : Arr ℝ) : Arr ℝ :=
  let c := if a.n < b.n then prolong a b.n else a
  let oc := if b.n < a.n then prolong b a.n else b
  zipArr (· + ·) c oc

/-- `add` of two `chebtech` with equally many columns, funpy/cheb/ufuncs.pyx:82-129, without `out`:
prolong the shorter one, add, and replace the result by the zero function when all coefficients are
below `0.2 * tol`. -/
noncomputable def Tech.add (x1 x2 : Tech) : Option Tech :=
  let c := addCoeffs x1.coeffs x2.coeffs
  let tol := x1.eps * max (vsclMax x1.coeffs) (vsclMax x2.coeffs)
  open Classical in
  let c := if ∀ col ∈ c.cols, ∀ z ∈ col, |z| < 0.2 * tol then
      ⟨1, x1.coeffs.cols.map fun _ => [0]⟩ else c
  Tech.mk' c (max x1.eps x2.eps) (x1.ishappy && x2.ishappy) false

/-- `subtract`, funpy/cheb/ufuncs.pyx:131-132. -/
noncomputable def Tech.sub (x1 x2 : Tech) : Option Tech := x2.neg.bind x1.add

/-- `f += g`: `add(f, g, out=(f,))`, funpy/cheb/ufuncs.pyx:86-93, 99-104, 113-123.  The shorter
operand is prolonged in place (also when it is the right one); no zero-function collapse happens,
because line 111 rebinds the local `c` only.  Returns the new left and right objects. -/
noncomputable def Tech.iadd (x1 x2 : Tech) : Tech × Tech :=
  let x2' := if x2.coeffs.n < x1.coeffs.n then { x2 with coeffs := prolong x2.coeffs x1.coeffs.n } else x2
  let x1' := if x1.coeffs.n < x2.coeffs.n then { x1 with coeffs := prolong x1.coeffs x2.coeffs.n } else x1
  ({ x1' with coeffs := zipArr (· + ·) x1'.coeffs x2'.coeffs, ishappy := x1.ishappy && x2.ishappy,
              eps := max x1.eps x2.eps }, x2')

/-- `multiply` by a number, funpy/cheb/ufuncs.pyx:180-193, 266-267 (replacing a zero array by
`zeros_like` is the identity). -/
noncomputable def Tech.mulNum (t : Tech) (s : ℝ) : Option Tech :=
  Tech.mk' (t.coeffs.mapCols t.coeffs.n fun c => c.map (· * s)) t.eps t.ishappy false

/-- `coeff_times` on one column, funpy/cheb/ufuncs.pyx:135-144: circulant multiplication by FFT.
`x[:0:-1]` is the reversed list without its first entry. -/
noncomputable def coeffTimesCol (f g : List ℝ) : List ℝ :=
  let mn := f.length
  let t := f.set 0 (2 * f.getD 0 0)
  let x := g.set 0 (2 * g.getD 0 0)
  let xprime := fft ((x ++ x.tail.reverse).map Complex.ofReal)
  let aprime := fft ((t ++ t.tail.reverse).map Complex.ofReal)
  let tfg := ifft (List.zipWith (· * ·) aprime xprime)
  let hc := (tfg.getD 0 0 :: List.zipWith (· + ·) tfg.tail tfg.tail.reverse).map fun z => 0.25 * z
  (hc.take mn).map Complex.re

/-- `coeff_times_main` for real arrays with equally many columns, funpy/cheb/ufuncs.pyx:146-172.
For real input `np.conj(f) == f`, so the second branch is never taken. -/
noncomputable def coeffTimesMain (f g : Arr ℝ) : Arr ℝ × Bool :=
  let f' := f.mapCols (f.n + (g.n - 1)) fun c => c ++ List.replicate (g.n - 1) 0
  let g' := g.mapCols (g.n + (f.n - 1)) fun c => c ++ List.replicate (f.n - 1) 0
  open Classical in
  (⟨f'.n, List.zipWith coeffTimesCol f'.cols g'.cols⟩, decide (f'.cols = g'.cols))

/-- `multiply` of a `chebtech` by an `ndarray` of shape `(n2, m2)`, funpy/cheb/ufuncs.pyx:195-217. -/
noncomputable def Tech.mulArr (t : Tech) (b : Arr ℝ) : Option Tech :=
  if b.n * b.m = 1 then t.mulNum ((b.cols.headD []).getD 0 0)
  else if t.coeffs.n = b.n ∧ t.coeffs.m = b.m then
    Tech.mk' (zipArr (· * ·) t.coeffs b) t.eps t.ishappy false
  else none

/-- `multiply` of two `chebtech` with equally many columns, funpy/cheb/ufuncs.pyx:174-178, 232-267. -/
noncomputable def Tech.mul (x1 x2 : Tech) : Option Tech :=
  if x1.coeffs.n = 1 then x2.mulArr x1.coeffs
  else if x2.coeffs.n = 1 then x1.mulArr x2.coeffs
  else
    let eps := max x1.eps x2.eps
    let r := coeffTimesMain x1.coeffs x2.coeffs
    let c := simplifyCoeffs r.1 eps
    let c := if r.2 then polyfit ((polyval c).mapCols c.n fun v => v.map abs) else c
    Tech.mk' c eps (x1.ishappy && x2.ishappy) false

end Funpy.Cheb
