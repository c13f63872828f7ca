import Verif.Model.TrigTech

/-!
# Model: simplify, products and convolutions of periodic functions
(funpy/trig/trig_simplify.py, ufuncs.py, operations.py)
-/

namespace Funpy.Trig
open Complex ComplexConjugate

/-- Python's `round(nold * 1.25 + 5)` (round half to even) for `nold : ℕ`,
funpy/trig/trig_simplify.py:61: the value is `5 + 5·nold/4`; the half-way case is `nold % 4 = 2`. -/
def pyRound (nold : ℕ) : ℕ :=
  let q := 5 + 5 * nold / 4
  if 5 * nold % 4 < 2 then q
  else if 5 * nold % 4 = 2 then (if q % 2 = 0 then q else q + 1)
  else q + 1

/-- `N = max(17, round(nold * 1.25 + 5))`, funpy/trig/trig_simplify.py:61. -/
def simplifyLen (nold : ℕ) : ℕ := max 17 (pyRound nold)

/-- One column of `abs_coeffs`, funpy/trig/trig_simplify.py:66-84: the moduli of the reversed
coefficients go through `vals2coeffs(coeffs2vals(·))`, modes `±w` are added (with an unpaired first
entry for even lengths), the result is reversed and every entry but the first is repeated twice. -/
noncomputable def foldedAbs (c : List ℂ) : List ℂ :=
  let a := c.reverse.map fun z => ((‖z‖ : ℝ) : ℂ)
  let n := a.length
  let a := vals2coeffs (coeffs2vals a)
  let s :=
    if n % 2 = 0 then
      [a.getD (n - 1) 0] ++
        (List.range (n / 2 - 1)).map (fun j : ℕ => a.getD (n - 2 - j) 0 + a.getD j 0) ++
        [a.getD (n / 2 - 1) 0]
    else
      (List.range ((n + 1) / 2 - 1)).map (fun j : ℕ => a.getD (n - 1 - j) 0 + a.getD j 0) ++
        [a.getD ((n + 1) / 2 - 1) 0]
  let s := s.reverse
  [s.getD 0 0] ++ (s.drop 1).flatMap fun z => [z, z]

/-- The loop and the conversion of `cutoff`, funpy/trig/trig_simplify.py:86-98. -/
noncomputable def simplifyCutoff (nold : ℕ) (cols : List (List ℂ)) (eps : ℝ) : ℕ :=
  let cutoff := cols.foldl (fun m c =>
    max m (Cheb.standardChopAbs ((foldedAbs c).map fun z => ‖z‖) eps)) 1
  let cutoff := min cutoff nold
  if cutoff % 2 = 0 then cutoff / 2 + 1 else (cutoff - 1) / 2 + 1

/-- Putting the (even-length) column back together, funpy/trig/trig_simplify.py:101-103: the last row
appended is half of the *last* coefficient. -/
noncomputable def putBack (c : List ℂ) : List ℂ :=
  if c.length % 2 = 0 then (0.5 * c.getD 0 0) :: (c.drop 1 ++ [0.5 * c.getD (c.length - 1) 0]) else c

/-- `simplify_coeffs`, funpy/trig/trig_simplify.py:58-109: the new coefficients (by columns) and the
half-width `cutoff`.  `nold` is the number of rows. -/
noncomputable def simplifyCols (nold : ℕ) (cols : List (List ℂ)) (eps : ℝ) : List (List ℂ) × ℕ :=
  let N := simplifyLen nold
  let p := cols.map fun c => prolongCol c N
  let k := simplifyCutoff nold p eps
  (p.map fun c =>
    let c := putBack c
    let mid := (c.length + 1) / 2
    (c.take (mid + k - 1)).drop (mid - k), k)

/-- The method `simplify`, funpy/trig/trigtech.py:399-410. -/
noncomputable def Tech.simplify (t : Tech) : Tech :=
  if t.ishappy then
    let r := simplifyCols t.n t.cols t.eps
    { t with n := 2 * r.2 - 1, cols := r.1, vals := r.1.map coeffs2vals }
  else t

open Classical in
/-- `__eq__`, funpy/trig/trigtech.py:478-481. -/
noncomputable def Tech.eqv (f g : Tech) : Bool :=
  decide (f.n = g.n ∧ f.cols = g.cols ∧ f.vals = g.vals)

/-- The values of the product on `len(f)+len(g)-1` points in the branch for two different functions,
funpy/trig/ufuncs.py:231-232 and 262-263 (equal numbers of columns; the broadcasting of a single
column is not modelled). -/
noncomputable def prodVals (f g : Tech) : List (List ℂ) :=
  let N := f.n + g.n - 1
  let fv := List.zipWith (fun r c => realIf r (coeffs2vals (prolongCol c N))) f.isReal f.cols
  let gv := List.zipWith (fun r c => realIf r (coeffs2vals (prolongCol c N))) g.isReal g.cols
  List.zipWith (List.zipWith (· * ·)) fv gv

/-- `f * g` for two periodic functions with one column each or with `n > 1` and the same number of
columns, funpy/trig/ufuncs.py:217-303.  `cf` is the object `np.conj(f)` the code compares `g` with;
`np.conj` is a ufunc and builds it adaptively, so it is a parameter here.  `none` is an exception: the
square `f * f` calls `x1.isreal()`, but `isreal` is a property (a `bool`), and calling it raises
`TypeError` (line 253). -/
noncomputable def Tech.mul (cf f g : Tech) : Option Tech :=
  if f.n = 1 then some (g.mulNum ((f.cols.getD 0 []).getD 0 0))
  else if g.n = 1 then some (f.mulNum ((g.cols.getD 0 []).getD 0 0))
  else if f.eqv g then none
  else
    let N := f.n + g.n - 1
    if cf.eqv g then
      let nv := List.zipWith (fun r c => realIf r (coeffs2vals (prolongCol c N))) f.isReal f.cols
      let c := (nv.map fun v => v.map fun z => conj z * z).map vals2coeffs
      let r := simplifyCols N c 1e-14
      let v := (r.1.map coeffs2vals).map fun v => v.map fun z => ((‖z‖ : ℝ) : ℂ)
      some (Tech.ofBoth (2 * r.2 - 1) (v.map vals2coeffs) v)
    else
      let c := (prodVals f g).map vals2coeffs
      let r := simplifyCols N c 1e-14
      let v := r.1.map coeffs2vals
      let v := if f.isReal.all id && g.isReal.all id then v.map fun u => u.map fun z => ((z.re : ℝ) : ℂ) else v
      some (Tech.ofBoth (2 * r.2 - 1) r.1 v)

/-- The cyclic product `2/n * ifft(fft(u) * fft(v))` of two columns of values,
funpy/trig/operations.py:69. -/
noncomputable def cyclicProd (u v : List ℂ) : List ℂ :=
  (ifft (List.zipWith (· * ·) (fft u) (fft v))).map fun z => 2 / (u.length : ℂ) * z

/-- `circconv(f, g)` for single columns, funpy/trig/operations.py:47-80; `none` is `NotImplemented`.
(The arguments are prolonged in place; the mutation is not returned here.) -/
noncomputable def Tech.circconv (f g : Tech) : Option Tech :=
  if f.cols.length > 1 ∨ g.cols.length > 1 then none
  else
    let g1 := if f.n > g.n then g.prolong f.n else g
    let f1 := if f.n < g.n then f.prolong g.n else f
    let g2 := g1.circshift (-1)
    let nv := cyclicProd (f1.vals.getD 0 []) (g2.vals.getD 0 [])
    let nc := vals2coeffs nv
    let nv := realIf ((f1.isReal.getD 0 false) && (g2.isReal.getD 0 false)) nv
    some (Tech.ofBoth f1.n [nc] [nv])

/-- `trig_adhesion(f, g)`, funpy/trig/operations.py:82-108 (single columns). -/
noncomputable def Tech.adhesion (f g : Tech) : Option Tech :=
  if f.cols.length > 1 ∨ g.cols.length > 1 then none
  else
    let g1 := if f.n > g.n then g.prolong f.n else g
    let f1 := if f.n < g.n then f.prolong g.n else f
    let nc := List.zipWith (· * ·) (f1.cols.getD 0 []) (g1.cols.getD 0 [])
    let nv := realIf ((f1.isReal.getD 0 false) && (g1.isReal.getD 0 false)) (coeffs2vals nc)
    some (Tech.ofBoth f1.n [nc] [nv])

/-- `f[i]`, funpy/trig/trigtech.py:216-225; `none` is the `AssertionError`. -/
noncomputable def Tech.getItem (t : Tech) (i : ℤ) : Option Tech :=
  if 0 ≤ i ∧ i < t.cols.length then
    some (Tech.ofBoth t.n [t.cols.getD i.toNat []] [t.vals.getD i.toNat []])
  else none

end Funpy.Trig

namespace Funpy.TrigFun
open Trig

/-- `np.convolve(f, g)`, funpy/fun.py:487-500; `none` is an exception. -/
noncomputable def convolve (f g : TrigFun) : Option TrigFun :=
  open Classical in
  if f.dom = g.dom then (f.onefun.circconv g.onefun).map fun h => ⟨f.dom, h.mulNum (f.rescale : ℂ)⟩
  else none

end Funpy.TrigFun
