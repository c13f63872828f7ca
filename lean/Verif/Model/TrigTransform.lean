import Verif.Model.FFT

/-!
# Model: transforms, grids and prolongation of trigonometric series
(funpy/trig/transform.py, funpy/trig/trigpts.py, funpy/trig/trig_simplify.py)
-/

namespace Funpy.Trig
open Complex ComplexConjugate

/-- `scipy.fft.fftshift` on one axis: `np.roll` by `n // 2`. -/
def fftshift (a : List ℂ) : List ℂ :=
  (List.range a.length).map fun i : ℕ => a.getD ((i + (a.length - a.length / 2)) % a.length) 0

/-- `scipy.fft.ifftshift` on one axis: `np.roll` by `-(n // 2)`. -/
def ifftshift (a : List ℂ) : List ℂ :=
  (List.range a.length).map fun i : ℕ => a.getD ((i + a.length / 2) % a.length) 0

/-- Entry `k` of `even_odd_fix = (-1)**np.arange(...)`, funpy/trig/transform.py:53-56 and 70-73:
the exponents are `-(n-1)/2, …` for odd `n` and `-n/2, …` for even `n`. -/
noncomputable def evenOddFix (n k : ℕ) : ℂ :=
  if n % 2 = 1 then (-1) ^ (-(((n - 1) / 2 : ℕ) : ℤ) + k) else (-1) ^ (-((n / 2 : ℕ) : ℤ) + k)

/-- Multiplication of a column by `even_odd_fix`, funpy/trig/transform.py:58 and 75. -/
noncomputable def applyFix (c : List ℂ) : List ℂ := c.mapIdx fun k a => evenOddFix c.length k * a

open Classical in
/-- One column of `isHerm`, funpy/trig/transform.py:11-13. -/
noncomputable def isHerm (v : List ℂ) : Bool :=
  decide (∀ j < v.length, v.getD j 0 - conj (v.getD (v.length - 1 - j) 0) = 0)

open Classical in
/-- One column of `isSkew`, funpy/trig/transform.py:15-17. -/
noncomputable def isSkew (v : List ℂ) : Bool :=
  decide (∀ j < v.length, v.getD j 0 + conj (v.getD (v.length - 1 - j) 0) = 0)

/-- One column of `vals2coeffs`, funpy/trig/transform.py:19-59. -/
noncomputable def vals2coeffs (v : List ℂ) : List ℂ :=
  let n := v.length
  if n ≤ 1 then v
  else
    let ext := v ++ [v.getD 0 0]
    let c := (fftshift (fft v)).map fun a => (1 / (n : ℂ)) * a
    let c := if isHerm ext then c.map fun a => ((a.re : ℝ) : ℂ) else c
    let c := if isSkew ext then c.map fun a => I * ((a.im : ℝ) : ℂ) else c
    applyFix c

/-- One column of `coeffs2vals`, funpy/trig/transform.py:61-91. -/
noncomputable def coeffs2vals (c : List ℂ) : List ℂ :=
  let n := c.length
  if n ≤ 1 then c
  else
    let c := applyFix c
    let herm := c.all fun a => decide (a.im = 0)
    let skew := c.all fun a => decide (a.re = 0)
    let values := ifft (ifftshift (c.map fun a => (n : ℂ) * a))
    let ext := values ++ [values.getD 0 0]
    let hermvals := (List.range n).map fun j => (ext.getD j 0 + conj (ext.getD (n - j) 0)) / 2
    let skewvals := (List.range n).map fun j => (ext.getD j 0 - conj (ext.getD (n - j) 0)) / 2
    let values := if herm then hermvals else values
    if skew then skewvals else values

/-- `trigpts(n)[0]`, funpy/trig/trigpts.py:11-20: `np.linspace(-1, 1, n+1)[:-1]`. -/
noncomputable def trigpts (n : ℕ) : List ℝ :=
  (List.range n).map fun j : ℕ => -1 + j * ((1 - (-1)) / (n : ℝ))

/-- `quadwts(n)`, funpy/trig/trigpts.py:7-9. -/
noncomputable def quadwts (n : ℕ) : List ℝ := List.replicate n (2 / (n : ℝ) * 1)

/-- One column of the statements splitting the unpaired mode, funpy/trig/trigtech.py:279-281,
450-452 and funpy/trig/trig_simplify.py:21-23. -/
noncomputable def splitEven (c : List ℂ) : List ℂ :=
  if c.length % 2 = 0 then (0.5 * c.getD 0 0) :: (c.drop 1 ++ [0.5 * c.getD 0 0]) else c

/-- One column of the zero padding, funpy/trig/trigtech.py:289-294, 460-465 and
funpy/trig/trig_simplify.py:31-37: `kup = ceil(d/2)` zeros before and `kdown = floor(d/2)` after. -/
def padTo (c : List ℂ) (Nout : ℕ) : List ℂ :=
  let d := Nout - c.length
  List.replicate ((d + 1) / 2) 0 ++ c ++ List.replicate (d / 2) 0

/-- One column of the chopping, funpy/trig/trigtech.py:299-305, 468-473 and
funpy/trig/trig_simplify.py:43-49: `coeffs[kup:-kdown]`, the first row doubled when `kup < kdown`.
(`kdown ≥ 1` here, so the negative slice bound is never `-0`.) -/
noncomputable def chopTo (c : List ℂ) (Nout : ℕ) : List ℂ :=
  let d := c.length - Nout
  let kup := d / 2
  let kdown := (d + 1) / 2
  let r := (c.take (c.length - kdown)).drop kup
  if kup < kdown then r.set 0 (2 * r.getD 0 0) else r

/-- The coefficients of one column in the method `prolong`, funpy/trig/trigtech.py:270-310, and in the
function `prolong`, funpy/trig/trig_simplify.py:13-55, called with a positive `Nout ≠ len(c)`. -/
noncomputable def prolongCol (c : List ℂ) (Nout : ℕ) : List ℂ :=
  if Nout = c.length then c
  else
    let c := splitEven c
    if Nout = c.length then c
    else if c.length < Nout then padTo c Nout
    else chopTo c Nout

/-- One column of the method `prolong_coeffs`, funpy/trig/trigtech.py:444-476: when the (possibly
extended) length already is `Nout` it returns `self.coeffs`. -/
noncomputable def prolongCoeffsCol (c : List ℂ) (Nout : ℕ) : List ℂ :=
  let c' := splitEven c
  if c'.length = Nout then c
  else if c'.length < Nout then padTo c' Nout
  else chopTo c' Nout

end Funpy.Trig
