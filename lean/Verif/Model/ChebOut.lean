import Verif.Model.ChebArith

/-!
# Model: `chebtech` ufuncs with an `out` argument (funpy/cheb/ufuncs.pyx)

`out` is the value of the target before the call; the result is its value after the call (`none`: an
exception).  For the in-place operators (`f += g`, `f *= g`, `f /= x`) the target is the left operand.
-/

namespace Funpy.Cheb

/-- `add(x1, x2, out=(out,))` for two `chebtech`s where `out` is a third object,
funpy/cheb/ufuncs.pyx:82-123: `c = out[0].coeffs; c += oc`, with `x2` prolonged if it is shorter than
`x1`.  numpy raises unless `oc` has the shape of `c` (broadcasting of single rows or columns is not
modelled). -/
noncomputable def Tech.addOut (x1 x2 out : Tech) : Option Tech :=
  let oc := if x2.coeffs.n < x1.coeffs.n then prolong x2.coeffs x1.coeffs.n else x2.coeffs
  if out.coeffs.n = oc.n ∧ out.coeffs.m = oc.m then
    some { out with
      coeffs := zipArr (· + ·) out.coeffs oc
      ishappy := x1.ishappy && x2.ishappy
      eps := max x1.eps x2.eps }
  else none

/-- `add(x1, s, out=(out,))` for a number (one summand per column), funpy/cheb/ufuncs.pyx:54-69,
119-123: `c = out[0].coeffs; c[0, :] += s`. -/
noncomputable def Tech.addConstOut (x1 : Tech) (s : List ℝ) (out : Tech) : Tech :=
  { out with
    coeffs := ⟨out.coeffs.n, List.zipWith (fun c x => c.set 0 (c.getD 0 0 + x)) out.coeffs.cols s⟩
    ishappy := x1.ishappy
    eps := x1.eps }

/-- `multiply(x1, s, out=(out,))` for a number, funpy/cheb/ufuncs.pyx:180-193, 259-264. -/
noncomputable def Tech.mulNumOut (x1 : Tech) (s : ℝ) (out : Tech) : Tech :=
  { out with
    coeffs := x1.coeffs.mapCols x1.coeffs.n fun c => c.map (· * s)
    ishappy := x1.ishappy
    eps := x1.eps }

/-- `multiply(x1, b, out=(out,))` for an array, funpy/cheb/ufuncs.pyx:195-217, 259-264. -/
noncomputable def Tech.mulArrOut (x1 : Tech) (b : Arr ℝ) (out : Tech) : Option Tech :=
  if b.n * b.m = 1 then some (x1.mulNumOut ((b.cols.headD []).getD 0 0) out)
  else if x1.coeffs.n = b.n ∧ x1.coeffs.m = b.m then
    some { out with coeffs := zipArr (· * ·) x1.coeffs b, ishappy := x1.ishappy, eps := x1.eps }
  else none

/-- `multiply(x1, x2, out=(out,))` for two `chebtech`s with equally many columns,
funpy/cheb/ufuncs.pyx:174-178, 232-264. -/
noncomputable def Tech.mulOut (x1 x2 out : Tech) : Option Tech :=
  if x1.coeffs.n = 1 then x2.mulArrOut x1.coeffs out
  else if x2.coeffs.n = 1 then x1.mulArrOut x2.coeffs out
  else
    let eps := max x1.eps x2.eps
    let r := coeffTimesMain x1.coeffs x2.coeffs
    let c := simplifyCoeffs r.1 eps
    let c := if r.2 then polyfit ((polyval c).mapCols c.n fun v => v.map abs) else c
    some { out with coeffs := c, ishappy := x1.ishappy && x2.ishappy, eps := eps }

/-- `true_divide(x1, x, out=(out,))` for a number, funpy/cheb/ufuncs.pyx:296-306, 322-324:
`c = out[0].coeffs; c /= x`. -/
noncomputable def Tech.divNumOut (x1 : Tech) (x : ℝ) (out : Tech) : Tech :=
  { out with
    coeffs := out.coeffs.mapCols out.coeffs.n fun c => c.map (· / x)
    eps := x1.eps }

/-- `negative(x, out=(out,))`, funpy/cheb/ufuncs.pyx:20-26: `out` is ignored; the new function is
returned, `out` keeps its value.  Returns (the value returned, `out` afterwards). -/
noncomputable def Tech.negOut (x out : Tech) : Option Tech × Tech := (x.neg, out)

end Funpy.Cheb
