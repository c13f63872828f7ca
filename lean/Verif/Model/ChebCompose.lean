import Verif.Model.ChebNorm

/-!
# Model: functions from callables, pointwise ufuncs, compositions
-/

namespace Funpy.Cheb
open Real

/-- A numpy ufunc of one argument without special implementation (`np.exp(f)`, `np.sin(f)`, …), funpy/cheb/chebtech.py:131-134:
the adaptive approximation of the pointwise values, with the `eps` and `maxLength` of the argument. -/
noncomputable def Tech.ufunc1 (φ : ℝ → ℝ) (t : Tech) : Option Tech :=
  ofCallable (t.coeffs.cols.map fun c x => φ (clenshawScalar x c)) t.eps t.maxLength 17

/-- A numpy ufunc of two arguments without special implementation (`np.maximum(f, g)`, `np.arctan2(f, g)`, …),
funpy/cheb/chebtech.py:135-137, for arguments with the same number of columns (numpy broadcasting of other shapes is not
modelled); `eps` and `maxLength` are those of the first argument. -/
noncomputable def Tech.ufunc2 (φ : ℝ → ℝ → ℝ) (t s : Tech) : Option Tech :=
  ofCallable (List.zipWith (fun c d x => φ (clenshawScalar x c) (clenshawScalar x d)) t.coeffs.cols s.coeffs.cols)
    t.eps t.maxLength 17

/-- The refiner `RefineCompose1` with the stored values and the (mutable) coefficients of `f`: the first round,
`__resample`, funpy/cheb/refine.py:122-135.  The operator acts entrywise.  Result: values, coefficients of `f`, `giveUp`. -/
noncomputable def composeFirst (φ : ℝ → ℝ) (ms ml : ℕ) (target values f : Arr ℝ) : Arr ℝ × Arr ℝ × Bool :=
  let (n, giveUp) := getN ms ml target
  if giveUp then (values, f, true)
  else
    let f := prolong f n
    let v1 := polyval f
    (⟨n, v1.cols.map (List.map φ)⟩, f, false)

/-- `RefineCompose1.__nested`, funpy/cheb/refine.py:137-162. -/
noncomputable def composeStep (φ : ℝ → ℝ) (ms ml : ℕ) (target values f : Arr ℝ) : Arr ℝ × Arr ℝ × Bool :=
  if values.n * values.m = 0 then composeFirst φ ms ml target values f
  else
    let n := 2 * target.n - 1
    if n > ml then (values, f, true)
    else
      let f := prolong f n
      let fvalues := polyval f
      let nv := fvalues.cols.map fun v => (oddInner v).map φ
      (⟨n, List.zipWith (interleave n) values.cols nv⟩, f, false)

/-- `chebtech.populate` driven by a `RefineCompose1`, funpy/cheb/chebtech.py:266-283; the result is the target object,
the final coefficients of `f`, the values and the flag `giveUp`. -/
noncomputable def composeLoop (φ : ℝ → ℝ) (ms : ℕ) : ℕ → Tech → Arr ℝ → Arr ℝ → Option (Tech × Arr ℝ × Arr ℝ × Bool)
  | 0, _, _, _ => none
  | fuel + 1, t, values, f =>
    let r := composeStep φ ms t.maxLength t.coeffs values f
    let t := { t with coeffs := polyfit r.1 }
    if r.2.2 then some (t, r.2.1, r.1, true)
    else
      let h := t.happy
      if h.1 then some ({ t with coeffs := prolong t.coeffs ((h.2 : ℤ) + 1) }, r.2.1, r.1, false)
      else composeLoop φ ms fuel t r.1 r.2.1

/-- `compose(f, op)` of two arguments at the level of `chebtech`, funpy/cheb/chebtech.py:433-436 with the constructor
(27-67, all options default: `eps` machine precision, `minSamples=9`).  Returns the new object and the argument `f`, whose
coefficients the refiner has changed. -/
noncomputable def Tech.compose (φ : ℝ → ℝ) (eps : ℝ) (t : Tech) : Option (Tech × Tech) :=
  (composeLoop φ 9 (2 ^ 14 + 2) ⟨⟨0, []⟩, eps, 1, 1 + 2 ^ 14, false⟩ ⟨0, []⟩ t.coeffs).bind fun r =>
    (Tech.mk' r.1.coeffs eps false true 1 (1 + 2 ^ 14)).map fun h => (h, { t with coeffs := r.2.1 })

end Funpy.Cheb

namespace Funpy.ChebFun
open Cheb Real

/-- `Fun(op=fs, domain=dom, eps=eps)` for callables `fs`, funpy/fun.py:28-69 with funpy/cheb/chebtech.py:27-67: every
callable is composed with the map from `[-1,1]` to the domain, `hscale` is the largest modulus of the end points
(funpy/fun.py:89-90), the remaining options have their default values. -/
noncomputable def ofCallable (fs : List (ℝ → ℝ)) (dom : Ends) (eps : ℝ) : Option ChebFun :=
  (Cheb.ofCallable (fs.map fun f y => f (Mapping.fwd dom y)) eps (1 + 2 ^ 14) 17 (max |dom.e0| |dom.e1|)).map fun t => ⟨dom, t⟩

/-- `np.exp(f)` and other ufuncs of one argument without special implementation, funpy/fun.py:166-188. -/
noncomputable def ufunc1 (φ : ℝ → ℝ) (f : ChebFun) : Option ChebFun := (f.onefun.ufunc1 φ).map fun t => ⟨f.dom, t⟩

/-- `compose(f, op)`, funpy/fun.py:334-351: the new `Fun` is constructed with `compose=False`, so `x ↦ op(f(x))` is
sampled at the Chebyshev points of `[-1,1]` themselves.  The first sampling (17 points including `±1`) raises if one of
them is outside the domain of `f` (funpy/fun.py:129-133); the points of later rounds lie between them. -/
noncomputable def compose (φ : ℝ → ℝ) (eps : ℝ) (f : ChebFun) : Option ChebFun :=
  (funCall f.dom (fun z => z) (chebpts2 17)).bind fun _ =>
    (Cheb.ofCallable (f.onefun.coeffs.cols.map fun c y => φ (clenshawScalar (Mapping.bwd f.dom y) c)) eps (1 + 2 ^ 14) 17
      (max |f.dom.e0| |f.dom.e1|)).map fun t => ⟨f.dom, t⟩

end Funpy.ChebFun
