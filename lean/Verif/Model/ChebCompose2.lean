import Verif.Model.ChebCompose

/-!
# Model: `compose(f, op, g)` at the level of `chebtech`
-/

namespace Funpy.Cheb
open Real

/-- `op(v1, v2)` for an operator that acts entrywise on two arrays of the same shape (broadcasting between different
numbers of columns is not modelled). -/
def entrywise2 (φ : ℝ → ℝ → ℝ) (v w : List (List ℝ)) : List (List ℝ) := List.zipWith (List.zipWith φ) v w

/-- `RefineCompose2.__resample`, funpy/cheb/refine.py:171-185, with the stored values and the (mutable) coefficients of
`f` and `g`.  Result: values, coefficients of `f`, coefficients of `g`, `giveUp`. -/
noncomputable def compose2First (φ : ℝ → ℝ → ℝ) (ms ml : ℕ) (target values f g : Arr ℝ) : Arr ℝ × Arr ℝ × Arr ℝ × Bool :=
  let (n, giveUp) := getN ms ml target
  if giveUp then (values, f, g, true)
  else
    let f := prolong f n
    let v1 := polyval f
    let g := prolong g n
    let v2 := polyval g
    (⟨n, entrywise2 φ v1.cols v2.cols⟩, f, g, false)

/-- `RefineCompose2.__nested`, funpy/cheb/refine.py:187-215. -/
noncomputable def compose2Step (φ : ℝ → ℝ → ℝ) (ms ml : ℕ) (target values f g : Arr ℝ) : Arr ℝ × Arr ℝ × Arr ℝ × Bool :=
  if values.n * values.m = 0 then compose2First φ ms ml target values f g
  else
    let n := 2 * target.n - 1
    if n > ml then (values, f, g, true)
    else
      let f := prolong f n
      let v1 := (polyval f).cols.map oddInner
      let g := prolong g n
      let v2 := (polyval g).cols.map oddInner
      (⟨n, List.zipWith (interleave n) values.cols (entrywise2 φ v1 v2)⟩, f, g, false)

/-- `chebtech.populate` driven by a `RefineCompose2`, funpy/cheb/chebtech.py:266-283; the result is the target object,
the final coefficients of `f` and `g`, the values and the flag `giveUp`. -/
noncomputable def compose2Loop (φ : ℝ → ℝ → ℝ) (ms : ℕ) :
    ℕ → Tech → Arr ℝ → Arr ℝ → Arr ℝ → Option (Tech × Arr ℝ × Arr ℝ × Arr ℝ × Bool)
  | 0, _, _, _, _ => none
  | fuel + 1, t, values, f, g =>
    let r := compose2Step φ ms t.maxLength t.coeffs values f g
    let t := { t with coeffs := polyfit r.1 }
    if r.2.2.2 then some (t, r.2.1, r.2.2.1, r.1, true)
    else
      let h := t.happy
      if h.1 then some ({ t with coeffs := prolong t.coeffs ((h.2 : ℤ) + 1) }, r.2.1, r.2.2.1, r.1, false)
      else compose2Loop φ ms fuel t r.1 r.2.1 r.2.2.1

/-- `compose(f, op, g)`, funpy/cheb/chebtech.py:437-439 with the constructor (27-67, all options default).  Returns the
new object and the arguments `f` and `g`, whose coefficients the refiner has changed.  (If `f` and `g` are the same
object the second `prolong` of a round changes nothing, so the result is the same.) -/
noncomputable def Tech.compose2 (φ : ℝ → ℝ → ℝ) (eps : ℝ) (t s : Tech) : Option (Tech × Tech × Tech) :=
  (compose2Loop φ 9 (2 ^ 14 + 2) ⟨⟨0, []⟩, eps, 1, 1 + 2 ^ 14, false⟩ ⟨0, []⟩ t.coeffs s.coeffs).bind fun r =>
    (Tech.mk' r.1.coeffs eps false true 1 (1 + 2 ^ 14)).map fun h =>
      (h, { t with coeffs := r.2.1 }, { s with coeffs := r.2.2.1 })

end Funpy.Cheb

namespace Funpy.ChebFun
open Cheb Real

/-- `compose(f, op, g)` of `Fun` objects, funpy/fun.py:334-351: `x ↦ op(f(x), g(x))` is sampled at the Chebyshev points of
`[-1,1]` themselves; the result has the domain of `f`.  Each of the two evaluations raises if one of the first 17 points is
outside its domain (funpy/fun.py:129-133).  For the same number of columns. -/
noncomputable def compose2 (φ : ℝ → ℝ → ℝ) (eps : ℝ) (f g : ChebFun) : Option ChebFun :=
  (funCall f.dom (fun z => z) (chebpts2 17)).bind fun _ => (funCall g.dom (fun z => z) (chebpts2 17)).bind fun _ =>
    (Cheb.ofCallable (List.zipWith (fun c d y => φ (clenshawScalar (Mapping.bwd f.dom y) c) (clenshawScalar (Mapping.bwd g.dom y) d))
      f.onefun.coeffs.cols g.onefun.coeffs.cols) eps (1 + 2 ^ 14) 17 (max |f.dom.e0| |f.dom.e1|)).map fun t => ⟨f.dom, t⟩

end Funpy.ChebFun
