import Verif.Model.Fun
import Verif.Model.QuasiOp
import Verif.Model.UltraS

/-!
# Model: from the compiled linearisation to the Newton matrix

`LinBlock.quasi` (funpy/colloc/linBlock.py), `LinOp.quasi` (funpy/colloc/linOp.py) for one block, and how
`quasi2diffmat` reads the result.
-/

namespace Funpy.NewtonMat
open Funpy.Cheb Funpy.UltraS

/-- A compiled coefficient function `a(*u)`: a function of the columns of `u`; `none`: it raises. -/
abbrev Fn := List ChebFun → Option ChebFun

/-- A `LinBlock` after `build`, funpy/colloc/linBlock.py:52-82: `coeffs` is indexed by the order of the derivative, an order for which
there is no term holds `None`; `info` is the list returned by the info function; `icoeffs` and `integrand` are absent without integral
terms. -/
structure LinBlock where
  /-- `self.coeffs` -/
  coeffs : List (Option Fn)
  /-- `self.info()` -/
  info : List Bool
  /-- `self.icoeffs` and `self.integrand` -/
  nonloc : Option (List Fn × List Fn)

/-- `f.simplify(eps=eps)`, funpy/fun.py:97-99, funpy/cheb/chebtech.py:339-345: functions which are not happy are left as they are. -/
noncomputable def simplifyFun (eps : ℝ) (f : ChebFun) : ChebFun :=
  if f.onefun.ishappy then ⟨f.dom, { f.onefun with coeffs := simplifyCoeffs f.onefun.coeffs eps }⟩ else f

/-- `coeff(*u).simplify(eps=eps)`, funpy/colloc/linBlock.py:93, 112, 115; calling `None` raises a `TypeError`. -/
noncomputable def evalCoeff (eps : ℝ) (u : List ChebFun) (c : Option Fn) : Option ChebFun := do
  let c ← c
  let g ← c u
  some (simplifyFun eps g)

/-- `LinBlock.quasi(u, eps=eps)`, funpy/colloc/linBlock.py:84-120. -/
noncomputable def LinBlock.quasi (b : LinBlock) (u : List ChebFun) (eps : ℝ) : Option (QuasiOp.Block ChebFun) := do
  let cs ← b.coeffs.mapM (evalCoeff eps u)
  match b.nonloc with
  | none => some ⟨b.info, cs, .none⟩
  | some (c, d) => do
    let c' ← c.mapM fun f => evalCoeff eps u (some f)
    let d' ← d.mapM fun f => evalCoeff eps u (some f)
    some ⟨b.info, cs, .arr c' d'⟩

/-- `f[0].coeffs`, as a vector, funpy/colloc/ultraS/ultraS.py:96, funpy/colloc/ultraS/matrices.py:87. -/
def coef (f : ChebFun) : List ℝ := f.onefun.coeffs.cols.getD 0 []

/-- What `quasi2diffmat` reads from the block, funpy/colloc/ultraS/ultraS.py:172-205: the flags `info[j]` with the coefficients, and, if
`info[-1]` is set, the integral terms. -/
def sourceOf (q : QuasiOp.Block ChebFun) : Source where
  coeff := q.coeffs.mapIdx fun j f => (q.info.getD j false, coef f)
  integral := if q.info.getLastD false then
      List.zipWith (fun c d => (coef c, coef d)) q.nl.entries.1 q.nl.entries.2 else []

end Funpy.NewtonMat
