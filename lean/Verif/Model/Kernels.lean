import Verif.Model.TrigArith
import Verif.Model.TrigSpec

/-!
# Model: the non-local operator of a periodic function
(`adhesion`, funpy/fun.py:503-519; `uniform_kernel`, funpy/colloc/kernels.py:10-37)
-/

namespace Funpy.TrigFun
open Trig

/-- `adhesion(f, g)` for two periodic functions, funpy/fun.py:503-519; `none` is `NotImplemented` turned into an exception by the
constructor of `Fun`.  The domain of `g` is not looked at. -/
noncomputable def adhesion (f g : TrigFun) : Option TrigFun := (f.onefun.adhesion g.onefun).map fun h => ⟨f.dom, h⟩

/-- `uniform_kernel(n, domain)`, funpy/colloc/kernels.py:10-37 (`gen_m0` is the same function as in funpy/colloc/trigspec/matrices.py).
The statement `from fun import Fun` of that module (line 7) is read as `from funpy.fun import Fun`. -/
noncomputable def uniformKernel (n : ℕ) (dom : Ends) : TrigFun :=
  let R := Real.pi / (0.5 * Mapping.diff dom)
  ⟨dom, Tech.ofCoeffs n [(List.range n).map fun k => TrigSpec.genM0 (TrigSpec.waveArr n k) R]⟩

end Funpy.TrigFun
