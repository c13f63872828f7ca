import Verif.Model.ChebArith

/-!
# Model: `Fun` objects over a `chebtech` (calculus part)
-/

namespace Funpy

/-- A `Fun` whose `onefun` is a `chebtech` on a two-point domain, funpy/fun.py:22-62.  The mapping is
always the linear one determined by the domain (funpy/fun.py:45-52), so it is not stored. -/
structure ChebFun where
  /-- `self.domain` -/
  dom : Ends
  /-- `self.onefun` -/
  onefun : Cheb.Tech

namespace ChebFun

/-- `rescaleFactor = 0.5 * np.diff(f.domain)`, funpy/fun.py:529, 542, 549. -/
noncomputable def rescale (f : ChebFun) : ℝ := 0.5 * Mapping.diff f.dom

/-- `np.diff(f, n=k)`, funpy/fun.py:527-536 (`axis = 0`). -/
noncomputable def diff (f : ChebFun) (k : ℕ) : Option ChebFun := do
  let d ← f.onefun.diff k
  let df ← d.divScalar (f.rescale ^ k)
  some ⟨f.dom, df⟩

/-- `np.sum(f)`, funpy/fun.py:539-543. -/
noncomputable def sum (f : ChebFun) : List ℝ := f.onefun.sum.map (· * f.rescale)

/-- `np.cumsum(f)`, funpy/fun.py:546-551. -/
noncomputable def cumsum (f : ChebFun) : Option ChebFun := do
  let g ← f.onefun.cumsum
  let nf ← g.mulNum f.rescale
  some ⟨f.dom, nf⟩

end ChebFun
end Funpy
