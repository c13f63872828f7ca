import Verif.Model.AbstractQR
import Verif.Model.ChebInner
import Verif.Model.ChebOut
import Verif.Model.Fun

/-!
# Model: QR decomposition of a Chebyshev quasimatrix
-/

namespace Funpy.Cheb
open Finset Real

/-- `lambda f, g: np.dot(np.conj(f) * w, g)`, funpy/cheb/qr.py:51, for real vectors of `N` values (functions of the row
number; the weights are those of `chebpts(N)`, funpy/cheb/qr.py:36, for the interval `[-1,1]`, on which `scaleWeights` and `scaleNodes`
are the identity). -/
noncomputable def gridIp (N : ℕ) (x y : ℕ → ℝ) : ℝ := ∑ i ∈ range N, x i * (quadwts N).getD i 0 * y i

/-- `lambda f: LA.norm(f, ord=np.inf)`, funpy/cheb/qr.py:52. -/
noncomputable def gridSup (N : ℕ) (x : ℕ → ℝ) : ℝ := maxAbs ((List.range N).map x)

/-- The columns of `E` before scaling, funpy/cheb/qr.py:39-42. -/
noncomputable def legVals (N : ℕ) : ℕ → ℕ → ℝ
  | 0, _ => 1
  | 1, i => (chebpts2 N).getD i 0
  | k + 2, i => ((2 * (k : ℝ) + 3) * (chebpts2 N).getD i 0 * legVals N (k + 1) i - ((k : ℝ) + 1) * legVals N k i) / ((k : ℝ) + 2)

/-- The columns of `E`, funpy/cheb/qr.py:39-46. -/
noncomputable def legE (N : ℕ) (k i : ℕ) : ℝ := legVals N k i * √((2 * (k : ℝ) + 1) / 2)

/-- `chebtech.qr(eps)`, funpy/cheb/chebtech.py:417-421 with funpy/cheb/qr.py:13-57: `Q`, the entries of `R`, and the object itself
afterwards (`f.prolong` works in place).  `none`:
* one column: there is no method `innerproduct` (qr.py:24); no column: `None` is returned for `R`;
* the zero function: `tol = 0`, and `ex / aex` is `nan` in the first pass, so that all results are `nan`;
* an unhappy object: the constructor checks happiness of the coefficients `coeffs[:newN//2+1, :]`, which are not contiguous and
  are refused by `happiness_check` (funpy/cheb/detail.pyx:178). -/
noncomputable def Tech.qr (eps : ℝ) (t : Tech) : Option (Tech × (ℕ → ℕ → ℝ) × Tech) :=
  open Classical in
  let n := t.coeffs.n
  let m := t.coeffs.m
  if m ≤ 1 then none
  else if maxAbs (vscale t.coeffs) = 0 then none
  else if t.ishappy = false then none
  else
    let tol := eps * maxAbs (vscale t.coeffs)
    let newN := 2 * max n m
    let f := prolong t.coeffs newN
    let A := fun j i => ((polyval f).cols.getD j []).getD i 0
    let r := AQR.abstractQR (gridIp newN) (gridSup newN) tol m A (legE newN)
    let Q : Arr ℝ := ⟨newN, (List.range m).map fun j => (List.range newN).map (r.1 j)⟩
    let coeffs := (polyfit Q).mapCols (newN / 2 + 1) (List.take (newN / 2 + 1))
    (Tech.mk' coeffs t.eps t.ishappy false t.hscale t.maxLength).map fun q => (q, r.2, { t with coeffs := f })

end Funpy.Cheb

namespace Funpy.ChebFun
open Cheb Real

/-- `qr(f, eps)`, funpy/fun.py:354-360: `Q`, the entries of `R`, and `f` afterwards.  (`rescaleFactor` is an array with one
entry; with more than one column the division `Q /= rescaleFactor` divides all coefficients by it, funpy/cheb/ufuncs.pyx:307-312.) -/
noncomputable def qr (eps : ℝ) (f : ChebFun) : Option (ChebFun × (ℕ → ℕ → ℝ) × ChebFun) :=
  let ρ := √(0.5 * Mapping.diff f.dom)
  (f.onefun.qr eps).map fun r => (⟨f.dom, r.1.divNumOut ρ r.1⟩, fun i j => r.2.1 i j * ρ, ⟨f.dom, r.2.2⟩)

end Funpy.ChebFun
