import Verif.Model.Newton

/-!
# Model of the linear solver `gbit`, `funpy/linalg/gbit.py`

`V` is the vector space of coefficient vectors / states (`to_fun` is the identification of the two), `A` and `P` are the
products with the matrix and the preconditioner. Real numbers replace floats, `x / 0 = 0` replaces numpy's `inf`/`nan`.
-/

namespace Funpy.Gbit
open Funpy.Newton (Err nrm)
open Classical

variable {V : Type} [AddCommGroup V] [Module ℝ V]

/-- Options of `gbit`, `funpy/linalg/gbit.py:13-19`. -/
structure Cfg where
  maxIter : ℕ
  iMax : ℕ
  rho : ℝ
  tol : ℝ
  simple : Bool
  tauMin : ℝ
  tauMax : ℝ
  epsLimit : ℝ

/-- `for m in range(i): zeta += <delta[m], zeta>/sigma[m] (delta[m+1] - (1 - t[m]) delta[m])`,
`funpy/linalg/gbit.py:85-88`. -/
noncomputable def update (inner : V → V → ℝ) (ds : List V) (sg ts : List ℝ) (i : ℕ) (zeta : V) : V :=
  (List.range i).foldl
    (fun z m => z + (inner (ds.getD m 0) z / sg.getD m 0) • (ds.getD (m + 1) 0 - (1 - ts.getD m 0) • ds.getD m 0)) zeta

/-- The error estimate `epsilon`, `funpy/linalg/gbit.py:109`, after `delta[i+1]`, `sigma[i+1]` have been stored. -/
noncomputable def epsilon (sg : List ℝ) (i : ℕ) : ℝ :=
  if 1 ≤ i then 1 / 2 * Real.sqrt |sg.getD (i - 1) 0 + 2 * sg.getD i 0 + sg.getD (i + 1) 0|
  else Real.sqrt |sg.getD 1 0|

/-- The stopping test, `funpy/linalg/gbit.py:112-116`. -/
noncomputable def stopTest (inner : V → V → ℝ) (c : Cfg) (y0 y : V) (eps : ℝ) : Bool :=
  if c.simple then
    if nrm inner (y - y0) = 0 then false else decide (eps / nrm inner (y - y0) ≤ c.rho * c.tol)
  else decide (eps ≤ c.rho * nrm inner y * c.tol)

/-- `tau`, `funpy/linalg/gbit.py:91-92`. -/
noncomputable def tauOf (c : Cfg) (sigma gamma : ℝ) : ℝ := if gamma = 0 then 2 * c.tauMax else sigma / gamma

/-- `t[i]`, `funpy/linalg/gbit.py:94-100` (when no restart happens). -/
noncomputable def tOf (c : Cfg) (tau : ℝ) : ℝ := if tau < c.tauMin then 1 else if tau ≤ c.tauMax then tau else 1

/-- The inner loop, `funpy/linalg/gbit.py:77-128`; returns `y`, `iter` and `stop_iter`. `ds`, `sg` hold entries
`0..i` of `delta`, `sigma`, `ts` entries `0..i-1` of `t`. -/
noncomputable def innerLoop (inner : V → V → ℝ) (A P : V → V) (c : Cfg) (y0 : V) (i iter : ℕ) (y : V)
    (ds : List V) (sg ts : List ℝ) : V × ℕ × Bool :=
  if _h : i ≤ c.iMax ∧ iter ≤ c.maxIter then
    let zeta := update inner ds sg ts i (P (A (ds.getD i 0)))
    let gamma := inner (ds.getD i 0) zeta
    let tau := tauOf c (sg.getD i 0) gamma
    if tau < c.tauMin ∧ 0 < i then (y, iter, false)
    else
      let t := tOf c tau
      let y' := y + t • ds.getD i 0
      let dn := (1 - t + tau) • ds.getD i 0 - tau • zeta
      let sg' := sg ++ [inner dn dn]
      let eps := epsilon sg' i
      let stop := stopTest inner c y0 y' eps
      if stop then (y', iter + 1, true)
      else if c.epsLimit < eps then (y', iter + 1, false)
      else innerLoop inner A P c y0 (i + 1) (iter + 1) y' (ds ++ [dn]) sg' (ts ++ [t])
  else (y, iter, false)
termination_by c.maxIter + 1 - iter

/-- The restart loop, `funpy/linalg/gbit.py:64-133`; `fuel` bounds the number of restarts of the model. -/
noncomputable def outerLoop (inner : V → V → ℝ) (A P : V → V) (b : V) (c : Cfg) (y0 : V) :
    ℕ → ℕ → V → Except Err (V × Bool × ℕ)
  | 0, _, _ => .error .fuel
  | fuel + 1, iter, y =>
    let d0 := P (b - A y)
    let r := innerLoop inner A P c y0 0 iter y [d0] [inner d0 d0] []
    if r.2.2 = true ∨ c.maxIter ≤ r.2.1 then .ok (r.1, r.2.2 && decide (r.2.1 < c.maxIter), r.2.1)
    else outerLoop inner A P b c y0 fuel r.2.1 r.1

/-- `gbit(A, P, b, y, …)`, `funpy/linalg/gbit.py:13-136`: solution, success flag and iteration count. (The caller's `y`
is overwritten with the solution.) -/
noncomputable def gbit (inner : V → V → ℝ) (A P : V → V) (b : V) (c : Cfg) (fuel : ℕ) (y : V) :
    Except Err (V × Bool × ℕ) :=
  outerLoop inner A P b c y fuel 0 y

end Funpy.Gbit
