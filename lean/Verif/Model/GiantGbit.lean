import Verif.Model.Gbit

/-!
# Model: `giant_gbit` with the linear solver `gbit`, funpy/newton/giant.py, funpy/linalg/gbit.py

`Newton.solve` runs `giant_gbit` by default (funpy/newton/newton.py:33), so `ChebOp.solve` does as well.
-/

namespace Funpy.Newton
open Gbit (gbit)

/-- The options of `gbit` which `giant_gbit` does not set, funpy/linalg/gbit.py:13-19. -/
structure GbitOpts where
  /-- `max_iter` -/
  maxIter : ℕ
  /-- `i_max` -/
  iMax : ℕ
  /-- `tau_min` -/
  tauMin : ℝ
  /-- `tau_max` -/
  tauMax : ℝ
  /-- `epsilon_limit` -/
  epsLimit : ℝ

/-- The options of one call, funpy/newton/giant.py:99-101, 124-126, 168-170. -/
def GbitOpts.cfg (o : GbitOpts) (rho tol : ℝ) (simple : Bool) : Gbit.Cfg := ⟨o.maxIter, o.iMax, rho, tol, simple, o.tauMin, o.tauMax, o.epsLimit⟩

variable {X : Type} [AddCommGroup X] [Module ℝ X]

/-- A nonlinear problem whose linear systems are solved by `gbit`: `A x`, `P x` are the matrix and the preconditioner set up at `x`
(funpy/newton/giant.py:85-86).  The number of restarts of `gbit` is at most `max_iter + 2`; the `.error` branch is never taken. -/
noncomputable def gbitProblem (inner : X → X → ℝ) (F : X → X) (A P : X → X → X) (o : GbitOpts) (rho : ℝ) : InexactProblem X X where
  F := F
  lin x b y tol simple := match gbit inner (A x) (P x) b (o.cfg rho tol simple) (o.maxIter + 2) y with
    | .ok r => (r.1, r.2.1)
    | .error _ => (y, false)

end Funpy.Newton
