import Mathlib.Analysis.SpecialFunctions.Pow.Real
import Mathlib.Algebra.Module.Basic

/-!
# Model of the Newton drivers: `funpy/newton/{newton_standard,qnerr,nleq_err,giant,newton_seeker,newton}.py`

States live in a real vector space `X`, residual vectors in an additive group `R`. A nonlinear problem is given by
its residual `F` (`NewtonSystem.rhs`) and by the linear solver of its linearisation at a point
(`NewtonSystem(x).solve`, returning the correction and the success flag). `inner` is the inner product handed to the
drivers, norms are `sqrt(inner(x, x))`. Callbacks are arbitrary functions of their arguments (a stateful callback is,
within one run, such a function, because the iteration number increases). Real numbers replace floats; divisions by
zero follow Lean's convention unless treated explicitly. Debug printing and warnings are not modelled; the norms of
residuals are only printed and are omitted.
-/

namespace Funpy.Newton
open Classical

variable {X R : Type} [AddCommGroup X] [Module ℝ X] [AddCommGroup R]

/-- Exceptions. `fuel` marks an exhausted iteration budget of the *model* (never of the program). -/
inductive Err
  | nameError
  | valueError
  | runtimeError
  | typeError
  | fuel
  deriving DecidableEq

/-- A nonlinear problem: residual and linear solver at a linearisation point. -/
structure Problem (X R : Type) where
  F : X → R
  solve : X → R → X × Bool

/-- The tuple returned by the drivers; `sys` is the point at which the returned linear system was set up. -/
structure Result (X : Type) where
  x : X
  success : Bool
  k : ℕ
  normdx : ℝ
  neval : ℕ
  sys : Option X

/-- `norm` of the drivers: `sqrt(inner(x, x))` (`newton_standard.py:27-28`, `qnerr.py:45-46`, `nleq_err.py:50-51`). -/
noncomputable def nrm (inner : X → X → ℝ) (x : X) : ℝ := Real.sqrt (inner x x)

/-! ### newton_standard -/

/-- The `while` loop of `newton_standard`, `funpy/newton/newton_standard.py:38-87`. The module does not import
`warnings`, so both `warnings.warn` calls (lines 42, 63) raise `NameError`; the first is guarded by `debug`. -/
noncomputable def standardLoop (P : Problem X R) (inner : X → X → ℝ) (cb : ℕ → X → ℝ → ℝ → Bool) (tol : ℝ)
    (debug : Bool) (miter : ℕ) (k neval : ℕ) (x : X) (normdx : ℝ) (sys : Option X) : Except Err (Result X) :=
  if _h : miter ≤ k then
    if debug then .error .nameError else .ok ⟨x, false, k, normdx, neval, sys⟩
  else
    let r := P.solve x (-P.F x)
    if r.2 = false then .error .nameError
    else
      let nd := nrm inner r.1
      let x' := x + r.1
      if nd ≤ tol then .ok ⟨x', true, k + 1, nd, neval + 1, some x⟩
      else if cb (k + 1) r.1 nd 0 = false then .ok ⟨x', false, k + 1, nd, neval + 1, some x⟩
      else standardLoop P inner cb tol debug miter (k + 1) (neval + 1) x' nd (some x)
termination_by miter - k

/-- `newton_standard(NewtonSystem, x, …)`, `funpy/newton/newton_standard.py:8-90`. -/
noncomputable def newtonStandard (P : Problem X R) (inner : X → X → ℝ) (cb : ℕ → X → ℝ → ℝ → Bool) (tol : ℝ)
    (debug : Bool) (miter : ℕ) (x : X) : Except Err (Result X) :=
  standardLoop P inner cb tol debug miter 0 0 x 0 none

/-! ### qnerr -/

/-- The recursive update `for i in range(1, k+1): v += <v, dx[i-1]>/sigma[i-1] * dx[i]`,
`funpy/newton/qnerr.py:121-123` (`k = dxs.length - 1`). -/
noncomputable def qnUpdate (inner : X → X → ℝ) (dxs : List X) (sigmas : List ℝ) (v : X) : X :=
  (List.range (dxs.length - 1)).foldl
    (fun v i => v + (inner v (dxs.getD i 0) / sigmas.getD i 0) • dxs.getD (i + 1) 0) v

/-- The `while` loop of `qnerr`, `funpy/newton/qnerr.py:102-152`, with the linear system set up at `x0`. `dxs` and
`sigmas` are `dx[0..k]` and `sigma[0..k]`. The callback receives `v` after the in-place division that turns it into
`dx[k+1]`. -/
noncomputable def qnerrLoop (P : Problem X R) (inner : X → X → ℝ) (cb : ℕ → X → ℝ → ℝ → Bool) (tol thetaMax : ℝ)
    (itr miter : ℕ) (x0 : X) (neval : ℕ) (k : ℕ) (skip : Bool) (x : X) (dxs : List X) (sigmas : List ℝ)
    (normdx : ℝ) : Result X :=
  if _h : miter < k then ⟨x, false, k, normdx, neval, some x0⟩
  else
    let x' := if skip then x else x + dxs.getD k 0
    if skip = false ∧ sigmas.getD k 0 ≤ tol * tol then ⟨x', true, k + 1, normdx, neval, some x0⟩
    else
      let r := P.solve x0 (-P.F x')
      if r.2 = false then ⟨x', false, k, normdx, neval, some x0⟩
      else
        let v := qnUpdate inner dxs sigmas r.1
        let alpha := inner v (dxs.getD k 0) / sigmas.getD k 0
        let theta := Real.sqrt (inner v v / sigmas.getD k 0)
        let d := (1 / (1 - alpha)) • v
        let sg := inner d d
        let nd := Real.sqrt sg
        if thetaMax < theta ∨ cb (itr + (k + 1)) d normdx theta = false then
          ⟨x', false, k + 1, nd, neval, some x0⟩
        else qnerrLoop P inner cb tol thetaMax itr miter x0 neval (k + 1) false x' (dxs ++ [d]) (sigmas ++ [sg]) nd
termination_by miter + 1 - k

/-- `qnerr(nsystem, x, dx0=dx, nleqcalled=True, …)` as called from `nleq_err`, `funpy/newton/qnerr.py:89-100`: the
linear system of `x0` is reused and the step `dx0` has already been added to `x`. -/
noncomputable def qnerrCalled (P : Problem X R) (inner : X → X → ℝ) (cb : ℕ → X → ℝ → ℝ → Bool) (tol thetaMax : ℝ)
    (itr miter : ℕ) (x0 x dx0 : X) : Result X :=
  let nd := nrm inner dx0
  qnerrLoop P inner cb tol thetaMax itr miter x0 0 0 true x [dx0] [nd ^ 2] nd

/-- Stand-alone `qnerr(NewtonSystem, x, …)`, `funpy/newton/qnerr.py:55-87`: a failing linear solve or callback
returns a tuple of four entries, for which every caller's six-fold unpacking raises `ValueError`; `sigma[0]` is set
to the norm (not its square) of the first step. -/
noncomputable def qnerrAlone (P : Problem X R) (inner : X → X → ℝ) (cb : ℕ → X → ℝ → ℝ → Bool) (tol thetaMax : ℝ)
    (itr miter : ℕ) (x : X) : Except Err (Result X) :=
  let r := P.solve x (-P.F x)
  let nd := nrm inner r.1
  if r.2 = false then .error .valueError
  else if cb 0 r.1 nd (1 / 2 * thetaMax) = false then .error .valueError
  else .ok (qnerrLoop P inner cb tol thetaMax itr miter x 1 0 false x [r.1] [nd] nd)

/-! ### nleq_err -/

/-- Options of `nleq_err`, `funpy/newton/nleq_err.py:12-40`. -/
structure NleqCfg where
  tol : ℝ
  thetaMax : ℝ
  restricted : Bool
  useQnerr : Bool
  lamMin : ℝ
  miter : ℕ

/-- How the damping loop ends. -/
inductive Damp (X R : Type)
  /-- `lambda` fell below its minimum -/
  | limitation
  /-- the linear solver failed -/
  | linFail
  /-- trial point, simplified correction, `theta`, accepted `lambda`: the simplified correction met the tolerance -/
  | converged (xk : X) (fx : R) (dxbar : X) (theta lam : ℝ)
  /-- trial point accepted; last component the flag `qnerr_iter` -/
  | accept (xk : X) (fx : R) (dxbar : X) (theta lam : ℝ) (qn : Bool)

/-- `min(mue, y)` where `mue = num / den if den > 0 else inf`. -/
noncomputable def minQuot (num den y : ℝ) : ℝ := if 0 < den then min (num / den) y else y

/-- The damping loop, `funpy/newton/nleq_err.py:117-181`. -/
noncomputable def damp (P : Problem X R) (inner : X → X → ℝ) (c : NleqCfg) (x dx : X) :
    ℕ → ℝ → Bool → Bool → Except Err (Damp X R)
  | 0, _, _, _ => .error .fuel
  | fuel + 1, lam, reducted, qn =>
    if lam ≤ c.lamMin then .ok .limitation
    else
      let xk := x + lam • dx
      let fx := P.F xk
      let r := P.solve x (-fx)
      if r.2 = false then .ok .linFail
      else
        let nb := nrm inner r.1
        let nd := nrm inner dx
        let theta := nb / nd
        let w := r.1 - (1 - lam) • dx
        let wn := nrm inner w
        if (c.restricted = false ∧ 1 ≤ theta) ∨ (c.restricted = true ∧ 1 - lam / 4 < theta) then
          let ln := minQuot (1 / 2 * nd * lam * lam) wn (1 / 2 * lam)
          damp P inner c x dx fuel (if lam ≤ c.lamMin then ln else max ln c.lamMin) true qn
        else
          let ln := minQuot (1 / 2 * nd * lam * lam) wn 1
          if lam = 1 ∧ ln = 1 then
            if nb ≤ c.tol then .ok (.converged xk fx r.1 theta lam)
            else .ok (.accept xk fx r.1 theta lam (decide (theta < c.thetaMax)))
          else if 4 * lam ≤ ln ∧ reducted = false then damp P inner c x dx fuel ln false qn
          else .ok (.accept xk fx r.1 theta lam qn)

/-- The residual used by a pass: computed in the first pass (`k == 0`), carried over in later ones,
`funpy/newton/nleq_err.py:76-88`, `giant.py:89-95`. -/
def curRes (P : X → R) (prev : Option (X × X)) (x : X) (fx : R) : R :=
  match prev with
  | none => P x
  | some _ => fx

/-- The damping factor a pass of `nleq_err` starts with, `funpy/newton/nleq_err.py:107-111`. -/
noncomputable def lamStart (inner : X → X → ℝ) (prev : Option (X × X)) (dx : X) (lam : ℝ) : ℝ :=
  match prev with
  | none => lam
  | some (dxp, dxb) => minQuot (nrm inner dxp * nrm inner dxb * lam) (nrm inner (dxb - dx) * nrm inner dx) 1

/-- The main loop of `nleq_err`, `funpy/newton/nleq_err.py:72-243`. `prev` holds `dx`, `dxbar` of the previous pass
(`None` for `k = 0`), `fx` the residual vector `fxk`. -/
noncomputable def nleqLoop (P : Problem X R) (inner : X → X → ℝ) (cb : ℕ → X → ℝ → ℝ → Bool) (c : NleqCfg)
    (fuel : ℕ) (k neval : ℕ) (x : X) (prev : Option (X × X)) (fx : R) (lam : ℝ) (qn : Bool) (normdx : ℝ)
    (sys : Option X) : Except Err (Result X) :=
  if _h : c.miter ≤ k then .ok ⟨x, false, k, normdx, neval, sys⟩
  else
    let neval := neval + 1
    let fx := curRes P.F prev x fx
    let r := P.solve x (-fx)
    let dx := r.1
    if r.2 = false then .ok ⟨x, false, k, normdx, neval, some x⟩
    else
      let nd := nrm inner dx
      if nd ≤ c.tol then .ok ⟨x + dx, true, k + 1, nd, neval, some x⟩
      else
        match damp P inner c x dx fuel (lamStart inner prev dx lam) false qn with
        | .error e => .error e
        | .ok .linFail => .ok ⟨x, false, k, nd, neval, some x⟩
        | .ok .limitation => .ok ⟨x, false, k, nd, neval, some x⟩
        | .ok (.converged xk _ dxb theta lam) =>
          if cb (k + 1) dx (lam * nd) theta = false then .ok ⟨xk + dxb, false, k + 1, nd, neval, some x⟩
          else .ok ⟨xk + dxb, true, k + 1, nd, neval, some x⟩
        | .ok (.accept xk fx' dxb theta lam qn) =>
          if cb (k + 1) dx (lam * nd) theta = false then .ok ⟨x, false, k + 1, nd, neval, some x⟩
          else if qn = true ∧ c.useQnerr = true then
            let q := qnerrCalled P inner cb c.tol c.thetaMax (k + 1) (c.miter - (k + 1) + 1) x xk dx
            nleqLoop P inner cb c fuel (k + 1 + q.k) (neval + q.neval) q.x (some (dx, dxb)) (P.F q.x) lam
              q.success q.normdx (some x)
          else nleqLoop P inner cb c fuel (k + 1) neval xk (some (dx, dxb)) fx' lam qn nd (some x)
termination_by c.miter - k

/-- `nleq_err(NewtonSystem, x, …)`, `funpy/newton/nleq_err.py:12-246`. -/
noncomputable def nleqErr (P : Problem X R) (inner : X → X → ℝ) (cb : ℕ → X → ℝ → ℝ → Bool) (c : NleqCfg)
    (fuel : ℕ) (lam : ℝ) (x : X) : Except Err (Result X) :=
  nleqLoop P inner cb c fuel 0 0 x none 0 lam false 0 none

/-! ### giant_gbit -/

/-- Options of `giant_gbit`, `funpy/newton/giant.py:16-40`. -/
structure GiantCfg where
  xtol : ℝ
  maxIter : ℕ
  quadratic : Bool
  restricted : Bool
  rho : ℝ
  lamMin : ℝ
  precision : ℝ
  deltaBar : ℝ

/-- A nonlinear problem with an inexact linear solver: `lin x b y tol simple` is
`gbit(linOp, precd, b, y=y, tol=tol, giant_simple=simple)` for the system set up at `x`. -/
structure InexactProblem (X R : Type) where
  F : X → R
  lin : X → R → X → ℝ → Bool → X × Bool

/-- `min(1.0 / y, z)` with numpy's `1/0 = inf`. -/
noncomputable def minInv (y z : ℝ) : ℝ := if y = 0 then z else min (1 / y) z

/-- How the adaptation loop of `giant_gbit` ends. -/
inductive GDamp (X R : Type)
  | fail
  /-- simplified correction within the tolerance -/
  | converged (dxbar : X)
  | accept (xk : X) (fx : R) (dxbar : X) (lam hk : ℝ)

/-- The adaptation loop, `funpy/newton/giant.py:155-213`. `rhobar_max = (rho/2) / (1 + rho/2)`. -/
noncomputable def gdamp (P : InexactProblem X R) (inner : X → X → ℝ) (c : GiantCfg) (x dx : X) :
    ℕ → ℝ → Bool → Except Err (GDamp X R)
  | 0, _, _ => .error .fuel
  | fuel + 1, lam, reducted =>
    if lam < c.lamMin then .ok .fail
    else
      let xk := x + lam • dx
      let fx := P.F xk
      let s := 1 - lam
      let r := P.lin x (-fx) (s • dx) ((1 / 2 * c.rho) / (1 + 1 / 2 * c.rho)) true
      if r.2 = false then .ok .fail
      else
        let nb := nrm inner r.1
        let nd := nrm inner dx
        let theta := nb / nd
        let df := nrm inner (r.1 - s • dx)
        let rhobar := c.precision * c.rho * nb / df
        let hk := 2 * (1 - rhobar) * df / (lam * lam * nd)
        if (c.restricted = false ∧ 1 ≤ theta) ∨ (c.restricted = true ∧ 1 - 1 / 4 * lam < theta) then
          let ln := minInv (hk * (1 + c.rho)) (1 / 2 * lam)
          gdamp P inner c x dx fuel (if lam ≤ c.lamMin then ln else max ln c.lamMin) true
        else
          let ln := minInv (hk * (1 + c.rho)) 1
          if lam = 1 ∧ ln = 1 then
            if nb ≤ c.xtol then .ok (.converged r.1) else .ok (.accept xk fx r.1 lam hk)
          else if 4 * lam ≤ ln ∧ reducted = false then gdamp P inner c x dx fuel ln false
          else .ok (.accept xk fx r.1 lam hk)

/-- The a priori damping factor of a pass of `giant_gbit`, `funpy/newton/giant.py:117-119, 137-138`. -/
noncomputable def glamStart (inner : X → X → ℝ) (rho : ℝ) (prev : Option (X × X)) (lam hk : ℝ) (d : X) : ℝ :=
  match prev with
  | none => lam
  | some (dxp, _) => minInv ((1 + rho) * (nrm inner d / nrm inner dxp * hk)) 1

/-- The main loop of `giant_gbit`, `funpy/newton/giant.py:83-228`. When the adaptation loop converges, line 199 adds
the simplified correction to `x`, not to the trial point. -/
noncomputable def giantLoop (P : InexactProblem X R) (inner : X → X → ℝ) (c : GiantCfg) (fuel : ℕ)
    (k njac : ℕ) (x : X) (prev : Option (X × X)) (dxbar : X) (fx : R) (lam hk : ℝ) : Except Err (Result X) :=
  if _h : c.maxIter < k then .ok ⟨x, false, k, 0, njac, none⟩
  else
    let njac := njac + 1
    let fx := curRes P.F prev x fx
    let r := P.lin x (-fx) dxbar (if c.quadratic then 1 / 4 else c.rho / (2 * (1 + c.rho))) false
    if r.2 = false then .ok ⟨x, false, k, 0, njac, some x⟩
    else
      let again := glamStart inner c.rho prev lam hk r.1 = 1 ∧ prev.isSome
      let r2 := if again then
          P.lin x (-fx) r.1 (if c.quadratic then c.rho / 2 * hk / (1 + hk) else c.deltaBar) false
        else r
      if r2.2 = false then .ok ⟨x, false, k, 0, njac, some x⟩
      else
        let dx := r2.1
        if nrm inner dx ≤ c.xtol then .ok ⟨x + dx, true, k + 1, 0, njac, some x⟩
        else
          match gdamp P inner c x dx fuel (glamStart inner c.rho prev lam hk dx) false with
          | .error e => .error e
          | .ok .fail => .ok ⟨x, false, k, 0, njac, some x⟩
          | .ok (.converged dxb) => .ok ⟨x + dxb, true, k + 1, 0, njac, some x⟩
          | .ok (.accept xk fx' dxb lam hk) =>
            giantLoop P inner c fuel (k + 1) njac xk (some (dx, dxb)) dxb fx' lam hk
termination_by c.maxIter + 1 - k

/-- `giant_gbit(NewtonSystem, x, …)`, `funpy/newton/giant.py:16-228` (its five-tuple; `normdx` is not returned). -/
noncomputable def giantGbit (P : InexactProblem X R) (inner : X → X → ℝ) (c : GiantCfg) (fuel : ℕ) (lam : ℝ)
    (x : X) : Except Err (Result X) :=
  giantLoop P inner c fuel 0 0 x none 0 0 lam 0

/-! ### NewtonSeeker -/

/-- `NewtonSeeker.solve`, `funpy/newton/newton_seeker.py:36-73`: `giant` and `nleq` are the two drivers run on the
problem deflated with the known solutions. The result of `nleq_err` has six entries but is unpacked into five. -/
def seekerSolve (giant nleq : List X → Except Err (Result X)) (method : String) (learn : Bool) (known : List X) :
    Except Err (Result X × List X) :=
  if method = "giant" then
    (giant known).map fun r => (r, if r.success && learn then known ++ [r.x] else known)
  else if method = "nleq" ∨ method = "nleq-err" then
    match nleq known with
    | .error e => .error e
    | .ok _ => .error .valueError
  else .error .runtimeError

end Funpy.Newton
