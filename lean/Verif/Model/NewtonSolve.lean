import Verif.Model.Newton

/-!
# Model: `Newton.solve`, funpy/newton/newton.py, and the exact linear solver, funpy/linalg/exact_linear_solver.py
-/

namespace Funpy.Newton

variable {X R : Type} [AddCommGroup X] [Module ℝ X] [AddCommGroup R]

/-- What `Newton.solve` may raise. -/
inductive SErr
  /-- raised by a driver -/
  | driver (e : Err)
  /-- raised by the constructor of the exact linear solver -/
  | attributeError
  /-- raised by the constructor of the exact linear solver -/
  | runtimeError

/-- The drivers. -/
inductive Algo | qnerr | nleq | giant | standard
  deriving DecidableEq

/-- Selection of the driver by the (lower case) name, funpy/newton/newton.py:43-69. -/
def algo (m : String) : Algo :=
  if m = "qnerr" ∨ m = "qn-err" then .qnerr
  else if m = "nleqerr" ∨ m = "nleq" ∨ m = "nleq-err" then .nleq
  else if m = "giant" ∨ m = "giant-gbit" ∨ m = "giantgbit" then .giant
  else .standard

/-- `linearSolver.get(method, method)`, funpy/newton/newton.py:34, 39: the name of the exact solver handed to every linear system; the argument
`exact=` with which the drivers call is ignored (36). -/
def exactName (m : String) : Option String :=
  if m = "qnerr" then some "lu" else if m = "nleq" then some "lu" else if m = "nleq-err" then some "lu"
  else if m = "giant" then none else some m

/-- `ExactLinearSolver.__init__`, funpy/linalg/exact_linear_solver.py:14-34, as far as the name goes: `lu` works for sparse and dense
matrices, `qr` reads `self.A`, which is never set, everything else is rejected. -/
def exactSolver (m : String) : Except SErr Unit :=
  if m = "lu" then .ok () else if m = "qr" then .error .attributeError else .error .runtimeError

/-- Setting up a linear system, funpy/newton/NewtonSystem.py:44-46, 54-59. -/
def setup (m : String) : Except SErr Unit :=
  match exactName m with
  | none => .ok ()
  | some s => exactSolver s

/-- The keyword arguments of `solve` which reach the drivers. -/
structure SolveArgs where
  /-- `tol`, `miter`, `debug` for `newton_standard` -/
  tol : ℝ
  miter : ℕ
  debug : Bool
  /-- the options of `qnerr` -/
  thetaMax : ℝ
  /-- the options of `nleq_err`, its first damping factor -/
  nleq : NleqCfg
  lam : ℝ
  /-- the options of `giant_gbit`, its first damping factor -/
  giant : GiantCfg
  glam : ℝ

/-- `Newton.solve(u0, method=m, …)`, funpy/newton/newton.py:27-74: residual and exact linear solver are `P`, the inexact one `I`; the callback
(23-25) always returns true. The linear system is set up in the first pass of a driver: never if the iteration limit is zero. -/
noncomputable def newtonSolve (P : Problem X R) (I : InexactProblem X R) (inner : X → X → ℝ) (c : SolveArgs) (fuel : ℕ)
    (method : String) (u0 : X) : Except SErr (Result X) :=
  let m := method.toLower
  let run (always : Bool) (n : ℕ) (r : Except Err (Result X)) : Except SErr (Result X) :=
    if always = false ∧ n = 0 then r.mapError .driver
    else (setup m).bind fun _ => r.mapError .driver
  match algo m with
  | .qnerr => run true 0 (qnerrAlone P inner (fun _ _ _ _ => true) c.tol c.thetaMax 0 c.miter u0)
  | .nleq => run false c.nleq.miter (nleqErr P inner (fun _ _ _ _ => true) c.nleq fuel c.lam u0)
  | .giant => run true 0 (giantGbit I inner c.giant fuel c.glam u0)
  | .standard => run false c.miter (newtonStandard P inner (fun _ _ _ _ => true) c.tol c.debug c.miter u0)

end Funpy.Newton
