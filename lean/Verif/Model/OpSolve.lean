import Verif.Model.OpEval
import Verif.Model.NewtonMat

/-!
# Model: `ChebOp.solve`, funpy/colloc/chebOp.py:319-392, for Chebyshev functions

The nonlinear solver (`SolverAdaptive.solve` or `Newton.solve`, C100, C114, C133) is an arbitrary function of the operator and the initial state which
returns the final state, the flag and the operator as it is left behind.  Printing and timing are not modelled, except that the format string raises.
-/

namespace Funpy.OpEval
open Funpy.Cheb

/-- The argument `f`. -/
inductive Guess
  /-- `None` -/
  | zero
  /-- a function -/
  | fn (f : ChebFun)
  /-- a state -/
  | st (s : VS.State ChebFun ℝ)

/-- `zeros(n, domain=...)`, funpy/fun.py:280-282: one zero coefficient per column. -/
noncomputable def zerosFun (eps : ℝ) (n : ℕ) (dom : Ends) : Option ChebFun := do
  let t ← Tech.mk' ⟨1, List.replicate n [0]⟩ eps false false (ChebFun.hscale dom)
  some ⟨dom, t⟩

/-- The initial state, funpy/colloc/chebOp.py:335-336: a `DeflationState` with the parameters of the operator in its namespace
(funpy/vectorspaces/deflation_state.py:12-24, base_state.py:44-61), or the state that was given. -/
noncomputable def Op.initState (eps : ℝ) (op : Op) : Guess → Option (VS.State ChebFun ℝ)
  | .zero => do
    let f ← zerosFun eps op.eqn.length op.dom
    some ⟨[f], [], [1], op.params⟩
  | .fn f => some ⟨[f], [], [1], op.params⟩
  | .st s => some s

/-- The keyword arguments: the order `p` of the norm and whether `tol=` is given. -/
structure SolveKw where
  /-- `p` -/
  p : Funpy.ChebFun.NormIndex
  /-- `'tol' in kwargs` -/
  tol : Bool

/-- What `solve` returns: `soln`, `s_state` (the first is returned for `state=False`, the second for `state=True`), `success`, `res`; and the operator
afterwards. -/
structure Solved where
  /-- `soln` -/
  soln : ChebFun
  /-- `s_state` -/
  state : VS.State ChebFun ℝ
  /-- `success` -/
  success : Bool
  /-- `res` -/
  res : ℝ
  /-- the operator -/
  op : Op

/-- `soln.happy()` followed by `soln.simplify(eps=np.finfo(float).eps)`, funpy/colloc/chebOp.py:366-369: `happy` stores its result in the function. -/
noncomputable def tidy (meps : ℝ) (f : ChebFun) : ChebFun :=
  NewtonMat.simplifyFun meps ⟨f.dom, { f.onefun with ishappy := f.onefun.happy.1 }⟩

/-- `ChebOp.solve(f, p, state=…, **kwargs)`, funpy/colloc/chebOp.py:319-392.  `none`: an exception.
* `tol=` is passed twice to `Newton`: `TypeError` (330);
* the residual is that of the function before it is simplified, with the operator left by the solver, and always with `p=2` (363);
* `soln.simplify` changes the function in the state in place (367);
* `{2:d}` raises for an infinite `p` (378-383). -/
noncomputable def Op.solve (eig : List ℝ → List ℂ) (fuel : ℕ) (eps meps : ℝ) (run : Op → VS.State ChebFun ℝ → Option (VS.State ChebFun ℝ × Bool × Op))
    (op : Op) (g : Guess) (kw : SolveKw) : Option Solved := do
  if kw.tol then none
  else
    let s0 ← op.initState eps g
    let op := { op with linSys := op.linSys.map fun L => L.setParameters (Arg.st s0).items }
    let (s, ok, op) ← run op s0
    let f ← s.funcs[0]?
    let (res, op) ← op.residual eig fuel eps (.fn f)
    let f' := tidy meps f
    match kw.p with
    | .inf => none
    | .fin _ => some ⟨f', { s with funcs := s.funcs.set 0 f' }, ok, res, op⟩

end Funpy.OpEval
