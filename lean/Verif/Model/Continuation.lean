import Mathlib.Algebra.Order.Floor.Ring
import Mathlib.Data.Real.Archimedean

/-!
# Model: natural parameter continuation, funpy/colloc/cont.py

The module imports `states.deflation_state`, which does not exist in the package (the class is in `funpy/vectorspaces`); the model describes the
class as it would run with a working import.  `op.solve` is an arbitrary function of the parameter and the guess; printing is not modelled.
-/

namespace Funpy.Continuation

/-- `np.arange(start, stop, step)`: `ceil((stop - start)/step)` values `start + i step`; `none`: step zero raises `ZeroDivisionError`. -/
noncomputable def arange (start stop step : ℝ) : Option (List ℝ) :=
  open Classical in
  if step = 0 then none else some ((List.range ⌈(stop - start) / step⌉.toNat).map fun i : ℕ => start + i * step)

/-- The parameter values, funpy/colloc/cont.py:16-25.  `none`: an exception.
* `ps = None`: `np.asarray(None)` has size one and is not indexable;
* two values: `no_steps` steps from the first to the second (`no_steps = 0`: division by zero, `arange` raises);
* three values: `p0`, `pf` are unbound, `UnboundLocalError`;
* otherwise the values themselves. -/
noncomputable def params (ps : Option (List ℝ)) (noSteps : ℕ) : Option (List ℝ) :=
  match ps with
  | none => none
  | some [p0, pf] =>
    if noSteps = 0 then none
    else
      let dp := (pf - p0) / noSteps
      arange p0 (pf + 0.5 * dp) dp
  | some [_, _, _] => none
  | some l => some l

variable {U : Type}

/-- The loop, funpy/colloc/cont.py:27-37; `solve p guess` is `op.solve(DeflationState(u=guess, pname=p), …)`: the function of the returned state
and the flag. -/
def run (solve : ℝ → U → U × Bool) : List ℝ → U → U
  | [], guess => guess
  | p :: ps, guess =>
    let r := solve p guess
    if r.2 = false then r.1 else run solve ps r.1

/-- `Continuation(op, pname)(guess, ps, no_steps)`, funpy/colloc/cont.py:14-40. -/
noncomputable def call (solve : ℝ → U → U × Bool) (guess : U) (ps : Option (List ℝ)) (noSteps : ℕ) : Option U :=
  (params ps noSteps).map fun l => run solve l guess

end Funpy.Continuation
