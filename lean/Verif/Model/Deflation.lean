import Verif.Model.Newton
import Mathlib.Analysis.InnerProductSpace.Basic

/-!
# Model of deflation: `funpy/newton/{deflation,FrechetDeflated,FrechetDeflatedPrecond,deflated_residual,NewtonSystem}.py`

States form a real inner product space `X` whose norm is `h1norm` (the `H¹` inner product); residual and coefficient
vectors form real vector spaces. Powers are real powers; `u` is assumed different from the known solutions wherever the
code divides by `h1norm(u - ks)` (Lean's `1/0 = 0` replaces numpy's `inf` there).
-/

namespace Funpy.Deflation
open Funpy.Newton (Err)

variable {X : Type} [NormedAddCommGroup X] [InnerProductSpace ℝ X]

/-- `deflation(u, known_solutions, shift, power)`, `funpy/newton/deflation.py:9-10`; also
`DeflatedResidual.__deflation`, `deflated_residual.py:105-114`. -/
noncomputable def deflation (u : X) (ks : List X) (shift power : ℝ) : ℝ :=
  if ks = [] then 1 else (ks.map fun s => shift + 1 / ‖u - s‖ ^ power).prod

/-- The loop of `deflation_linearization` over the known solutions, `funpy/newton/deflation.py:26-36`. -/
noncomputable def linLoop (u : X) (shift power : ℝ) : List X → ℝ → X → ℝ × X
  | [], eta, f => (eta, f)
  | s :: ks, eta, f =>
    let diff := u - s
    let dn := ‖diff‖
    let defl := shift + 1 / dn ^ power
    linLoop u shift power ks (eta * defl) (f + (1 / (defl * dn ^ (2 + power))) • diff)

/-- `deflation_linearization(u, known_solutions, shift, power)`, `funpy/newton/deflation.py:13-46`: the factor and the
function that represents its derivative (`None` without known solutions). The prolongation of lines 41-43 does not
change the function. -/
noncomputable def deflationLinearization (u : X) (ks : List X) (shift power : ℝ) : ℝ × Option X :=
  if ks = [] then (1, none)
  else
    let r := linLoop u shift power ks 1 0
    (r.1, some ((-power * r.1) • r.2))

/-- `NewtonSystem.rhs`, `funpy/newton/NewtonSystem.py:67-75`, `DeflatedResidual.rhs`, `deflated_residual.py:80-87`: the
deflated residual, with `res` the residual of the undeflated problem (`shift = 1`, `power = 2`). -/
noncomputable def systemRhs {R : Type} [AddCommGroup R] [Module ℝ R] (res : X → R) (ks : List X) (u : X) : R :=
  if ks = [] then res u else deflation u ks 1 2 • res u

/-- Calling the functional stored by `deflation_linearization`: `funpy.functional.Functional`
(`funpy/functional.py:12-56`) defines no `__call__`, so every call raises `TypeError`. -/
def functionalCall {V : Type} (_x : V) : Except Err ℝ := .error .typeError

/-- `FrechetDeflated._matvec`, `funpy/newton/FrechetDeflated.py:46-59` (also `DeflatedResidual._matvec`,
`deflated_residual.py:152-168`); `f` is what calling the stored functional does (`None`: no known solutions). -/
noncomputable def frechetMatvec {V R : Type} [AddCommGroup R] [Module ℝ R] (M : V → R) (eta : ℝ) (b : R)
    (f : Option (V → Except Err ℝ)) (x : V) : Except Err R :=
  match f with
  | none => .ok (M x)
  | some f => (f x).map fun deta => eta • M x + deta • b

/-- `FrechetDeflatedPrecond._matvec`, `funpy/newton/FrechetDeflatedPrecond.py:27-44`: `Pinv` is `Pf.solve`, `nks` the
number of known solutions. In this class residuals and states are coefficient vectors of one space `V`. -/
noncomputable def precondMatvec {V : Type} [AddCommGroup V] [Module ℝ V] (Pinv : V → V) (eta : ℝ) (b : V) (nks : ℕ)
    (f : V → ℝ) (x : V) : V :=
  if nks = 0 then Pinv x
  else
    let denom := eta ^ 2 + f b
    let term1 := Pinv x
    let term2 := (f term1 / denom) • b
    (1 / eta) • (term1 - term2)

end Funpy.Deflation
