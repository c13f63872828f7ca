import Verif.Model.Linearize

/-!
# Model: second derivatives and parameter derivatives of operators, funpy/colloc/source/compiler.py:230-479

`compile(fold=True)` differentiates the linearised operator once more, and `compile(par=True)` differentiates the operator with respect
to its parameters.  All of this is symbolic; the expressions are those of `Linearize`.

Symbols: with `nf` unknown functions, function `j` is `fn j`, its perturbation `u_p` (`get_pfuns(1)`, compiler.py:481-487) is
`fn (nf + j)` and the second perturbation `u_pp` (`get_pfuns(2)`) is `fn (2 * nf + j)`.  A parameter is a symbol `fn J 0` with
`3 * nf ≤ J` whose value is a constant function.
-/

namespace Funpy.Linearize

/-- Does the expression contain the symbol `j`? -/
def Op.has (j : ℕ) : Op → Bool
  | .loc a => a.has j
  | .int a => a.has j
  | .add a b => a.has j || b.has j
  | .mul a b => a.has j || b.has j
  | .app _ a => a.has j

/-- `DiffOperatorSource.expr` summed up by `OperatorSourceBlock.expr`: `Σ c_k * diff(p, x, k)`,
funpy/colloc/source/DiffOperatorSource.py:36-40, OperatorSourceBlock.py:49-54. -/
noncomputable def dopsExpr (P : ℕ) (dops : List Op) : Op := opSum (dops.mapIdx fun k c => .mul c (.loc (.fn P k)))

/-- `OperatorSourceBlock.expr`, funpy/colloc/source/OperatorSourceBlock.py:49-54.  `none`: for a block with an integral term
`IntegralOperatorSource.expr` (IntegralOperatorSource.py:36-37) raises `NameError`: the name `Integral` is not imported. -/
noncomputable def Block.expr (P : ℕ) (B : Block) : Option Op :=
  if B.iops.isEmpty then some (dopsExpr P B.dops) else none

/-- All entries, or an exception if one of them raises. -/
def optAll {α : Type} : List (Option α) → Option (List α)
  | [] => some []
  | x :: l => do
    let y ← x
    let r ← optAll l
    some (y :: r)

/-- `OperatorSource.expr`, funpy/colloc/source/OperatorSource.py:36-42. -/
noncomputable def exprMatrix (nf : ℕ) (L : List (List Block)) : Option (List (List Op)) :=
  optAll (L.map fun row => optAll (row.mapIdx fun j B => B.expr (nf + j)))

/-- `OperatorSource.action`: the sums of the rows, funpy/colloc/source/OperatorSource.py:45-63. -/
noncomputable def action (M : List (List Op)) : List Op := M.map opSum

/-- One component of `bilinear`: for every block of the row and every function `k` the coefficients of the derivatives of `u_pp` in
the derivative with respect to `u_k`, summed by `biaction`; funpy/colloc/source/compiler.py:408-451, OperatorSource.py:66-83. -/
noncomputable def biRow (expand : List (Op × Atom) → List (Op × Atom)) (D nf : ℕ) (row : List Op) : Op :=
  opSum (row.flatMap fun E => (List.range nf).map fun k => dopsExpr (2 * nf + k) (block expand D k E).dops)

/-- `bilinear(matrix, diffOrder)`, funpy/colloc/source/compiler.py:369-453.  The loops run over `n` rows and columns, `n` the
number of functions, and over the columns of an `n × m` matrix, `m` the number of rows of the source: `IndexError` unless they agree. -/
noncomputable def bilinear (expand : List (Op × Atom) → List (Op × Atom)) (D nf : ℕ) (M : List (List Op)) : Option (List Op) :=
  if M.length = nf then some (M.map (biRow expand D nf)) else none

/-- `expr.replace(u_a, u_b)`. -/
def Loc.subst (a b : ℕ) : Loc → Loc
  | .x => .x
  | .const c => .const c
  | .fn j k => .fn (if j = a then b else j) k
  | .add s t => .add (s.subst a b) (t.subst a b)
  | .mul s t => .mul (s.subst a b) (t.subst a b)
  | .pow s n => .pow (s.subst a b) n
  | .app g s => .app g (s.subst a b)
  | .der s => .der (s.subst a b)

/-- `expr.replace(u_a, u_b)`. -/
def Op.subst (a b : ℕ) : Op → Op
  | .loc s => .loc (s.subst a b)
  | .int s => .int (s.subst a b)
  | .add s t => .add (s.subst a b) (t.subst a b)
  | .mul s t => .mul (s.subst a b) (t.subst a b)
  | .app g s => .app g (s.subst a b)

/-- `OperatorSource.transpose` (OperatorSource.py:86-93) followed by the replacement of `u_p` by `u_pp` in the column of the function,
compiler.py:395-401. -/
noncomputable def transposed (nf : ℕ) (M : List (List Op)) : List (List Op) :=
  (List.range nf).map fun i => (List.range nf).map fun j =>
    let E := (M.getD j []).getD i (.loc (.const 0))
    let E := if i = j then E else E.subst (nf + i) (nf + j)
    E.subst (nf + j) (2 * nf + j)

/-- `syp.diff(expr.replace(u_k, u_k + e * u_p), e).subs({e: 0})` as an expression, compiler.py:423-427.  There are no integrals. -/
noncomputable def dirExpr (nf k : ℕ) (E : Op) : Op :=
  opSum ((E.terms k).map fun t => match t.2 with
    | .d o => .mul t.1 (.loc (.fn (nf + k) o))
    | .i _ => .loc (.const 0))

/-- The coefficients with alternating signs, compiler.py:443-446. -/
noncomputable def signed (dops : List Op) : List Op := dops.mapIdx fun o c => .mul (.loc (.const ((-1) ^ o))) c

/-- One component of `bilinear(…, adjoint=True)`: the coefficients of the derivatives of `u_pp`, with signs, multiply
the derivatives of `u_pp`; funpy/colloc/source/compiler.py:408-451. -/
noncomputable def adjRow (expand : List (Op × Atom) → List (Op × Atom)) (D nf : ℕ) (row : List Op) : Op :=
  opSum ((row.mapIdx fun j E => (List.range nf).map fun k =>
    dopsExpr (2 * nf + j) (signed (block expand D (2 * nf + j) (dirExpr nf k E)).dops)).flatten)

/-- `bilinear(matrix, diffOrder, adjoint=True)`, funpy/colloc/source/compiler.py:369-453. -/
noncomputable def bilinearAdj (expand : List (Op × Atom) → List (Op × Atom)) (D nf : ℕ) (M : List (List Op)) : Option (List Op) :=
  if M.length = nf then some ((transposed nf M).map (adjRow expand D nf)) else none

/-! ### Parameters -/

/-- `syp.diff(expr, p)` for a parameter. -/
noncomputable def Loc.dpar (J : ℕ) : Loc → Loc
  | .x => .const 0
  | .const _ => .const 0
  | .fn i k => if i = J ∧ k = 0 then .const 1 else .const 0
  | .add a b => .add (a.dpar J) (b.dpar J)
  | .mul a b => .add (.mul (a.dpar J) b) (.mul a (b.dpar J))
  | .pow a n => .mul (.mul (.const n) (.pow a (n - 1))) (a.dpar J)
  | .app g a => .mul (.app (deriv g) a) (a.dpar J)
  | .der a => .der (a.dpar J)

/-- `syp.diff(expr, p)` for a parameter. -/
noncomputable def Op.dpar (J : ℕ) : Op → Op
  | .loc a => .loc (a.dpar J)
  | .int a => .int (a.dpar J)
  | .add a b => .add (a.dpar J) (b.dpar J)
  | .mul a b => .add (.mul (a.dpar J) b) (.mul a (b.dpar J))
  | .app g a => .mul (.app (deriv g) a) (a.dpar J)

/-- `compile_dp` for one parameter, funpy/colloc/source/compiler.py:455-478: the derivatives of the equations if the parameter occurs
in them, otherwise of the constraints.  `simplify` does not change the value and is not modelled. -/
noncomputable def compileDp (eqns cts : List Op) (J : ℕ) : List Op :=
  if eqns.any (·.has J) then eqns.map (Op.dpar J) else cts.map (Op.dpar J)

/-- Calling the derivative with respect to a parameter, funpy/colloc/pDerivative.py:42-60: the components are stacked with
`np.hstack`, which raises for an empty list. -/
noncomputable def callDp (eqns cts : List Op) (J : ℕ) : Option (List Op) :=
  match compileDp eqns cts J with
  | [] => none
  | l => some l

/-- One component of `bilinear_dp`: the coefficients of the derivatives of `u_p` in the derivative of the linearised operator with respect
to a parameter, summed by `action`; funpy/colloc/source/compiler.py:304-362. -/
noncomputable def dxdpRow (expand : List (Op × Atom) → List (Op × Atom)) (D nf J : ℕ) (row : List Op) : Op :=
  opSum (row.mapIdx fun k E => dopsExpr (nf + k) (block expand D (nf + k) (E.dpar J)).dops)

/-- `linearFunctional.__call__(u, up, pname)` for the dictionary of the derivatives with respect to the parameters,
funpy/colloc/linearFunctional.py:77-91: `pname` is not handed on. -/
def callDxdp {α : Type} (functions : ℕ → Option α) (cpar : ℕ) (_pname : Option ℕ) : Option α := functions cpar

/-- `DerivativeFunctional.__call__(u, pname)`, funpy/colloc/pDerivative.py:42-60. -/
def callPDer {α : Type} (dps : ℕ → Option α) (cpar : ℕ) (pname : Option ℕ) : Option α := dps (pname.getD cpar)

/-! ### `compile(fold=True)` -/

/-- The forms of `compile_fold`. -/
structure Forms where
  /-- `deqn`: the action of the linearised operator -/
  df : List Op
  /-- `ddeqn` -/
  ddf : List Op
  /-- `dd_adjeqn` -/
  ddAdj : List Op

/-- One pass of the loop of `compile_fold`, funpy/colloc/source/compiler.py:245-299. -/
noncomputable def forms (expand : List (Op × Atom) → List (Op × Atom)) (D nf : ℕ) (L : List (List Block)) : Option Forms := do
  let M ← exprMatrix nf L
  let b ← bilinear expand D nf M
  let c ← bilinearAdj expand D nf M
  some ⟨action M, b, c⟩

/-- `compile(fold=True)`, funpy/colloc/source/compiler.py:163-188, 230-302: the forms of the equations and of the constraints.  The order
is that of both; the equations are linearised before the order of the constraints is known. -/
noncomputable def compileFold (expand : List (Op × Atom) → List (Op × Atom)) (eqns cts : List Op) (nf : ℕ) : Option (Forms × Forms) := do
  let D := max (diffOrder eqns nf) (diffOrder cts nf)
  let r ← forms expand D nf (linearize expand eqns nf)
  let c ← forms expand D nf (cts.map fun a => (List.range nf).map fun j => block expand D j a)
  some (r, c)

/-- The derivative of the linearised operator with respect to a parameter, `compile_fold` and `bilinear_dp`,
funpy/colloc/source/compiler.py:301-366. -/
noncomputable def compileDxdp (expand : List (Op × Atom) → List (Op × Atom)) (eqns cts : List Op) (nf J : ℕ) : Option (List Op) := do
  let D := max (diffOrder eqns nf) (diffOrder cts nf)
  let _ ← compileFold expand eqns cts nf
  let M ← exprMatrix nf (linearize expand eqns nf)
  if M.length = nf then some (M.map (dxdpRow expand D nf J)) else none

end Funpy.Linearize
