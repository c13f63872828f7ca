import Verif.Model.ChebNorm
import Verif.Model.ChebObj
import Verif.Model.State

/-!
# Model: evaluation of nonlinear operators and the life of an operator object

`Residual` (funpy/colloc/rhs.py), the evaluation part of `LinSys` (funpy/colloc/LinSys.py, LinSysBase.py) and the
mutable object `ChebOp` (funpy/colloc/chebOp.py) for Chebyshev functions (`ftype='cheb'`).

An equation is what its source text evaluates to: given the values of the parameters in the namespace and the columns of
the argument, a function or an exception (`none`).  The assembled matrices (`linOp`, `df`, `ddx`, `pDer`) are the subject of C98 and
C103 and are not part of this model; neither is the bilinear system.
-/

namespace Funpy.OpEval
open Funpy.Cheb

/-- The namespace of the compiled code, funpy/vectorspaces/namespace.py:5-8: the values of the parameters. -/
abbrev Env := String → Option ℝ

/-- What an equation (an entry of `op.eqn`, `op.cts`) evaluates to. -/
abbrev Eqn := Env → List ChebFun → Option ChebFun

/-- What a boundary condition evaluates to: `op(*u) - values`, funpy/colloc/chebOpConstraint.py:53-55. -/
abbrev Bc := Env → List ChebFun → Option ℝ

/-- The columns `*u` of a function (C106); `none` if a column cannot be taken. -/
noncomputable def columns (f : ChebFun) : Option (List ChebFun) :=
  VS.allSome ((List.range f.onefun.coeffs.m).map fun i : ℕ => f.getItem i)

/-! ### `Residual` -/

/-- A `Residual`, funpy/colloc/rhs.py:11-24. -/
structure Residual where
  /-- `self.n_disc` -/
  nDisc : ℕ
  /-- `self.rhs`, the compiled equations -/
  rhs : List Eqn
  /-- `self.values` -/
  values : Option (Arr ℝ)

/-- `for i, rhs in enumerate(self.rhs): self.values[:, i] = rhs(*u).prolong_coeffs(n)[:, 0]`, funpy/colloc/rhs.py:55-59.
An index beyond the last column is an `IndexError`. -/
noncomputable def fillLoop (env : Env) (cols : List ChebFun) (n : ℕ) : List Eqn → ℕ → List (List ℝ) → Option (List (List ℝ))
  | [], _, vals => some vals
  | r :: rs, i, vals => do
    let g ← r env cols
    if i < vals.length then
      fillLoop env cols n rs (i + 1) (vals.set i (prolongCol (g.onefun.coeffs.cols.getD 0 []) n))
    else none

/-- `Residual.update(u)`, funpy/colloc/rhs.py:50-59. -/
noncomputable def Residual.update (r : Residual) (env : Env) (cols : List ChebFun) : Option Residual := do
  let v ← fillLoop env cols r.nDisc r.rhs 0 (List.replicate cols.length (List.replicate r.nDisc 0))
  some { r with values := some ⟨r.nDisc, v⟩ }

/-- Entrywise operation on arrays of equal shape. -/
def resZip (op : ℝ → ℝ → ℝ) (a b : Arr ℝ) : Arr ℝ := ⟨a.n, List.zipWith (List.zipWith op) a.cols b.cols⟩

/-- `-r`, funpy/colloc/rhs.py:64-65: the new object has no equations.  `none`: there are no values yet. -/
def Residual.neg (r : Residual) : Option Residual := do
  let a ← r.values
  some ⟨r.nDisc, [], some ⟨a.n, a.cols.map fun c => c.map (- ·)⟩⟩

/-- `r + s`, funpy/colloc/rhs.py:67-73. -/
def Residual.add (r s : Residual) : Option Residual := do
  let a ← r.values
  let b ← s.values
  if a.n = b.n ∧ a.m = b.m then some ⟨r.nDisc, [], some (resZip (· + ·) a b)⟩ else none

/-- `r - s`, funpy/colloc/rhs.py:75-76. -/
def Residual.sub (r s : Residual) : Option Residual := s.neg.bind r.add

/-- `r * c` for a number, funpy/colloc/rhs.py:78-82. -/
def Residual.mul (r : Residual) (c : ℝ) : Option Residual := do
  let a ← r.values
  some ⟨r.nDisc, [], some ⟨a.n, a.cols.map fun col => col.map (c * ·)⟩⟩

/-- `c * r` for a number, funpy/colloc/rhs.py:84-85: `__rmul__` evaluates `other * self`, which calls `__rmul__` again.
`fuel` is the recursion limit of the interpreter. -/
def Residual.rmul (r : Residual) (c : ℝ) : ℕ → Option Residual
  | 0 => none
  | fuel + 1 => Residual.rmul r c fuel

/-! ### `LinSys` -/

/-- The part of a `LinSys` used by evaluation, funpy/colloc/LinSys.py:21-44, LinSysBase.py:11-25. -/
structure LinSys where
  /-- `self.ns` -/
  env : Env
  /-- `self.n_disc` -/
  nDisc : ℕ
  /-- `self.rhs` -/
  rhs : Residual
  /-- `self.c_rhs` -/
  cRhs : Option Residual
  /-- `self.constraints` -/
  bcs : List Bc
  /-- `self.cts_res` -/
  ctsRes : List ℝ

/-- The argument of the operator: a function or a state. -/
inductive Arg
  /-- a `Fun` -/
  | fn (f : ChebFun)
  /-- a state with one function -/
  | st (s : VS.State ChebFun ℝ)

/-- `u.u` or, by the delegation of funpy/vectorspaces/base_state.py:254-261, the function the attributes are taken from. -/
def Arg.func : Arg → Option ChebFun
  | .fn f => some f
  | .st s => s.funcs[0]?

/-- `pars.items()`; a function has no such attribute, and the `AttributeError` is caught; funpy/colloc/LinSysBase.py:50-56. -/
def Arg.items : Arg → List (String × ℝ)
  | .fn _ => []
  | .st s => VS.items s

/-- `pars.update_items()`, funpy/vectorspaces/base_state.py:192-194, LinSysBase.py:42-48. -/
def Arg.updateItems : Arg → List (String × ℝ)
  | .fn _ => []
  | .st s => s.reals.map fun p => (p.name, p.value)

/-- `for p_name, p_value in l: self.ns[p_name] = p_value`. -/
def assign (env : Env) (l : List (String × ℝ)) : Env :=
  l.foldl (fun e p => fun name => if name = p.1 then some p.2 else e name) env

/-- `LinSys.setDisc(n)`, funpy/colloc/LinSys.py:66-76. -/
def LinSys.setDisc (L : LinSys) (n : ℕ) : LinSys :=
  { L with nDisc := n, rhs := { L.rhs with nDisc := n }, cRhs := L.cRhs.map fun c => { c with nDisc := n } }

/-- `LinSys.setParameters(pars)`, funpy/colloc/LinSysBase.py:50-56. -/
def LinSys.setParameters (L : LinSys) (l : List (String × ℝ)) : LinSys := { L with env := assign L.env l }

/-- `LinSys.update_partial(u)`, funpy/colloc/LinSys.py:149-168. -/
noncomputable def LinSys.updatePartial (L : LinSys) (u : Arg) : Option LinSys := do
  let L := L.setParameters u.updateItems
  let f ← u.func
  let cols ← columns f
  let r ← L.rhs.update L.env cols
  let L ← match L.cRhs with
    | none => some { L with rhs := r }
    | some c => do
      let c ← c.update L.env cols
      let a ← r.values
      let b ← c.values
      some { L with rhs := { r with values := some (resZip (· + ·) a b) }, cRhs := some c }
  let cr ← VS.allSome (L.bcs.map fun b => b L.env cols)
  some { L with ctsRes := cr }

/-- `LinSys.update(u)`, funpy/colloc/LinSys.py:170-173. -/
noncomputable def LinSys.update (L : LinSys) (u : Arg) : Option LinSys := (L.setParameters u.items).updatePartial u

/-! ### `ChebOp` -/

/-- The attributes of a `ChebOp` that evaluation depends on, funpy/colloc/chebOp.py:84-155.  `compiles` counts the calls of `compile` that
generated code; it is not an attribute of the object. -/
structure Op where
  /-- `self.eqn` -/
  eqn : List Eqn
  /-- `self.cts` -/
  cts : List Eqn
  /-- `self.bcs` -/
  bcs : List Bc
  /-- `self.parameter_names` -/
  params : List (String × ℝ)
  /-- `self.cpar` -/
  cpar : List String
  /-- `self.domain` -/
  dom : Ends
  /-- `self.n_disc` -/
  nDisc : ℕ
  /-- `self.n_min` -/
  nMin : ℕ
  /-- `self.prepared` -/
  prepared : Bool
  /-- `self.par_set` -/
  parSet : Bool
  /-- `self.linSys` -/
  linSys : Option LinSys
  /-- ghost: how often code was generated -/
  compiles : ℕ

/-- `ChebOp.compile(par)`, funpy/colloc/chebOp.py:237-278, with `LinSys.__init__`/`build` and `Source` reduced to the equations. -/
def Op.compile (op : Op) (par : Bool) : Op :=
  if op.prepared && (op.parSet || par == op.parSet) then op
  else
    let L : LinSys :=
      { env := assign (fun _ => none) op.params
        nDisc := op.nDisc
        rhs := ⟨op.nDisc, op.eqn, none⟩
        cRhs := if op.cts = [] then none else some ⟨op.nDisc, op.cts, none⟩
        bcs := op.bcs
        ctsRes := [] }
    { op with parSet := par, linSys := some L, prepared := true, compiles := op.compiles + 1 }

/-- `ChebOp.setDisc(n)`, funpy/colloc/chebOp.py:196-201. -/
def Op.setDisc (op : Op) (n : ℕ) : Op :=
  { op with nDisc := max n op.nMin, linSys := op.linSys.map fun L => L.setDisc n }

open Classical in
/-- `ChebOp.discretize(u0)` up to the assembly of the matrices, funpy/colloc/chebOp.py:417-436 and `discretize_system`, 401-415:
`par` is replaced by whether there are continuation parameters; compile; set the size; `quasi` starts with `update(u)`
(funpy/colloc/LinSys.py:49-51). -/
noncomputable def Op.discretize (op : Op) (u : Arg) : Option Op := do
  let f ← u.func
  if f.dom = op.dom then
    let op := op.compile (!op.cpar.isEmpty)
    let L ← op.linSys
    let L ← (L.setDisc op.nDisc).update u
    some { op with linSys := some L }
  else none

/-- `ChebOp.__call__(u)`, funpy/colloc/chebOp.py:373-377; the value and the operator afterwards.  `none`: the operator was
never compiled (`self.linSys` is `None`), or an exception in the equations. -/
noncomputable def Op.call (eps : ℝ) (op : Op) (u : Arg) : Option (ChebFun × Op) := do
  let L ← op.linSys
  let f ← u.func
  let L ← (L.setDisc f.onefun.coeffs.n).updatePartial u
  let a ← L.rhs.values
  let t ← Tech.mk' a eps false false (ChebFun.hscale f.dom)
  some (⟨f.dom, t⟩, { op with linSys := some L })

/-- The function `res` whose norm `ChebOp.residual(u)` takes, funpy/colloc/chebOp.py:379-381 (the constructor simplifies). -/
noncomputable def Op.residualFun (eps : ℝ) (op : Op) (u : Arg) : Option (ChebFun × Op) := do
  let L ← op.linSys
  let f ← u.func
  let L ← L.updatePartial u
  let a ← L.rhs.values
  let t ← Tech.mk' a eps false true (ChebFun.hscale f.dom)
  some (⟨f.dom, t⟩, { op with linSys := some L })

/-- `ChebOp.residual(u)` with the default `p=2`, funpy/colloc/chebOp.py:379-387. -/
noncomputable def Op.residual (eig : List ℝ → List ℂ) (fuel : ℕ) (eps : ℝ) (op : Op) (u : Arg) : Option (ℝ × Op) := do
  let (res, op) ← op.residualFun eps u
  let v ← res.norm eig fuel (.fin 2) false
  let L ← op.linSys
  some (if L.bcs.length > 0 then v + √((L.ctsRes.map (· ^ 2)).sum) else v, op)

/-- What a user can do with an operator. -/
inductive Event
  /-- `op.eqn = …` -/
  | setEqn (l : List Eqn)
  /-- `op.parameter_names = …` (or an assignment to one of its entries) -/
  | setParams (l : List (String × ℝ))
  /-- `op.cpar = …` -/
  | setCpar (l : List String)
  /-- `op.setDisc(n)` -/
  | setDisc (n : ℕ)
  /-- `op.compile(par=…)` -/
  | compile (par : Bool)
  /-- `op.discretize(u)` -/
  | discretize (u : Arg)
  /-- `op(u)` -/
  | call (u : Arg)
  /-- `op.residual(u)` -/
  | residual (u : Arg)

/-- One event; `none`: an exception. -/
noncomputable def Op.step (eps : ℝ) (op : Op) : Event → Option Op
  | .setEqn l => some { op with eqn := l }
  | .setParams l => some { op with params := l }
  | .setCpar l => some { op with cpar := l }
  | .setDisc n => some (op.setDisc n)
  | .compile par => some (op.compile par)
  | .discretize u => op.discretize u
  | .call u => (op.call eps u).map Prod.snd
  | .residual u => (op.residualFun eps u).map Prod.snd

/-- A history. -/
noncomputable def Op.run (eps : ℝ) : Op → List Event → Option Op
  | op, [] => some op
  | op, e :: es => (op.step eps e).bind fun op => Op.run eps op es

/-- A new operator, funpy/colloc/chebOp.py:84-155. -/
def Op.new (eqn cts : List Eqn) (bcs : List Bc) (params : List (String × ℝ)) (cpar : List String) (dom : Ends) (nDisc nMin : ℕ) :
    Op := ⟨eqn, cts, bcs, params, cpar, dom, nDisc, nMin, false, false, none, 0⟩

end Funpy.OpEval
