import Mathlib.Data.List.Basic

/-!
# Model: the life of an operator: assignments, compilation and discretisation, funpy/colloc/chebOp.py

`E` is the type of problem descriptions (`eqn`, `cts`, `bcs`, … as the user assigned them), `P` the type of parameter names.
-/

namespace Funpy.OpLife

variable {E P : Type}

/-- A compiled `Source`: for which problem, for which continuation parameters the derivatives with respect to parameters were generated, and whether the second
derivatives (`fold`) were, funpy/colloc/source/compiler.py:148-208. -/
structure Src (E P : Type) where
  /-- the compiled equations -/
  eqn : E
  /-- the parameters whose derivatives were generated -/
  dp : List P
  /-- the code for fold points was generated -/
  fold : Bool

/-- `Source.compile`, funpy/colloc/source/compiler.py:148-208: `none` when it raises.  `ok` tells whether the equations can be compiled, `known` whether a name is
a parameter (460).  The derivatives with respect to parameters are generated for `par or fold` and a non-empty list (200-205); `bif` always raises then (207-208). -/
def compileSrc (ok : E → Bool) (known : P → Bool) (e : E) (cpars : List P) (par fold bifc : Bool) : Option (Src E P) :=
  if ok e then
    if (par || fold) && !cpars.isEmpty then
      if cpars.all known && !bifc then some ⟨e, cpars, fold⟩ else none
    else if bifc && !cpars.isEmpty then none
    else some ⟨e, [], false⟩
  else none

/-- A linear system: its source, and whether it was built with the derivatives with respect to parameters, funpy/colloc/LinSys.py:78-155. -/
structure LinSys (E P : Type) where
  /-- the source -/
  src : Src E P
  /-- `par` -/
  par : Bool

/-- The parameters with respect to which the system can be differentiated: `pDer` is built for `par` only (LinSys.py:113-117, pDerivative.py:23-40). -/
def LinSys.derivs (s : LinSys E P) : List P := if s.par then s.src.dp else []

/-- The attributes of a `ChebOp` that matter here. -/
structure Op (E P : Type) where
  /-- `eqn`, `cts`, `bcs` -/
  eqn : E
  /-- `cpar` -/
  cpar : List P
  /-- `n_disc` -/
  n : ℕ
  /-- `n_min` -/
  nMin : ℕ
  /-- `prepared` -/
  prepared : Bool
  /-- `par_set` -/
  parSet : Bool
  /-- `linSys` -/
  linSys : Option (LinSys E P)

/-- A new operator, funpy/colloc/chebOp.py:88-160. -/
def new (e : E) (cpar : List P) (n nMin : ℕ) : Op E P := ⟨e, cpar, n, nMin, false, false, none⟩

/-- `setDisc(n)`, funpy/colloc/chebOp.py:206-211. -/
def setDisc (o : Op E P) (n : ℕ) : Op E P := { o with n := max n o.nMin }

/-- `compile(par, fold, bif)`, funpy/colloc/chebOp.py:248-286; the flag tells whether it returned normally.  When the compilation raises, `par_set` has already been
replaced. -/
def compile (ok : E → Bool) (known : P → Bool) (o : Op E P) (par fold bifc : Bool) : Op E P × Bool :=
  if o.prepared && (o.parSet || par == o.parSet) then (o, true)
  else match compileSrc ok known o.eqn o.cpar par fold bifc with
    | none => ({ o with parSet := par }, false)
    | some s => ({ o with parSet := par, linSys := some ⟨s, par⟩, prepared := true }, true)

/-- The systems which can be discretised, funpy/colloc/chebOp.py:439-441. -/
inductive System where
  /-- `'linear'` -/
  | linear
  /-- `'fold'` -/
  | fold
  /-- `'bif'` -/
  | bifurcation
  deriving DecidableEq

/-- A discretisation: of which system, of which dimension, and whether it is a `realDiscretization`. -/
structure Disc (E P : Type) where
  /-- the system -/
  sys : LinSys E P
  /-- `dimension` -/
  dim : ℕ
  /-- is it a `realDiscretization`? -/
  isReal : Bool

/-- `discretize_system(operator, u0)`, funpy/colloc/chebOp.py:416-430. -/
def discretizeSystem (o : Op E P) (s : LinSys E P) : Disc E P := ⟨s, o.n, o.n == 1⟩

/-- `discretize(u0, sys_name, fold=…, bif=…)`, funpy/colloc/chebOp.py:432-451; the argument `par` is overwritten (447-448).  The systems for fold and bifurcation points (properties
`biLinSys`, `mooreSys`, 179-200) are built from attributes `rhs_fold`, `rhs_bif` of the source (funpy/colloc/BiLinSys.py:80-83), which no source has: `AttributeError`. -/
def discretize (ok : E → Bool) (known : P → Bool) (o : Op E P) (sys : System) (fold bifc : Bool) : Op E P × Option (Disc E P) :=
  let r := compile ok known o (!o.cpar.isEmpty) fold bifc
  if r.2 then
    match sys with
    | .linear => (r.1, r.1.linSys.map (discretizeSystem r.1))
    | .fold | .bifurcation => (r.1, none)
  else (r.1, none)

/-- What a user can do with an operator. -/
inductive Act (E P : Type) where
  /-- `op.setDisc(n)` -/
  | setDisc (n : ℕ)
  /-- `op.compile(par=…, fold=…, bif=…)` -/
  | compile (par fold bifc : Bool)
  /-- `op.discretize(u, sys, fold=…, bif=…)` -/
  | discretize (sys : System) (fold bifc : Bool)
  /-- assigning new equations -/
  | setEqn (e : E)
  /-- assigning `op.cpar` -/
  | setCpar (l : List P)

/-- One action; exceptions are caught by the user. -/
def act (ok : E → Bool) (known : P → Bool) (o : Op E P) : Act E P → Op E P
  | .setDisc n => OpLife.setDisc o n
  | .compile p f b => (OpLife.compile ok known o p f b).1
  | .discretize s f b => (OpLife.discretize ok known o s f b).1
  | .setEqn e => { o with eqn := e }
  | .setCpar l => { o with cpar := l }

/-- A history of actions. -/
def run (ok : E → Bool) (known : P → Bool) (o : Op E P) (l : List (Act E P)) : Op E P := l.foldl (act ok known) o

end Funpy.OpLife
