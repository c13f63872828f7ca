import Mathlib.Data.Real.Basic

/-!
# Model: copying and storing operators, funpy/colloc/chebOp.py

The attributes of a `ChebOp` that the user sets.  Text is ASCII, so that a string and its encoded bytes have the same characters; parameters are a finite
map (the order of a dictionary and of HDF5 attributes is not observable).  `V` is the type of the values of constant functions.
-/

namespace Funpy.OpIO

/-- A Python value used as a name. -/
inductive PyName where
  /-- `'s'` -/
  | str (s : String)
  /-- `b's'` -/
  | bytes (s : String)
  /-- `[b's']` -/
  | bytesList (s : String)
  deriving DecidableEq

/-- The discretisations known by name, funpy/colloc/chebOp.py:101-102; everything else is used as it is. -/
inductive Colloc where
  /-- the class `ultraS` -/
  | ultraS
  /-- the class `trigspec` -/
  | trigspec
  /-- any other value -/
  | other (s : PyName)
  deriving DecidableEq

/-- `dict(ultraS=ultraS, trigspec=trigspec).get(colloc, colloc)`. -/
def Colloc.ofName : PyName → Colloc
  | .str "ultraS" => .ultraS
  | .str "trigspec" => .trigspec
  | s => .other s

/-- The attributes, funpy/colloc/chebOp.py:88-160. -/
structure ChebOp (V : Type) where
  /-- `debug` -/
  debug : Bool
  /-- `run_debug` -/
  runDebug : Bool
  /-- `solver_debug` -/
  solverDebug : Bool
  /-- `function_names` -/
  functions : List String
  /-- `constant_function_names` -/
  constants : List (String × V)
  /-- `operator_names` -/
  operators : List String
  /-- `kernels` -/
  kernels : List String
  /-- `parameter_names` -/
  pars : String → Option ℝ
  /-- `colloc` -/
  colloc : PyName
  /-- `colloc_type` -/
  collocType : Colloc
  /-- `domain` -/
  domain : ℝ × ℝ
  /-- `ftype` -/
  ftype : PyName
  /-- `n_disc` -/
  nDisc : ℕ
  /-- `n_min` -/
  nMin : ℕ
  /-- `eqn` -/
  eqn : List String
  /-- `cts` -/
  cts : List String
  /-- `bcs` -/
  bcs : List String
  /-- `cpar` -/
  cpar : List PyName
  /-- `eps` -/
  eps : ℝ
  /-- `lin_tol` -/
  linTol : ℝ
  /-- `diffOrder` -/
  diffOrder : ℕ
  /-- `linear` -/
  linear : Bool

/-- The default of `n_min`, funpy/colloc/chebOp.py:111. -/
def defaultNMin (ftype : PyName) : ℕ := if ftype = .str "cheb" then 1 else 9

/-- The default of `eps`, `2e3 * np.finfo(float).eps`, funpy/colloc/chebOp.py:129. -/
noncomputable def defaultEps : ℝ := 2000 * (1 / 2 ^ 52)

/-- `ChebOp(colloc=c)`, funpy/colloc/chebOp.py:88-160. -/
noncomputable def fresh (V : Type) (c : PyName) : ChebOp V :=
  let ftype : PyName := .str (if c = .str "ultraS" then "cheb" else "trig")
  { debug := false, runDebug := false, solverDebug := false, functions := [], constants := [], operators := [], kernels := [],
    pars := fun _ => none, colloc := c, collocType := Colloc.ofName c, domain := (-1, 1), ftype := ftype, nDisc := 15, nMin := defaultNMin ftype,
    eqn := [], cts := [], bcs := [], cpar := [], eps := defaultEps, linTol := 1 / 100 * defaultEps, diffOrder := 2, linear := false }

/-- `copy.deepcopy(op)`, funpy/colloc/chebOp.py:223-246: a new object is constructed from the listed attributes; the keyword arguments `operator` and `n_disc` are
not among those of the constructor (which are `operators` and `n`, 97, 110) and are ignored. -/
noncomputable def deepcopy {V : Type} (o : ChebOp V) : ChebOp V :=
  { fresh V o.colloc with
    debug := o.debug, functions := o.functions, constants := o.constants, kernels := o.kernels, pars := o.pars, domain := o.domain,
    ftype := o.ftype, nMin := defaultNMin o.ftype, eqn := o.eqn, cts := o.cts, bcs := o.bcs, cpar := o.cpar, linTol := o.linTol,
    diffOrder := o.diffOrder, linear := o.linear }

/-- The HDF5 group. -/
structure Group where
  /-- `function_names` -/
  functions : List String
  /-- `constant_function_names` -/
  constants : List String
  /-- `operator_names` -/
  operators : List String
  /-- `kernels` -/
  kernels : List String
  /-- the attributes of `parameters` -/
  pars : String → Option ℝ
  /-- `colloc` -/
  colloc : String
  /-- `eqn` -/
  eqn : List String
  /-- `cts` -/
  cts : List String
  /-- `bcs` -/
  bcs : List String
  /-- `debug` -/
  debug : Bool
  /-- `solver_debug` -/
  solverDebug : Bool
  /-- `n_disc` -/
  nDisc : ℕ
  /-- `n_min` -/
  nMin : ℕ
  /-- `ftype` -/
  ftype : String
  /-- `cpar` -/
  cpar : String
  /-- `domain_beg`, `domain_end` -/
  domain : ℝ × ℝ
  /-- `eps` -/
  eps : ℝ
  /-- `lin_tol` -/
  linTol : ℝ
  /-- `diffOrder` -/
  diffOrder : ℕ
  /-- `linear` -/
  linear : Bool

/-- An entry of an array of type `string_dtype('utf-8', k)`: numpy cuts longer byte strings. -/
def fixed (k : ℕ) (s : String) : String := String.ofList (s.toList.take k)

/-- `s.encode('utf-8')` for `self.colloc`: only strings have this method. -/
def PyName.encode : PyName → Option String
  | .str s => some s
  | _ => none

/-- A string or bytes stored as a scalar data set. -/
def PyName.scalar : PyName → Option String
  | .str s => some s
  | .bytes s => some s
  | .bytesList s => some s

/-- The data sets which `writeHDF5` writes, funpy/colloc/chebOp.py:457-486. -/
def record {V : Type} (o : ChebOp V) (c ft cp : String) : Group :=
  { functions := o.functions.map (fixed 30), constants := o.constants.map fun p => fixed 30 p.1, operators := o.operators.map (fixed 30),
    kernels := o.kernels.map (fixed 30), pars := o.pars, colloc := fixed 30 c, eqn := o.eqn.map (fixed 250), cts := o.cts.map (fixed 250),
    bcs := o.bcs.map (fixed 250), debug := o.debug, solverDebug := o.solverDebug, nDisc := o.nDisc, nMin := o.nMin, ftype := ft, cpar := cp,
    domain := o.domain, eps := o.eps, linTol := o.linTol, diffOrder := o.diffOrder, linear := o.linear }

/-- `writeHDF5`, funpy/colloc/chebOp.py:454-486; `none` when it raises (no continuation parameter, 479, or a `colloc` without `encode`, 467). -/
def store {V : Type} (o : ChebOp V) : Option Group :=
  o.colloc.encode.bind fun c => o.ftype.scalar.bind fun ft => o.cpar.head?.bind fun p => p.scalar.map fun cp => record o c ft cp

/-- The loop over the operator names, funpy/colloc/chebOp.py:494-495: for every stored operator name the last function name is appended; without function names
the variable is unbound (`none`). -/
def opNames (g : Group) : Option (List String) :=
  match g.operators, g.functions.getLast? with
  | [], _ => some []
  | l, some f => some (l.map fun _ => f)
  | _, none => none

/-- `readHDF5`, funpy/colloc/chebOp.py:488-537: the lists are appended to.  The names of constant functions are not read.  Scalars are read as bytes; `colloc`
becomes a list (527), `colloc_type` is not set again. -/
def loadWith {V : Type} (o : ChebOp V) (g : Group) (ops : List String) : ChebOp V :=
  { o with
    functions := o.functions ++ g.functions, operators := o.operators ++ ops, kernels := o.kernels ++ g.kernels,
    pars := fun p => (g.pars p).or (o.pars p), eqn := o.eqn ++ g.eqn, cts := o.cts ++ g.cts, bcs := o.bcs ++ g.bcs,
    debug := g.debug, solverDebug := g.solverDebug, nDisc := g.nDisc, nMin := g.nMin, eps := g.eps, linTol := g.linTol, diffOrder := g.diffOrder,
    linear := g.linear, cpar := [.bytes g.cpar], colloc := .bytesList g.colloc, ftype := .bytes g.ftype, domain := g.domain }

/-- `readHDF5` with its exception. -/
def load {V : Type} (o : ChebOp V) (g : Group) : Option (ChebOp V) := (opNames g).map (loadWith o g)

end Funpy.OpIO
