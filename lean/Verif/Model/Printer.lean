import Verif.Model.Linearize

/-!
# Model: printing sympy expressions as Python code, funpy/cbcode.py

`Ex` are the sympy expressions of an operator, `PyE` the Python expressions which are printed.  Both are trees: how sums, products
and powers are put into parentheses is left to sympy's printer, from which `FunPyPrinter` inherits, and is not modelled.
-/

namespace Funpy.Printer
open Linearize

/-- Expressions of an operator. -/
inductive Ex where
  /-- the symbol `x` -/
  | x
  /-- a number -/
  | num (q : ℚ)
  /-- a parameter -/
  | par (s : String)
  /-- `Function(s)(x)`: an unknown or a user-defined constant function -/
  | fn (s : String)
  /-- a function of sympy applied to an expression -/
  | known (s : String) (a : Ex)
  /-- a sum -/
  | add (a b : Ex)
  /-- a product -/
  | mul (a b : Ex)
  /-- a natural power -/
  | pow (a : Ex) (n : ℕ)
  /-- `Derivative(a, (x, k))` -/
  | der (a : Ex) (k : ℕ)
  /-- `Integral(a, x)` (`lim = false`) or `Integral(a, (x, lower, upper))` (`lim = true`) -/
  | int (a : Ex) (lim : Bool)
  deriving DecidableEq

/-- Python expressions. -/
inductive PyE where
  /-- a name -/
  | name (s : String)
  /-- a number -/
  | lit (q : ℚ)
  /-- `a + b` -/
  | add (a b : PyE)
  /-- `a*b` -/
  | mul (a b : PyE)
  /-- `a**n` -/
  | pow (a : PyE) (n : ℕ)
  /-- a function of numpy or scipy applied to an expression -/
  | np (s : String) (a : PyE)
  /-- `s(a)` -/
  | call (s : String) (a : PyE)
  /-- `np.diff(a, k)` -/
  | diff (a : PyE) (k : ℕ)
  /-- `np.sum(a)` -/
  | sum (a : PyE)
  /-- `np.cumsum(a)` -/
  | cumsum (a : PyE)
  /-- `adhesion(a, b)` -/
  | adhesion (a b : PyE)

/-- The settings of the printer: `function_names` and `allow_unknown_functions`; `no_evaluation` is true in all calls whose result is
used (funpy/colloc/source/OperatorSourceBlock.py:83, NonlinearOperatorSource.py:45). -/
structure Settings where
  /-- `function_names` -/
  fnames : List String
  /-- `allow_unknown_functions` -/
  unknown : Bool

/-- The settings for residuals, funpy/colloc/source/NonlinearOperatorSource.py:45. -/
def resSettings : Settings := ⟨[], false⟩

/-- The settings for the coefficients of operators, funpy/colloc/source/DiffOperatorSource.py:43-44, OperatorSourceBlock.py:80-83. -/
def coefficients (names cnames : List String) : Settings := ⟨names ++ cnames, true⟩

/-- `integral.atoms(Function)`, funpy/cbcode.py:90: the different applied functions, those of sympy included. -/
def Ex.functions : Ex → List Ex
  | .x | .num _ | .par _ => []
  | .fn s => [.fn s]
  | .known s a => (.known s a) :: a.functions
  | .add a b | .mul a b => a.functions ++ b.functions
  | .pow a _ | .der a _ | .int a _ => a.functions

/-- `FunPyPrinter._print`, funpy/cbcode.py:28-109; `K` is the table `known_functions` of sympy's printer (the names which it can rewrite into known
functions are counted as known), with the meaning of its entries.
* functions (45-73): known names first, then the names in `function_names`, then unknown functions with their arguments if these are
  allowed, otherwise the bare name;
* derivatives (28-43): `np.diff(…, k)`;
* integrals (75-109): without limits `np.sum`; with limits `np.cumsum` of the integrand if one function occurs in it, `adhesion` if
  two (its arguments are sorted by the number of free symbols; here all functions depend on `x` only, so that the last one found becomes the argument and the
  kernel is `None`), otherwise no code. -/
def print (K : String → Option (ℝ → ℝ)) (m : Settings) : Ex → Option PyE
  | .x => some (.name "x")
  | .num q => some (.lit q)
  | .par s => some (.name s)
  | .fn s =>
    if (K s).isSome then some (.np s (.name "x"))
    else if s ∈ m.fnames then some (.name s)
    else if m.unknown then some (.call s (.name "x"))
    else some (.name s)
  | .known s a =>
    if (K s).isSome then (print K m a).map (.np s)
    else if s ∈ m.fnames then some (.name s)
    else if m.unknown then (print K m a).map (.call s)
    else some (.name s)
  | .add a b => (print K m a).bind fun p => (print K m b).map (.add p)
  | .mul a b => (print K m a).bind fun p => (print K m b).map (.mul p)
  | .pow a n => (print K m a).map (.pow · n)
  | .der a k => (print K m a).map (.diff · k)
  | .int a false => (print K m a).map .sum
  | .int a true =>
    match a.functions.dedup.length with
    | 1 => (print K m a).map .cumsum
    | 2 => (print K m a).map fun p => .adhesion p (.name "None")
    | _ => none

/-- A value during the evaluation of generated code: a number, or a function (`Fun`); the function is taken to be exact. -/
inductive Val where
  /-- a number -/
  | num (r : ℝ)
  /-- a function -/
  | fn (f : ℝ → ℝ)

/-- The value of a number or function at a point; numbers are added to functions pointwise (C12), and `asfun` makes them constant
functions, funpy/fun.py:303-318. -/
def Val.at : Val → ℝ → ℝ
  | .num r, _ => r
  | .fn f, y => f y

/-- A binary operation of Python on numbers and functions, funpy/fun.py (`__array_ufunc__`): pointwise as soon as one is a function. -/
def Val.op₂ (o : ℝ → ℝ → ℝ) : Val → Val → Val
  | .num a, .num b => .num (o a b)
  | v, w => .fn fun y => o (v.at y) (w.at y)

/-- A unary operation. -/
def Val.op₁ (o : ℝ → ℝ) : Val → Val
  | .num a => .num (o a)
  | .fn f => .fn fun y => o (f y)

/-- Evaluating the code on the domain `e` with the given meaning of names. `np.diff` of a number raises, `np.sum` of a number is the
number; `adhesion` and calls of functions with functions are not modelled (`none`). -/
noncomputable def PyE.eval (K : String → Option (ℝ → ℝ)) (e : Ends) (env : String → Option Val) : PyE → Option Val
  | .name s => env s
  | .lit q => some (.num q)
  | .add a b => (a.eval K e env).bind fun v => (b.eval K e env).map (v.op₂ (· + ·))
  | .mul a b => (a.eval K e env).bind fun v => (b.eval K e env).map (v.op₂ (· * ·))
  | .pow a n => (a.eval K e env).map (Val.op₁ (· ^ n))
  | .np s a => (K s).bind fun g => (a.eval K e env).map (Val.op₁ g)
  | .call _ _ => none
  | .diff a k => (a.eval K e env).bind fun
    | .fn f => some (.fn (iteratedDeriv k f))
    | .num _ => none
  | .sum a => (a.eval K e env).map fun
    | .fn f => .num (∫ t in e.e0..e.e1, f t)
    | .num r => .num r
  | .cumsum a => (a.eval K e env).bind fun
    | .fn f => some (.fn fun y => ∫ t in e.e0..y, f t)
    | .num _ => none
  | .adhesion _ _ => none

/-- The names visible in a generated function: its arguments (the names of the unknowns, funpy/colloc/source/DiffOperatorSource.py:52-53), and behind
them the globals: `x`, the constant functions and the parameters (funpy/colloc/source/compiler.py:603-630). -/
def env (names : List String) (args : List Val) (glob : String → Option Val) (s : String) : Option Val :=
  match names.idxOf? s with
  | some j => args[j]?
  | none => glob s

end Funpy.Printer
