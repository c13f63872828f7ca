import Verif.Model.Printer

/-!
# Model: printing sympy expressions for solutions without space dependence, funpy/odecode.py

Expressions, Python expressions and their values are those of `Model/Printer.lean`.
-/

namespace Funpy.OdePrinter
open Linearize Printer

/-- The settings of `odecode(expr, **settings)`, funpy/odecode.py:15-18, 62-63. -/
structure OdeSettings where
  /-- `function_names` -/
  fnames : List String
  /-- `allow_unknown_functions` -/
  unknown : Bool
  /-- `no_evaluation` -/
  noEval : Bool

/-- `OdePyPrinter._print_Function`, funpy/odecode.py:24-52, of a function `s` which sympy does not know, with the printed argument: the listed names first, then calls
if unknown functions are allowed, then bare names if `no_evaluation` is set; otherwise `_print_not_supported`, which gives no code (`none`). -/
def printUnknown (m : OdeSettings) (s : String) (arg : Option PyE) : Option PyE :=
  if s ∈ m.fnames then some (.name s)
  else if m.unknown then arg.map (.call s)
  else if m.noEval then some (.name s)
  else none

/-- `OdePyPrinter._print`, funpy/odecode.py:11-60; `K` as in `Printer.print`.
* derivatives (20-22): the number `0.0`;
* functions (24-52): known names as functions of numpy or scipy, others as in `printUnknown`;
* integrals (54-57), with or without limits: the integrand. -/
def odePrint (K : String → Option (ℝ → ℝ)) (m : OdeSettings) : Ex → Option PyE
  | .x => some (.name "x")
  | .num q => some (.lit q)
  | .par s => some (.name s)
  | .fn s => if (K s).isSome then some (.np s (.name "x")) else printUnknown m s (some (.name "x"))
  | .known s a => if (K s).isSome then (odePrint K m a).map (.np s) else printUnknown m s (odePrint K m a)
  | .add a b => (odePrint K m a).bind fun p => (odePrint K m b).map (.add p)
  | .mul a b => (odePrint K m a).bind fun p => (odePrint K m b).map (.mul p)
  | .pow a n => (odePrint K m a).map (.pow · n)
  | .der _ _ => some (.lit 0)
  | .int a _ => odePrint K m a

end Funpy.OdePrinter
