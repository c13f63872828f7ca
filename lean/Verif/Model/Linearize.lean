import Verif.Model.Mapping
import Mathlib.Analysis.Calculus.IteratedDeriv.Defs
import Mathlib.MeasureTheory.Integral.IntervalIntegral.Basic

/-!
# Model: the symbolic linearisation of operators, funpy/colloc/source/compiler.py

The code manipulates sympy expressions.  `Loc` and `Op` are the expressions a user can write in `op.eqn`:
pointwise expressions in `x`, numbers (and parameters), the unknown functions and their derivatives, and
expressions which in addition contain integrals over the domain (`sum(…)`, `int(…)`).  Simplifications: an
integrand contains no further integral; elementary functions are functions of one variable that are
represented by themselves, and their symbolic derivative by the derivative; sympy's
simplifications of coefficients (`simplify`, `term_simplify`), which preserve the value, are not
modelled.
-/

namespace Funpy.Linearize

/-- Pointwise expressions. -/
inductive Loc where
  /-- the spatial variable -/
  | x
  /-- a number or a parameter -/
  | const (c : ℝ)
  /-- `diff(u_j, x, k)` -/
  | fn (j k : ℕ)
  /-- a sum -/
  | add (a b : Loc)
  /-- a product -/
  | mul (a b : Loc)
  /-- a natural power -/
  | pow (a : Loc) (n : ℕ)
  /-- an elementary function -/
  | app (g : ℝ → ℝ) (a : Loc)
  /-- `diff(a, x)` of a compound expression -/
  | der (a : Loc)

/-- Expressions with integrals. -/
inductive Op where
  /-- a pointwise expression -/
  | loc (a : Loc)
  /-- the integral of a pointwise expression -/
  | int (a : Loc)
  /-- a sum -/
  | add (a b : Op)
  /-- a product -/
  | mul (a b : Op)
  /-- an elementary function -/
  | app (g : ℝ → ℝ) (a : Op)

/-- What the expression means for the functions `U` at the point `y`: this is what the Python code emitted
by `cpcode` (funpy/cbcode.py:30-60, 87-96: `np.diff`, `np.sum`, pointwise operations) computes from the functions. -/
noncomputable def Loc.eval (U : ℕ → ℝ → ℝ) : Loc → ℝ → ℝ
  | .x, y => y
  | .const c, _ => c
  | .fn j k, y => iteratedDeriv k (U j) y
  | .add a b, y => a.eval U y + b.eval U y
  | .mul a b, y => a.eval U y * b.eval U y
  | .pow a n, y => a.eval U y ^ n
  | .app g a, y => g (a.eval U y)
  | .der a, y => deriv (fun z => a.eval U z) y

/-- The value of an expression with integrals over the domain `e`. -/
noncomputable def Op.eval (e : Ends) (U : ℕ → ℝ → ℝ) : Op → ℝ → ℝ
  | .loc a, y => a.eval U y
  | .int a, _ => ∫ t in e.e0..e.e1, a.eval U t
  | .add a b, y => a.eval e U y + b.eval e U y
  | .mul a b, y => a.eval e U y * b.eval e U y
  | .app g a, y => g (a.eval e U y)

/-- The terms of `syp.diff(expr.replace(u_j, u_j + e * p), e).subs({e: 0})` for a pointwise expression,
funpy/colloc/source/compiler.py:509-515: a pair `(c, k)` stands for `c * diff(p, x, k)`.  Linearity, product, power
and chain rules; the derivative of a compound expression is expanded with the product rule. -/
noncomputable def Loc.terms (j : ℕ) : Loc → List (Loc × ℕ)
  | .x => []
  | .const _ => []
  | .fn i k => if i = j then [(.const 1, k)] else []
  | .add a b => a.terms j ++ b.terms j
  | .mul a b => (a.terms j).map (fun t => (.mul t.1 b, t.2)) ++ (b.terms j).map fun t => (.mul a t.1, t.2)
  | .pow a n => (a.terms j).map fun t => (.mul (.mul (.const n) (.pow a (n - 1))) t.1, t.2)
  | .app g a => (a.terms j).map fun t => (.mul (.app (deriv g) a) t.1, t.2)
  | .der a => (a.terms j).flatMap fun t => [(.der t.1, t.2), (t.1, t.2 + 1)]

/-- What a term of the derivative multiplies: `diff(p, x, k)`, or an integral whose integrand is a sum of terms. -/
inductive Atom where
  /-- `diff(p, x, k)` -/
  | d (k : ℕ)
  /-- `Integral(Σ c * diff(p, x, k), x)` -/
  | i (l : List (Loc × ℕ))

/-- The terms of the derivative of an expression with integrals. -/
noncomputable def Op.terms (j : ℕ) : Op → List (Op × Atom)
  | .loc a => (a.terms j).map fun t => (.loc t.1, .d t.2)
  | .int a => if (a.terms j).isEmpty then [] else [(.loc (.const 1), .i (a.terms j))]
  | .add a b => a.terms j ++ b.terms j
  | .mul a b => (a.terms j).map (fun t => (.mul t.1 b, t.2)) ++ (b.terms j).map fun t => (.mul a t.1, t.2)
  | .app g a => (a.terms j).map fun t => (.mul (.app (deriv g) a) t.1, t.2)

/-- The terms of the derivative of a product of atoms (evaluated `Derivative`). -/
noncomputable def Loc.dmon : Loc → List Loc
  | .x => [.const 1]
  | .const _ => []
  | .fn j k => [.fn j (k + 1)]
  | .add a b => a.dmon ++ b.dmon
  | .mul a b => a.dmon.map (.mul · b) ++ b.dmon.map (.mul a ·)
  | .pow a n => a.dmon.map (.mul (.mul (.const n) (.pow a (n - 1))) ·)
  | .app g a => a.dmon.map (.mul (.app (deriv g) a) ·)
  | .der a => [.der (.der a)]

/-- All products of an entry of the first and an entry of the second list. -/
def prodMon (l m : List Loc) : List Loc := l.flatMap fun s => m.map fun t => .mul s t

/-- Powers of a sum. -/
noncomputable def powMon (l : List Loc) : ℕ → List Loc
  | 0 => [.const 1]
  | n + 1 => prodMon (powMon l n) l

/-- The monomials of a pointwise expression, `syp.expand`; compound derivatives have been evaluated by the product rule. -/
noncomputable def Loc.monomials : Loc → List Loc
  | .add a b => a.monomials ++ b.monomials
  | .mul a b => prodMon a.monomials b.monomials
  | .pow a n => powMon a.monomials n
  | .der a => a.monomials.flatMap Loc.dmon
  | a => [a]

/-- The monomials of an expression, `syp.expand`.  Merging of equal monomials is not modelled. -/
noncomputable def Op.monomials : Op → List Op
  | .loc a => a.monomials.map .loc
  | .add a b => a.monomials ++ b.monomials
  | .mul a b => a.monomials.flatMap fun s => b.monomials.map fun t => .mul s t
  | a => [a]

/-- `syp.expand` of an atom: an integral of a sum is split into the integrals of the monomials. -/
noncomputable def Atom.split : Atom → List Atom
  | .d k => [.d k]
  | .i l => l.flatMap fun t => t.1.monomials.map fun m => .i [(m, t.2)]

/-- `syp.expand(DM[i, j])`: the coefficients are multiplied out, the integrals are split.  Merging of equal terms is
not done here: `block` below is a function of an arbitrary `expand`, and this is one of them. -/
noncomputable def expandTerms (l : List (Op × Atom)) : List (Op × Atom) :=
  l.flatMap fun t => t.1.monomials.flatMap fun m => t.2.split.map fun A => (m, A)

/-- A sum of expressions (`0` if there is none). -/
noncomputable def opSum : List Op → Op
  | [] => .loc (.const 0)
  | a :: l => .add a (opSum l)

/-- A sum of pointwise expressions. -/
noncomputable def locSum : List Loc → Loc
  | [] => .const 0
  | a :: l => .add a (locSum l)

open Classical in
/-- `expr.coeff(atom)`. -/
noncomputable def coeffOf (l : List (Op × Atom)) (A : Atom) : Op := opSum ((l.filter fun t => t.2 = A).map Prod.fst)

/-- `dpfun.function.coeff(pfun)`: the terms of the integrand with the undifferentiated `p`. -/
noncomputable def integrandCoeff (l : List (Loc × ℕ)) : Loc := locSum ((l.filter fun t => t.2 = 0).map Prod.fst)

/-- The integrals found by `preorder_traversal`, one per occurrence (compiler.py:548).  Integrals which do not
contain `p` are found too; their integrand has the coefficient zero, so they do not contribute. -/
def integrals (l : List (Op × Atom)) : List (List (Loc × ℕ)) :=
  l.filterMap fun t => match t.2 with
    | .d _ => none
    | .i m => some m

/-- A block of the linearised operator: the coefficients of `p, p', …` and the pairs `(c, d)` of the terms
`c ∫ d p`. -/
structure Block where
  /-- the `DiffOperatorSource`s in ascending order -/
  dops : List Op
  /-- the `IntegralOperatorSource`s -/
  iops : List (Op × Loc)

/-- One block of `linearize(matrix, diffOrder)`, funpy/colloc/source/compiler.py:492-561.  `expand` is sympy's `expand`
(with the automatic merging and ordering of terms), a parameter. -/
noncomputable def block (expand : List (Op × Atom) → List (Op × Atom)) (diffOrder : ℕ) (j : ℕ) (a : Op) : Block :=
  let l := expand (a.terms j)
  ⟨(List.range (diffOrder + 1)).map fun k => coeffOf l (.d k),
   (integrals l).map fun m => (coeffOf l (.i m), integrandCoeff m)⟩

/-- Does the expression contain the function `j`? -/
def Loc.has (j : ℕ) : Loc → Bool
  | .x => false
  | .const _ => false
  | .fn i _ => i == j
  | .add a b => a.has j || b.has j
  | .mul a b => a.has j || b.has j
  | .pow a _ => a.has j
  | .app _ a => a.has j
  | .der a => a.has j

/-- sympy's `ode_order(expr, u_j)`. -/
def Loc.order (j : ℕ) : Loc → ℕ
  | .x => 0
  | .const _ => 0
  | .fn i k => if i = j then k else 0
  | .add a b => max (a.order j) (b.order j)
  | .mul a b => max (a.order j) (b.order j)
  | .pow a _ => a.order j
  | .app _ a => a.order j
  | .der a => if a.has j then 1 + a.order j else 0

/-- sympy's `ode_order(expr, u_j)` with integrals. -/
def Op.order (j : ℕ) : Op → ℕ
  | .loc a => a.order j
  | .int a => a.order j
  | .add a b => max (a.order j) (b.order j)
  | .mul a b => max (a.order j) (b.order j)
  | .app _ a => a.order j

/-- `max(self.get_diff_order(spcode))`, funpy/colloc/source/compiler.py:124-125, 167: equation `i` is paired with
function `i` by `zip`. -/
def diffOrder (eqns : List Op) (nfun : ℕ) : ℕ :=
  ((eqns.zip (List.range nfun)).map fun p => p.1.order p.2).foldl max 0

/-- `linearize` for all equations and functions, with the order computed by `compile`,
funpy/colloc/source/compiler.py:154-184. -/
noncomputable def linearize (expand : List (Op × Atom) → List (Op × Atom)) (eqns : List Op) (nfun : ℕ) :
    List (List Block) :=
  eqns.map fun a => (List.range nfun).map fun j => block expand (diffOrder eqns nfun) j a

end Funpy.Linearize
