import Mathlib.Data.Real.Basic

/-!
# Model: how numpy's functions and Python's operators find their implementation

funpy/cheb/chebtech.py:114-142, funpy/trig/trigtech.py:137-164, funpy/fun.py:93-95, 114-115, 166-187, and the functions `positive` and `power` of funpy/cheb/ufuncs.pyx and
funpy/trig/ufuncs.py.

Functions are objects in a memory, so that results which are the argument itself can be told from new objects.  `K.build` is the constructor with a callable (modelled for itself in
`Model/ChebRefine.lean` and `Model/TrigRefine.lean`; here it is arbitrary and may raise), `K.call` the evaluation.
-/

namespace Funpy.Ufunc

/-- The two types of functions: `T` are the objects, `V` their values. -/
structure Kind (T V : Type) where
  /-- `t(x)` -/
  call : T → ℝ → V
  /-- `chebtech(op=…)`, `trigtech(op=…)` -/
  build : (ℝ → V) → Option T
  /-- `len(t)`, funpy/cheb/chebtech.py:103-104, funpy/trig/trigtech.py:130-131: the number of coefficients -/
  len : T → ℕ
  /-- `np.float_power`, `np.power` -/
  pow : V → V → V

/-- An argument: an object of the memory, or a number. -/
inductive Arg (V : Type) where
  /-- a function, by its address -/
  | fn (a : ℕ)
  /-- a number -/
  | num (s : V)

/-- The result of a call: an object, or an exception; `NotImplemented` becomes a `TypeError`. -/
inductive Res (T : Type) where
  /-- the object at this address -/
  | same (a : ℕ)
  /-- a new object -/
  | new (t : T)
  /-- an exception -/
  | raises

variable {T V : Type} (K : Kind T V) (mem : ℕ → T)

/-- What the constructor returns. -/
def construct (op : ℝ → V) : Res T :=
  match K.build op with
  | some t => .new t
  | none => .raises

/-- A function of numpy with one argument and without an implementation in `ufuncs`, funpy/cheb/chebtech.py:131-134, funpy/trig/trigtech.py:153-155. -/
def default1 (u : V → V) (a : ℕ) : Res T := construct K fun x => u (K.call (mem a) x)

/-- A function of numpy with two arguments and without an implementation in `ufuncs`, funpy/cheb/chebtech.py:135-137, funpy/trig/trigtech.py:156-158: both arguments are called, which
raises for a number (in the constructor's first evaluation). -/
def default2 (u : V → V → V) : Arg V → Arg V → Res T
  | .fn a, .fn b => construct K fun x => u (K.call (mem a) x) (K.call (mem b) x)
  | _, _ => .raises

/-- `positive`, funpy/cheb/ufuncs.pyx:28-29, funpy/trig/ufuncs.py:23-24. -/
def positive (a : ℕ) : Res T := .same a

open Classical in
/-- `power` for type `cheb`, funpy/cheb/ufuncs.pyx:35-46. -/
noncomputable def chebPower [One V] : Arg V → Arg V → Res T
  | .num _, _ => .raises
  | .fn a, .num p => if p = 1 then .same a else construct K fun x => K.pow (K.call (mem a) x) p
  | .fn _, .fn _ => .raises

/-- `power` for type `trig`, funpy/trig/ufuncs.py:31-39: a number as first argument is swapped with the function (two numbers do not get here). -/
def trigPower : Arg V → Arg V → Res T
  | .num s, .fn a => construct K fun x => K.pow (K.call (mem a) x) s
  | .fn a, .num p => construct K fun x => K.pow (K.call (mem a) x) p
  | .fn _, .fn _ => .raises
  | .num _, .num _ => .raises

/-- A memory with room: the objects in use are those below `top`. -/
structure Store (T : Type) where
  /-- the objects -/
  mem : ℕ → T
  /-- the first free address -/
  top : ℕ

/-- Binding a result to a name: the address it has then. -/
def Store.bind (s : Store T) : Res T → Option (Store T × ℕ)
  | .same a => some (s, a)
  | .new t => some (⟨Function.update s.mem s.top t, s.top + 1⟩, s.top)
  | .raises => none

/-- An operation in place on the object at `a` (`g += …`, `g.prolong(…)`, `g.simplify()`). -/
def Store.inplace (s : Store T) (φ : T → T) (a : ℕ) : Store T := ⟨Function.update s.mem a (φ (s.mem a)), s.top⟩

open Classical in
/-- `f == g` for `Fun`s with domains `d`, `d'`, funpy/fun.py:93-95.  For equal domains the function `np.equal(f, g)` is constructed, and `np.all`, for which the types of functions have no
implementation (funpy/cheb/chebtech.py:144-149, funpy/trig/trigtech.py:168-173), raises a `TypeError`. -/
noncomputable def funEq {D : Type} (eq : V → V → V) (d d' : D) (a b : ℕ) : Option Bool :=
  if d ≠ d' then some false
  else match default2 K mem eq (.fn a) (.fn b) with
    | .raises => none
    | _ => none

/-- `bool(f != g)` for `Fun`s: `!=` is numpy's function (`NDArrayOperatorsMixin`), funpy/fun.py:166-187, whose result is a `Fun` if the domains are accepted (`ok`); its truth value is
`len(…) > 0`, funpy/fun.py:114-115. -/
def funNe (ne : V → V → V) (ok : Bool) (a b : ℕ) : Option Bool :=
  if ok = false then none
  else match default2 K mem ne (.fn a) (.fn b) with
    | .new t => some (decide (0 < K.len t))
    | .same c => some (decide (0 < K.len (mem c)))
    | .raises => none

end Funpy.Ufunc
