import Verif.Model.ChebObj
import Verif.Model.State
import Mathlib.Logic.Function.Basic

/-!
# Model: the iteration protocol of functions and states

`__iter__` stores the position in the attribute `ipos` of the object itself and returns the object
(funpy/fun.py:156-164, funpy/trig/trigtech.py:227-235, funpy/vectorspaces/base_state.py:229-237).  The memory
therefore is a map from addresses of objects to their attribute `ipos`.  Python's `for` statement and `zip` are modelled
with the number of steps they may take, so that loops which never end can be expressed.
-/

namespace Funpy.Iter

/-- The attribute `ipos` of every object (`none`: not set yet). -/
abbrev Mem := ℕ → Option ℕ

/-- What `__next__` uses of an object: the number of columns (`self.m`, `self.columns`) and `self[i]`
(`none`: raises). -/
structure Seq (α : Type) where
  /-- `self.m`, resp. `self.columns` -/
  len : ℕ
  /-- `self[i]` -/
  item : ℕ → Option α

/-- `Fun.__iter__`, funpy/fun.py:156-158; `BaseState.__iter__`, funpy/vectorspaces/base_state.py:229-231:
`self.ipos = 0; return self`, for the object at address `a`. -/
def iter (a : ℕ) (mem : Mem) : Mem := Function.update mem a (some 0)

/-- Result of `__next__`. -/
inductive Next (α : Type)
  /-- `StopIteration` -/
  | stop
  /-- any other exception -/
  | raise
  /-- a value; the memory afterwards -/
  | val (x : α) (mem : Mem)

/-- `Fun.__next__`, funpy/fun.py:160-164; `BaseState.__next__`, funpy/vectorspaces/base_state.py:233-237. -/
def next {α : Type} (o : Seq α) (a : ℕ) (mem : Mem) : Next α :=
  match mem a with
  | none => .raise
  | some p =>
    if o.len ≤ p then .stop
    else match o.item p with
      | none => .raise
      | some x => .val x (Function.update mem a (some (p + 1)))

/-- Result of running a piece of Python code which appends to a list `out`. -/
inductive Res (β : Type)
  /-- finished -/
  | done (mem : Mem) (out : List β)
  /-- the body of a loop executed `break` -/
  | brk (mem : Mem) (out : List β)
  /-- an exception -/
  | raised
  /-- the given number of steps was not enough -/
  | running

/-- The part of the `for` statement after `iter(obj)`: call `__next__` until it raises `StopIteration`
(Python language reference, 8.3). -/
def loop {α β : Type} (o : Seq α) (a : ℕ) (body : α → Mem → List β → Res β) : ℕ → Mem → List β → Res β
  | 0, _, _ => .running
  | f + 1, mem, out =>
    match next o a mem with
    | .stop => .done mem out
    | .raise => .raised
    | .val x mem' =>
      match body x mem' out with
      | .done mem'' out'' => loop o a body f mem'' out''
      | .brk mem'' out'' => .done mem'' out''
      | .raised => .raised
      | .running => .running

/-- `for x in obj: body`, the object being stored at address `a`. -/
def forLoop {α β : Type} (fuel : ℕ) (o : Seq α) (a : ℕ) (body : α → Mem → List β → Res β) (mem : Mem) (out : List β) :
    Res β := loop o a body fuel (iter a mem) out

/-- `out.append(g(x))` as the body of a loop. -/
def append {α β : Type} (g : α → β) (x : α) (mem : Mem) (out : List β) : Res β := .done mem (out ++ [g x])

/-- `out.append(g(x)); break`. -/
def appendBreak {α β : Type} (g : α → β) (x : α) (mem : Mem) (out : List β) : Res β := .brk mem (out ++ [g x])

/-- `list(obj)`, and the unpacking `*obj` in a call (e.g. `rhs(*u)`, funpy/colloc/rhs.py:56). -/
def toList {α : Type} (fuel : ℕ) (o : Seq α) (a : ℕ) (mem : Mem) : Res α := forLoop fuel o a (append id) mem []

/-- `for x in o1: for y in o2: out.append((x, y))`. -/
def nested {α β : Type} (fuel : ℕ) (o1 : Seq α) (a1 : ℕ) (o2 : Seq β) (a2 : ℕ) (mem : Mem) : Res (α × β) :=
  forLoop fuel o1 a1 (fun x mem out => forLoop fuel o2 a2 (append fun y => (x, y)) mem out) mem []

/-- `for x in o: for y in o: out.append((x, y)); break`: the inner loop stops after its first pass. -/
def nestedBreak {α β : Type} (fuel : ℕ) (o1 : Seq α) (a1 : ℕ) (o2 : Seq β) (a2 : ℕ) (mem : Mem) : Res (α × β) :=
  forLoop fuel o1 a1 (fun x mem out => forLoop fuel o2 a2 (appendBreak fun y => (x, y)) mem out) mem []

/-- `list(zip(o1, o2))` after both calls of `iter`. -/
def zipLoop {α β : Type} (o1 : Seq α) (a1 : ℕ) (o2 : Seq β) (a2 : ℕ) : ℕ → Mem → List (α × β) → Res (α × β)
  | 0, _, _ => .running
  | f + 1, mem, out =>
    match next o1 a1 mem with
    | .stop => .done mem out
    | .raise => .raised
    | .val x mem' =>
      match next o2 a2 mem' with
      | .stop => .done mem' out
      | .raise => .raised
      | .val y mem'' => zipLoop o1 a1 o2 a2 f mem'' (out ++ [(x, y)])

/-- `list(zip(o1, o2))`. -/
def zip {α β : Type} (fuel : ℕ) (o1 : Seq α) (a1 : ℕ) (o2 : Seq β) (a2 : ℕ) (mem : Mem) : Res (α × β) :=
  zipLoop o1 a1 o2 a2 fuel (iter a2 (iter a1 mem)) []

/-- A function: `self.m` and `self[i]`, funpy/fun.py:148-154. -/
noncomputable def ofFun (f : ChebFun) : Seq ChebFun := ⟨f.onefun.coeffs.m, fun i => f.getItem i⟩

/-- A state: `self.columns` (funpy/vectorspaces/base_state.py:89-91) and `self[i]` (lines 225-227) with
`self.u = self.funcs[0]`. -/
noncomputable def ofState {V : Type} (s : VS.State ChebFun V) : Seq ChebFun where
  len := (s.funcs.map fun f => f.onefun.coeffs.m).sum
  item idx := do
    let u ← s.funcs[0]?
    let m := u.onefun.coeffs.m
    let f ← s.funcs[idx / m]?
    f.getItem (idx % m : ℕ)

end Funpy.Iter
