import Verif.Model.ChebObj
import Verif.Model.ChebInner

/-!
# Model: states, Cartesian products of functions and parameters (funpy/vectorspaces)

The functions of a state are of an arbitrary type `F` (for the code: `Fun` objects), parameter values
are of type `V` (`float`, `complex`).  The operations numpy dispatches to the components are
parameters of the definitions; they are instantiated with the `Fun` operations where a property needs
it.  An exception is `none`.
-/

namespace Funpy.VS

/-- A `Parameter`, funpy/vectorspaces/parameter.py:11-20. -/
@[ext] structure Param (V : Type) where
  /-- `self.name` -/
  name : String
  /-- `self.value` -/
  value : V

/-- A `Namespace`, funpy/vectorspaces/namespace.py:5-8: a dictionary; the list of its items. -/
abbrev NS (V : Type) := List (String × V)

/-- A state, funpy/vectorspaces/base_state.py:44-61.  The signature is determined by the class. -/
@[ext] structure State (F V : Type) where
  /-- `self.funcs` -/
  funcs : List F
  /-- `self.reals` -/
  reals : List (Param V)
  /-- `self.weights` -/
  weights : List ℝ
  /-- `self.ns` -/
  ns : NS V

/-- The classes derived from `BaseState`. -/
inductive Kind
  /-- `ContinuationState`, cont_state.py:15-39 -/
  | cont
  /-- `DeflationState`, deflation_state.py:11-24 -/
  | defl
  /-- `TwoParContState`, tp_cont_state.py:12-34 -/
  | tpCont
  /-- `TwoParameterState`, tp_state.py:14-46 -/
  | tp

namespace Kind

/-- `number_func` for the signature of the class; cont_state.py:20, deflation_state.py:13,
tp_cont_state.py:18-20, tp_state.py:20-23. -/
def nf : Kind → ℕ
  | cont => 1
  | defl => 1
  | tpCont => 1
  | tp => 2

/-- `number_real` for the signature of the class (same lines). -/
def nr : Kind → ℕ
  | cont => 1
  | defl => 0
  | tpCont => 2
  | tp => 2

/-- The classes whose constructor compares the names of the two parameters, tp_cont_state.py:30-31,
tp_state.py:42-43. -/
def twoPar : Kind → Bool
  | cont => false
  | defl => false
  | tpCont => true
  | tp => true

end Kind

variable {F V : Type}

/-- `del ns[name]` for a key that is present. -/
def NS.erase (ns : NS V) (name : String) : NS V := ns.filter fun e => e.1 ≠ name

/-- `sync_ns`, base_state.py:63-70: delete the names of the parameters from the namespace; the
`KeyError` of the first missing name ends the loop. -/
def syncNs : List (Param V) → NS V → NS V
  | [], ns => ns
  | r :: rs, ns => if r.name ∈ ns.map Prod.fst then syncNs rs (NS.erase ns r.name) else ns

/-- The constructor of the class `k` called with `funcs=`, `reals=`, `ns=` and possibly `weights=`
(`none`: default `np.ones(len(signature))`), base_state.py:44-61, cont_state.py:18-39,
deflation_state.py:12-24, tp_cont_state.py:15-34, tp_state.py:17-46. -/
def construct (k : Kind) (funcs : List F) (reals : List (Param V)) (ns : NS V)
    (weights : Option (List ℝ) := none) : Option (State F V) :=
  let w := weights.getD (List.replicate (k.nf + k.nr) 1)
  let s : State F V := ⟨funcs, reals, w, syncNs reals ns⟩
  if k.twoPar then
    match reals with
    | r0 :: r1 :: _ => if r0.name = r1.name then none else some s
    | _ => none
  else some s

/-! ### Loops -/

/-- `for i in range(n): a[i] = f(i)` filling an array of length `n`. -/
def collect {α : Type} : ℕ → (ℕ → Option α) → Option (List α)
  | 0, _ => some []
  | n + 1, f => do
    let l ← collect n f
    let x ← f n
    some (l ++ [x])

/-- The list comprehension `[f(x) for x in l]`. -/
def allSome {α : Type} : List (Option α) → Option (List α)
  | [] => some []
  | x :: l => do
    let y ← x
    let r ← allSome l
    some (y :: r)

/-- `for i in range(n): inner += f(i)`. -/
def sumLoop : ℕ → (ℕ → Option ℝ) → ℝ → Option ℝ
  | 0, _, acc => some acc
  | n + 1, f, acc => do
    let a ← sumLoop n f acc
    let x ← f n
    some (a + x)

/-! ### Arithmetic -/

/-- An operand of a ufunc: a state or a number (`ndarray` operands, which are passed on to every
component, are not modelled). -/
inductive Operand (F V : Type)
  /-- a state -/
  | state (s : State F V)
  /-- a number -/
  | num (x : V)

/-- The object whose `__array_ufunc__` numpy calls: the first operand that is a state. -/
def self : List (Operand F V) → Option (State F V)
  | [] => none
  | .state s :: _ => some s
  | .num _ :: l => self l

/-- `x.funcs[i] if isinstance(x, type(self)) else x`, base_state.py:290, 306. -/
def Operand.func (i : ℕ) : Operand F V → Option (F ⊕ V)
  | .state s => s.funcs[i]?.map Sum.inl
  | .num x => some (.inr x)

/-- `x.reals[i] if isinstance(x, type(self)) else x` followed by the `np.asarray` of
`Parameter.__array_ufunc__`; base_state.py:286, 302, parameter.py:56. -/
def Operand.real (i : ℕ) : Operand F V → Option V
  | .state s => s.reals[i]?.map Param.value
  | .num x => some x

/-- `BaseState.__array_ufunc__` without `out`, base_state.py:273-309, with
`Parameter.__array_ufunc__`, parameter.py:48-63 (the name is that of the first parameter).
`opF`, `opR`: the ufunc on functions and on values. -/
def ufunc (k : Kind) (opF : List (F ⊕ V) → Option F) (opR : List V → Option V)
    (inputs : List (Operand F V)) : Option (State F V) := do
  let self ← self inputs
  let nreals ← collect self.reals.length fun i => do
    let args ← allSome (inputs.map (Operand.real i))
    let p ← self.reals[i]?
    let v ← opR args
    some ⟨p.name, v⟩
  let nfuncs ← collect self.funcs.length fun i => do
    let args ← allSome (inputs.map (Operand.func i))
    opF args
  construct k nfuncs nreals self.ns

/-- `BaseState.__array_ufunc__` with `out=(out,)`, base_state.py:284-295, parameter.py:57-59: the
components of `out` are overwritten (the parameters keep the names of `out`), the namespace of `out`
is synchronised, weights are kept.  `opF`: the value left in the function passed as `out`; its first
argument is the previous value of that function. -/
def ufuncOut (opF : F → List (F ⊕ V) → Option F) (opR : List V → Option V)
    (inputs : List (Operand F V)) (out : State F V) : Option (State F V) := do
  let self ← self inputs
  let nreals ← collect self.reals.length fun i => do
    let args ← allSome (inputs.map (Operand.real i))
    let p ← out.reals[i]?
    let v ← opR args
    some ⟨p.name, v⟩
  let nfuncs ← collect self.funcs.length fun i => do
    let args ← allSome (inputs.map (Operand.func i))
    let f ← out.funcs[i]?
    opF f args
  let reals := nreals ++ out.reals.drop nreals.length
  some { out with reals := reals, funcs := nfuncs ++ out.funcs.drop nfuncs.length,
                  ns := syncNs reals out.ns }

/-- `np.zeros_like(state)` and `np.ones_like(state)`, base_state.py:322-347: `likeF` and the constant
`c` on the components; no namespace is passed on. -/
def like (k : Kind) (likeF : F → F) (c : V) (s : State F V) : Option (State F V) :=
  construct k (s.funcs.map likeF) (s.reals.map fun p => ⟨p.name, c⟩) []

/-! ### Inner products -/

/-- `np.dot` and (with `dotF` the sum of the diagonal) `np.inner` of two states,
base_state.py:350-380; the weights of the first one are used. -/
def dot (dotF : F → F → Option ℝ) (s t : State F ℝ) : Option ℝ := do
  let n := s.funcs.length
  let m := s.reals.length
  let a ← sumLoop n (fun i => do
    let w ← s.weights[i]?
    let f ← s.funcs[i]?
    let g ← t.funcs[i]?
    let d ← dotF f g
    some (w * d)) 0
  sumLoop m (fun i => do
    let w ← s.weights[i + n]?
    let p ← s.reals[i]?
    let q ← t.reals[i]?
    some (w * (p.value * q.value))) a

/-- `innerw` of two states, base_state.py:383-396.  The function of the same name imported from
`..fun` is shadowed by this definition, so the call in the loop is a recursive call on two `Fun`
objects, whose attribute `fshape` does not exist (`AttributeError`). -/
def innerw (s t : State F ℝ) : Option ℝ := do
  let n := s.funcs.length
  let a ← sumLoop n (fun _ => none) 0
  sumLoop s.reals.length (fun i => do
    let w ← s.weights[i + n]?
    let p ← s.reals[i]?
    let q ← t.reals[i]?
    some (w * (p.value * q.value))) a

/-- The number accumulated by `norm(p)`, base_state.py:135-141; `norm2 f p` is `norm_function(f, p)`. -/
noncomputable def normSum (norm2 : F → ℕ → ℝ) (p : ℕ) (s : State F ℝ) : Option ℝ := do
  let n := s.funcs.length
  let a ← sumLoop n (fun i => do
    let w ← s.weights[i]?
    let f ← s.funcs[i]?
    some (w * norm2 f p)) 0
  sumLoop s.reals.length (fun i => do
    let w ← s.weights[i + n]?
    let r ← s.reals[i]?
    some (w * r.value ^ p)) a

/-- `norm(p)`, base_state.py:135-143; `np.power` of a negative number with a fractional exponent is
`nan` (`none`). -/
noncomputable def norm (norm2 : F → ℕ → ℝ) (p : ℕ) (s : State F ℝ) : Option ℝ :=
  open Classical in
  (normSum norm2 p s).bind fun x =>
    if p = 1 then some x else if x < 0 then none else some (x ^ (1 / (p : ℝ)))

/-- `normalize(p)`, base_state.py:145-153 (`p ≥ 1`): the components are divided in place when the
norm exceeds `1e-14`; a comparison with `nan` is false. -/
noncomputable def normalize (norm2 : F → ℕ → ℝ) (divF : F → ℝ → F) (p : ℕ) (s : State F ℝ) :
    Option (State F ℝ) :=
  open Classical in
  (normSum norm2 p s).bind fun _ =>
    match norm norm2 p s with
    | none => some s
    | some c =>
      if 1e-14 < c then
        some { s with funcs := s.funcs.map (divF · c),
                      reals := s.reals.map fun r => ⟨r.name, r.value / c⟩ }
      else some s

/-! ### Real and imaginary parts -/

/-- `for i in range(n): arr[i] = f(i)` where `arr` has `m` entries (initially `None`). -/
def fill {α : Type} (m : ℕ) (f : ℕ → Option α) : ℕ → Option (List (Option α))
  | 0 => some (List.replicate m none)
  | n + 1 => do
    let arr ← fill m f n
    let x ← f n
    if n < m then some (arr.set n (some x)) else none

/-- `np.real(state)` and `np.imag(state)`, base_state.py:399-426: `partF`, `partV` on the components.
Note that the loop bounds are exchanged: `n` is the number of functions and is used for the
parameters.  (The `allSome` conversions never fail, see `C50_raises`.) -/
def part (k : Kind) (partF : F → F) (partV : V → V) (s : State F V) : Option (State F V) := do
  let n := s.funcs.length
  let m := s.reals.length
  let nreals ← fill m (fun i => s.reals[i]?.map fun p => ⟨p.name, partV p.value⟩) n
  let nfuncs ← fill n (fun i => s.funcs[i]?.map partF) m
  let nreals ← allSome nreals
  let nfuncs ← allSome nfuncs
  construct k nfuncs nreals s.ns

/-! ### Parameter access -/

/-- `items()`, base_state.py:185-190: the namespace, then the parameters. -/
def items (s : State F V) : List (String × V) :=
  s.ns ++ s.reals.map fun p => (p.name, p.value)

/-- `dict(l)`: the value of the last item with that key. -/
def lookup (l : List (String × V)) (name : String) : Option V :=
  (l.reverse.find? fun e => e.1 = name).map Prod.snd

/-- The dictionary comprehension `{n: v for n, v in items}`: later items replace earlier ones, each
key is kept once. -/
def toDict (l : List (String × V)) : NS V :=
  l.foldl (fun d e => if e.1 ∈ d.map Prod.fst then d.map (fun x => if x.1 = e.1 then e else x)
    else d ++ [e]) []

/-- The keyword arguments of the constructors that are not parameters: base_state.py:44-55,
cont_state.py:18, deflation_state.py:12, tp_cont_state.py:15, tp_state.py:17. -/
def Kind.reserved : Kind → List String
  | .cont => ["a", "u"]
  | .defl => ["u"]
  | .tpCont => ["p1", "p2", "u"]
  | .tp => ["p1", "p2", "u"]

/-- `from_state(other, pname, pvalue, …)`, cont_state.py:74-78, tp_cont_state.py:51-56,
tp_state.py:63-68: the new parameters `ps`, the function `u` (copied by the constructor, for
`TwoParameterState` followed by `extra = zeros_like(u)`), and everything in `other.items()` as keyword
arguments, which become the namespace.  A name that is passed twice is a `TypeError`; the other names the
constructors treat specially (`signature`, `weights`, `funcs`, `reals`, `ns`, `phi`, `self`) are
excluded by the hypotheses of the theorems. -/
def fromState (k : Kind) (u : F) (extra : List F) (other : State F V) (ps : List (Param V)) :
    Option (State F V) :=
  let pars := toDict (items other)
  if pars.any fun e => e.1 ∈ k.reserved then none
  else construct k (u :: extra) ps pars

/-! ### Namespaces as shared objects -/

/-- The namespaces in use; the address of a namespace is its position. -/
abbrev NSHeap (V : Type) := List (NS V)

/-- A state together with the reference `self.ns`; the field `ns` of `st` is not used. -/
structure ObjState (F V : Type) where
  /-- the components -/
  st : State F V
  /-- the reference `self.ns` -/
  addr : ℕ

/-- The value of a state with the reference followed. -/
def ObjState.view (h : NSHeap V) (o : ObjState F V) : Option (State F V) :=
  h[o.addr]?.map fun ns => { o.st with ns := ns }

/-- A ufunc on two states, base_state.py:296-309: the constructor receives `ns=self.ns`, that is the
same dictionary object, and `sync_ns` deletes in it. -/
def ObjState.ufunc2 (k : Kind) (opF : List (F ⊕ V) → Option F) (opR : List V → Option V)
    (h : NSHeap V) (s t : ObjState F V) : Option (NSHeap V × ObjState F V) := do
  let vs ← s.view h
  let vt ← t.view h
  let r ← ufunc k opF opR [.state vs, .state vt]
  some (h.set s.addr r.ns, ⟨r, s.addr⟩)

/-- `state[key] = value`, base_state.py:239-242. -/
def ObjState.setItem (h : NSHeap V) (o : ObjState F V) (key : String) (x : V) : NSHeap V :=
  h.set o.addr (toDict ((h[o.addr]?.getD []) ++ [(key, x)]))

/-- `copy.deepcopy(state)`, base_state.py:244-254: the namespace is copied, too. -/
def ObjState.deepcopy (k : Kind) (copyF : F → F) (h : NSHeap V) (o : ObjState F V) :
    Option (NSHeap V × ObjState F V) := do
  let v ← o.view h
  let r ← construct k (v.funcs.map copyF) v.reals v.ns (some v.weights)
  some (h ++ [r.ns], ⟨r, h.length⟩)

/-! ### Moore–Penrose states -/

/-- A `MoorePenroseState`, mp_state.py:11-18. -/
structure MP (S : Type) where
  /-- the main state -/
  u : S
  /-- the tangent -/
  v : S

/-- `MoorePenroseState.__array_ufunc__` without `out`, mp_state.py:60-92, for two states: the ufunc
is applied to both parts and the tangent is normalised. -/
def MP.ufunc2 {S : Type} (op : S → S → Option S) (nrm : S → Option S) (x y : MP S) :
    Option (MP S) := do
  let nu ← op x.u y.u
  let nv ← op x.v y.v
  let nv ← nrm nv
  some ⟨nu, nv⟩

/-- `np.dot` of two Moore–Penrose states, mp_state.py:143-145. -/
def MP.dot {S R : Type} (d : S → S → Option R) (x y : MP S) : Option R := d x.u y.u

/-! ### Coefficient vectors, for functions stored by a `chebtech` -/

open Cheb

/-- `np.real` of a `chebtech` with real coefficients, funpy/cheb/chebtech.py:455-460. -/
noncomputable def realTech (t : Tech) : Option Tech :=
  Tech.mk' t.coeffs t.eps t.ishappy false t.hscale t.maxLength

/-- `np.real(f)`, funpy/fun.py:270-272. -/
noncomputable def realFun (f : ChebFun) : Option ChebFun := do
  let t ← realTech f.onefun
  some ⟨f.dom, t⟩

/-- `np.zeros_like(f)`, funpy/fun.py:258-261: the function constructed from the values
`zeros((n, m))`; `eps` is the default tolerance. -/
noncomputable def zerosLikeFun (eps : ℝ) (f : ChebFun) : Option ChebFun := do
  let a : Arr ℝ := ⟨f.onefun.coeffs.n, List.replicate f.onefun.coeffs.m
    (List.replicate f.onefun.coeffs.n 0)⟩
  let t ← Tech.mk' (polyfit a) eps false false (ChebFun.hscale f.dom)
  some ⟨f.dom, t⟩

/-- `flatten`: cont_state.py:87-88, tp_cont_state.py:62-63, tp_state.py:74-75 (the first function
followed by all parameters); for a `DeflationState` the attribute is that of the single function
(`__getattr__`, base_state.py:256-263). -/
def flatten (s : State ChebFun ℝ) : Option (List ℝ) := do
  let f ← s.funcs[0]?
  some (f.flatten ++ s.reals.map Param.value)

/-- `from_coeffs(coeffs, names…, n_funs, domain=d)`: cont_state.py:62-67, deflation_state.py:31-35,
tp_cont_state.py:36-43, tp_state.py:48-55.  `names` are the parameter names; the last
`names.length` entries are the parameters, the others the function; the constructor copies the
function. -/
noncomputable def fromCoeffs (k : Kind) (eps : ℝ) (d : Ends) (v : List ℝ) (names : List String)
    (nFuns : ℕ) : Option (State ChebFun ℝ) :=
  let q := names.length
  if nFuns = 0 then none
  else if v.length < q then none
  else if (v.length - q) % nFuns ≠ 0 then none
  else do
    let soln ← ChebFun.fromCoeffs eps d (v.take (v.length - q)) nFuns
    let u ← realFun soln
    let u ← u.deepcopy
    let ps := List.zipWith (fun n x => (⟨n, x⟩ : Param ℝ)) names (v.drop (v.length - q))
    match k with
    | .tp => do
      let z ← zerosLikeFun eps u
      construct k [u, z] ps []
    | _ => construct k [u] ps []

/-! ### HDF5 -/

/-- The file written by `BaseState.writeHDF5`, base_state.py:197-211, for `Fun`s stored by a
`chebtech`; parameters and namespace entries are stored as attributes (name, value). -/
structure H5State where
  /-- dataset `weights` -/
  weights : List ℝ
  /-- groups `funcs0`, `funcs1`, … -/
  funcs : List ChebFun.H5Fun
  /-- groups `reals0`, … with attributes `name` and `value` -/
  reals : List (Param ℝ)
  /-- attributes of the group `ns` -/
  ns : NS ℝ

/-- `BaseState.writeHDF5`, base_state.py:197-211. -/
def writeHDF5 (s : State ChebFun ℝ) : H5State :=
  ⟨s.weights, s.funcs.map ChebFun.writeHDF5, s.reals, s.ns⟩

/-- `ContinuationState.from_hdf5`, cont_state.py:41-60: one function and one parameter (the last
ones in the file); `none` when a group is missing (`funcs[0]` stays `None`: not usable). -/
noncomputable def contFromHDF5 (h : H5State) : Option (State ChebFun ℝ) := do
  let g ← h.funcs.getLast?
  let f ← ChebFun.fromHDF5 g
  let r ← h.reals.getLast?
  construct .cont [f] [r] h.ns (some h.weights)

end Funpy.VS
