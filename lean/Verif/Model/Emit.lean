import Mathlib.Data.List.Sort

/-!
# Model: generation and execution of the Python source of compiled operators

funpy/colloc/source/gen.py, DiffOperatorSource.py, IntegralOperatorSource.py, OperatorSourceBlock.py,
NonlinearOperatorSource.py, NonlinearVectorFunctionSource.py, funpy/colloc/linOp.py, linBlock.py, rhs.py, LinSys.py.

Program text is a list of characters.  The text which sympy prints for an expression (`cpcode`) is an input of the model.
-/

namespace Funpy.Emit

/-- Program text. -/
abbrev Str := List Char

/-- `'{0:d}'.format(n)` -/
def dec (n : ℕ) : Str := Nat.toDigits 10 n

/-! ### `CodeGeneratorBackend`, funpy/colloc/source/gen.py -/

/-- `CodeGeneratorBackend` after `begin(tab)`, funpy/colloc/source/gen.py:12-15. -/
structure CG where
  /-- the pieces of code -/
  code : List Str
  /-- one level of indentation -/
  tab : Str
  /-- the current level -/
  level : ℕ

/-- `begin(tab=4*" ")` -/
def CG.start : CG := ⟨[], [' ', ' ', ' ', ' '], 0⟩

/-- `end()`, gen.py:17-18. -/
def CG.text (g : CG) : Str := g.code.flatten

/-- `write(string)`, gen.py:20-29 (`debug=False`). -/
def CG.write (g : CG) (s : Str) : CG :=
  if s = [] then { g with code := g.code ++ [['\n']] }
  else { g with code := g.code ++ [(List.replicate g.level g.tab).flatten ++ s ++ ['\n']] }

/-- `indent()`, gen.py:31-32. -/
def CG.indent (g : CG) : CG := { g with level := g.level + 1 }

/-- `dedent()`, gen.py:34-37; `none`: `SyntaxError`. -/
def CG.dedent (g : CG) : Option CG := if g.level = 0 then none else some { g with level := g.level - 1 }

/-! ### Sources of operators -/

/-- A sympy expression as far as code generation looks at it: the printed code, `is_zero` (`None` counts as false), `is_real`,
`is_constant()` and whether functions occur. -/
structure Coef where
  /-- `cpcode(expr)` -/
  code : Str
  /-- `expr.is_zero` -/
  zero : Bool
  /-- `expr.is_real` -/
  real : Option Bool
  /-- `expr.is_constant()` -/
  const : Option Bool
  /-- `len(expr.atoms(Function)) != 0` -/
  hasFun : Bool

/-- What all generated functions of an operator share: `name`, the joined argument names, the type and the end points of the domain as
printed, funpy/colloc/source/OperatorSource.py:14-25. -/
structure Ctx where
  /-- `self.name` -/
  name : Str
  /-- `', '.join(map(str, function_names))` -/
  args : Str
  /-- `ftype` -/
  ftype : Str
  /-- `'{:.16f}'.format(domain[0])` -/
  d0 : Str
  /-- `'{:.16f}'.format(domain[1])` -/
  d1 : Str

/-- `1, domain=[d0, d1], type='ftype')` -/
def Ctx.onesArgs (c : Ctx) : Str :=
  "1, domain=[".toList ++ c.d0 ++ ", ".toList ++ c.d1 ++ "], type='".toList ++ c.ftype ++ "')".toList

/-- The expression returned by the function of a differential term, funpy/colloc/source/DiffOperatorSource.py:56-69. -/
def diffBody (c : Ctx) (e : Coef) : Str :=
  if e.zero then "zeros(".toList ++ c.onesArgs
  else if e.const.isSome ∧ (e.const = some true ∨ e.real = some true) ∧ e.hasFun = false then
    "(".toList ++ e.code ++ ") * ones(".toList ++ c.onesArgs
  else "asfun(".toList ++ e.code ++ ", type='".toList ++ c.ftype ++ "')".toList

/-- The expression returned by the functions of an integral term, funpy/colloc/source/IntegralOperatorSource.py:51-64, 81-94. -/
def intBody (c : Ctx) (e : Coef) : Str :=
  if e.zero then "zeros(".toList ++ c.onesArgs
  else if e.const = some true ∨ e.real = some true then e.code ++ " * ones(".toList ++ c.onesArgs
  else e.code

/-- `DiffOperatorSource` -/
structure DOp where
  /-- `self.order` -/
  order : ℕ
  /-- `self.coeffs` -/
  coef : Coef

/-- `IntegralOperatorSource` -/
structure IOp where
  /-- `self.coeffs` -/
  coef : Coef
  /-- `self.integrand` -/
  integrand : Coef

/-- `OperatorSourceBlock`, in the order of the calls of `append`, funpy/colloc/source/OperatorSourceBlock.py:13-32, 56-68. -/
structure Block where
  /-- row -/
  i : ℕ
  /-- column -/
  j : ℕ
  /-- `self.dops` -/
  dops : List DOp
  /-- `self.iops` -/
  iops : List IOp

/-- `finish()`: a stable sort by the order, OperatorSourceBlock.py:103-106. -/
def Block.sorted (b : Block) : List DOp := b.dops.mergeSort fun x y => decide (x.order ≤ y.order)

/-- `symbol_name` of a differential term, DiffOperatorSource.py:47-48. -/
def dName (c : Ctx) (b : Block) (k : ℕ) : Str := c.name ++ dec b.i ++ dec b.j ++ dec k

/-- `symbol_name_c`, IntegralOperatorSource.py:44-45. -/
def icName (c : Ctx) (b : Block) (off : ℕ) : Str := c.name ++ dec b.i ++ dec b.j ++ ['i', 'c'] ++ dec off

/-- `symbol_name_i`, IntegralOperatorSource.py:69-70. -/
def iiName (c : Ctx) (b : Block) (off : ℕ) : Str := c.name ++ dec b.i ++ dec b.j ++ ['i', 'i'] ++ dec off

/-- The name of the info function, OperatorSourceBlock.py:93. -/
def infoName (c : Ctx) (b : Block) : Str := c.name ++ ['i', 'n', 'f', 'o'] ++ dec b.i ++ dec b.j

/-- The statements `write('')`, `write('def NAME(ARGS):')`, `indent()`, `write('return BODY')`, `dedent()`,
DiffOperatorSource.py:51-54, 61-71, IntegralOperatorSource.py:46-66, 76-96. -/
def writeDef (g : CG) (name args body : Str) : Option CG :=
  let g := g.write []
  let g := g.write ("def ".toList ++ name ++ "(".toList ++ args ++ "):".toList)
  let g := g.indent
  let g := g.write ("return ".toList ++ body)
  g.dedent

/-- `DiffOperatorSource.emit`, DiffOperatorSource.py:42-71. -/
def emitD (c : Ctx) (b : Block) (g : CG) (d : DOp) : Option CG := writeDef g (dName c b d.order) c.args (diffBody c d.coef)

/-- `IntegralOperatorSource.emit`, IntegralOperatorSource.py:39-96. -/
def emitI (c : Ctx) (b : Block) (g : CG) (o : IOp × ℕ) : Option CG :=
  (writeDef g (icName c b o.2) c.args (intBody c o.1.coef)).bind fun g => writeDef g (iiName c b o.2) c.args (intBody c o.1.integrand)

/-- `posInfo()`, OperatorSourceBlock.py:108-118; the flags of the terms are those set by `emit`. -/
def Block.posInfo (b : Block) : List Bool :=
  b.sorted.map (fun d => !d.coef.zero) ++ [b.iops.any fun o => !o.coef.zero && !o.integrand.zero]

/-- `str` of a boolean -/
def boolStr (b : Bool) : Str := if b then "True".toList else "False".toList

/-- `', '.join(...)` -/
def join : List Str → Str
  | [] => []
  | [a] => a
  | a :: b :: l => a ++ ", ".toList ++ join (b :: l)

/-- The expression returned by the info function, OperatorSourceBlock.py:100. -/
def infoBody (b : Block) : Str := "[".toList ++ join (b.posInfo.map boolStr) ++ "]".toList

/-- `emit_posInfo`, OperatorSourceBlock.py:89-101. -/
def emitInfo (c : Ctx) (b : Block) (g : CG) : Option CG :=
  let g := g.write []
  let g := g.write "# Return sorted by derivative term order, followed by the integral terms.".toList
  let g := g.write ("def ".toList ++ infoName c b ++ "(".toList ++ "):".toList)
  let g := g.indent
  let g := g.write ("return ".toList ++ infoBody b)
  g.dedent

/-- `OperatorSourceBlock.emit()`, OperatorSourceBlock.py:70-87, after `finish()`. -/
def Block.emit (c : Ctx) (b : Block) : Option Str := do
  let g := CG.start
  let g := g.write (List.replicate 45 '#')
  let g := g.write ("# Derivative block ".toList ++ c.name ++ "[".toList ++ dec b.i ++ ", ".toList ++ dec b.j ++ "].".toList)
  let g := g.write (List.replicate 45 '#')
  let g ← b.sorted.foldlM (emitD c b) g
  let g ← b.iops.zipIdx.foldlM (emitI c b) g
  let g ← emitInfo c b g
  return g.text

/-! ### Executing the text -/

/-- A global of a namespace: a function (its signature and the expression it returns) or another object. -/
inductive Binding
  | func (sig body : Str)
  | obj (v : Str)
  deriving DecidableEq

/-- The dictionary in which code is executed, funpy/vectorspaces/namespace.py. -/
abbrev NS := Str → Option Binding

/-- `ns[name] = b` -/
def NS.set (ns : NS) (name : Str) (b : Binding) : NS := fun s => if s = name then some b else ns s

/-- The lines of a text. -/
def splitLines : Str → List Str
  | [] => [[]]
  | c :: cs =>
    if c = '\n' then [] :: splitLines cs
    else match splitLines cs with
      | [] => [[c]]
      | l :: ls => (c :: l) :: ls

/-- The rest of `l` after the prefix `p`. -/
def strip : Str → Str → Option Str
  | [], l => some l
  | _ :: _, [] => none
  | a :: p, b :: l => if a = b then strip p l else none

/-- Python on the fragment that is generated: empty lines, comments, and functions whose body is one `return`. `none`: an
exception, or text outside the fragment. -/
def execLines : List Str → Option (Str × Str) → NS → Option NS
  | [], none, ns => some ns
  | [], some _, _ => none
  | l :: ls, pending, ns =>
    if l = [] ∨ l.head? = some '#' then execLines ls pending ns
    else match pending with
      | none => (strip ['d', 'e', 'f', ' '] l).bind fun r =>
          execLines ls (some (r.takeWhile (· ≠ '('), r.dropWhile (· ≠ '('))) ns
      | some (name, sig) => (strip [' ', ' ', ' ', ' ', 'r', 'e', 't', 'u', 'r', 'n', ' '] l).bind fun body =>
          execLines ls none (ns.set name (.func sig body))

/-- `execute_pycode`, funpy/colloc/source/support.py:272-280. -/
def exec (code : Str) (ns : NS) : Option NS := execLines (splitLines code) none ns

/-! ### Building the operators -/

/-- `LinBlock` after `build`, funpy/colloc/linBlock.py:51-82. -/
structure Handles where
  /-- `self.coeffs`, one entry per order; `None` where no term was written -/
  coeffs : List (Option Binding)
  /-- `self.info` -/
  info : Binding
  /-- `self.icoeffs` -/
  icoeffs : List Binding
  /-- `self.integrand` -/
  integrand : List Binding

/-- `diffOrder`, OperatorSourceBlock.py:33-38. -/
def Block.diffOrder (b : Block) : ℕ := b.sorted.foldl (fun m d => max d.order m) 0

/-- `LinBlock.build(src)`, funpy/colloc/linBlock.py:51-82; `none`: `RuntimeError`. -/
def buildBlock (c : Ctx) (b : Block) (ns : NS) : Option Handles := do
  let coeffs ← b.sorted.foldlM (fun (l : List (Option Binding)) d => (ns (dName c b d.order)).map fun h => l.set d.order (some h))
    (List.replicate (b.diffOrder + 1) none)
  let info ← ns (infoName c b)
  let ic ← (List.range b.iops.length).mapM fun k => ns (icName c b k)
  let ii ← (List.range b.iops.length).mapM fun k => ns (iiName c b k)
  return ⟨coeffs, info, ic, ii⟩

/-- The loop of `LinOp.build`, funpy/colloc/linOp.py:18-36, over the blocks in the order of `np.ndindex`: each block is emitted, executed
and looked up before the next one. -/
def buildBlocks (c : Ctx) : List Block → NS → Option (List Handles × NS)
  | [], ns => some ([], ns)
  | b :: bs, ns => do
    let code ← b.emit c
    let ns1 ← exec code ns
    let h ← buildBlock c b ns1
    let (hs, ns2) ← buildBlocks c bs ns1
    return (h :: hs, ns2)

/-! ### Residuals -/

/-- The expression returned by the function of one equation, funpy/colloc/source/NonlinearOperatorSource.py:52-53. -/
def resBody (c : Ctx) (code : Str) : Str :=
  "asfun(".toList ++ code ++ ", type='".toList ++ c.ftype ++ "', domain=[".toList ++ c.d0 ++ ", ".toList ++ c.d1 ++ "])".toList

/-- `symbol_name` of an equation, NonlinearOperatorSource.py:46. -/
def resName (c : Ctx) (k : ℕ) : Str := c.name ++ dec k

/-- `emit_detail`, NonlinearOperatorSource.py:44-56. -/
def emitRes (c : Ctx) (g : CG) (e : Str × ℕ) : Option CG :=
  let g := g.write ("def ".toList ++ resName c e.2 ++ "(".toList ++ c.args ++ ", *args):".toList)
  let g := g.indent
  let g := g.write ("return ".toList ++ resBody c e.1)
  (g.dedent).map fun g => g.write []

/-- `NonlinearVectorFunctionSource.emit`, funpy/colloc/source/NonlinearVectorFunctionSource.py:41-52. -/
def emitVec (c : Ctx) (eqns : List Str) : Option Str := do
  let g := CG.start
  let g := g.write (List.replicate 35 '#')
  let g := g.write ("# Function block ".toList ++ c.name ++ ".".toList)
  let g := g.write (List.replicate 35 '#')
  let g ← eqns.zipIdx.foldlM (emitRes c) g
  return g.text

/-- `Residual.build`, funpy/colloc/rhs.py:29-47. -/
def buildRes (c : Ctx) (eqns : List Str) (ns : NS) : Option (List Binding × NS) := do
  let code ← emitVec c eqns
  let ns1 ← exec code ns
  let hs ← (List.range eqns.length).mapM fun k => ns1 (resName c k)
  return (hs, ns1)

/-- `LinSys.build` without parameter derivatives, funpy/colloc/LinSys.py:77-88, 117-126: `ns` is the namespace after the common code; first the linear operator
(named `eqn`, funpy/colloc/source/compiler.py:187) and the residual (named `f`, compiler.py:63), then the same for the constraints
(`cts` and `c`). -/
def buildSys (c : Ctx) (lin : List Block) (eqns : List Str) (cts : Option (List Block × List Str)) (ns : NS) :
    Option ((List Handles × List Binding) × Option (List Handles × List Binding) × NS) := do
  let (h, ns1) ← buildBlocks { c with name := "eqn".toList } lin ns
  let (r, ns2) ← buildRes { c with name := "f".toList } eqns ns1
  match cts with
  | none => return ((h, r), none, ns2)
  | some (bl, es) => do
    let (h', ns3) ← buildBlocks { c with name := "cts".toList } bl ns2
    let (r', ns4) ← buildRes { c with name := "c".toList } es ns3
    return ((h, r), some (h', r'), ns4)

end Funpy.Emit
