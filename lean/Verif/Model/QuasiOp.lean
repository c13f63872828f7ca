import Verif.Model.Mapping
import Mathlib.Analysis.Calculus.IteratedDeriv.Defs
import Mathlib.MeasureTheory.Integral.IntervalIntegral.Basic

/-!
# Model: the algebra of linear operators, funpy/colloc/quasiOp.py and funpy/colloc/quasiOpBlock.py

The coefficient functions are `Fun` objects; their addition and negation, their values and their number of coefficients are a parameter
(`Arith`, see C12 for what they compute).  The coefficients `nl_coeffs` of the abandoned non-local operators are never set (`nl_info` is
`np.zeros(2)`, funpy/colloc/linBlock.py:38, 119) and are not modelled.
-/

namespace Funpy.QuasiOp

/-- The functions used as coefficients. -/
structure Arith (F : Type) where
  /-- `f + g` -/
  add : F → F → F
  /-- `-f` -/
  neg : F → F
  /-- `f(x)` -/
  val : F → ℝ → ℝ
  /-- `f.shape[0]` -/
  ncoef : F → ℕ

/-- `icoeffs` and `integrand`: absent, two arrays of functions, or -- after a negation, quasiOpBlock.py:79-87, which assigns to the
variable instead of to the entry of the array -- two single functions. -/
inductive Nonlocal (F : Type) where
  /-- `None` -/
  | none
  /-- arrays -/
  | arr (c d : List F)
  /-- single functions -/
  | fn (c d : F)

/-- `QuasiOpBlock`, funpy/colloc/quasiOpBlock.py:8-20. -/
structure Block (F : Type) where
  /-- `info`: one flag per derivative and a last one for the integral terms -/
  info : List Bool
  /-- `coeffs` -/
  coeffs : List F
  /-- `icoeffs`, `integrand` -/
  nl : Nonlocal F

variable {F : Type} (R : Arith F)

/-- `-block`, funpy/colloc/quasiOpBlock.py:60-91: of the integral terms the last one remains.  `none`: `np.empty_like` of a function
raises. -/
def Block.neg (a : Block F) : Option (Block F) :=
  match a.nl with
  | .none => some ⟨a.info, a.coeffs.map R.neg, .none⟩
  | .arr c d => some ⟨a.info, a.coeffs.map R.neg,
      match c.getLast?, d.getLast? with
      | some c', some d' => .fn (R.neg c') (R.neg d')
      | _, _ => .arr [] []⟩
  | .fn _ _ => none

/-- `[op(f[i], g[i]) for i in range(len(f))]`; `none`: an index is out of range. -/
def addList (op : F → F → F) (f g : List F) : Option (List F) :=
  if f.length ≤ g.length then some (List.zipWith op f g) else none

/-- The entries of `other.icoeffs` in `other.icoeffs[i]`, quasiOpBlock.py:122-128: the array itself, or the only column of the
function. -/
def Nonlocal.entries : Nonlocal F → List F × List F
  | .none => ([], [])
  | .arr c d => (c, d)
  | .fn c d => ([c], [d])

/-- The integral part of a sum, quasiOpBlock.py:112-137. -/
def addNl (a b : Nonlocal F) : Option (Nonlocal F) :=
  match a, b with
  | .none, b => some b
  | a, .none => some a
  | .fn _ _, _ => none
  | .arr c d, b => do
    let c' ← addList (fun x y => R.add y x) c b.entries.1
    let d' ← addList (fun x y => R.add y x) d b.entries.2
    some (.arr c' d')

/-- `a + b`, funpy/colloc/quasiOpBlock.py:93-142: as many derivatives as the left operand has; `info | other.info` needs equal
lengths. -/
def Block.add (a b : Block F) : Option (Block F) := do
  let c ← addList R.add a.coeffs b.coeffs
  let nl ← addNl R a.nl b.nl
  if a.info.length = b.info.length then some ⟨List.zipWith (· || ·) a.info b.info, c, nl⟩ else none

/-- `a - b`, funpy/colloc/quasiOpBlock.py:144-145. -/
def Block.sub (a b : Block F) : Option (Block F) := do
  let b' ← b.neg R
  a.add R b'

/-- `a * s`, funpy/colloc/quasiOpBlock.py:150-185: the last lines ask the number for `other.info()`, which raises. -/
def Block.mul (_ : Block F) (_ : ℝ) : Option (Block F) := none

/-- `QuasiOp.__add__`, funpy/colloc/quasiOp.py:38-46. -/
def addOp {m n : ℕ} (a b : Fin m → Fin n → Block F) : Fin m → Fin n → Option (Block F) := fun i j => (a i j).add R (b i j)

/-- `QuasiOp.__mul__`, funpy/colloc/quasiOp.py:51-59. -/
def mulOp {m n : ℕ} (a b : Fin m → Fin n → Block F) : Fin m → Fin n → Option (Block F) := fun i j => (a i j).add R (b i j)

/-- The operator which `quasi2diffmat` discretises (funpy/colloc/ultraS/ultraS.py:157-214, see C65), applied to `u`: the derivatives whose
flag is set, and, if the last flag is set, the integral terms `icoeffs[j] ∫ integrand[j] u` for `j in range(icoeffs.shape[0])`; for a single
function `shape[0]` is its number of coefficients and `icoeffs[j]` its `j`-th column, so that more than one coefficient raises. -/
noncomputable def Block.apply (e : Ends) (a : Block F) (u : ℝ → ℝ) (y : ℝ) : Option ℝ :=
  let loc := (a.coeffs.mapIdx fun j f => if a.info.getD j false then R.val f y * iteratedDeriv j u y else 0).sum
  let term := fun (c d : F) => R.val c y * ∫ t in e.e0..e.e1, R.val d t * u t
  if a.info.getLastD false then
    match a.nl with
    | .none => none
    | .arr c d => some (loc + (List.zipWith term c d).sum)
    | .fn c d => if R.ncoef c = 1 then some (loc + term c d) else none
  else some loc

end Funpy.QuasiOp
