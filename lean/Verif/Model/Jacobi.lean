import Mathlib.Analysis.SpecialFunctions.Gamma.Basic
import Mathlib.Analysis.SpecialFunctions.Log.Basic
import Mathlib.Algebra.Order.Floor.Semiring

/-!
# Model of `funpy/ultra.py`

Every array there is two-dimensional (coefficients × functions) and all operations act column by column; the
model treats one column as a `List ℝ`. Real arithmetic replaces floating point. `none` stands for a raised
exception (numpy broadcasting errors, `assert False`). Division by zero (numpy: `inf`/`nan` with a warning)
is Lean's `x / 0 = 0`; no theorem relies on it.
-/

namespace Funpy.Jac

/-- `np.arange(start, stop, step)`: `ceil((stop - start)/step)` entries (numpy's documented length). -/
noncomputable def arange (start stop step : ℝ) : List ℝ :=
  (List.range ⌈(stop - start) / step⌉₊).map fun (i : ℕ) => start + (i : ℝ) * step

/-- numpy broadcasting of a binary operation on one-dimensional arrays. -/
def bcast (f : ℝ → ℝ → ℝ) (u v : List ℝ) : Option (List ℝ) :=
  if u.length = v.length then some (List.zipWith f u v)
  else if u.length = 1 then some (v.map fun y => f (u.getD 0 0) y)
  else if v.length = 1 then some (u.map fun x => f x (v.getD 0 0))
  else none

/-- numpy's in-place `u op= v`: the result must have the shape of `u`. -/
def bcastInto (f : ℝ → ℝ → ℝ) (u v : List ℝ) : Option (List ℝ) :=
  (bcast f u v).bind fun w => if w.length = u.length then some w else none

/-- `np.cumprod`. -/
def cumprod (l : List ℝ) : List ℝ := (List.range l.length).map fun k => (l.take (k + 1)).prod

/-- `np.fliplr(np.cumsum(np.fliplr(tmp), 1))` of one row: the sums of the tails. -/
def tailSums (l : List ℝ) : List ℝ := (List.range l.length).map fun k => (l.drop k).sum

/-- `sps.spdiags(d, 0, n, n).dot(v)` with `len(v) = n`: the first `n` entries of `d` times `v` (missing
entries of `d` are zero). -/
def spdiagDot (d : List ℝ) (n : ℕ) (v : List ℝ) : List ℝ :=
  (List.range n).map fun k => d.getD k 0 * v.getD k 0

/-- `UpJacobiConversion(v, a, b)`, `funpy/ultra.py:43-52`. `n = 0` raises (negative shape of `D2`). -/
noncomputable def up (v : List ℝ) (a b : ℝ) : Option (List ℝ) :=
  let n := v.length
  if n = 0 then none else
  (bcast (· / ·) (arange (a + b + 3) (a + b + n + 1) 1) (arange (a + b + 5) (a + b + 2 * n) 2)).bind fun q =>
  (bcast (· / ·) (arange (a + 1) (a + n) 1) (arange (a + b + 3) (a + b + 2 * n) 2)).bind fun d2 =>
  let d1 := 1 :: ((a + b + 2) / (a + b + 3)) :: q
  bcast (· + ·) (spdiagDot d1 n v) (spdiagDot d2 (n - 1) v.tail ++ [0])

/-- `DownJacobiConversion(v, a, b)`, `funpy/ultra.py:55-64`. -/
noncomputable def down (v : List ℝ) (a b : ℝ) : Option (List ℝ) :=
  let n := v.length
  (bcast (· / ·) (arange (a + 2) (a + n) 1) (arange (a + b + 3) (a + b + n + 1) 1)).bind fun q =>
  let topRow₀ := 1 :: ((a + 1) / (a + b + 2)) :: (cumprod q).map fun y => (a + 1) / (a + b + 2) * y
  (bcast (· * ·) ((List.range n).map fun k => (-1 : ℝ) ^ k) topRow₀).bind fun topRow =>
  (bcast (· * ·) topRow v).bind fun tmp =>
  let vecsum := tailSums tmp
  (bcast (· / ·) (arange (a + b + 5) (a + b + 2 * n) 2) (arange (a + b + 3) (a + b + n + 1) 1)).bind fun r =>
  (bcast (· * ·) r ((topRow.drop 2).map fun t => 1 / t)).bind fun r' =>
  let ratios := 1 :: (-(a + b + 3) / (a + 1)) :: r'
  bcast (· * ·) ratios vecsum

/-- `v[1::2] = -v[1::2]`, `funpy/ultra.py:69, 71, 77, 79`. -/
def negOdd (v : List ℝ) : List ℝ := v.mapIdx fun k x => if k % 2 = 1 then -x else x

/-- `RightJacobiConversion(v, a, b)`, `funpy/ultra.py:67-72`. -/
noncomputable def right (v : List ℝ) (a b : ℝ) : Option (List ℝ) := (up (negOdd v) b a).map negOdd

/-- `LeftJacobiConversion(v, a, b)`, `funpy/ultra.py:75-80`. -/
noncomputable def left (v : List ℝ) (a b : ℝ) : Option (List ℝ) := (down (negOdd v) b a).map negOdd

open Classical in
/-- A `while guard(p): c = step(c, p); p += inc` loop; the fuel only serves to define it (`none` when it runs
out, which the theorems exclude). -/
noncomputable def loop (guard : ℝ → Prop) (step : List ℝ → ℝ → Option (List ℝ)) (inc : ℝ) :
    ℕ → List ℝ → ℝ → Option (List ℝ × ℝ)
  | 0, _, _ => none
  | fuel + 1, c, p =>
    if guard p then (step c p).bind fun c' => loop guard step inc fuel c' (p + inc) else some (c, p)

/-- Iterations that certainly suffice for the loops between `p` and `q`. -/
noncomputable def fuelFor (p q : ℝ) : ℕ := ⌈|q - p|⌉₊ + 1

/-- `jacobiIntegerConversion(c_jac, alpha, beta, gam, delta)`, `funpy/ultra.py:21-40`. -/
noncomputable def jacobiIntegerConversion (c : List ℝ) (alpha beta gam delta : ℝ) :
    Option (List ℝ × ℝ × ℝ) :=
  (loop (fun al => al ≤ gam - 1) (fun c al => right c al beta) 1 (fuelFor alpha gam) c alpha).bind fun r1 =>
  (loop (fun al => gam + 1 ≤ al) (fun c al => left c (al - 1) beta) (-1) (fuelFor r1.2 gam) r1.1 r1.2).bind
    fun r2 =>
  (loop (fun be => be ≤ delta - 1) (fun c be => up c r2.2 be) 1 (fuelFor beta delta) r2.1 beta).bind fun r3 =>
  (loop (fun be => delta + 1 ≤ be) (fun c be => down c r2.2 (be - 1)) (-1) (fuelFor r3.2 delta) r3.1 r3.2).bind
    fun r4 => some (r4.1, r2.2, r4.2)

open Classical in
/-- `jac2jac(c_jac, alpha, beta, gam, delta)`, `funpy/ultra.py:9-18`. -/
noncomputable def jac2jac (c : List ℝ) (alpha beta gam delta : ℝ) : Option (List ℝ) :=
  (jacobiIntegerConversion c alpha beta gam delta).bind fun r =>
  if |r.2.1 - gam| > 1 / 10 ^ 15 then none
  else if |r.2.2 - delta| > 1 / 10 ^ 15 then none
  else some r.1

open Classical in
/-- `scl(lam, n)`, `funpy/ultra.py:83-91`; `scipy.special.gammaln(x) = log |Γ(x)|`. -/
noncomputable def scl (lam : ℝ) (n : ℕ) : List ℝ :=
  if lam = 0 then
    1 :: cumprod ((List.range n).map fun (k : ℕ) => ((k : ℝ) + 1 / 2) / ((k : ℝ) + 1))
  else
    (List.range (n + 1)).map fun (k : ℕ) =>
      (Real.Gamma (2 * lam) / Real.Gamma (lam + 1 / 2)) *
        Real.exp (Real.log |Real.Gamma (lam + 1 / 2 + k)| - Real.log |Real.Gamma (2 * lam + k)|)

/-- `ultra2ultra(c, lam_in, lam_out)`, `funpy/ultra.py:94-104`, on a nonempty column (`n = len(c) - 1`). -/
noncomputable def ultra2ultra (c : List ℝ) (lamIn lamOut : ℝ) : Option (List ℝ) :=
  let n := c.length - 1
  (bcastInto (· / ·) c (scl lamIn n)).bind fun c1 =>
  (jac2jac c1 (lamIn - 1 / 2) (lamIn - 1 / 2) (lamOut - 1 / 2) (lamOut - 1 / 2)).bind fun c2 =>
  (bcastInto (· * ·) c2 (scl lamOut n)).map fun c3 =>
  if c3.length - 1 ≠ n then [c3.getD 0 0] else c3

open Classical in
/-- The caller's array `c` after `ultra2ultra(c, lam_in, lam_out)` returned: line 96 divides it in place, the
first `RightJacobiConversion`/`LeftJacobiConversion` negates its odd entries in place (lines 69, 77) and
rebinds the local name; without any conversion line 98 multiplies the same array in place. -/
noncomputable def ultra2ultraInputAfter (c : List ℝ) (lamIn lamOut : ℝ) : Option (List ℝ) :=
  let n := c.length - 1
  (bcastInto (· / ·) c (scl lamIn n)).bind fun c1 =>
  if lamIn ≤ lamOut - 1 ∨ lamOut + 1 ≤ lamIn then some (negOdd c1)
  else bcastInto (· * ·) c1 (scl lamOut n)

/-- `Fun.from_ultra(coeffs, n_funs, lam_in)`, `funpy/fun.py:236-243`: the flat vector is cut into `n_funs`
columns (Fortran order) and each is converted to Chebyshev coefficients. -/
noncomputable def fromUltra (v : List ℝ) (nFuns : ℕ) (lamIn : ℝ) : Option (List (List ℝ)) :=
  if nFuns = 0 ∨ v.length % nFuns ≠ 0 then none else
  let m := v.length / nFuns
  (List.range nFuns).mapM fun j => ultra2ultra ((v.drop (j * m)).take m) lamIn 0

end Funpy.Jac
