import Verif.Model.ChebTech
import Mathlib.Data.Nat.Log
import Mathlib.Analysis.SpecialFunctions.Pow.Real

/-!
# Model: adaptive construction of a `chebtech` from a callable
-/

namespace Funpy.Cheb
open Real

/-- The user's operator applied to a vector of abscissae: one column per component.  Models
`np.real(self.op(x))` together with `np.expand_dims` and `FunctionContainer`,
funpy/cheb/refine.py:10-22, 78-80, 105-107; the callable is assumed to act point by point and to
return the same number of components everywhere. -/
def sample (fs : List (ℝ → ℝ)) (xs : List ℝ) : Arr ℝ := ⟨xs.length, fs.map fun f => xs.map f⟩

/-- The refinement strategies of funpy/cheb/refine.py:61-69. -/
inductive Strategy
  | nested
  | resample

/-- `get_n` for an empty target, funpy/cheb/refine.py:37-38:
`2**ceil(log2(minSamples - 1)) + 1`. -/
def firstN (minSamples : ℕ) : ℕ := 2 ^ Nat.clog 2 (minSamples - 1) + 1

/-- `get_n` for a target with `n` rows, funpy/cheb/refine.py:39-45: half-integer powers of two
after `2^6`.  `np.round` of a number which is not a half-integer. -/
noncomputable def nextN (n : ℕ) : ℕ :=
  let p := Nat.log 2 (n - 1)
  if n - 1 = 2 ^ p ∧ p > 5 then
    let r := ⌊(2 : ℝ) ^ ((p : ℝ) + 0.5) + 0.5⌋₊ + 1
    r - r % 2 + 1
  else 2 ^ (p + 1) + 1

/-- `get_n`, funpy/cheb/refine.py:35-57: the proposed size and the flag `giveUp` (`self.values` is
never `None`, so the branch of lines 48-50 is dead).  `coeffs` is the target's coefficient array. -/
noncomputable def getN (minSamples maxLength : ℕ) (coeffs : Arr ℝ) : ℕ × Bool :=
  let n := if coeffs.m = 0 then firstN minSamples else nextN coeffs.n
  (n, decide (n > maxLength))

/-- `Refine.__resample`, funpy/cheb/refine.py:71-84. -/
noncomputable def resampleStep (fs : List (ℝ → ℝ)) (minSamples maxLength : ℕ) (coeffs values : Arr ℝ) :
    Arr ℝ × Bool :=
  let (n, giveUp) := getN minSamples maxLength coeffs
  if giveUp then (values, true) else (sample fs (chebpts2 n), false)

/-- `x[1:-1:2]` for a list. -/
def oddInner (xs : List ℝ) : List ℝ :=
  (List.range ((xs.length - 1) / 2)).map fun i => xs.getD (2 * i + 1) 0

/-- `new_values = zeros(n); new_values[0:n:2] = old; new_values[1:-1:2] = nv` for one column. -/
def interleave (n : ℕ) (old nv : List ℝ) : List ℝ :=
  (List.range n).map fun k =>
    if k % 2 = 0 then old.getD (k / 2) 0 else if k < n - 1 then nv.getD (k / 2) 0 else 0

/-- `Refine.__nested`, funpy/cheb/refine.py:86-113. -/
noncomputable def nestedStep (fs : List (ℝ → ℝ)) (minSamples maxLength : ℕ) (coeffs values : Arr ℝ) :
    Arr ℝ × Bool :=
  if values.n * values.m = 0 then resampleStep fs minSamples maxLength coeffs values
  else
    let n := 2 * values.n - 1
    if n > maxLength then (values, true)
    else
      let nv := sample fs (oddInner (chebpts2 n))
      (⟨n, List.zipWith (interleave n) values.cols nv.cols⟩, false)

/-- `Refine.__call__`, funpy/cheb/refine.py:32-33, 64-69. -/
noncomputable def refineStep : Strategy → List (ℝ → ℝ) → ℕ → ℕ → Arr ℝ → Arr ℝ → Arr ℝ × Bool
  | .nested => nestedStep
  | .resample => resampleStep

/-- The loop of `chebtech.populate`, funpy/cheb/chebtech.py:266-283, started with the object `t`
(coefficients from the previous round) and the values stored in the refiner.  The first argument
bounds the number of rounds; `none` means that the loop is still running.  The result is the target
object together with the final values and the flag `giveUp`. -/
noncomputable def populate (s : Strategy) (fs : List (ℝ → ℝ)) (minSamples : ℕ) :
    ℕ → Tech → Arr ℝ → Option (Tech × Arr ℝ × Bool)
  | 0, _, _ => none
  | fuel + 1, t, values =>
    let r := refineStep s fs minSamples t.maxLength t.coeffs values
    let t := { t with coeffs := polyfit r.1 }
    if r.2 then some (t, r.1, true)
    else
      let h := t.happy
      if h.1 then some ({ t with coeffs := prolong t.coeffs ((h.2 : ℤ) + 1) }, r.1, false)
      else populate s fs minSamples fuel t r.1

/-- `chebtech(op, ...)` for a callable, funpy/cheb/chebtech.py:27-67 with `minSamples=17` (default):
`populate`, the assertion on the size, the happiness flag and the optional simplification.  `none`:
either the assertion fails or the bound on the number of rounds is too small (theorem
`C24_terminates` shows that the latter does not happen for `fuel ≥ maxLength + 2`). -/
noncomputable def fromCallable (s : Strategy) (fs : List (ℝ → ℝ)) (eps hscale : ℝ) (maxLength : ℕ)
    (simplify : Bool) (fuel : ℕ) : Option Tech := do
  let minSamples := max 9 (min maxLength 17)
  let r ← populate s fs minSamples fuel ⟨⟨0, []⟩, eps, hscale, maxLength, false⟩ ⟨0, []⟩
  Tech.mk' r.1.coeffs eps false simplify hscale maxLength

end Funpy.Cheb
