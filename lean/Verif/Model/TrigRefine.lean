import Verif.Model.TrigArith
import Mathlib.Data.Nat.Log

/-!
# Model: adaptive construction of a `trigtech` from a callable
(funpy/trig/refine.py; `happy`, `populate` and the constructor of funpy/trig/trigtech.py)

The callable is a list of complex functions of a real variable (one per column).  The attribute `maxLength` is always
4096: the constructor sets it (funpy/trig/trigtech.py:30) and ignores the keyword; the refiner is built with its
default `minSamples = 9` (refine.py:18, trigtech.py:66).
-/

namespace Funpy.Trig
open Complex

/-- The user's operator at a vector of points, with `expand`, funpy/trig/refine.py:8-11, and `FunctionContainer`. -/
def sampleC (fs : List (ℝ → ℂ)) (xs : List ℝ) : List (List ℂ) := fs.map fun f => xs.map f

/-- The refinement strategies of funpy/trig/refine.py:54-59. -/
inductive Strategy
  /-- `'nested'` (default) -/
  | nested
  /-- `'resample'` -/
  | resample

/-- `self.maxLength = 4096`, funpy/trig/trigtech.py:30. -/
def maxLength : ℕ := 4096

/-- `self.minSamples`, funpy/trig/refine.py:18. -/
def minSamples : ℕ := 9

/-- `get_n` without the test of `giveUp`, funpy/trig/refine.py:27-36, for a target with `n` rows and `m` columns
(`f.size` is the number of columns, funpy/trig/trigtech.py:179-180). -/
def getN (n m : ℕ) : ℕ :=
  if m = 0 then 2 ^ Nat.clog 2 (minSamples - 1)
  else
    let p := Nat.log 2 n
    if n = 2 ^ p ∧ p > 5 then 3 * 2 ^ (p - 1) else 2 ^ (p + 1)

/-- `Refine.__resample` after the size is known, funpy/trig/refine.py:68-74: the values at the equispaced points and at
`1`; the first value becomes the mean of the values at `-1` and `1`. -/
noncomputable def resampleAt (fs : List (ℝ → ℂ)) (n : ℕ) : List (List ℂ) :=
  (sampleC fs (trigpts n ++ [1])).map fun v =>
    (v.set 0 (0.5 * (v.getD 0 0 + v.getD (v.length - 1) 0))).dropLast

/-- `Refine.__resample`, funpy/trig/refine.py:61-76: values (with their number of rows) and `giveUp`. -/
noncomputable def resampleStep (fs : List (ℝ → ℂ)) (n m : ℕ) (values : ℕ × List (List ℂ)) : (ℕ × List (List ℂ)) × Bool :=
  let k := getN n m
  if k > maxLength then (values, true) else ((k, resampleAt fs k), false)

/-- `x[1::2]`. -/
def oddEntries (xs : List ℝ) : List ℝ := (List.range (xs.length / 2)).map fun i => xs.getD (2 * i + 1) 0

/-- `new_values[:n:2] = old; new_values[1::2] = nv` for one column, funpy/trig/refine.py:95-99. -/
def interleave (n : ℕ) (old nv : List ℂ) : List ℂ :=
  (List.range n).map fun k => if k % 2 = 0 then old.getD (k / 2) 0 else nv.getD (k / 2) 0

/-- `Refine.__nested`, funpy/trig/refine.py:78-102. -/
noncomputable def nestedStep (fs : List (ℝ → ℂ)) (n m : ℕ) (values : ℕ × List (List ℂ)) : (ℕ × List (List ℂ)) × Bool :=
  if values.1 * values.2.length = 0 then resampleStep fs n m values
  else
    let k := 2 * values.1
    if k > maxLength then (values, true)
    else ((k, List.zipWith (interleave k) values.2 (sampleC fs (oddEntries (trigpts k)))), false)

/-- `refine(self)`, funpy/trig/refine.py:23-24, 54-59. -/
noncomputable def refineStep : Strategy → List (ℝ → ℂ) → ℕ → ℕ → ℕ × List (List ℂ) → (ℕ × List (List ℂ)) × Bool
  | .nested => nestedStep
  | .resample => resampleStep

/-- The loop over the columns in `happy`, funpy/trig/trigtech.py:333-347: whether all columns are happy and the largest
halved cutoff; the loop stops at the first unhappy column.  The coefficients handed to `standardChopCmplx` are the raw ones, from the lowest to the
highest wave number (line 336); the folded coefficients of lines 311-324 are not used. -/
noncomputable def happyLoop (n : ℕ) (eps : ℝ) : List (List ℂ) → Bool × ℕ
  | [] => (true, 0)
  | c :: cs =>
    let k := Cheb.standardChopAbs (c.map fun z => ‖z‖) eps
    if k < n then
      let r := happyLoop n eps cs
      (r.1, max (if k % 2 = 0 then k / 2 else (k - 1) / 2) r.2)
    else (false, if k % 2 = 0 then k / 2 else (k - 1) / 2)

/-- `happy`, funpy/trig/trigtech.py:310-353: the flag and the length to keep. -/
noncomputable def Tech.happy (t : Tech) : Bool × ℕ :=
  let r := happyLoop t.n t.eps t.cols
  (r.1, 2 * r.2 + 1)

/-- The loop of `populate`, funpy/trig/trigtech.py:375-394; the first argument bounds the number of rounds (`none`: still
running).  The flag `ishappy` of a round that gives up is that of the round before. -/
noncomputable def populateLoop (s : Strategy) (fs : List (ℝ → ℂ)) : ℕ → Tech → ℕ × List (List ℂ) → Option Tech
  | 0, _, _ => none
  | fuel + 1, t, values =>
    let r := refineStep s fs t.n t.cols.length values
    let t := { t with vals := r.1.2 }
    if r.2 then some t
    else
      let t := { t with n := r.1.1, vscale := max t.vscale ((r.1.2.map supNorm).foldl max 0), cols := r.1.2.map vals2coeffs }
      let h := t.happy
      let t := { t with ishappy := h.1 }
      if h.1 then some (t.prolong h.2) else populateLoop s fs fuel t r.1

/-- The point at which the callable is tested, funpy/trig/trigtech.py:359-360. -/
noncomputable def testPoint : ℝ := 2 * 0.376989633393435 - 1

open Classical in
/-- `trigtech(op, eps=..., resample=...)` for a callable, funpy/trig/trigtech.py:55-77: the reality flags of `__check_callable`
(356-372), `populate` (375-397), the final reality flags and `simplify`. -/
noncomputable def fromCallable (s : Strategy) (fs : List (ℝ → ℂ)) (eps : ℝ) (fuel : ℕ) : Option Tech := do
  let flags := fs.map fun f => decide ((f testPoint).im = 0)
  let t ← populateLoop s fs fuel ⟨0, [], [], flags, eps, eps, false⟩ (0, [])
  let t := { t with vals := List.zipWith realIf t.isReal t.vals }
  let t := { t with isReal := List.zipWith (getIsReal eps t.vscale) t.cols t.vals }
  some t.simplify

end Funpy.Trig
