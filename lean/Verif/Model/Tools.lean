import Mathlib.Data.Real.Basic
import Mathlib.Algebra.Order.Floor.Ring
import Mathlib.Data.Real.Archimedean

/-!
# Numeric helpers

Models `funpy/support/tools.py:11-52` and `:83-86`.
-/

namespace Funpy.Tools

/-- The loop `while n & n - 1: n = n & n - 1`, funpy/support/tools.py:16-17 (`fuel` bounds the number of passes). -/
def clearBits : ℕ → ℕ → ℕ
  | 0, n => n
  | fuel + 1, n => if n &&& (n - 1) ≠ 0 then clearBits fuel (n &&& (n - 1)) else n

/-- `findNextPowerOf2(n)`, funpy/support/tools.py:11-19.  `n` passes are more than enough for the loop
(`C48_pow2_terminates`). -/
def findNextPowerOf2 (n : ℤ) : ℤ :=
  if n ≤ 1 then 2
  else
    let k := (n - 1).toNat
    ((clearBits k k) <<< 1 : ℕ)

/-- `round_up(num, divisor)`, funpy/support/tools.py:22-23. -/
noncomputable def roundUp (num divisor : ℝ) : ℝ := ⌈num / divisor⌉ * divisor

/-- `secant(s1, d1, s2, d2)`, funpy/support/tools.py:26-44. -/
noncomputable def secant (s1 d1 s2 d2 : ℝ) : ℝ := s2 - d2 * (s2 - s1) / (d2 - d1)

/-- `np.abs(array - value).argmin()`, funpy/support/tools.py:53-55; `none` for an empty array (numpy raises). -/
noncomputable def findNearestIdx (array : List ℝ) (value : ℝ) : Option ℕ :=
  match array with
  | [] => none
  | x :: xs => some ((xs.foldl (fun (s : ℕ × ℝ × ℕ) y =>
      if |y - value| < s.2.1 then (s.2.2, |y - value|, s.2.2 + 1) else (s.1, s.2.1, s.2.2 + 1)) (0, |x - value|, 1)).1)

/-- `find_nearest(array, value)`, funpy/support/tools.py:47-50. -/
noncomputable def findNearest (array : List ℝ) (value : ℝ) : Option ℝ := (findNearestIdx array value).map fun i => array.getD i 0

/-- `np.cumsum(a)` -/
def cumsum (a : List ℝ) : List ℝ := (List.range a.length).map fun i => (a.take (i + 1)).sum

/-- `moving_average(a, n)`, funpy/support/tools.py:83-86, for `n ≥ 1`. -/
noncomputable def movingAverage (a : List ℝ) (n : ℕ) : List ℝ :=
  let ret := cumsum a
  let ret := ret.take n ++ List.zipWith (· - ·) (ret.drop n) (ret.take (ret.length - n))
  (ret.drop (n - 1)).map (· / n)

end Funpy.Tools
