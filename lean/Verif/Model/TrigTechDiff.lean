import Verif.Model.FFT
import Mathlib.Data.Matrix.Mul
import Mathlib.Analysis.SpecialFunctions.Trigonometric.Basic

/-!
# Model: the trigonometric differentiation matrix, funpy/trig/trigtech.py:709-767

(The function is a module function with a first argument `self` that is not used; the model leaves it out.  For `n = 0` the code divides by
zero; the theorems assume `1 ≤ n`.)
-/

namespace Funpy.TrigTechDiff
open Matrix

/-- `h = 2*np.pi/n`, funpy/trig/trigtech.py:717. -/
noncomputable def spacing (n : ℕ) : ℝ := 2 * Real.pi / n

/-- `sgn = (-1)**(np.arange(1, n))`, funpy/trig/trigtech.py:720. -/
def sgn (n : ℕ) : List ℝ := (List.range (n - 1)).map fun q => (-1) ^ (q + 1)

/-- `n1 = floor((n-1)/2)`, funpy/trig/trigtech.py:723. -/
def n1 (n : ℕ) : ℕ := (n - 1) / 2

/-- `n2 = ceil((n-1)/2)`, funpy/trig/trigtech.py:724. -/
def n2 (n : ℕ) : ℕ := n / 2

/-- `v = np.arange(1, n2+1) * h/2`, funpy/trig/trigtech.py:727. -/
noncomputable def grid (n : ℕ) : List ℝ := (List.range (n2 n)).map fun q : ℕ => ((q : ℝ) + 1) * spacing n / 2

/-- `np.vstack((tmp, ±np.flipud(tmp[:n1])))`, funpy/trig/trigtech.py:734, 737, 746, 749. -/
def mirror (n : ℕ) (s : ℝ) (tmp : List ℝ) : List ℝ := tmp ++ ((tmp.take (n1 n)).reverse.map fun t => s * t)

/-- `waveNumber`, funpy/trig/trigtech.py:755-756.  `np.remainder(k+1, 1)` is zero for every integer `k`, and so is `n3`. -/
noncomputable def waveNumber (n : ℕ) : List ℂ :=
  (((List.range (n1 n + 1)).map fun q : ℕ => (q : ℂ)) ++ List.replicate ((n + 1) % 2) 0
    ++ (List.range (n1 n)).map fun q : ℕ => (q : ℂ) - n1 n).map (Complex.I * ·)

/-- `col`, funpy/trig/trigtech.py:731-763, for `k ≥ 1`. -/
noncomputable def col (n k : ℕ) : List ℝ :=
  if k = 1 then
    if n % 2 = 1 then
      let tmp := (grid n).map fun v => 1 / Real.sin v
      0 :: List.zipWith (fun s t => Real.pi / 2 * s * t) (sgn n) (mirror n 1 tmp)
    else
      let tmp := (grid n).map fun v => 1 / Real.tan v
      0 :: List.zipWith (fun s t => Real.pi / 2 * s * t) (sgn n) (mirror n (-1) tmp)
  else if k = 2 then
    if n % 2 = 1 then
      let tmp := (grid n).map fun v => 1 / Real.sin v * (1 / Real.tan v)
      ((-Real.pi ^ 2 / (3 * spacing n ^ 2) + 1 / 12) :: List.zipWith (fun s t => -0.5 * s * t) (sgn n) (mirror n (-1) tmp)).map
        fun t => Real.pi ^ 2 * t
    else
      let tmp := (grid n).map fun v => (1 / Real.sin v) ^ 2
      ((-Real.pi ^ 2 / (3 * spacing n ^ 2) - 1 / 6) :: List.zipWith (fun s t => -0.5 * s * t) (sgn n) (mirror n 1 tmp)).map
        fun t => Real.pi ^ 2 * t
  else
    let c := (ifft (List.zipWith (fun w f => w ^ k * f) (waveNumber n) (fft (1 :: List.replicate (n - 1) 0)))).map
      fun z => Real.pi ^ k * z.re
    if k % 2 = 1 then 0 :: c.drop 1 else c

/-- `row`, funpy/trig/trigtech.py:740, 752, 761-764. -/
noncomputable def row (n k : ℕ) : List ℝ :=
  if k = 1 then (col n k).map (- ·)
  else if k = 2 then col n k
  else if k % 2 = 1 then (col n k).map (- ·) else col n k

/-- `diffmat(self, n, k)`, funpy/trig/trigtech.py:709-767. -/
noncomputable def diffmat (n k : ℕ) : Matrix (Fin n) (Fin n) ℝ :=
  if k = 0 then 1
  else of fun i j : Fin n => if (j : ℕ) ≤ i then (col n k).getD (i - j) 0 else (row n k).getD (j - i) 0

end Funpy.TrigTechDiff
