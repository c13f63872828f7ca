import Mathlib.Data.Real.Basic
import Mathlib.Algebra.Order.Floor.Ring
import Mathlib.Data.Real.Archimedean

/-!
# Model: `Reflection`, funpy/support/reflection.py, and the block helpers of funpy/colloc/tools.py
-/

namespace Funpy.Reflection

/-- `np.clip(t, a, b)` -/
noncomputable def clip (t a b : ℝ) : ℝ := min (max t a) b

/-- The argument of `f` in `_even_functor`, funpy/support/reflection.py:13-14. -/
noncomputable def evenArg (dom : ℝ × ℝ) (n : ℕ) (i : ℕ) (x : ℝ) : ℝ := clip (n * (x - i / n)) dom.1 dom.2

/-- The argument of `f` in `_odd_functor`, funpy/support/reflection.py:16-17. -/
noncomputable def oddArg (dom : ℝ × ℝ) (n : ℕ) (i : ℕ) (x : ℝ) : ℝ := clip (n * (1 / n - (x - i / n))) dom.1 dom.2

open Classical in
/-- The loop over the tiles for one point `x`, funpy/support/reflection.py:27-29: entry of the array `values`, `none` while
it is uninitialised (`np.empty`). -/
noncomputable def tiles {V : Type} (f : ℝ → V) (dom : ℝ × ℝ) (n : ℕ) (x : ℝ) : List ℕ → Option V → Option V
  | [], v => v
  | k :: ks, v =>
    tiles f dom n x ks
      (if ((k - 1 : ℕ) : ℝ) / n ≤ x ∧ x ≤ (k : ℝ) / n then
        some (if k % 2 = 1 then f (oddArg dom n (k - 1) x) else f (evenArg dom n (k - 1) x))
      else v)

/-- `Reflection(f)(x, n)` at one of the points, funpy/support/reflection.py:19-31.  (`np.float`, which newer versions of
numpy do not have, is read as `float`.) -/
noncomputable def call {V : Type} (f : ℝ → V) (dom : ℝ × ℝ) (n : ℕ) (x : ℝ) : Option V :=
  if n = 1 then some (f x) else tiles f dom n x ((List.range n).map (· + 1)) none

end Funpy.Reflection

namespace Funpy.Tools

variable {α : Type}

/-- The double loop `for i in range(ne): for j in range(k): out[i * k' + j] = g(i, j)` of funpy/colloc/tools.py:24-26, 36-38, 50-52. -/
def fill (ne k k' : ℕ) (g : ℕ → ℕ → α) (out : List α) : List α :=
  (List.range ne).foldl (fun o i => (List.range k).foldl (fun o j => o.set (i * k' + j) (g i j)) o) out

/-- `remove_bc(iar, n_eqn, bw)` before the final `reshape`, funpy/colloc/tools.py:18-28; `empty` is the content of the
uninitialised array. -/
def removeBc [Zero α] (iar : List α) (ne bw : ℕ) (empty : List α) : List α :=
  let n := iar.length / ne
  fill ne (n - bw) (n - bw) (fun i j => iar.getD (i * n + j + bw) 0) empty

/-- `replace_bc(iar, n_eqn, bw)`, funpy/colloc/tools.py:31-43. -/
def replaceBc [Zero α] (iar : List α) (ne bw : ℕ) : List α :=
  let n := iar.length / ne
  fill ne (n - bw) n (fun i j => iar.getD (i * n + j + bw) 0) (List.replicate iar.length 0)

/-- `get_bc(iar, n_eqn, bw)`, funpy/colloc/tools.py:46-54. -/
def getBc [Zero α] (iar : List α) (ne bw : ℕ) : List α :=
  let n := iar.length / ne
  fill ne bw bw (fun i j => iar.getD (i * n + j) 0) (List.replicate (ne * bw) 0)

end Funpy.Tools
