import Verif.Model.ChebTransform
import Verif.Model.TrigTransform

/-!
# Model: constant and random functions, funpy/fun.py:259-301

A function is given by the list of its columns of coefficients; a `Fun` of type `trig` has complex coefficients.  The calls of the constructor are made with `simplify=False`
(and `trigtech` never simplifies coefficients or values), so that the coefficients are kept.
-/

namespace Funpy.Construct
open Cheb

/-- `zeros(n)`, funpy/fun.py:280-282: one row, `n` columns. -/
def zeros {R : Type} [Zero R] (n : ℕ) : List (List R) := List.replicate n [0]

/-- `ones(n)`, funpy/fun.py:285-287. -/
def ones {R : Type} [One R] (n : ℕ) : List (List R) := List.replicate n [1]

/-- `random(n, m, scale=…)`, funpy/fun.py:290-293; `r i j` is the entry of `np.random.rand(n, m)`. -/
noncomputable def random (n m : ℕ) (scale : ℝ) (r : ℕ → ℕ → ℝ) : List (List ℝ) :=
  (List.range m).map fun j => (List.range n).map fun i => scale * (1 - 2 * r i j)

/-- `random_decay(n, m, scale=…)`, funpy/fun.py:296-300: only the random part is divided by `(1 + i)^2`. -/
noncomputable def randomDecay (n m : ℕ) (scale : ℝ) (r : ℕ → ℕ → ℝ) : List (List ℝ) :=
  (List.range m).map fun j => (List.range n).map fun i => scale * (1 - 2 * (r i j / (1 + (i : ℝ)) ^ 2))

/-- `zeros_like(f)` and `ones_like(f)` for type `cheb` (`v = 0` and `v = 1`), funpy/fun.py:258-268, with `chebtech(op=values)`, funpy/cheb/chebtech.py:38-42. -/
noncomputable def likeCheb (v : ℝ) (n m : ℕ) : List (List ℝ) := List.replicate m (polyfitCol (List.replicate n v))

/-- `zeros_like(f)` and `ones_like(f)` for type `trig`, funpy/fun.py:258-268, with `trigtech(op=values)`, funpy/trig/trigtech.py:46-51. -/
noncomputable def likeTrig (v : ℂ) (n m : ℕ) : List (List ℂ) := List.replicate m (Trig.vals2coeffs (List.replicate n v))

end Funpy.Construct
