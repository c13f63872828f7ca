import Verif.Model.UltraS

/-!
# Model: `realDiscretization`, funpy/colloc/realDiscretization.py

Used by `ChebOp.discretize` for one coefficient per function (funpy/colloc/chebOp.py:426-428), when constant solutions are looked for.
-/

namespace Funpy.RealDisc

/-- `np.asarray(f).item()` for a function with the coefficients `c`: `ValueError` unless there is exactly one coefficient. -/
def item (c : List ℝ) : Option ℝ := match c with
  | [a] => some a
  | _ => none

/-- `quasi2diffmat(source)`, funpy/colloc/realDiscretization.py:26-34: `prolong(1)` keeps the first coefficient; the flags `info` are not
consulted; `none`: an operator without coefficients (`IndexError`) or an integral term with more than one coefficient. -/
def quasi2diffmat (s : UltraS.Source) : Option ℝ :=
  match s.coeff with
  | [] => none
  | p :: _ => s.integral.foldlM (fun (acc : ℝ) q => do
      let a ← item q.1
      let b ← item q.2
      some (acc + a * b)) (p.2.getD 0 0)

/-- `instantiate(source)`, funpy/colloc/realDiscretization.py:36-44, and the matrix returned by `matrix()`, 46-53 (the projections are identity matrices
and there are no constraints, 24). -/
def matrix (m : ℕ) (s : Fin m → Fin m → UltraS.Source) : Option (Fin m → Fin m → ℝ) :=
  if ∀ i j, (quasi2diffmat (s i j)).isSome then some fun i j => (quasi2diffmat (s i j)).getD 0 else none

end Funpy.RealDisc
