import Verif.Model.Gbit
import Mathlib.Analysis.InnerProductSpace.Basic

/-!
# Specification vocabulary for `gbit`
-/

namespace Funpy.Spec
open Funpy.Gbit

variable {V : Type} [NormedAddCommGroup V] [InnerProductSpace ℝ V]

/-- Preconditioners obtained from `P` by "good Broyden" updates along the steps `t i • d i`. -/
noncomputable def gbH (P : V → V) (d : ℕ → V) (t : ℕ → ℝ) : ℕ → V → V
  | 0, r => P r
  | i + 1, r => gbH P d t i r +
      (inner ℝ (d i) (gbH P d t i r) / ‖d i‖ ^ 2) • (d (i + 1) - (1 - t i) • d i)

/-- Points reached from `y` by the steps `t i • d i`. -/
def gpath (y : V) (d : ℕ → V) (t : ℕ → ℝ) : ℕ → V
  | 0 => y
  | i + 1 => gpath y d t i + t i • d i

/-- The good Broyden iteration for `A y = b` with preconditioner `P`, started at `y`: directions `d`, step lengths `t`. -/
structure GbitSteps (A P : V → V) (b : V) (c : Cfg) (y : V) (d : ℕ → V) (t : ℕ → ℝ) (n : ℕ) : Prop where
  start : d 0 = P (b - A y)
  step : ∀ i < n, ∃ tau, (inner ℝ (d i) (gbH P d t i (A (d i))) ≠ 0 →
      tau = ‖d i‖ ^ 2 / inner ℝ (d i) (gbH P d t i (A (d i)))) ∧
    (t i = 1 ∨ t i = tau ∧ c.tauMin ≤ tau ∧ tau ≤ c.tauMax) ∧
    d (i + 1) = (1 - t i + tau) • d i - tau • gbH P d t i (A (d i))

/-- The error estimate of `gbit` after `n` steps. -/
noncomputable def gbEps (d : ℕ → V) (n : ℕ) : ℝ :=
  if n ≤ 1 then ‖d 1‖ else 1 / 2 * Real.sqrt (‖d (n - 2)‖ ^ 2 + 2 * ‖d (n - 1)‖ ^ 2 + ‖d n‖ ^ 2)

end Funpy.Spec
