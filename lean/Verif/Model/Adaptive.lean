import Mathlib.Data.Real.Basic
import Mathlib.Data.List.Dedup
import Mathlib.Data.List.Sort
import Verif.Model.Tools

/-!
# Model: `SolverAdaptive`, funpy/colloc/adapt.py

The nonlinear solver is an arbitrary oracle.  Some drivers update the state they are given in place
(`x += dx`, e.g. funpy/newton/newton_standard.py:69), so a call returns both the resulting state and the
value which the argument object has afterwards.
-/

namespace Funpy.Adaptive

/-- `np.unique`: sorted without repetitions. -/
def unique (l : List ℕ) : List ℕ := (l.insertionSort (· ≤ ·)).dedup

/-- `n_disc(lower_bd, upper_bd=…, constant=…)`, funpy/colloc/adapt.py:25-39. -/
def nDisc (nMin nMax lower upper : ℕ) (constant : Bool) : List ℕ :=
  if constant then [1]
  else unique ((List.range' nMin (1 + nMax - nMin)).map fun k => max lower (min upper (1 + 2 ^ k)))

/-- `self.n_min = min(7, kwargs.pop('n_min', 2))`, funpy/colloc/adapt.py:21. -/
def ctorMin (nMin : ℕ) : ℕ := min 7 nMin

/-- `2**int(np.log2(findNextPowerOf2(lower_bd)) + max(up_steps - 1, 0))`, funpy/colloc/adapt.py:49.
The logarithm of a power of two is exact, and `colloc.tools.findNextPowerOf2` (funpy/colloc/tools.py:7-15)
is the same function as the one in `support.tools`. -/
def upperBd (lower upSteps : ℕ) : ℕ :=
  2 ^ (Nat.log2 (Tools.findNextPowerOf2 lower).toNat + (upSteps - 1))

/-- The result of one call of the nonlinear solver. -/
structure Newton (S : Type) where
  /-- the returned state `nst` -/
  out : S
  /-- the argument `state` after the call -/
  arg : S
  /-- `success[k]` -/
  ok : Bool
  /-- the number of iterations `it` -/
  it : ℕ

/-- The environment: `state.prolong(n)`, the solver (called for step `k` with size `n`), and
`(a - b).norm()`. -/
structure Env (S : Type) where
  /-- `state.prolong(n)` -/
  prolong : ℕ → S → S
  /-- `self.nw.system.setDisc(n); self.nw.solve(state, …)`; may depend on the step -/
  newton : ℕ → ℕ → S → Newton S
  /-- `(state - nst).norm()` -/
  dist : S → S → ℝ

variable {S : Type}

open Classical in
/-- The loop of `solve`, funpy/colloc/adapt.py:53-79: step `k`, the current state, whether some step was
successful, the remaining sizes.  `None` is the `NameError` for the unbound `k` if there is no size at
all. -/
noncomputable def loop (E : Env S) (eps : ℝ) (maxFail : ℕ) : ℕ → S → Bool → List ℕ → Option (S × Bool × ℕ)
  | _, _, _, [] => none
  | k, st, anyOk, n :: rest =>
    let r := E.newton k n (E.prolong n st)
    if r.ok then
      if E.dist r.arg r.out < eps ∧ k > 0 then some (r.arg, true, r.it)
      else if rest = [] then some (r.out, true, r.it)
      else loop E eps maxFail (k + 1) r.out true rest
    else if k + 1 ≥ maxFail ∧ anyOk = false then some (r.arg, false, r.it)
    else if rest = [] then some (r.arg, false, r.it)
    else loop E eps maxFail (k + 1) r.arg anyOk rest

/-- `SolverAdaptive.solve(state, eps, up_steps, max_fail_steps)` for a state of `len` coefficients,
funpy/colloc/adapt.py:41-82.  Arguments: the constructor's `n_min` and `n_max`. -/
noncomputable def solve (E : Env S) (nMin nMax : ℕ) (eps : ℝ) (upSteps maxFail : ℕ) (constant : Bool)
    (len : ℕ) (st : S) : Option (S × Bool × ℕ) :=
  loop E eps maxFail 0 st false (nDisc (ctorMin nMin) nMax len (upperBd len upSteps) constant)

end Funpy.Adaptive
