import Verif.Model.ChebTransform
import Mathlib.Analysis.SpecialFunctions.Log.Base
import Mathlib.Analysis.SpecialFunctions.Pow.Real
import Mathlib.Data.Rat.Floor

/-!
# Model: `standardChop`, `simplify_coeffs`, `happiness_check`
-/

namespace Funpy.Cheb
open Finset Real

/-- `<Py_ssize_t>round(1.25 * j + 5)` of funpy/cheb/detail.pyx:151 and 253.  C's `round` rounds
half away from zero, i.e. `⌊y + 1/2⌋` for `y ≥ 0`; `⌊1.25 j + 5.5⌋ = (5 j + 22) / 4`. -/
def roundIdx (j : ℕ) : ℕ := (5 * j + 22) / 4

/-- `r(e1, tol)`, funpy/cheb/detail.pyx:30-32. -/
noncomputable def rFun (e1 tol : ℝ) : ℝ := 3 * (1 - log e1 / log tol)

/-- The monotone envelope of funpy/cheb/detail.pyx:233-241 (after taking absolute values `cs`):
`env[n-1] = |c[n-1]|`, `env[j] = fmax(|c[j]|, env[j+1])`. -/
noncomputable def envelope : List ℝ → List ℝ
  | [] => []
  | [a] => [a]
  | a :: l => max a ((envelope l).headD 0) :: envelope l

/-- The in-place normalisation loop of funpy/cheb/detail.pyx:248-249,
`for j in range(n): envelop[j] /= envelop[0]`.  As in the code the divisor is re-read from the array
in every iteration: after iteration `j = 0` it is `envelop[0] / envelop[0]`. -/
noncomputable def normalizeInPlace (env : List ℝ) : List ℝ :=
  (List.range env.length).foldl (fun e j => e.set j (e.getD j 0 / e.getD 0 0)) env

/-- Outcome of the plateau scan (Step 2). -/
inductive Scan where
  /-- `j2 >= n`: `return cutoff` with `cutoff = n` -/
  | noPlateau
  /-- loop left by `break` with the given `plateauPoint` and `j2` -/
  | found (plateauPoint j2 : ℕ)
  /-- the `for` loop is exhausted without `break`; `plateauPoint` would be uninitialised -/
  | exhausted
  deriving DecidableEq

/-- The scan `for j in range(1, n)`, funpy/cheb/detail.pyx:252-261; `fuel` is the number of remaining
iterations (`n - j`). -/
noncomputable def scan (env : List ℝ) (tol : ℝ) (n : ℕ) : ℕ → ℕ → Scan
  | 0, _ => .exhausted
  | fuel + 1, j =>
      let j2 := roundIdx j
      if n ≤ j2 then .noPlateau
      else
        let e1 := env.getD j 0
        let e2 := env.getD j2 0
        open Classical in
        if e1 = 0 ∨ e2 / e1 > rFun e1 tol then .found (j - 1) j2
        else scan env tol n fuel (j + 1)

/-- `np.argmin`: index of the first minimal entry (0 for a list of length ≤ 1). -/
noncomputable def argmin : List ℝ → ℕ
  | [] => 0
  | [_] => 0
  | a :: b :: l =>
      let k := argmin (b :: l)
      open Classical in if a ≤ (b :: l).getD k 0 then 0 else k + 1

/-- `np.linspace(0, stop, num)[i]` as used in funpy/cheb/detail.pyx:278. -/
noncomputable def linspace0 (stop : ℝ) (num i : ℕ) : ℝ := (i : ℝ) * (stop / ((num : ℝ) - 1))

/-- Step 3 of `standardChop`, funpy/cheb/detail.pyx:265-280. -/
noncomputable def chopStep3 (env : List ℝ) (tol : ℝ) (n plateauPoint j2 : ℕ) : ℕ :=
  open Classical in
  if env.getD plateauPoint 0 = 0 then plateauPoint
  else
    let ptol := tol ^ ((7 : ℝ) / 6)
    let j3 := ((List.range n).filter fun j => decide (env.getD j 0 ≥ ptol)).length
    let j2' := if j3 < j2 then j3 + 1 else j2
    let env' := if j3 < j2 then env.set (j2' - 1) ptol else env
    let cc := (List.range j2').map fun i =>
      logb 10 (env'.getD i 0) + linspace0 (-1 / 3 * logb 10 tol) j2' i
    argmin cc - 1

/-- `standardChop` applied to the vector `cs` of absolute values of the coefficients,
funpy/cheb/detail.pyx:203-282 (`standardChopCmplx`, 288-370, is the same with the complex modulus).
`minimum = 17` is the default used by all callers.  Natural subtraction in `argmin cc - 1` is
`max_idx(d - 1, 0)` (line 280). -/
noncomputable def standardChopAbs (cs : List ℝ) (tol : ℝ) (minimum : ℕ := 17) : ℕ :=
  open Classical in
  if 1 ≤ tol then 0
  else
    let n := cs.length
    if n < minimum then n
    else
      let env := envelope cs
      if env.getD 0 0 = 0 then 0
      else
        let env := normalizeInPlace env
        match scan env tol n (n - 1) 1 with
        | .noPlateau => n
        | .found p j2 => chopStep3 env tol n p j2
        | .exhausted => n

/-- `standardChop` for real coefficient vectors, funpy/cheb/detail.pyx:203-282. -/
noncomputable def standardChop (coeffs : List ℝ) (tol : ℝ) (minimum : ℕ := 17) : ℕ :=
  standardChopAbs (coeffs.map abs) tol minimum

/-- `simplify_coeffs`, funpy/cheb/detail.pyx:149-172 (`eps` is a number here, so `np.max(eps)` is
`eps`). -/
noncomputable def simplifyCoeffs (a : Arr ℝ) (eps : ℝ) : Arr ℝ :=
  let nold := a.n
  let N := max 17 (roundIdx nold)
  let b := prolong a N
  let b := polyfit (polyval b)
  let cutoff := b.cols.foldl (fun m c => max m (standardChop c eps)) 0
  let cutoff := min cutoff nold
  ⟨min (cutoff + 1) N, b.cols.map fun c => c.take (cutoff + 1)⟩

/-- `happiness_check`, funpy/cheb/detail.pyx:178-197: `(ishappy, rcutoff)`; the loop over columns
stops at the first unhappy one.  `ishappy` is uninitialised for `m = 0` (not modelled: `m ≥ 1` is
assumed, the initial value is `true`). -/
noncomputable def happinessCheck (a : Arr ℝ) (tol : List ℝ) (minimum : ℕ := 17) : Bool × ℕ :=
  let n := a.n
  let b := if n < minimum then polyfit (polyval (prolong a minimum)) else a
  let rec go : List (List ℝ) → List ℝ → Bool → ℕ → Bool × ℕ
    | c :: cs, t :: ts, _, rcut =>
        let cutoff := standardChop c t
        let happy := decide (cutoff < n)
        if happy then go cs ts happy (max rcut cutoff) else (happy, max rcut cutoff)
    | _, _, happy, rcut => (happy, rcut)
  go b.cols tol true 0

end Funpy.Cheb
