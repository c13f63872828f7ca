import Mathlib.Analysis.SpecialFunctions.Sqrt
import Mathlib.Algebra.Module.Basic

/-!
# Model of `funpy/qr.py`: Householder QR of a quasimatrix

`X` is the type of one column (a vector of values), `ip` the function `inner_product`, `nrm` the function `norm`.  Arrays are
functions of the column number.  The inner loops over `j` treat the columns independently, so each of them is one simultaneous
update.  Divisions by zero (numpy: `nan`) follow Lean's convention; see `ChebFun.qr` for where they can occur.
-/

namespace Funpy.AQR
open Classical

variable {X : Type} [AddCommGroup X] [Module ℝ X]

/-- The arrays `A`, `E`, `V`, `R` of `abstractQR`. -/
structure St (X : Type) where
  A : ℕ → X
  E : ℕ → X
  V : ℕ → X
  R : ℕ → ℕ → ℝ

/-- `np.sign` -/
noncomputable def sgn (x : ℝ) : ℝ := if x < 0 then -1 else if x = 0 then 0 else 1

/-- `x - 2 * v * <v, x>`, funpy/qr.py:55-56, 68-69. -/
noncomputable def refl (ip : X → X → ℝ) (v x : X) : X := x - (2 * ip v x) • v

/-- The scale `scl` of pass `k`, funpy/qr.py:16. -/
noncomputable def scale (nrm : X → ℝ) (k : ℕ) (s : St X) : ℝ := max (nrm (s.E k)) (nrm (s.A k))

/-- The factor `s` of pass `k`, funpy/qr.py:19-26. -/
noncomputable def sigma (ip : X → X → ℝ) (nrm : X → ℝ) (tol : ℝ) (k : ℕ) (s : St X) : ℝ :=
  let ex := ip (s.E k) (s.A k)
  let aex := |ex|
  if aex < tol * scale nrm k s then 1 else -sgn (ex / aex)

/-- The loop that makes `v` more orthogonal, funpy/qr.py:12, 37-39 (`np.arange(0, k-1)`). -/
noncomputable def reorth (ip : X → X → ℝ) (E : ℕ → X) (k : ℕ) (v : X) : X :=
  (List.range (k - 1)).foldl (fun v i => v - ip (E i) v • E i) v

/-- The Householder vector of pass `k`, funpy/qr.py:34-47; `e` is the column `E[:, k]` after the change of sign. -/
noncomputable def hvec (ip : X → X → ℝ) (nrm : X → ℝ) (tol : ℝ) (k : ℕ) (s : St X) (e : X) : X :=
  let r := √(ip (s.A k) (s.A k))
  let v := reorth ip s.E k (r • e - s.A k)
  let nv := √(ip v v)
  if nv < tol * scale nrm k s then e else (1 / nv) • v

/-- One pass of the main loop, funpy/qr.py:11-62. -/
noncomputable def step (ip : X → X → ℝ) (nrm : X → ℝ) (tol : ℝ) (m k : ℕ) (s : St X) : St X :=
  let e := sigma ip nrm tol k s • s.E k
  let v := hvec ip nrm tol k s e
  { A := fun j => if k < j ∧ j < m then
      let a := refl ip v (s.A j)
      a - ip e a • e else s.A j
    E := fun i => if i = k then e else s.E i
    V := fun i => if i = k then v else s.V i
    R := fun i j => if i = k then
        (if j = k then √(ip (s.A k) (s.A k)) else if k < j ∧ j < m then ip e (refl ip v (s.A j)) else s.R i j)
      else s.R i j }

/-- The first `k` passes, funpy/qr.py:11-62. -/
noncomputable def iter (ip : X → X → ℝ) (nrm : X → ℝ) (tol : ℝ) (m : ℕ) (s : St X) : ℕ → St X
  | 0 => s
  | k + 1 => step ip nrm tol m k (iter ip nrm tol m s k)

/-- `Q` is formed in the array `E`, funpy/qr.py:64-70. -/
noncomputable def formQ (ip : X → X → ℝ) (m : ℕ) (V E : ℕ → X) : ℕ → X :=
  (List.range m).reverse.foldl (fun Q k => fun j => if k ≤ j ∧ j < m then refl ip (V k) (Q j) else Q j) E

/-- `abstractQR(A, E, inner_product, norm, tol)`, funpy/qr.py:6-72, with `m` columns. -/
noncomputable def abstractQR (ip : X → X → ℝ) (nrm : X → ℝ) (tol : ℝ) (m : ℕ) (A E : ℕ → X) : (ℕ → X) × (ℕ → ℕ → ℝ) :=
  let s := iter ip nrm tol m ⟨A, E, A, fun _ _ => 0⟩ m
  (formQ ip m s.V s.E, s.R)

end Funpy.AQR
