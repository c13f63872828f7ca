import Mathlib.LinearAlgebra.Matrix.NonsingularInverse

/-!
# Bordered solver `BEM`

Models `funpy/linalg/bem_solve.py`.  A vector of length `n` is a function `ι → K`; a vector of length
`n + 1` is a function `ι ⊕ Unit → K` (`b[:-1]` is the left part, `b[-1]` the right part, `np.hstack` is
`Sum.elim`).  The linear solver for `A` is an oracle object with the methods the class calls.
-/

namespace Funpy.Bem

open Matrix

variable {ι K : Type*}

/-- The methods of the `solver` object used by `BEM`, funpy/linalg/bem_solve.py:29-45 and 64-150
(implemented e.g. by funpy/linalg/qr_solve.py:39-226). -/
structure Solver (ι K : Type*) where
  isSingular : Bool
  solve : (ι → K) → (ι → K)
  solveAdj : (ι → K) → (ι → K)
  null : (ι → K) × (ι → K)
  particular : (ι → K) → (ι → K)
  particularAdj : (ι → K) → (ι → K)
  det : K

/-- The attributes computed by `prepare`, funpy/linalg/bem_solve.py:67-75. -/
structure Pre (ι K : Type*) where
  gamma : ι → K
  delta : K
  beta : ι → K
  eta : K

/-- The attributes of a `BEM` object; `pre = none` while `gamma, ...` are unset (singular `A`),
funpy/linalg/bem_solve.py:29-45. -/
structure Bem (ι K : Type*) where
  solver : Solver ι K
  b : ι → K
  c : ι → K
  d : K
  pre : Option (Pre ι K)

/-- `b[:-1]` -/
def head (v : ι ⊕ Unit → K) : ι → K := fun i => v (Sum.inl i)
/-- `b[-1]` -/
def last (v : ι ⊕ Unit → K) : K := v (Sum.inr ())
/-- `np.hstack((x, y))` -/
def hstack (x : ι → K) (y : K) : ι ⊕ Unit → K := Sum.elim x (fun _ => y)

variable [Fintype ι] [Field K]

/-- `BEM.prepare`, funpy/linalg/bem_solve.py:67-75. -/
def prepare (s : Solver ι K) (b c : ι → K) (d : K) : Pre ι K :=
  let gamma := s.solveAdj b
  let beta := s.solve c
  { gamma := gamma, delta := d - gamma ⬝ᵥ c, beta := beta, eta := d - b ⬝ᵥ beta }

/-- `BEM.__init__`, funpy/linalg/bem_solve.py:29-45. -/
def Bem.init (s : Solver ι K) (b c : ι → K) (d : K) : Bem ι K :=
  { solver := s, b := b, c := c, d := d, pre := if s.isSingular then none else some (prepare s b c d) }

/-- `BEM.det`, funpy/linalg/bem_solve.py:64-65. -/
def Bem.det (m : Bem ι K) : Option K := m.pre.map fun p => m.solver.det * (m.d - m.b ⬝ᵥ p.beta)

/-- `BEM.update_row`, funpy/linalg/bem_solve.py:77-85. -/
def Bem.updateRow (m : Bem ι K) (b : ι → K) (d : K) : Bem ι K :=
  { m with
    b := b, d := d
    pre := if m.solver.isSingular then m.pre else m.pre.map fun p =>
      let gamma := m.solver.solveAdj b
      { p with gamma := gamma, delta := d - gamma ⬝ᵥ m.c, eta := d - b ⬝ᵥ p.beta } }

/-- `BEM.update_col`, funpy/linalg/bem_solve.py:87-95. -/
def Bem.updateCol (m : Bem ι K) (c : ι → K) (d : K) : Bem ι K :=
  { m with
    c := c, d := d
    pre := if m.solver.isSingular then m.pre else m.pre.map fun p =>
      let beta := m.solver.solve c
      { p with delta := d - p.gamma ⬝ᵥ c, beta := beta, eta := d - m.b ⬝ᵥ beta } }

/-- `BEM.nullspace`, funpy/linalg/bem_solve.py:97-104. -/
def Bem.nullspace (m : Bem ι K) : Option (ι ⊕ Unit → K) := m.pre.map fun p =>
  let y1 := 1 / p.delta
  let w := -m.solver.solve (y1 • m.c)
  let y2 := (y1 * m.d + m.b ⬝ᵥ w) / p.eta
  hstack (w + y2 • p.beta) (y1 - y2)

/-- `BEM.nullspace_adj`, funpy/linalg/bem_solve.py:106-113. -/
def Bem.nullspaceAdj (m : Bem ι K) : Option (ι ⊕ Unit → K) := m.pre.map fun p =>
  let y1 := 1 / p.eta
  let w := -m.solver.solveAdj (y1 • m.b)
  let y2 := (y1 * m.d + m.c ⬝ᵥ w) / p.delta
  hstack (w + y2 • p.gamma) (y1 - y2)

/-- `BEM.solve_singular`, funpy/linalg/bem_solve.py:115-139. -/
def Bem.solveSingular (m : Bem ι K) (f : ι ⊕ Unit → K) : ι ⊕ Unit → K :=
  let phi := m.solver.null.1
  let psi := m.solver.null.2
  let z := (psi ⬝ᵥ head f) / (psi ⬝ᵥ m.c)
  let xp := m.solver.particular (head f - z • m.c)
  let al := (last f - m.d * z - m.b ⬝ᵥ xp) / (m.b ⬝ᵥ phi)
  hstack (xp + al • phi) z

/-- `BEM.solve_singular_adj`, funpy/linalg/bem_solve.py:141-152. -/
def Bem.solveSingularAdj (m : Bem ι K) (f : ι ⊕ Unit → K) : ι ⊕ Unit → K :=
  let phi := m.solver.null.1
  let psi := m.solver.null.2
  let z := (phi ⬝ᵥ head f) / (phi ⬝ᵥ m.b)
  let xp := m.solver.particularAdj (head f - z • m.b)
  let al := (last f - m.d * z - m.c ⬝ᵥ xp) / (m.c ⬝ᵥ psi)
  hstack (xp + al • psi) z

/-- `BEM.solve_nonsing`, funpy/linalg/bem_solve.py:154-161. -/
def Bem.solveNonsing (m : Bem ι K) (p : Pre ι K) (f : ι ⊕ Unit → K) : ι ⊕ Unit → K :=
  let y1 := (last f - p.gamma ⬝ᵥ head f) / p.delta
  let w := m.solver.solve (head f - y1 • m.c)
  let y2 := (last f - y1 * m.d - m.b ⬝ᵥ w) / p.eta
  hstack (w - y2 • p.beta) (y1 + y2)

/-- `BEM.solve_nonsing_adj`, funpy/linalg/bem_solve.py:163-171. -/
def Bem.solveNonsingAdj (m : Bem ι K) (p : Pre ι K) (f : ι ⊕ Unit → K) : ι ⊕ Unit → K :=
  let y1 := (last f - p.beta ⬝ᵥ head f) / p.eta
  let w := m.solver.solveAdj (head f - y1 • m.b)
  let y2 := (last f - y1 * m.d - m.c ⬝ᵥ w) / p.delta
  hstack (w - y2 • p.gamma) (y1 + y2)

/-- `BEM.solve`, funpy/linalg/bem_solve.py:173-174 (`none`: attribute error). -/
def Bem.solve (m : Bem ι K) (f : ι ⊕ Unit → K) : Option (ι ⊕ Unit → K) :=
  if m.solver.isSingular then some (m.solveSingular f) else m.pre.map fun p => m.solveNonsing p f

/-- `BEM.solve_adj`, funpy/linalg/bem_solve.py:176-177. -/
def Bem.solveAdj (m : Bem ι K) (f : ι ⊕ Unit → K) : Option (ι ⊕ Unit → K) :=
  if m.solver.isSingular then some (m.solveSingularAdj f) else m.pre.map fun p => m.solveNonsingAdj p f

/-- `BEM.solve_null_nonsing`, funpy/linalg/bem_solve.py:179-183. -/
def Bem.solveNullNonsing (m : Bem ι K) (p : Pre ι K) : ι ⊕ Unit → K :=
  let y1 := 1 / p.delta
  let y2 := (1 + y1 * (m.b ⬝ᵥ p.beta - m.d)) / p.eta
  (y1 + y2) • hstack (-p.beta) 1

/-- `BEM.solve_null_nonsing_adj`, funpy/linalg/bem_solve.py:185-189. -/
def Bem.solveNullNonsingAdj (m : Bem ι K) (p : Pre ι K) : ι ⊕ Unit → K :=
  let y1 := 1 / p.eta
  let y2 := (1 + y1 * (m.c ⬝ᵥ p.gamma - m.d)) / p.delta
  (y1 + y2) • hstack (-p.gamma) 1

/-- `BEM.solve_null`, funpy/linalg/bem_solve.py:191-202. -/
def Bem.solveNull (m : Bem ι K) : Option (ι ⊕ Unit → K) :=
  if m.solver.isSingular then some (hstack m.solver.null.1 0) else m.pre.map fun p => m.solveNullNonsing p

/-- `BEM.solve_null_adj`, funpy/linalg/bem_solve.py:196-205. -/
def Bem.solveNullAdj (m : Bem ι K) : Option (ι ⊕ Unit → K) :=
  if m.solver.isSingular then some (hstack m.solver.null.2 0) else m.pre.map fun p => m.solveNullNonsingAdj p

/-- `BEM.solve_zero_nonsing`, funpy/linalg/bem_solve.py:207-215. -/
def Bem.solveZeroNonsing (m : Bem ι K) (p : Pre ι K) (f : ι → K) : ι ⊕ Unit → K :=
  let y1 := -(p.gamma ⬝ᵥ f) / p.delta
  let w := m.solver.solve (f - y1 • m.c)
  let y2 := -(y1 * m.d + m.b ⬝ᵥ w) / p.eta
  hstack (w - y2 • p.beta) (y1 + y2)

/-- `BEM.solve_zero_singular`, funpy/linalg/bem_solve.py:217-229. -/
def Bem.solveZeroSingular (m : Bem ι K) (f : ι → K) : ι ⊕ Unit → K :=
  let phi := m.solver.null.1
  let psi := m.solver.null.2
  let z := (psi ⬝ᵥ f) / (psi ⬝ᵥ m.c)
  let xp := m.solver.particular (f - z • m.c)
  let al := -(m.d * z + m.b ⬝ᵥ xp) / (m.b ⬝ᵥ phi)
  hstack (xp + al • phi) z

/-- `BEM.solve_zero`, funpy/linalg/bem_solve.py:231-232. -/
def Bem.solveZero (m : Bem ι K) (f : ι → K) : Option (ι ⊕ Unit → K) :=
  if m.solver.isSingular then some (m.solveZeroSingular f) else m.pre.map fun p => m.solveZeroNonsing p f

/-- `BEM.min_norm`, funpy/linalg/bem_solve.py:234-269. -/
def Bem.minNorm (m : Bem ι K) (f : ι → K) : Option (ι ⊕ Unit → K) := do
  let x ← m.solveZero f
  let t ← m.solveNull
  let eta := (x ⬝ᵥ t) / (t ⬝ᵥ t)
  pure (x - eta • t)

end Funpy.Bem
