import Mathlib.Data.Real.Basic
import Mathlib.Algebra.BigOperators.Group.List.Basic

/-!
# FoldSolver

Models `funpy/linalg/fold_solve.py:11-143`.  Vectors are lists; `none` is a raised exception.
-/

namespace Funpy.Fold

/-- The attributes and methods used by `FoldSolver`, funpy/linalg/fold_solve.py:17-27; `ddxAdj = none` is the value
`None` set by the constructor. -/
structure Solver where
  null : List ℝ × List ℝ
  particular : List ℝ → List ℝ
  particularAdj : List ℝ → List ℝ
  proj : List ℝ → List ℝ
  ddx : List ℝ → List ℝ
  ddxAdj : Option (List ℝ → List ℝ)
  c1 : List ℝ
  c2 : List ℝ

/-- The constructor, funpy/linalg/fold_solve.py:17-27. -/
def Solver.init (null : List ℝ × List ℝ) (particular particularAdj proj ddx : List ℝ → List ℝ) (c1 c2 : List ℝ) : Solver :=
  ⟨null, particular, particularAdj, proj, ddx, none, c1, c2⟩

/-- `np.dot` -/
def dot (a b : List ℝ) : ℝ := (List.zipWith (· * ·) a b).sum
/-- `a + s * b` for arrays of equal length. -/
def axpy (a : List ℝ) (s : ℝ) (b : List ℝ) : List ℝ := List.zipWith (fun x y => x + s * y) a b

/-- `FoldSolver.solve(x)`, funpy/linalg/fold_solve.py:67-99.  Note that `x` is rebound before `x[n - 1]` is read. -/
noncomputable def Solver.solve (s : Solver) (x : List ℝ) : Option (List ℝ) :=
  let n := x.length
  let N := (n - 1) / 2
  let f := x.take N
  let g := (x.drop N).take N
  let phi := s.null.1
  let psi := s.null.2
  let z := dot psi f / dot psi s.c1
  let b := s.proj (axpy f (-z) s.c1)
  let chi := s.particular b
  let Bchi := s.ddx chi
  let Bphi := s.ddx phi
  let r := axpy (axpy g (-z) s.c2) (-1) Bchi
  let al := dot psi r / dot psi Bphi
  let x := axpy chi al phi
  let b := s.proj (axpy r (-al) Bphi)
  let eta := s.particular b
  (x[n - 1]?).map fun h =>
    let beta := (h - dot phi eta) / dot phi phi
    let y := axpy eta beta phi
    x ++ y ++ [z]

/-- `FoldSolver.solve_adj(x)`, funpy/linalg/fold_solve.py:115-129, up to the first call of `self.ddx_adj`. -/
noncomputable def Solver.solveAdj (s : Solver) (x : List ℝ) : Option (List ℝ) :=
  let n := x.length
  let N := (n - 1) / 2
  let g := (x.drop N).take N
  let phi := s.null.1
  let z := dot phi g / dot phi phi
  let b := s.proj (axpy g (-z) phi)
  let eta := s.particularAdj b
  s.ddxAdj.map fun D => D eta

end Funpy.Fold
