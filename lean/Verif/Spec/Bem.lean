import Verif.Model.Bem
import Mathlib.Data.Matrix.Block
import Mathlib.LinearAlgebra.Matrix.SchurComplement

/-!
# Specification of the bordered system

`bordered A b c d` is the matrix `[A c; b d]` of the class documentation; `Correct A s` says what the
methods of the solver object for `A` promise.
-/

namespace Funpy.Bem

open Matrix

variable {ι K : Type*} [Fintype ι] [DecidableEq ι] [Field K]

/-- The bordered matrix `[A c; b d]`. -/
def bordered (A : Matrix ι ι K) (b c : ι → K) (d : K) : Matrix (ι ⊕ Unit) (ι ⊕ Unit) K :=
  Matrix.fromBlocks A (Matrix.replicateCol Unit c) (Matrix.replicateRow Unit b) (Matrix.of fun _ _ => d)

/-- What the linear solver for `A` promises: if it does not flag `A` as singular it inverts `A` and `Aᵀ`; if it
does, it provides right and left null vectors and particular solutions of consistent systems. -/
structure Correct (A : Matrix ι ι K) (s : Solver ι K) : Prop where
  solve : s.isSingular = false → ∀ f, A *ᵥ s.solve f = f
  solveAdj : s.isSingular = false → ∀ f, Aᵀ *ᵥ s.solveAdj f = f
  det : s.isSingular = false → s.det = A.det
  null : s.isSingular = true → s.null.1 ≠ 0 ∧ A *ᵥ s.null.1 = 0 ∧ s.null.2 ≠ 0 ∧ Aᵀ *ᵥ s.null.2 = 0
  particular : s.isSingular = true → ∀ f, s.null.2 ⬝ᵥ f = 0 → A *ᵥ s.particular f = f
  particularAdj : s.isSingular = true → ∀ f, s.null.1 ⬝ᵥ f = 0 → Aᵀ *ᵥ s.particularAdj f = f

end Funpy.Bem
