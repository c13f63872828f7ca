import Verif.Model.Fold
import Mathlib.Tactic

/-!
# C76: FoldSolver

The property (`solve` solves the fold system) is false for every input: both methods raise.
-/

namespace Funpy.Props

open Funpy.Fold

/-- C76: `solve` raises (index out of bounds) for every right-hand side `(f, g, h)` with `f`, `g` of length `N ≥ 1` and a
null vector of length `N`, whatever the operators are. -/
theorem C76_solve_fails (s : Solver) (N : ℕ) (hN : 1 ≤ N) (hphi : s.null.1.length = N) (f g : List ℝ) (h : ℝ)
    (hf : f.length = N) (hg : g.length = N) : s.solve (f ++ g ++ [h]) = none := by
  simp only [Solver.solve, Option.map_eq_none_iff]
  apply List.getElem?_eq_none
  simp only [axpy, List.length_zipWith, List.length_append, List.length_cons, List.length_nil, hf, hg, hphi]
  have := min_le_right (s.particular (s.proj (List.zipWith (fun x y => x +
    -(dot s.null.2 (List.take ((N + N + (0 + 1) - 1) / 2) (f ++ g ++ [h])) / dot s.null.2 s.c1) * y)
    (List.take ((N + N + (0 + 1) - 1) / 2) (f ++ g ++ [h])) s.c1))).length N
  omega

/-- C76: `solve_adj` raises for every right-hand side: the constructor leaves `ddx_adj` equal to `None`. -/
theorem C76_solve_adj_fails (null : List ℝ × List ℝ) (particular particularAdj proj ddx : List ℝ → List ℝ) (c1 c2 x : List ℝ) :
    (Solver.init null particular particularAdj proj ddx c1 c2).solveAdj x = none := rfl

/-- A one-dimensional instance: `A = 0`, `B = 1`, `c1 = 1`, `c2 = 0`, which has a regular fold matrix. -/
example : (Solver.init ([1], [1]) (fun _ => [0]) (fun _ => [0]) id id [1] [0]).solve [1, 2, 3] = none :=
  C76_solve_fails _ 1 le_rfl rfl [1] [2] 3 rfl rfl

end Funpy.Props
