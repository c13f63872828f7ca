import Mathlib.Analysis.InnerProductSpace.Basic

/-!
# Pseudo-arclength solver

Models `funpy/linalg/schur_solve.py:28-147`.  A continuation state is a pair `(u, a)` with `u` in a real inner
product space (`sprod` of funpy/norms.py:17-38 without weights).  `solveCore` is the composition of the sparse LU
solve, the preconditioner, the projection and `to_function` (lines 84-95).
-/

namespace Funpy.Schur

variable {E F : Type*} [NormedAddCommGroup E] [InnerProductSpace ℝ E]

/-- A continuation state `(u, a)`, funpy/vectorspaces/cont_state.py:15-39. -/
@[ext] structure St (E : Type*) where
  u : E
  a : ℝ

/-- `np.inner` of two states (unit weights), funpy/vectorspaces/base_state.py:366-379. -/
noncomputable def St.inner (s t : St E) : ℝ := Inner.inner ℝ s.u t.u + s.a * t.a

/-- `state - state`, componentwise (funpy/vectorspaces/base_state.py:273-311). -/
def St.sub (s t : St E) : St E := ⟨s.u - t.u, s.a - t.a⟩

/-- `BaseState.norm()` with `p = 2`, funpy/vectorspaces/base_state.py:129-137. -/
noncomputable def St.norm (s : St E) : ℝ := Real.sqrt (Inner.inner ℝ s.u s.u + s.a ^ 2)

/-- `BaseState.normalize()`, funpy/vectorspaces/base_state.py:139-147. -/
noncomputable def St.normalize (s : St E) : St E :=
  if 1e-14 < s.norm then ⟨(s.norm)⁻¹ • s.u, s.a / s.norm⟩ else s

/-- The update before normalization in `new_tangent`, funpy/linalg/schur_solve.py:108-119. -/
noncomputable def rawTangent (W : E) (t : St E) : St E :=
  let schur := t.a - Inner.inner ℝ t.u W
  let da := -(Inner.inner ℝ t.u t.u + Inner.inner ℝ t.u (t.a • W)) / schur
  let du := t.u + (t.a - da) • W
  t.sub ⟨du, da⟩

/-- `new_tangent`, funpy/linalg/schur_solve.py:108-120. -/
noncomputable def newTangent (W : E) (t : St E) : St E := (rawTangent W t).normalize

/-- The object state: `W`, `tangent`, `schur_comp`, funpy/linalg/schur_solve.py:54-82. -/
structure Solver (E : Type*) where
  W : E
  tangent : St E
  schur : ℝ

/-- `__init__`, funpy/linalg/schur_solve.py:54-82. -/
noncomputable def init (solveCore : F → E) (Fa : F) (oldT : St E) : Solver E :=
  let W := solveCore Fa
  let t := newTangent W oldT
  ⟨W, t, t.a - Inner.inner ℝ t.u W⟩

/-- `solve(rhs)`, funpy/linalg/schur_solve.py:97-106. -/
noncomputable def solve (solveCore : F → E) (S : Solver E) (rhs : F) : St E :=
  let delta := solveCore rhs
  let da := Inner.inner ℝ S.tangent.u delta / S.schur
  ⟨delta - da • S.W, da⟩

/-- `bif_pt(u, rvec)`: the vector `(G_u, G_l)` and `tau`, funpy/linalg/schur_solve.py:122-140
(`C = (C_u, C_l)`, `B = (B_u, B_l)`; the discarded `tau2` is not modelled). -/
noncomputable def bifPt (solveCore : F → E) (S : Solver E) (Bu : F) (Bl : ℝ) (C : St E) : St E × ℝ :=
  let p := solveCore Bu
  let Gl := (Bl - Inner.inner ℝ S.tangent.u p) / S.schur
  let Gu := p - Gl • S.W
  (⟨Gu, Gl⟩, -1 / (C.a * Gl + Inner.inner ℝ C.u Gu))

/-- `bif_dir()`, funpy/linalg/schur_solve.py:142-147. -/
noncomputable def bifDir (G : St E × ℝ) : St E := ⟨(-G.2) • G.1.u, -G.2 * G.1.a⟩

end Funpy.Schur
