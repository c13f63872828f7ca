import Verif.Model.Schur
import Mathlib.Tactic.FieldSimp
import Mathlib.Tactic.LinearCombination
import Mathlib.Tactic.Linarith
import Mathlib.Tactic.Positivity
import Mathlib.Tactic.NormNum
import Mathlib.Tactic.Abel
import Mathlib.Tactic.Module

/-!
# C45, C69: the pseudo-arclength solver
-/

namespace Funpy.Props

open Funpy.Schur

variable {E F : Type*} [NormedAddCommGroup E] [InnerProductSpace ℝ E] [AddCommGroup F] [Module ℝ F]

/-- The tangent update before normalization is `(‖V‖²/β) (-W, 1)`. -/
theorem rawTangent_eq (W : E) (t : St E) (h : t.a - inner ℝ t.u W ≠ 0) :
    rawTangent W t = ⟨-((inner ℝ t.u t.u + t.a ^ 2) / (t.a - inner ℝ t.u W)) • W,
      (inner ℝ t.u t.u + t.a ^ 2) / (t.a - inner ℝ t.u W)⟩ := by
  have ha : t.a - -(inner ℝ t.u t.u + inner ℝ t.u (t.a • W)) / (t.a - inner ℝ t.u W) =
      (inner ℝ t.u t.u + t.a ^ 2) / (t.a - inner ℝ t.u W) := by
    rw [inner_smul_right]; field_simp; ring
  unfold rawTangent St.sub
  simp only []
  rw [ha]
  ext
  · simp only []; module
  · rfl

theorem norm_sq_pos (t : St E) (h : t.a - inner ℝ t.u W ≠ 0) : 0 < inner ℝ t.u t.u + t.a ^ 2 := by
  have h1 : 0 ≤ inner ℝ t.u t.u := real_inner_self_nonneg
  by_contra hc
  have h2 : inner ℝ t.u t.u = 0 := by nlinarith [sq_nonneg t.a]
  have h3 : t.a = 0 := by
    have : t.a ^ 2 = 0 := by nlinarith [sq_nonneg t.a]
    exact pow_eq_zero_iff (two_ne_zero) |>.mp this
  have h4 : t.u = 0 := inner_self_eq_zero.mp h2
  apply h
  rw [h3, h4, inner_zero_left]; ring

/-- **C45 (tangent)** The new tangent is a null vector of `[Fu Fa]`, keeps the orientation of the old tangent and
(unless the unnormalised vector is below the `1e-14` guard) has unit norm. -/
theorem C45_tangent (Fu : E →ₗ[ℝ] F) (Fa : F) (solveCore : F → E) (hs : ∀ r, Fu (solveCore r) = r) (V : St E)
    (h : V.a - inner ℝ V.u (solveCore Fa) ≠ 0)
    (hbig : (1e-14 : ℝ) < (rawTangent (solveCore Fa) V).norm) :
    let T := (init solveCore Fa V).tangent
    Fu T.u + T.a • Fa = 0 ∧ 0 < T.inner V ∧ T.norm = 1 := by
  set W := solveCore Fa with hW
  set β := V.a - inner ℝ V.u W with hβ
  set ν := inner ℝ V.u V.u + V.a ^ 2 with hν
  have hνp : 0 < ν := norm_sq_pos V h
  have hraw := rawTangent_eq W V h
  set N := (rawTangent W V).norm with hN
  have hNp : 0 < N := lt_trans (by norm_num) hbig
  have hT : (init solveCore Fa V).tangent = ⟨N⁻¹ • (-(ν / β) • W), ν / β / N⟩ := by
    show newTangent W V = _
    unfold newTangent St.normalize
    rw [if_pos hbig, ← hN, hraw]
  simp only [hT]
  refine ⟨?_, ?_, ?_⟩
  · rw [map_smul, map_smul, hs]
    module
  · unfold St.inner
    simp only []
    rw [inner_smul_left, inner_smul_left, real_inner_comm]
    have : (starRingEnd ℝ) N⁻¹ * ((starRingEnd ℝ) (-(ν / β)) * inner ℝ V.u W) + ν / β / N * V.a = ν / N := by
      simp only [conj_trivial]
      have : V.a = β + inner ℝ V.u W := by rw [hβ]; ring
      rw [this]
      field_simp
      ring
    rw [this]
    positivity
  · unfold St.norm
    simp only []
    have h1 : inner ℝ (N⁻¹ • (-(ν / β) • W)) (N⁻¹ • (-(ν / β) • W)) + (ν / β / N) ^ 2 =
        (inner ℝ (-(ν / β) • W) (-(ν / β) • W) + (ν / β) ^ 2) / N ^ 2 := by
      rw [inner_smul_left, inner_smul_right]
      simp only [conj_trivial]
      field_simp
    have h2 : N ^ 2 = inner ℝ (-(ν / β) • W) (-(ν / β) • W) + (ν / β) ^ 2 := by
      rw [hN]; unfold St.norm; rw [hraw]
      rw [Real.sq_sqrt]
      exact add_nonneg real_inner_self_nonneg (sq_nonneg _)
    rw [h1, ← h2, div_self (by positivity), Real.sqrt_one]

/-- **C45, what holds of the Newton step**: the correction returned by `solve(rhs)` satisfies the first block row
`Fu δu + Fa δa = rhs` of the bordered system.  The second block row (orthogonality to the tangent) fails, see
`C45_orthogonality` and `C45_solve_fails`. -/
theorem C45_solve_partial (Fu : E →ₗ[ℝ] F) (Fa : F) (solveCore : F → E) (hs : ∀ r, Fu (solveCore r) = r)
    (V : St E) (rhs : F) :
    let δ := solve solveCore (init solveCore Fa V) rhs
    Fu δ.u + δ.a • Fa = rhs := by
  simp only [solve, init]
  rw [map_sub, map_smul, hs, hs]
  module

/-- The inner product of the correction with the tangent is `2 ⟨T_u, Δ⟩` instead of `0`: the sign of `δa` is wrong. -/
theorem C45_orthogonality (Fa : F) (solveCore : F → E) (V : St E) (rhs : F)
    (h : (init solveCore Fa V).schur ≠ 0) :
    (init solveCore Fa V).tangent.inner (solve solveCore (init solveCore Fa V) rhs) =
      2 * inner ℝ (init solveCore Fa V).tangent.u (solveCore rhs) := by
  set S := init solveCore Fa V with hS
  have hsch : S.schur = S.tangent.a - inner ℝ S.tangent.u S.W := rfl
  unfold St.inner solve
  simp only []
  rw [inner_sub_right, inner_smul_right]
  have : inner ℝ S.tangent.u S.W = S.tangent.a - S.schur := by rw [hsch]; ring
  rw [this]
  field_simp
  ring

/-- **C45 fails**: on `ℝ × ℝ` with `Fu = id`, `Fa = 1`, old tangent `(0, 1)` and right-hand side `1`, the step is not
orthogonal to the tangent, so the bordered system is not solved. -/
theorem C45_solve_fails : ∃ (Fa : ℝ) (V : St ℝ) (rhs : ℝ),
    (init (id : ℝ → ℝ) Fa V).schur ≠ 0 ∧
    (init (id : ℝ → ℝ) Fa V).tangent.inner (solve id (init (id : ℝ → ℝ) Fa V) rhs) ≠ 0 := by
  refine ⟨1, ⟨0, 1⟩, 1, ?_⟩
  have hraw : rawTangent (1:ℝ) ⟨0, 1⟩ = ⟨-1, 1⟩ := by
    rw [rawTangent_eq _ _ (by simp)]
    simp
  have hn : (rawTangent (1:ℝ) ⟨0, 1⟩).norm = Real.sqrt 2 := by
    rw [hraw]; unfold St.norm; norm_num
  have h2 : (0:ℝ) < Real.sqrt 2 := Real.sqrt_pos.mpr (by norm_num)
  have hbig : (1e-14 : ℝ) < Real.sqrt 2 := by
    rw [Real.lt_sqrt (by norm_num)]; norm_num
  have hT : (init (id : ℝ → ℝ) 1 ⟨0, 1⟩).tangent = ⟨-(Real.sqrt 2)⁻¹, (Real.sqrt 2)⁻¹⟩ := by
    show newTangent (1:ℝ) ⟨0, 1⟩ = _
    unfold newTangent St.normalize
    rw [hn, if_pos hbig, hraw]
    ext <;> simp
  have hsch : (init (id : ℝ → ℝ) 1 ⟨0, 1⟩).schur ≠ 0 := by
    have : (init (id : ℝ → ℝ) 1 ⟨0, 1⟩).schur = (init (id : ℝ → ℝ) 1 ⟨0, 1⟩).tangent.a -
      inner ℝ (init (id : ℝ → ℝ) 1 ⟨0, 1⟩).tangent.u (1:ℝ) := rfl
    rw [this, hT]
    simp only [RCLike.inner_apply, conj_trivial, one_mul]
    have := inv_pos.mpr h2
    intro h0
    linarith
  refine ⟨hsch, ?_⟩
  rw [C45_orthogonality _ _ _ _ hsch, hT]
  simp

/-- **C69** Bifurcation test function: if the quantities divided by are non-zero, `tau` and `bif_dir()` solve the doubly
bordered system `[Fu Fa B_u; T_u T_a B_l; C_u C_l 0] (Y_u, Y_l, τ) = (0, 0, 1)`. -/
theorem C69_bif (Fu : E →ₗ[ℝ] F) (Fa : F) (solveCore : F → E) (hs : ∀ r, Fu (solveCore r) = r) (V : St E)
    (Bu : F) (Bl : ℝ) (C : St E) (hsch : (init solveCore Fa V).schur ≠ 0)
    (hC : C.inner (bifPt solveCore (init solveCore Fa V) Bu Bl C).1 ≠ 0) :
    let T := (init solveCore Fa V).tangent
    let τ := (bifPt solveCore (init solveCore Fa V) Bu Bl C).2
    let Y := bifDir (bifPt solveCore (init solveCore Fa V) Bu Bl C)
    Fu Y.u + Y.a • Fa + τ • Bu = 0 ∧ T.inner Y + τ * Bl = 0 ∧ C.inner Y = 1 := by
  set S := init solveCore Fa V with hS
  have hW : Fu S.W = Fa := hs Fa
  have hsc : S.schur = S.tangent.a - inner ℝ S.tangent.u S.W := rfl
  set G := (bifPt solveCore S Bu Bl C).1 with hG
  set τ := (bifPt solveCore S Bu Bl C).2 with hτ
  have hGu : G.u = solveCore Bu - G.a • S.W := rfl
  have hGa : G.a = (Bl - inner ℝ S.tangent.u (solveCore Bu)) / S.schur := rfl
  have hτe : τ = -1 / C.inner G := by
    rw [hτ]
    show -1 / (C.a * G.a + inner ℝ C.u G.u) = _
    unfold St.inner; rw [add_comm]
  have hY : bifDir (bifPt solveCore S Bu Bl C) = ⟨(-τ) • G.u, -τ * G.a⟩ := rfl
  simp only [hY]
  have hTG : S.tangent.inner G = Bl := by
    unfold St.inner
    rw [hGu, inner_sub_right, inner_smul_right]
    have : inner ℝ S.tangent.u S.W = S.tangent.a - S.schur := by rw [hsc]; ring
    rw [this, hGa]
    field_simp
    ring
  refine ⟨?_, ?_, ?_⟩
  · rw [map_smul, hGu, map_sub, map_smul, hs, hW]
    module
  · have : S.tangent.inner ⟨(-τ) • G.u, -τ * G.a⟩ = -τ * S.tangent.inner G := by
      unfold St.inner; simp only []; rw [inner_smul_right]; ring
    rw [this, hTG]; ring
  · have : C.inner ⟨(-τ) • G.u, -τ * G.a⟩ = -τ * C.inner G := by
      unfold St.inner; simp only []; rw [inner_smul_right]; ring
    rw [this, hτe]
    field_simp

/-- Non-vacuity of the hypotheses: on `ℝ` with `Fu = id`, `Fa = 1` and the old tangent `(0, 1)`. -/
example : (LinearMap.id : ℝ →ₗ[ℝ] ℝ) (init (id : ℝ → ℝ) 1 ⟨0, 1⟩).tangent.u
    + (init (id : ℝ → ℝ) 1 ⟨0, 1⟩).tangent.a • (1:ℝ) = 0 := by
  refine (C45_tangent (LinearMap.id : ℝ →ₗ[ℝ] ℝ) 1 id (fun _ => rfl) ⟨0, 1⟩ (by simp) ?_).1
  have hraw : rawTangent (1:ℝ) ⟨0, 1⟩ = ⟨-1, 1⟩ := by
    rw [rawTangent_eq _ _ (by simp)]
    simp
  show (1e-14 : ℝ) < (rawTangent (1:ℝ) ⟨0, 1⟩).norm
  rw [hraw]
  unfold St.norm
  rw [Real.lt_sqrt (by norm_num)]
  norm_num

/-- Non-vacuity for the test function: `W = 0` (`Fa = 0`), tangent `(0, 1)`, `B = (0, 1)`, `C = (0, 1)`. -/
example : (init (id : ℝ → ℝ) 0 ⟨0, 1⟩).schur ≠ 0 ∧
    (St.mk (0:ℝ) 1).inner (bifPt id (init (id : ℝ → ℝ) 0 ⟨0, 1⟩) 0 1 ⟨0, 1⟩).1 ≠ 0 := by
  have hraw : rawTangent (0:ℝ) ⟨0, 1⟩ = ⟨0, 1⟩ := by
    rw [rawTangent_eq _ _ (by simp)]
    simp
  have hT : (init (id : ℝ → ℝ) 0 ⟨0, 1⟩).tangent = ⟨0, 1⟩ := by
    show newTangent (0:ℝ) ⟨0, 1⟩ = _
    have hn : (St.mk (0:ℝ) 1).norm = 1 := by unfold St.norm; simp
    unfold newTangent St.normalize
    rw [hraw, hn, if_pos (by norm_num)]
    simp
  have hs : (init (id : ℝ → ℝ) 0 ⟨0, 1⟩).schur = 1 := by
    show (init (id : ℝ → ℝ) 0 ⟨0, 1⟩).tangent.a - inner ℝ (init (id : ℝ → ℝ) 0 ⟨0, 1⟩).tangent.u (0:ℝ) = 1
    rw [hT]; simp
  refine ⟨by rw [hs]; norm_num, ?_⟩
  simp [bifPt, hs, hT, St.inner]

end Funpy.Props
