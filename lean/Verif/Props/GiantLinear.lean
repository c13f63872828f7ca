import Verif.Model.GiantGbit
import Verif.Model.NewtonSolve
import Verif.Props.Gbit
import Verif.Props.NewtonSolve
import Mathlib.Analysis.InnerProductSpace.Basic
import Mathlib.Tactic.Linarith

/-!
# C138: the default method on linear problems
-/

namespace Funpy.Props
open Newton Gbit

variable {X : Type} [NormedAddCommGroup X] [InnerProductSpace ℝ X]

/-! ### Specification -/

/-- The linear solver is accurate to the relative error `eta`: for the residual of `y` it returns the correction `z - y` up to `eta` times its
length, whatever the initial guess, the requested tolerance and the point at which it was set up are (as on a linear problem with solution `z`). -/
def AccurateTo {R : Type} [AddCommGroup R] (P : InexactProblem X R) (z : X) (eta : ℝ) : Prop :=
  ∀ s y u t b, ∃ d, P.lin s (-P.F y) u t b = (d, true) ∧ ‖d - (z - y)‖ ≤ eta * ‖z - y‖

/-! ### Proofs -/

private lemma nrm_eq (x : X) : nrm (fun x y : X => inner ℝ x y) x = ‖x‖ := by
  rw [nrm, real_inner_self_eq_norm_sq, Real.sqrt_sq (norm_nonneg _)]

section accurate
variable {R : Type} [AddCommGroup R]

/-- C138: if the first correction is within the tolerance, success is reported and the result is within `eta / (1 - eta) * tol` of the solution. -/
theorem C138_close_partial (P : InexactProblem X R) (z : X) (eta : ℝ) (h0 : 0 ≤ eta) (h1 : eta < 1) (hP : AccurateTo P z eta) (c : GiantCfg)
    (fuel : ℕ) (lam : ℝ) (x : X) (hx : (1 + eta) * ‖z - x‖ ≤ c.xtol) :
    ∃ r, giantGbit P (fun x y => inner ℝ x y) c fuel lam x = .ok r ∧ r.success = true ∧ r.k = 1 ∧ ‖z - r.x‖ ≤ eta * ‖z - x‖ := by
  obtain ⟨d, hd, he⟩ := hP x x 0 (if c.quadratic then 1 / 4 else c.rho / (2 * (1 + c.rho))) false
  refine ⟨⟨x + d, true, 1, 0, 1, some x⟩, ?_, rfl, rfl, ?_⟩
  · rw [giantGbit, giantLoop, dif_neg (by omega)]
    simp only [curRes, hd, Option.isSome_none, Bool.false_eq_true, and_false, if_false, Bool.true_eq_false]
    rw [if_pos]
    rw [nrm_eq]
    have : d = (d - (z - x)) + (z - x) := by abel
    rw [this]
    exact (norm_add_le _ _).trans (by linarith)
  · show ‖z - (x + d)‖ ≤ _
    rw [show z - (x + d) = -(d - (z - x)) by abel, norm_neg]
    exact he

/-- **C138 fails**: on a problem with an accurate linear solver, started anywhere with the default damping factor, the default method reports success
after one step, but with a point that is not closer to the solution than the start: the better the linear solver, the closer it stays to
the start.  (The simplified correction of the trial point is added to the old iterate.) -/
theorem C138_accurate_fails (P : InexactProblem X R) (z : X) (eta : ℝ) (h0 : 0 ≤ eta) (h1 : eta ≤ 1 / 8) (hP : AccurateTo P z eta) (c : GiantCfg)
    (hr0 : 0 ≤ c.rho) (hr1 : c.rho ≤ 1) (hp0 : 0 ≤ c.precision * c.rho) (hp1 : c.precision * c.rho ≤ 1) (hl : c.lamMin ≤ 1)
    (fuel : ℕ) (x : X) (hx : c.xtol < (1 - eta) * ‖z - x‖) (hx2 : eta * (1 + eta) * ‖z - x‖ ≤ c.xtol) :
    ∃ r, giantGbit P (fun x y => inner ℝ x y) c (fuel + 1) 1 x = .ok r ∧ r.success = true ∧ r.k = 1 ∧
      ‖r.x - x‖ ≤ eta * (1 + eta) * ‖z - x‖ ∧ (1 - eta * (1 + eta)) * ‖z - x‖ ≤ ‖z - r.x‖ := by
  obtain ⟨d, hd, he⟩ := hP x x 0 (if c.quadratic then 1 / 4 else c.rho / (2 * (1 + c.rho))) false
  obtain ⟨w, hw, hwe⟩ := hP x (x + d) 0 ((1 / 2 * c.rho) / (1 + 1 / 2 * c.rho)) true
  have hD : 0 ≤ ‖z - x‖ := norm_nonneg _
  have hdlow : (1 - eta) * ‖z - x‖ ≤ ‖d‖ := by
    have : z - x = d - (d - (z - x)) := by abel
    have h := norm_sub_le d (d - (z - x))
    rw [← this] at h
    linarith
  have hzd : ‖z - (x + d)‖ ≤ eta * ‖z - x‖ := by
    rw [show z - (x + d) = -(d - (z - x)) by abel, norm_neg]
    exact he
  have hwn : ‖w‖ ≤ eta * (1 + eta) * ‖z - x‖ := by
    have h := norm_add_le (w - (z - (x + d))) (z - (x + d))
    rw [sub_add_cancel] at h
    have h' := mul_le_mul_of_nonneg_left hzd h0
    calc ‖w‖ ≤ eta * ‖z - (x + d)‖ + ‖z - (x + d)‖ := by linarith
      _ ≤ eta * (eta * ‖z - x‖) + eta * ‖z - x‖ := by linarith
      _ = _ := by ring
  have htol : 0 ≤ c.xtol := le_trans (by positivity) hx2
  have hnd : 0 < ‖d‖ := by linarith
  refine ⟨⟨x + w, true, 1, 0, 1, some x⟩, ?_, rfl, rfl, ?_, ?_⟩
  · rw [giantGbit, giantLoop, dif_neg (by omega)]
    simp only [curRes, hd, Option.isSome_none, Bool.false_eq_true, and_false, if_false, Bool.true_eq_false]
    rw [if_neg (by rw [nrm_eq]; linarith)]
    have hg : gdamp P (fun x y => inner ℝ x y) c x d (fuel + 1) 1 false = .ok (.converged w) := by
      rw [gdamp, if_neg (by linarith)]
      simp only [one_smul, sub_self, zero_smul, hw, Bool.true_eq_false, if_false, nrm_eq, sub_zero, mul_one, one_mul]
      have hq : ‖w‖ / ‖d‖ ≤ 1 / 4 := by
        rw [div_le_iff₀ hnd]
        have a1 : eta * (1 + eta) ≤ 1 / 8 * (9 / 8) := by nlinarith
        have a2 : (7 : ℝ) / 8 ≤ 1 - eta := by linarith
        nlinarith
      have hq0 : 0 ≤ ‖w‖ / ‖d‖ := by positivity
      rw [if_neg (by
        rintro (⟨-, h⟩ | ⟨-, h⟩) <;> linarith)]
      have hrb : 0 ≤ c.precision * c.rho * ‖w‖ / ‖w‖ ∧ c.precision * c.rho * ‖w‖ / ‖w‖ ≤ 1 := by
        by_cases h : ‖w‖ = 0
        · rw [h]; simp
        · rw [mul_div_assoc, div_self h, mul_one]; exact ⟨hp0, hp1⟩
      have hhk : minInv (2 * (1 - c.precision * c.rho * ‖w‖ / ‖w‖) * ‖w‖ / ‖d‖ * (1 + c.rho)) 1 = 1 := by
        rw [minInv]
        split_ifs with h
        · rfl
        · apply min_eq_right
          have hk1 : 2 * (1 - c.precision * c.rho * ‖w‖ / ‖w‖) * ‖w‖ / ‖d‖ * (1 + c.rho)
              = (2 * (1 - c.precision * c.rho * ‖w‖ / ‖w‖)) * (‖w‖ / ‖d‖) * (1 + c.rho) := by ring
          have hpos : 0 ≤ 2 * (1 - c.precision * c.rho * ‖w‖ / ‖w‖) * ‖w‖ / ‖d‖ * (1 + c.rho) := by
            rw [hk1]; exact mul_nonneg (mul_nonneg (by linarith [hrb.2]) hq0) (by linarith)
          rw [le_div_iff₀ (lt_of_le_of_ne hpos (Ne.symm h)), one_mul, hk1]
          have b1 : (2 * (1 - c.precision * c.rho * ‖w‖ / ‖w‖)) * (‖w‖ / ‖d‖) ≤ 2 * (1 / 4) :=
            mul_le_mul (by linarith [hrb.1]) hq hq0 (by norm_num)
          nlinarith
      rw [hhk, if_pos ⟨trivial, rfl⟩, if_pos (by linarith)]
    rw [glamStart, hg]
  · show ‖x + w - x‖ ≤ _
    rw [add_sub_cancel_left]; exact hwn
  · show _ ≤ ‖z - (x + w)‖
    have h := norm_sub_norm_le (z - x) w
    rw [show z - (x + w) = z - x - w by abel]
    linarith

/-- **C138 fails** for every regular linear problem `A x = b` and `Newton.solve` with its default method, if the linear solver returns `(1 - eta)` times the exact
correction, `eta ≤ 1/8`: for every start whose distance to the solution is between `tol / (1 - eta)` and `tol / (eta (1 + eta))`, success is
reported with a point whose distance to the solution is at least `85 %` of that of the start. -/
theorem C138_linear_fails [Module ℝ R] (P0 : Problem X R) (A : X ≃ₗ[ℝ] R) (b : R) (eta : ℝ) (h0 : 0 ≤ eta) (h1 : eta ≤ 1 / 8) (P : InexactProblem X R)
    (hF : ∀ y, P.F y = A y - b) (hlin : ∀ s v u t f, P.lin s v u t f = ((1 - eta) • A.symm v, true)) (c : SolveArgs)
    (hr0 : 0 ≤ c.giant.rho) (hr1 : c.giant.rho ≤ 1) (hp0 : 0 ≤ c.giant.precision * c.giant.rho) (hp1 : c.giant.precision * c.giant.rho ≤ 1)
    (hl : c.giant.lamMin ≤ 1) (hlam : c.glam = 1) (method : String) (hm : method.toLower = "giant") (fuel : ℕ) (x : X)
    (hx : c.giant.xtol < (1 - eta) * ‖A.symm b - x‖) (hx2 : eta * (1 + eta) * ‖A.symm b - x‖ ≤ c.giant.xtol) :
    ∃ r, newtonSolve P0 P (fun x y => inner ℝ x y) c (fuel + 1) method x = .ok r ∧ r.success = true ∧
      ‖r.x - x‖ ≤ c.giant.xtol ∧ 0.85 * ‖A.symm b - x‖ ≤ ‖A.symm b - r.x‖ := by
  have hP : AccurateTo P (A.symm b) eta := by
    intro s y u t f
    refine ⟨_, hlin _ _ _ _ _, ?_⟩
    have : A.symm (-P.F y) = A.symm b - y := by rw [hF]; simp
    rw [this, show (1 - eta) • (A.symm b - y) - (A.symm b - y) = -(eta • (A.symm b - y)) by rw [sub_smul, one_smul]; abel, norm_neg, norm_smul,
      Real.norm_of_nonneg h0]
  obtain ⟨r, a1, a2, -, a3, a4⟩ := C138_accurate_fails P _ eta h0 h1 hP c.giant hr0 hr1 hp0 hp1 hl fuel x hx hx2
  refine ⟨r, ?_, a2, a3.trans hx2, ?_⟩
  · rw [(C114_dispatch P0 P _ c (fuel + 1) method x).2.2.2 hm, hlam, a1]
    rfl
  · refine le_trans (mul_le_mul_of_nonneg_right ?_ (norm_nonneg _)) a4
    nlinarith

/-- the hypotheses hold for `x = 5` in `ℝ`, started at `0` with the tolerance `1/2` and a linear solver with the relative error `1/16` -/
example : ∃ P : InexactProblem ℝ ℝ, AccurateTo P 5 (1 / 16) ∧ (1 / 2 : ℝ) < (1 - 1 / 16) * ‖(5 : ℝ) - 0‖ ∧ 1 / 16 * (1 + 1 / 16) * ‖(5 : ℝ) - 0‖ ≤ 1 / 2 := by
  refine ⟨⟨fun y => y - 5, fun _ v _ _ _ => (15 / 16 * v, true)⟩, fun s y u t b => ⟨_, rfl, ?_⟩, by norm_num, by norm_num⟩
  rw [show 15 / 16 * -(y - 5) - (5 - y) = -(1 / 16 * (5 - y)) by ring, norm_neg, norm_mul]
  norm_num

end accurate

/-! ### `gbit` with an exact preconditioner (C83) -/

section exact

/-- **C138 fails**: a regular linear problem `A x = b` in exact arithmetic, with the exact inverse as the preconditioner (as for constant
coefficients): from every start that is not within the tolerance of the solution the default method reports failure and returns the start, although the first
linear solve finds the solution. -/
theorem C138_exact_fails (A : X ≃ₗ[ℝ] X) (b : X) (o : GbitOpts) (h2 : 2 ≤ o.maxIter) (ht : o.tauMin ≤ 1) (ht1 : 1 ≤ o.tauMax) (c : GiantCfg) (hr : 0 ≤ c.rho)
    (hl : c.lamMin ≤ 1) (h0 : 0 ≤ c.xtol) (fuel : ℕ) (x : X) (hx : c.xtol < ‖A.symm b - x‖) :
    ∃ r, giantGbit (gbitProblem (fun x y => inner ℝ x y) (fun y => A y - b) (fun _ => A) (fun _ => A.symm) o c.rho) (fun x y => inner ℝ x y) c (fuel + 1) 1 x = .ok r ∧
      r.success = false ∧ r.x = x ∧ r.k = 0 := by
  set P := gbitProblem (fun x y : X => inner ℝ x y) (fun y => A y - b) (fun _ => A) (fun _ => A.symm) o c.rho with hP
  set d := A.symm b - x with hd
  have hdn : 0 < ‖d‖ := lt_of_le_of_lt h0 hx
  have hF : -P.F x = A d := by
    show -(A x - b) = _
    rw [hd, map_sub, LinearEquiv.apply_symm_apply]
    abel
  have h1 : ∀ tol, 0 ≤ tol → P.lin x (-P.F x) 0 tol false = (d, true) := by
    intro tol htol
    rw [hF, hP]
    simp only [gbitProblem]
    have := C83_exact_precond (A : X →ₗ[ℝ] X) (A.symm : X →ₗ[ℝ] X) (A d) (o.cfg c.rho tol false) (o.maxIter + 1) 0 d (by simp) (by simp) ht ht1 hr htol
      (by simp [GbitOpts.cfg])
    simp only [LinearEquiv.coe_coe] at this
    rw [this]
    have h2' : 1 < (o.cfg c.rho tol false).maxIter := h2
    simp [h2']
  have h3 : ∀ tol, (P.lin x (-P.F (x + d)) 0 tol true).2 = false := by
    intro tol
    have hz : -P.F (x + d) = 0 := by
      show -(A (x + d) - b) = 0
      rw [hd]; simp
    rw [hz, hP]
    simp only [gbitProblem]
    cases hr : gbit (fun x y : X => inner ℝ x y) A A.symm 0 (o.cfg c.rho tol true) (o.maxIter + 2) 0 with
    | error e => rfl
    | ok r => exact C83_simple_fails (A : X →ₗ[ℝ] X) (A.symm : X →ₗ[ℝ] X) 0 (o.cfg c.rho tol true) rfl (o.maxIter + 2) 0 (by simp) r hr
  have hg : gdamp P (fun x y => inner ℝ x y) c x d (fuel + 1) 1 false = .ok .fail := by
    rw [gdamp, if_neg (by linarith)]
    simp only [one_smul, sub_self, zero_smul, h3, if_true]
  refine ⟨⟨x, false, 0, 0, 1, some x⟩, ?_, rfl, rfl, rfl⟩
  rw [giantGbit, giantLoop, dif_neg (by omega)]
  simp only [curRes]
  simp only [h1 _ (show (0:ℝ) ≤ (if c.quadratic then 1 / 4 else c.rho / (2 * (1 + c.rho))) by split_ifs <;> positivity)]
  simp only [Option.isSome_none, Bool.false_eq_true, and_false, if_false, Bool.true_eq_false]
  rw [if_neg (by rw [nrm_eq]; exact not_le.2 hx), glamStart, hg]

end exact

end Funpy.Props
