import Verif.Props.FourierNewtonLin
import Verif.Model.NewtonSolve
import Mathlib.Analysis.SpecificLimits.Basic

/-!
# C144: `Newton.solve` on nonlinear periodic problems
-/

namespace Funpy.Props
open Spec Trig TrigSpec Matrix Finset Complex FourierStab FCv FUn FSy FTr FNl FNw Filter Topology
open Funpy.Newton
open scoped ContDiff

/-- **Specification.**  `P` is the discretisation of the equation at `n` modes: the residual consists of the Fourier coefficients of `L u + N(u) - f`, and the
linear solver solves regular systems, whose matrices are assembled from the linearisation, for the states within `ρ` of the first modes of `u`. -/
structure FNw.Discretises {n : ℕ} (e : Ends) (s : Source) (N : NL) (f : List ℂ) (r : ℕ) (c : ℂ) (eps : ℝ) (u : ℝ → ℂ) (ρ : ℝ)
    (P : Problem (Fin n → ℂ) (Fin n → ℂ)) : Prop where
  /-- the residual -/
  rhs : ∀ v, P.F v = fun i : Fin n => fourier (fun y => resid e s N (fourierFun e v) (Mapping.fwd e y)) (wave n i) - fourier (trigEval f) (wave n i)
  /-- the linear systems -/
  lin : ∀ v : Fin n → ℂ, wnorm (r - 1) (v - modes n e u) ≤ ρ → ∃ s', IsOp s' r c ∧ IsLin e s N (fourierFun e v) s' ∧ NoDrop n (Mapping.diff e) eps s' ∧
    ((∀ b, ∃! δ, quasi2diffmat n (Mapping.diff e) eps s' *ᵥ δ = b) →
      ∀ b, quasi2diffmat n (Mapping.diff e) eps s' *ᵥ (P.solve v b).1 = b ∧ (P.solve v b).2 = true)

lemma FNw.wnorm_add {n : ℕ} (q : ℕ) (v w : Fin n → ℂ) : wnorm q (v + w) ≤ wnorm q v + wnorm q w := by
  unfold wnorm
  rw [← sum_add_distrib]
  apply sum_le_sum
  intro i _
  rw [Pi.add_apply, ← mul_add]
  gcongr
  exact norm_add_le _ _

lemma FNw.wnorm_sub_comm {n : ℕ} (q : ℕ) (v w : Fin n → ℂ) : wnorm q (v - w) = wnorm q (w - v) := by
  unfold wnorm
  exact sum_congr rfl fun i _ => by rw [Pi.sub_apply, Pi.sub_apply, norm_sub_rev]

lemma FNw.wnorm_nonneg {n : ℕ} (q : ℕ) (v : Fin n → ℂ) : 0 ≤ wnorm q v := by
  unfold wnorm
  positivity

lemma FNw.wnorm_mono {n : ℕ} {p q : ℕ} (h : p ≤ q) (v : Fin n → ℂ) : wnorm p v ≤ wnorm q v := by
  rw [wnorm_eq, wnorm_eq]
  exact W_mono _ _ h _

lemma FNw.fun_dist {n : ℕ} (hn : n % 2 = 1) (e : Ends) (q : ℕ) (v w : Fin n → ℂ) (x : ℝ) : ‖fourierFun e v x - fourierFun e w x‖ ≤ wnorm q (v - w) := by
  rw [← fn_toCo hn, ← fn_toCo hn, wnorm_eq, toCo_sub]
  unfold fn
  rw [← Pi.sub_apply, ← map_sub]
  exact (ev_bound _ _).trans (W_mono 0 q (Nat.zero_le _) _)

/-- the loop of `newton_standard` for steps that contract -/
lemma FNw.loop_conv {n q : ℕ} (P : Problem (Fin n → ℂ) (Fin n → ℂ)) (inner : (Fin n → ℂ) → (Fin n → ℂ) → ℝ) (B ρ tol : ℝ) (a vs : Fin n → ℂ) (Q : (Fin n → ℂ) → Prop)
    (hB : 0 ≤ B) (hin : ∀ x, nrm inner x ≤ B * wnorm q x)
    (hstep : ∀ v, wnorm q (v - a) ≤ ρ → (P.solve v (-P.F v)).2 = true ∧ wnorm q (v + (P.solve v (-P.F v)).1 - a) ≤ ρ ∧
      wnorm q (v + (P.solve v (-P.F v)).1 - vs) ≤ 1 / 4 * wnorm q (v - vs) ∧ Q (v + (P.solve v (-P.F v)).1)) (debug : Bool) (miter : ℕ) (j : ℕ) :
    ∀ (k neval : ℕ) (x : Fin n → ℂ) (nd : ℝ) (sys : Option (Fin n → ℂ)), wnorm q (x - a) ≤ ρ → Q x → B * (5 / 4 * ((1 / 4) ^ j * wnorm q (x - vs))) ≤ tol → k + j < miter →
      ∃ p, standardLoop P inner (fun _ _ _ _ => true) tol debug miter k neval x nd sys = .ok p ∧ p.success = true ∧ k < p.k ∧ p.k ≤ k + j + 1 ∧
        wnorm q (p.x - a) ≤ ρ ∧ wnorm q (p.x - vs) ≤ (1 / 4) ^ (p.k - k) * wnorm q (x - vs) ∧
        ∃ y d, p.x = y + d ∧ Q y ∧ Q (y + d) ∧ wnorm q (y - a) ≤ ρ ∧ d = (P.solve y (-P.F y)).1 ∧ nrm inner d ≤ tol ∧ wnorm q (p.x - vs) ≤ 1 / 3 * wnorm q d := by
  induction j with
  | zero =>
    intro k neval x nd sys hx hQ ht hk
    obtain ⟨h1, h2, h3, hQ'⟩ := hstep x hx
    set d := (P.solve x (-P.F x)).1 with hd
    have h4 : wnorm q d ≤ wnorm q (x - vs) + wnorm q (x + d - vs) := by
      have h := wnorm_add q (x + d - vs) (vs - x)
      rw [show x + d - vs + (vs - x) = d by abel, wnorm_sub_comm q vs x] at h
      linarith
    have h5 : wnorm q (x - vs) ≤ wnorm q d + wnorm q (x + d - vs) := by
      have h := wnorm_add q (x + d - vs) (-d)
      have h' : wnorm q (-d) = wnorm q d := by simp [wnorm]
      rw [show x + d - vs + -d = x - vs by abel, h'] at h
      linarith
    have h6 : nrm inner d ≤ tol := by
      refine (hin d).trans (le_trans ?_ ht)
      rw [pow_zero, one_mul]
      gcongr
      linarith
    refine ⟨⟨x + d, true, k + 1, nrm inner d, neval + 1, some x⟩, ?_, rfl, Nat.lt_succ_self _, le_rfl, h2, ?_, x, d, rfl, hQ, hQ', hx, hd, h6, ?_⟩
    · rw [standardLoop, dif_neg (by omega)]
      simp only [h1]
      rw [if_neg (by simp), if_pos h6]
    · simp only [Nat.add_sub_cancel_left, pow_one]
      exact h3
    · show wnorm q (x + d - vs) ≤ _
      linarith
  | succ j ih =>
    intro k neval x nd sys hx hQ ht hk
    obtain ⟨h1, h2, h3, hQ'⟩ := hstep x hx
    set d := (P.solve x (-P.F x)).1 with hd
    have h5 : wnorm q (x - vs) ≤ wnorm q d + wnorm q (x + d - vs) := by
      have h := wnorm_add q (x + d - vs) (-d)
      have h' : wnorm q (-d) = wnorm q d := by simp [wnorm]
      rw [show x + d - vs + -d = x - vs by abel, h'] at h
      linarith
    by_cases h6 : nrm inner d ≤ tol
    · refine ⟨⟨x + d, true, k + 1, nrm inner d, neval + 1, some x⟩, ?_, rfl, Nat.lt_succ_self _, by dsimp only; omega, h2, ?_, x, d, rfl, hQ, hQ', hx, hd, h6, ?_⟩
      · rw [standardLoop, dif_neg (by omega)]
        simp only [h1]
        rw [if_neg (by simp), if_pos h6]
      · simp only [Nat.add_sub_cancel_left, pow_one]
        exact h3
      · show wnorm q (x + d - vs) ≤ _
        linarith
    · obtain ⟨p, g1, g2, g3, g4, g5, g6, g7⟩ := ih (k + 1) (neval + 1) (x + d) (nrm inner d) (some x) h2 hQ' (by
        refine le_trans ?_ ht
        have h7 : (1 / 4 : ℝ) ^ j * wnorm q (x + d - vs) ≤ (1 / 4) ^ (j + 1) * wnorm q (x - vs) := by
          rw [pow_succ, mul_assoc]
          exact mul_le_mul_of_nonneg_left h3 (by positivity)
        exact mul_le_mul_of_nonneg_left (mul_le_mul_of_nonneg_left h7 (by norm_num)) hB) (by omega)
      refine ⟨p, ?_, g2, by omega, by omega, g5, ?_, g7⟩
      · rw [standardLoop, dif_neg (by omega)]
        simp only [h1]
        rw [if_neg (by simp), if_neg h6, if_neg (by simp), g1]
      · refine g6.trans ?_
        rw [show p.k - k = p.k - (k + 1) + 1 by omega, pow_succ, mul_assoc]
        gcongr

variable (e : Ends) (he : e.e0 < e.e1) (s : Source) (r : ℕ) (c : ℂ) (hs : IsOp s r c) (N : NL) (hN : N.Below r) (f : List ℂ)
  (u : ℝ → ℂ) (hu : ContDiff ℝ ∞ u) (hper : Function.Periodic u (Mapping.diff e))
include he hs hN hu hper

/-- **C144.**  `Newton.solve` with the standard driver on the discretisations of a nonlinear periodic problem, started within `ρ` of a nondegenerate solution `u`:
for all sufficiently many modes it reports success after a number of iterations that does not depend on the number of modes, and the function it returns
differs from `u` by the remaining iteration error plus a discretisation error that decays faster than every power of `1 / n`. -/
theorem C144_solve (eps B : ℝ) (hB : 0 ≤ B) (hnd : Nondeg e s N r u) (heq : ∀ x, resid e s N u x = trigEval f (Mapping.bwd e x)) :
    ∃ ρ N0, 0 < ρ ∧ ∀ t : ℕ, ∃ C, ∀ tol > 0, ∃ K : ℕ, ∀ n, N0 ≤ n → n % 2 = 1 →
      ∀ P : Problem (Fin n → ℂ) (Fin n → ℂ), Discretises e s N f r c eps u ρ P →
      ∀ inner : (Fin n → ℂ) → (Fin n → ℂ) → ℝ, (∀ x, Real.sqrt (inner x x) ≤ B * wnorm (r - 1) x) →
      ∀ (I : InexactProblem (Fin n → ℂ) (Fin n → ℂ)) (a : SolveArgs) (fuel : ℕ) (method : String) (v : Fin n → ℂ),
        a.tol = tol → K ≤ a.miter → method.toLower = "lu" → wnorm (r - 1) (v - modes n e u) ≤ ρ →
        ∃ q, newtonSolve P I inner a fuel method v = .ok q ∧ q.success = true ∧ q.k ≤ K ∧ wnorm (r - 1) (q.x - modes n e u) ≤ ρ ∧
          (∀ x, ‖fourierFun e q.x x - u x‖ ≤ 2 * ρ * (1 / 4) ^ q.k + C / (n : ℝ) ^ t) ∧
          ∀ b, 0 ≤ b → (∀ x, wnorm (r - 1) x ≤ b * Real.sqrt (inner x x)) → ∀ x, ‖fourierFun e q.x x - u x‖ ≤ b * tol / 3 + C / (n : ℝ) ^ t := by
  obtain ⟨ρ, C0, K0, D0, M0, hgood, M1, hM1⟩ := FNw.setup e he s r c hs N hN f u hu hper hnd heq
  obtain ⟨κ, σ, hκ, _, h⟩ := FNw.newton_core e he s r c hs N hN f u hu hper eps heq ρ C0 K0 D0 M0 M1 hgood hM1
  obtain ⟨_, hconv⟩ := FNw.solves_core e he s r c hs N hN f u hu hper heq ρ C0 K0 D0 M0 M1 hgood hM1
  have hρ := hgood.hρ
  refine ⟨ρ, 2 * (M0 + M1), hρ, fun t => ?_⟩
  obtain ⟨C, hC⟩ := hconv t 0
  refine ⟨C, fun tol ht => ?_⟩
  obtain ⟨j, hj⟩ : ∃ j : ℕ, B * (5 / 4 * ((1 / 4 : ℝ) ^ j * (2 * ρ))) ≤ tol := by
    have h1 : Tendsto (fun j : ℕ => B * (5 / 4 * ((1 / 4 : ℝ) ^ j * (2 * ρ)))) atTop (𝓝 (B * (5 / 4 * (0 * (2 * ρ))))) :=
      (((tendsto_pow_atTop_nhds_zero_of_lt_one (by norm_num) (by norm_num)).mul_const _).const_mul _).const_mul _
    rw [zero_mul, mul_zero, mul_zero] at h1
    obtain ⟨j, hj⟩ := (h1.eventually (gt_mem_nhds ht)).exists
    exact ⟨j, hj.le⟩
  refine ⟨j + 1, fun n hn hodd P hP inner hin I a fuel method v hat hmi hl hv => ?_⟩
  obtain ⟨vs, _, h1, h2⟩ := h n hn hodd
  obtain ⟨h3, h4⟩ := (h1 vs).mpr rfl
  have hF : ∀ w, -P.F w = defect e s N f w := by
    intro w
    rw [hP.rhs]
    funext i
    simp only [Pi.neg_apply, neg_sub, defect]
  have hstep : ∀ w, wnorm (r - 1) (w - modes n e u) ≤ ρ → (P.solve w (-P.F w)).2 = true ∧ wnorm (r - 1) (w + (P.solve w (-P.F w)).1 - modes n e u) ≤ ρ ∧
      wnorm (r - 1) (w + (P.solve w (-P.F w)).1 - vs) ≤ 1 / 4 * wnorm (r - 1) (w - vs) ∧ True := by
    intro w hw
    obtain ⟨s', hs', hlin, hnodrop, hsol⟩ := hP.lin w hw
    obtain ⟨g1, _, g2⟩ := h2 w hw s' hs' hlin hnodrop
    obtain ⟨g3, g4⟩ := hsol g1 (-P.F w)
    obtain ⟨g5, _, g6⟩ := g2 _ (g3.trans (hF w))
    exact ⟨g4, g5.trans (by linarith), (wnorm_mono (Nat.sub_le _ _) _).trans g6, trivial⟩
  have hd : wnorm (r - 1) (v - vs) ≤ 2 * ρ := by
    have h5 := wnorm_add (r - 1) (v - modes n e u) (modes n e u - vs)
    rw [sub_add_sub_cancel, wnorm_sub_comm _ (modes n e u)] at h5
    linarith
  obtain ⟨q, g1, g2, g3, g4, g5, g6, _, d, _, _, _, _, _, g7, g8⟩ := FNw.loop_conv P inner B ρ tol (modes n e u) vs (fun _ => True) hB hin hstep a.debug a.miter j 0 0 v 0 none hv trivial
    (le_trans (by gcongr) hj) (by omega)
  rw [Nat.sub_zero] at g6
  have herr : ∀ x, ‖fourierFun e q.x x - u x‖ ≤ wnorm (r - 1) (q.x - vs) + C / (n : ℝ) ^ t := by
    intro x
    have h5 := hC n hn hodd vs h3 h4 x
    simp only [iteratedDeriv_zero] at h5
    have h6 := fun_dist hodd e (r - 1) q.x vs x
    rw [show fourierFun e q.x x - u x = (fourierFun e q.x x - fourierFun e vs x) + (fourierFun e vs x - u x) by ring]
    exact (norm_add_le _ _).trans (add_le_add h6 h5)
  refine ⟨q, ?_, g2, by omega, g5, fun x => (herr x).trans ?_, fun b hb hbi x => (herr x).trans ?_⟩
  · rw [newtonSolve]
    simp only [hl]
    have ha : algo "lu" = .standard := by decide
    have hst : setup "lu" = .ok () := rfl
    rw [ha, hst, hat, newtonStandard, g1]
    simp only []
    rw [if_neg (by simp; omega)]
    rfl
  · gcongr
    refine g6.trans ?_
    rw [mul_comm]
    gcongr
  · gcongr
    refine g8.trans ?_
    have h5 := hbi d
    have h6 : b * Real.sqrt (inner d d) ≤ b * tol := by
      gcongr
      exact g7
    linarith

omit he hu hper in
/-- discretisations in the sense of the specification exist: exact linear solvers, with a drop tolerance of zero -/
theorem FNw.discretises_exists (n : ℕ) (hn : n % 2 = 1) (ρ : ℝ) : ∃ P : Problem (Fin n → ℂ) (Fin n → ℂ), Discretises e s N f r c 0 u ρ P := by
  choose s' h1 _ _ h2 using C143_linearisation e s r c hs N hN n hn
  refine ⟨⟨fun v i => fourier (fun y => resid e s N (fourierFun e v) (Mapping.fwd e y)) (wave n i) - fourier (trigEval f) (wave n i),
    fun v b => ((quasi2diffmat n (Mapping.diff e) 0 (s' v))⁻¹ *ᵥ b, true)⟩, fun v => rfl, fun v _ => ⟨s' v, h1 v, h2 v, fun i j => Or.inr (norm_nonneg _), fun hreg b => ⟨?_, rfl⟩⟩⟩
  have hu : IsUnit (quasi2diffmat n (Mapping.diff e) 0 (s' v)) := by
    rw [← Matrix.mulVec_injective_iff_isUnit]
    intro x y hxy
    exact (hreg _).unique hxy rfl
  show _ *ᵥ (_ *ᵥ b) = b
  rw [mulVec_mulVec, Matrix.mul_nonsing_inv _ ((Matrix.isUnit_iff_isUnit_det _).mp hu), one_mulVec]

/-- the Euclidean norm satisfies the hypothesis on the inner product -/
example (n q : ℕ) (x : Fin n → ℂ) : Real.sqrt (∑ i, ‖x i‖ ^ 2) ≤ 1 * wnorm q x := by
  rw [one_mul]
  refine Real.sqrt_le_iff.mpr ⟨wnorm_nonneg q x, ?_⟩
  refine (Finset.sum_sq_le_sq_sum_of_nonneg fun i _ => norm_nonneg _).trans ?_
  have h : ∑ i, ‖x i‖ ≤ wnorm q x := by
    unfold wnorm
    refine sum_le_sum fun i _ => ?_
    have : (1 : ℝ) ≤ (1 + |((wave n i : ℤ) : ℝ)|) ^ q := one_le_pow₀ (by linarith [abs_nonneg ((wave n i : ℤ) : ℝ)])
    nlinarith [norm_nonneg (x i)]
  exact pow_le_pow_left₀ (sum_nonneg fun _ _ => norm_nonneg _) h 2

end Funpy.Props
