import Verif.Model.NewtonSolve
import Mathlib.Analysis.InnerProductSpace.Basic
import Mathlib.Analysis.InnerProductSpace.PiL2
import Mathlib.Analysis.Calculus.FDeriv.Comp
import Mathlib.Analysis.Calculus.FDeriv.Pow
import Mathlib.Analysis.Calculus.MeanValue
import Mathlib.Data.List.GetD

/-!
# C114: `Newton.solve`: choice of the method, local convergence
-/

namespace Funpy.Props
open Funpy Funpy.Newton Filter Topology

section Local
variable {E R : Type} [NormedAddCommGroup E] [InnerProductSpace ℝ E] [NormedAddCommGroup R] [NormedSpace ℝ R]

/-! ### Specification -/

/-- `z` is a regular zero of `F`: `F` is strictly differentiable there (for example continuously differentiable), the derivative is invertible, and
`A x`, the linearisation which the program sets up at `x`, is continuous at `z` and equals the derivative there. -/
structure RegularZero (F : E → R) (A : E → E →L[ℝ] R) (z : E) : Prop where
  zero : F z = 0
  deriv : HasStrictFDerivAt F (A z) z
  cont : ContinuousAt A z
  inv : ∃ T : E ≃L[ℝ] R, (T : E →L[ℝ] R) = A z

/-- The linear solver solves regular systems. -/
def SolvesRegular (P : Problem E R) (A : E → E →L[ℝ] R) : Prop :=
  ∀ x b, Function.Injective (A x) → A x (P.solve x b).1 = b ∧ (P.solve x b).2 = true

/-! ### The contraction -/

/-- On a ball around the zero the linear systems are regular and simplified Newton steps contract with factor `1/16`. -/
private structure Basin (F : E → R) (A : E → E →L[ℝ] R) (z : E) (r : ℝ) : Prop where
  pos : 0 < r
  inj : ∀ x ∈ Metric.ball z r, Function.Injective (A x)
  step : ∀ x ∈ Metric.ball z r, ∀ y ∈ Metric.ball z r, ∀ d, A x d = -F y → ‖y + d - z‖ ≤ 1 / 16 * ‖y - z‖
  simp : ∀ x ∈ Metric.ball z r, ∀ d, A x d = -F x → x + d ∈ Metric.ball z r → ∀ d', A x d' = -F (x + d) → ‖d'‖ ≤ 1 / 16 * ‖d‖

private lemma basin {F : E → R} {A : E → E →L[ℝ] R} {z : E} (h : RegularZero F A z) : ∃ r, Basin F A z r := by
  obtain ⟨T, hT⟩ := h.inv
  set c : ℝ := ‖(T.symm : R →L[ℝ] E)‖ + 1 with hc
  have hc0 : 0 < c := by positivity
  have hlow : ∀ v : E, ‖v‖ ≤ c * ‖A z v‖ := by
    intro v
    have h1 : T.symm (A z v) = v := by rw [← hT]; simp
    calc ‖v‖ = ‖(T.symm : R →L[ℝ] E) (A z v)‖ := by rw [ContinuousLinearEquiv.coe_coe, h1]
      _ ≤ ‖(T.symm : R →L[ℝ] E)‖ * ‖A z v‖ := ContinuousLinearMap.le_opNorm _ _
      _ ≤ c * ‖A z v‖ := by gcongr; simp [hc]
  set ε : ℝ := 1 / (64 * c) with hε
  have hε0 : 0 < ε := by positivity
  have hcε : c * ε = 1 / 64 := by rw [hε]; field_simp
  have e1 : ∀ᶠ p : E × E in 𝓝 (z, z), ‖F p.1 - F p.2 - A z (p.1 - p.2)‖ ≤ ε * ‖p.1 - p.2‖ := h.deriv.isLittleO.def hε0
  have e2 : ∀ᶠ x in 𝓝 z, ‖A x - A z‖ < ε := by
    have := Metric.continuousAt_iff'.mp h.cont ε hε0
    simpa [dist_eq_norm] using this
  rw [nhds_prod_eq] at e1
  obtain ⟨r1, hr1, k1⟩ := Metric.eventually_nhds_iff_ball.mp (show ∀ᶠ p : E × E in 𝓝 (z, z), _ by rw [nhds_prod_eq]; exact e1)
  obtain ⟨r2, hr2, k2⟩ := Metric.eventually_nhds_iff_ball.mp e2
  have k1' : ∀ x ∈ Metric.ball z (min r1 r2), ∀ y ∈ Metric.ball z (min r1 r2), ‖F x - F y - A z (x - y)‖ ≤ ε * ‖x - y‖ := by
    intro x hx y hy
    apply k1 (x, y)
    rw [Metric.mem_ball, Prod.dist_eq]
    exact max_lt (lt_of_lt_of_le hx (min_le_left _ _)) (lt_of_lt_of_le hy (min_le_left _ _))
  have k2' : ∀ x ∈ Metric.ball z (min r1 r2), ∀ v, ‖A x v - A z v‖ ≤ ε * ‖v‖ := by
    intro x hx v
    have := k2 x (Metric.ball_subset_ball (min_le_right r1 r2) hx)
    calc ‖A x v - A z v‖ = ‖(A x - A z) v‖ := by simp
      _ ≤ ‖A x - A z‖ * ‖v‖ := ContinuousLinearMap.le_opNorm _ _
      _ ≤ ε * ‖v‖ := by gcongr
  -- lower bound for the linearisations
  have low : ∀ x ∈ Metric.ball z (min r1 r2), ∀ v, 63 / 64 * ‖v‖ ≤ c * ‖A x v‖ := by
    intro x hx v
    have h1 := hlow v
    have h2 := k2' x hx v
    have h3 : ‖A z v‖ ≤ ‖A x v‖ + ε * ‖v‖ := by
      calc ‖A z v‖ = ‖A x v - (A x v - A z v)‖ := by congr 1; abel
        _ ≤ ‖A x v‖ + ‖A x v - A z v‖ := norm_sub_le _ _
        _ ≤ _ := by gcongr
    have h4 : c * ‖A z v‖ ≤ c * ‖A x v‖ + 1 / 64 * ‖v‖ := by
      calc c * ‖A z v‖ ≤ c * (‖A x v‖ + ε * ‖v‖) := by gcongr
        _ = c * ‖A x v‖ + (c * ε) * ‖v‖ := by ring
        _ = _ := by rw [hcε]
    linarith
  have main : ∀ x ∈ Metric.ball z (min r1 r2), ∀ v w : E, ‖A x v‖ ≤ 2 * ε * ‖w‖ → ‖v‖ ≤ 1 / 16 * ‖w‖ := by
    intro x hx v w hv
    have h1 := low x hx v
    have h2 : c * ‖A x v‖ ≤ 1 / 32 * ‖w‖ := by
      calc c * ‖A x v‖ ≤ c * (2 * ε * ‖w‖) := by gcongr
        _ = 2 * (c * ε) * ‖w‖ := by ring
        _ = _ := by rw [hcε]; ring
    have := norm_nonneg w
    linarith
  refine ⟨min r1 r2, lt_min hr1 hr2, ?_, ?_, ?_⟩
  · intro x hx
    refine (injective_iff_map_eq_zero (A x)).mpr fun v hv => ?_
    have := low x hx v
    rw [hv, norm_zero, mul_zero] at this
    have h0 := norm_nonneg v
    exact norm_eq_zero.mp (by linarith)
  · intro x hx y hy d hd
    apply main x hx
    have hz : z ∈ Metric.ball z (min r1 r2) := Metric.mem_ball_self (lt_min hr1 hr2)
    have e : A x (y + d - z) = (A x (y - z) - A z (y - z)) - (F y - F z - A z (y - z)) := by
      rw [h.zero, show y + d - z = (y - z) + d by abel, map_add, hd]
      abel
    rw [e]
    calc _ ≤ ‖A x (y - z) - A z (y - z)‖ + ‖F y - F z - A z (y - z)‖ := norm_sub_le _ _
      _ ≤ ε * ‖y - z‖ + ε * ‖y - z‖ := add_le_add (k2' x hx _) (k1' y hy z hz)
      _ = _ := by ring
  · intro x hx d hd hxd d' hd'
    apply main x hx
    have e : A x d' = (A x d - A z d) - (F (x + d) - F x - A z ((x + d) - x)) := by
      rw [hd', show (x + d) - x = d by abel, hd]
      abel
    rw [e]
    calc _ ≤ ‖A x d - A z d‖ + ‖F (x + d) - F x - A z ((x + d) - x)‖ := norm_sub_le _ _
      _ ≤ ε * ‖d‖ + ε * ‖(x + d) - x‖ := add_le_add (k2' x hx _) (k1' _ hxd x hx)
      _ = _ := by rw [show (x + d) - x = d by abel]; ring

private lemma nrm_eq (x : E) : nrm (fun x y : E => inner ℝ x y) x = ‖x‖ := by
  rw [nrm, ← norm_eq_sqrt_real_inner]

private lemma mem_of {z y y' : E} {r : ℝ} (hy : y ∈ Metric.ball z r) (h : ‖y' - z‖ ≤ 1 / 16 * ‖y - z‖) : y' ∈ Metric.ball z r := by
  rw [Metric.mem_ball, dist_eq_norm] at *
  have := norm_nonneg (y - z)
  linarith

private lemma err_le {z x d : E} {t : ℝ} (h : ‖x + d - z‖ ≤ 1 / 16 * ‖x - z‖) (hd : ‖d‖ ≤ t) : ‖x + d - z‖ ≤ t := by
  have h1 : ‖x - z‖ ≤ ‖x + d - z‖ + ‖d‖ := by
    calc ‖x - z‖ = ‖(x + d - z) - d‖ := by congr 1; abel
      _ ≤ _ := norm_sub_le _ _
  have := norm_nonneg (x + d - z)
  linarith

private lemma corr_le {z x d : E} (h : ‖x + d - z‖ ≤ 1 / 16 * ‖x - z‖) : ‖d‖ ≤ 2 * ‖x - z‖ := by
  have h1 : ‖d‖ ≤ ‖x + d - z‖ + ‖x - z‖ := by
    calc ‖d‖ = ‖(x + d - z) - (x - z)‖ := by congr 1; abel
      _ ≤ _ := norm_sub_le _ _
  have := norm_nonneg (x - z)
  linarith

/-- The standard loop from inside the basin -/
private lemma standard_conv {P : Problem E R} {A : E → E →L[ℝ] R} {z : E} {r : ℝ} (hb : Basin P.F A z r) (hs : SolvesRegular P A)
    (tol : ℝ) (debug : Bool) (miter : ℕ) :
    ∀ (n k neval : ℕ) (x : E) (nd : ℝ) (sys : Option E), x ∈ Metric.ball z r → 2 * ((1 / 16) ^ n * ‖x - z‖) ≤ tol → k + n < miter →
      ∃ q, standardLoop P (fun x y => inner ℝ x y) (fun _ _ _ _ => true) tol debug miter k neval x nd sys = .ok q ∧
        q.success = true ∧ ‖q.x - z‖ ≤ tol ∧ q.k ≤ k + n + 1 := by
  intro n
  induction n with
  | zero =>
    intro k neval x nd sys hx ht hk
    obtain ⟨h1, h2⟩ := hs x (-P.F x) (hb.inj x hx)
    have hst := hb.step x hx x hx _ h1
    have hd : ‖(P.solve x (-P.F x)).1‖ ≤ tol := by
      refine (corr_le hst).trans ?_
      simpa using ht
    rw [standardLoop, dif_neg (by omega)]
    simp only [h2, nrm_eq]
    refine ⟨_, by rw [if_neg (by simp), if_pos hd], rfl, err_le hst hd, by simp⟩
  | succ n ih =>
    intro k neval x nd sys hx ht hk
    obtain ⟨h1, h2⟩ := hs x (-P.F x) (hb.inj x hx)
    have hst := hb.step x hx x hx _ h1
    rw [standardLoop, dif_neg (by omega)]
    simp only [h2, nrm_eq]
    by_cases hd : ‖(P.solve x (-P.F x)).1‖ ≤ tol
    · refine ⟨_, by rw [if_neg (by simp), if_pos hd], rfl, err_le hst hd, by simp⟩
    · rw [if_neg (by simp), if_neg hd, if_neg (by simp)]
      obtain ⟨q, a, b, c, d⟩ := ih (k + 1) (neval + 1) (x + (P.solve x (-P.F x)).1) ‖(P.solve x (-P.F x)).1‖ (some x)
        (mem_of hx hst) (by
          refine le_trans ?_ ht
          rw [pow_succ, mul_assoc]
          gcongr) (by omega)
      exact ⟨q, a, b, c, by omega⟩

/-- How many steps are enough -/
private lemma steps (tol r : ℝ) (ht : 0 < tol) : ∃ n : ℕ, 2 * ((1 / 16) ^ n * r) ≤ tol := by
  have : Tendsto (fun n : ℕ => 2 * ((1 / 16 : ℝ) ^ n * r)) atTop (𝓝 (2 * (0 * r))) :=
    ((tendsto_pow_atTop_nhds_zero_of_lt_one (by norm_num) (by norm_num)).mul_const r).const_mul 2
  rw [zero_mul, mul_zero] at this
  exact ((this.eventually (ge_mem_nhds ht)).exists)

/-- C114: with the method `lu` (newton_standard), started close enough to a regular zero and allowed enough iterations, `Newton.solve` reports success and
returns a point whose distance to the zero is at most the tolerance. -/
theorem C114_converges_lu (P : Problem E R) (I : InexactProblem E R) (A : E → E →L[ℝ] R) (z : E) (hz : RegularZero P.F A z)
    (hs : SolvesRegular P A) :
    ∃ r > 0, ∀ tol > 0, ∃ K : ℕ, ∀ (c : SolveArgs) (fuel : ℕ) (method : String) (x : E), c.tol = tol → K ≤ c.miter → method.toLower = "lu" →
      ‖x - z‖ < r → ∃ q, newtonSolve P I (fun x y => inner ℝ x y) c fuel method x = .ok q ∧ q.success = true ∧ ‖q.x - z‖ ≤ tol ∧ q.k ≤ K := by
  obtain ⟨r, hb⟩ := basin hz
  refine ⟨r, hb.pos, fun tol ht => ?_⟩
  obtain ⟨n, hn⟩ := steps tol r ht
  refine ⟨n + 1, fun c fuel method x hc hm hl hx => ?_⟩
  have hx' : x ∈ Metric.ball z r := by rw [Metric.mem_ball, dist_eq_norm]; exact hx
  obtain ⟨q, h1, h2, h3, h4⟩ := standard_conv hb hs tol c.debug c.miter n 0 0 x 0 none hx' (by
    refine le_trans ?_ hn
    gcongr) (by omega)
  refine ⟨q, ?_, h2, h3, by omega⟩
  rw [newtonSolve]
  simp only [hl]
  have ha : algo "lu" = .standard := by decide
  have hst : setup "lu" = .ok () := rfl
  rw [ha, hst, hc, newtonStandard, h1]
  simp only []
  rw [if_neg (by simp; omega)]
  rfl

/-! ### The quasi-Newton steps -/

/-- A regular zero near which `F` is differentiable with a derivative that is Lipschitz continuous at the zero, and the linear systems are set
up with this derivative. -/
structure SmoothZero (F : E → R) (A : E → E →L[ℝ] R) (z : E) : Prop where
  zero : F z = 0
  near : ∃ ρ > 0, ∃ L : ℝ, ∀ x ∈ Metric.ball z ρ, HasFDerivAt F (A x) x ∧ ‖A x - A z‖ ≤ L * ‖x - z‖
  inv : ∃ T : E ≃L[ℝ] R, (T : E →L[ℝ] R) = A z

/-- Quantitative version -/
private structure QBasin (F : E → R) (A : E → E →L[ℝ] R) (z : E) (r c L : ℝ) : Prop where
  c0 : 0 < c
  L0 : 0 ≤ L
  small : 192 * (c * (L * r)) ≤ 1
  low : ∀ v : E, ‖v‖ ≤ c * ‖A z v‖
  lip : ∀ x ∈ Metric.ball z r, ‖A x - A z‖ ≤ L * ‖x - z‖
  quad : ∀ x ∈ Metric.ball z r, ∀ y ∈ Metric.ball z r, ‖y - z‖ ≤ ‖x - z‖ → ‖F y - F x - A z (y - x)‖ ≤ L * ‖x - z‖ * ‖y - x‖

private lemma SmoothZero.regular {F : E → R} {A : E → E →L[ℝ] R} {z : E} (h : SmoothZero F A z) : RegularZero F A z := by
  obtain ⟨ρ, hρ, L, hL⟩ := h.near
  have hc : ContinuousAt A z := by
    rw [ContinuousAt, tendsto_iff_norm_sub_tendsto_zero]
    have h1 : Tendsto (fun x => L * ‖x - z‖) (𝓝 z) (𝓝 0) := by
      have : Tendsto (fun x : E => L * ‖x - z‖) (𝓝 z) (𝓝 (L * ‖z - z‖)) := by
        apply Continuous.tendsto
        fun_prop
      simpa using this
    refine squeeze_zero' (Eventually.of_forall fun x => norm_nonneg _) ?_ h1
    filter_upwards [Metric.ball_mem_nhds z hρ] with x hx using (hL x hx).2
  refine ⟨h.zero, ?_, hc, h.inv⟩
  refine hasStrictFDerivAt_of_hasFDerivAt_of_continuousAt ?_ hc
  filter_upwards [Metric.ball_mem_nhds z hρ] with x hx using (hL x hx).1

private lemma Basin.mono {F : E → R} {A : E → E →L[ℝ] R} {z : E} {r r' : ℝ} (h : Basin F A z r) (h0 : 0 < r') (hr : r' ≤ r) : Basin F A z r' := by
  have hsub : ∀ x, x ∈ Metric.ball z r' → x ∈ Metric.ball z r := fun x hx => Metric.ball_subset_ball hr hx
  exact ⟨h0, fun x hx => h.inj x (hsub x hx), fun x hx y hy => h.step x (hsub x hx) y (hsub y hy),
    fun x hx d hd hxd => h.simp x (hsub x hx) d hd (hsub _ hxd)⟩

private lemma qbasin {F : E → R} {A : E → E →L[ℝ] R} {z : E} (h : SmoothZero F A z) : ∃ r c L, Basin F A z r ∧ QBasin F A z r c L := by
  obtain ⟨r1, hb⟩ := basin h.regular
  obtain ⟨ρ, hρ, L', hL'⟩ := h.near
  obtain ⟨T, hT⟩ := h.inv
  set c : ℝ := ‖(T.symm : R →L[ℝ] E)‖ + 1 with hc
  have hc0 : 0 < c := by positivity
  set L : ℝ := max L' 0 with hL
  have hL0 : 0 ≤ L := le_max_right _ _
  set r : ℝ := min (min r1 ρ) (1 / (192 * (c * (L + 1)))) with hr
  have hr0 : 0 < r := lt_min (lt_min hb.pos hρ) (by positivity)
  have hrr1 : r ≤ r1 := (min_le_left _ _).trans (min_le_left _ _)
  have hrρ : r ≤ ρ := (min_le_left _ _).trans (min_le_right _ _)
  have lip : ∀ x ∈ Metric.ball z r, ‖A x - A z‖ ≤ L * ‖x - z‖ := by
    intro x hx
    refine ((hL' x (Metric.ball_subset_ball hrρ hx)).2).trans ?_
    gcongr
    exact le_max_left _ _
  refine ⟨r, c, L, hb.mono hr0 hrr1, hc0, hL0, ?_, ?_, lip, ?_⟩
  · have h1 : r ≤ 1 / (192 * (c * (L + 1))) := min_le_right _ _
    rw [le_div_iff₀ (by positivity)] at h1
    calc 192 * (c * (L * r)) ≤ 192 * (c * ((L + 1) * r)) := by gcongr; linarith
      _ = r * (192 * (c * (L + 1))) := by ring
      _ ≤ 1 := h1
  · intro v
    have h1 : T.symm (A z v) = v := by rw [← hT]; simp
    calc ‖v‖ = ‖(T.symm : R →L[ℝ] E) (A z v)‖ := by rw [ContinuousLinearEquiv.coe_coe, h1]
      _ ≤ ‖(T.symm : R →L[ℝ] E)‖ * ‖A z v‖ := ContinuousLinearMap.le_opNorm _ _
      _ ≤ c * ‖A z v‖ := by gcongr; simp [hc]
  · intro x hx y hy hyx
    have hsub : ∀ w ∈ Metric.closedBall z ‖x - z‖, w ∈ Metric.ball z r := by
      intro w hw
      rw [Metric.mem_closedBall] at hw
      rw [Metric.mem_ball, dist_eq_norm] at hx
      exact Metric.mem_ball.mpr (lt_of_le_of_lt hw hx)
    refine Convex.norm_image_sub_le_of_norm_hasFDerivWithin_le' (s := Metric.closedBall z ‖x - z‖) (f' := A) (φ := A z)
      (fun w hw => ((hL' w (Metric.ball_subset_ball hrρ (hsub w hw))).1).hasFDerivWithinAt) (fun w hw => ?_) (convex_closedBall _ _) ?_ ?_
    · refine (lip w (hsub w hw)).trans ?_
      rw [Metric.mem_closedBall, dist_eq_norm] at hw
      gcongr
    · rw [Metric.mem_closedBall, dist_eq_norm]
    · rw [Metric.mem_closedBall, dist_eq_norm]; exact hyx

/-- The Broyden update `B + f sᵀ / σ` -/
private noncomputable def upd (B : E →L[ℝ] R) (f : R) (s : E) (σ : ℝ) : E →L[ℝ] R :=
  B + ((1 / σ) • (innerSL ℝ s)).smulRight f

private lemma upd_apply (B : E →L[ℝ] R) (f : R) (s u : E) (σ : ℝ) : upd B f s σ u = B u + (inner ℝ s u / σ) • f := by
  simp [upd, div_eq_inv_mul]

private lemma proj_le (s u : E) {σ : ℝ} (h0 : 0 < σ) (hσ : ‖s‖ ^ 2 ≤ σ) : ‖u - (inner ℝ s u / σ) • s‖ ≤ ‖u‖ := by
  rw [← sq_le_sq₀ (norm_nonneg _) (norm_nonneg _), norm_sub_sq_real, inner_smul_right, norm_smul, Real.norm_eq_abs, mul_pow, sq_abs, real_inner_comm s u]
  have h1 : (inner ℝ s u / σ) ^ 2 * ‖s‖ ^ 2 ≤ (inner ℝ s u / σ) ^ 2 * σ := by gcongr
  have h2 : (inner ℝ s u / σ) ^ 2 * σ = inner ℝ s u / σ * inner ℝ s u := by field_simp
  have h3 : 0 ≤ inner ℝ s u / σ * inner ℝ s u := by
    rw [div_mul_eq_mul_div]
    exact div_nonneg (mul_self_nonneg _) h0.le
  linarith

private lemma getD_app_last {α : Type} (l : List α) (a x : α) (k : ℕ) (h : l.length = k + 1) : (l ++ [a]).getD k x = l.getD k x := by
  rw [List.getD_append _ _ _ _ (by omega)]

private lemma qnUpdate_app (ip : E → E → ℝ) (dxs : List E) (sg : List ℝ) (d : E) (g : ℝ) (k : ℕ) (h1 : dxs.length = k + 1) (h2 : sg.length = k + 1) (v : E) :
    qnUpdate ip (dxs ++ [d]) (sg ++ [g]) v =
      qnUpdate ip dxs sg v + (ip (qnUpdate ip dxs sg v) (dxs.getD k 0) / sg.getD k 0) • d := by
  unfold qnUpdate
  rw [List.length_append, h1]
  simp only [List.length_cons, List.length_nil, Nat.zero_add, Nat.add_sub_cancel]
  rw [List.range_succ, List.foldl_append]
  have hf : ∀ (l : List ℕ) (w : E), (∀ i ∈ l, i < k) →
      l.foldl (fun v i => v + (ip v ((dxs ++ [d]).getD i 0) / (sg ++ [g]).getD i 0) • (dxs ++ [d]).getD (i + 1) 0) w =
      l.foldl (fun v i => v + (ip v (dxs.getD i 0) / sg.getD i 0) • dxs.getD (i + 1) 0) w := by
    intro l
    induction l with
    | nil => intros; rfl
    | cons i l ih =>
      intro w hl
      have hi := hl i (by simp)
      simp only [List.foldl_cons]
      rw [List.getD_append _ _ _ i (by omega), List.getD_append _ _ _ i (by omega), List.getD_append _ _ _ (i + 1) (by omega)]
      exact ih _ fun j hj => hl j (by simp [hj])
  rw [hf (List.range k) v (fun i hi => List.mem_range.mp hi)]
  simp only [List.foldl_cons, List.foldl_nil]
  rw [getD_app_last dxs d 0 k h1, getD_app_last sg g 0 k h2]
  congr 2
  rw [List.getD_append_right _ _ _ _ (by omega), h1]
  simp

/-- What holds before a quasi-Newton step from `p` by `s`: `B` is the present approximation of the derivative -/
private structure QInv (P : Problem E R) (A : E → E →L[ℝ] R) (z : E) (r c L : ℝ) (x0 : E) (k : ℕ) (p s : E) (σ : ℝ) (dxs : List E)
    (sg : List ℝ) (B : E →L[ℝ] R) : Prop where
  hp : p ∈ Metric.ball z r
  ld : dxs.length = k + 1
  ls : sg.length = k + 1
  hs : dxs.getD k 0 = s
  hsg : sg.getD k 0 = σ
  hσ : ‖s‖ ^ 2 ≤ σ
  inv : ∀ b, B (qnUpdate (fun x y => inner ℝ x y) dxs sg (P.solve x0 b).1) = b
  step : B s = -P.F p
  near : 64 * (c * (‖B - A z‖ + 2 * L * ‖p - z‖)) ≤ 1

section
variable {P : Problem E R} {A : E → E →L[ℝ] R} {z : E} {r c L : ℝ} {x0 : E} {k : ℕ} {p s : E} {σ : ℝ} {dxs : List E} {sg : List ℝ} {B : E →L[ℝ] R}

private lemma blow (hq : QBasin P.F A z r c L) (h : QInv P A z r c L x0 k p s σ dxs sg B) (v w : E)
    (hv : ‖B v‖ ≤ (‖B - A z‖ + L * ‖p - z‖) * ‖w‖) : ‖v‖ ≤ 1 / 16 * ‖w‖ := by
  have h1 := hq.low v
  have h2 : ‖A z v‖ ≤ ‖B v‖ + ‖B - A z‖ * ‖v‖ := by
    calc ‖A z v‖ = ‖B v - (B - A z) v‖ := by congr 1; simp
      _ ≤ ‖B v‖ + ‖(B - A z) v‖ := norm_sub_le _ _
      _ ≤ _ := by gcongr; exact ContinuousLinearMap.le_opNorm _ _
  have hc := hq.c0
  have hn := h.near
  have hLp : 0 ≤ L * ‖p - z‖ := mul_nonneg hq.L0 (norm_nonneg _)
  have hB := norm_nonneg (B - A z)
  have k1 : c * ‖B - A z‖ ≤ 1 / 64 := by nlinarith
  have k2 : c * (‖B - A z‖ + L * ‖p - z‖) ≤ 1 / 64 := by nlinarith
  have k3 : ‖v‖ ≤ c * ‖B v‖ + 1 / 64 * ‖v‖ := by
    calc ‖v‖ ≤ c * ‖A z v‖ := h1
      _ ≤ c * (‖B v‖ + ‖B - A z‖ * ‖v‖) := by gcongr
      _ = c * ‖B v‖ + (c * ‖B - A z‖) * ‖v‖ := by ring
      _ ≤ _ := by gcongr
  have k4 : c * ‖B v‖ ≤ 1 / 64 * ‖w‖ := by
    calc c * ‖B v‖ ≤ c * ((‖B - A z‖ + L * ‖p - z‖) * ‖w‖) := by gcongr
      _ = (c * (‖B - A z‖ + L * ‖p - z‖)) * ‖w‖ := by ring
      _ ≤ _ := by gcongr
  have := norm_nonneg w
  linarith

private lemma qstep (h0 : P.F z = 0) (hr : 0 < r) (hq : QBasin P.F A z r c L) (h : QInv P A z r c L x0 k p s σ dxs sg B) :
    ‖p + s - z‖ ≤ 1 / 16 * ‖p - z‖ := by
  apply blow hq h
  have hz : z ∈ Metric.ball z r := Metric.mem_ball_self hr
  have e : B (p + s - z) = (B - A z) (p - z) + (P.F z - P.F p - A z (z - p)) := by
    rw [show p + s - z = (p - z) + s by abel, map_add, h.step, h0, show z - p = -(p - z) by abel, map_neg]
    simp only [map_sub, sub_apply]
    abel
  rw [e]
  have hqz := hq.quad p h.hp z hz (by simp)
  rw [norm_sub_rev z p] at hqz
  calc _ ≤ ‖(B - A z) (p - z)‖ + ‖P.F z - P.F p - A z (z - p)‖ := norm_add_le _ _
    _ ≤ ‖B - A z‖ * ‖p - z‖ + L * ‖p - z‖ * ‖p - z‖ := add_le_add (ContinuousLinearMap.le_opNorm _ _) hqz
    _ = _ := by ring

/-- The next step -/
private lemma qnext (h0 : P.F z = 0) (hr : 0 < r) (hq : QBasin P.F A z r c L) (h : QInv P A z r c L x0 k p s σ dxs sg B) (hs : s ≠ 0) :
    let v := qnUpdate (fun x y => inner ℝ x y) dxs sg (P.solve x0 (-P.F (p + s))).1
    let d := (1 / (1 - inner ℝ v s / σ)) • v
    ‖v‖ ≤ 1 / 16 * ‖s‖ ∧ ∃ B', QInv P A z r c L x0 (k + 1) (p + s) d (‖d‖ ^ 2) (dxs ++ [d]) (sg ++ [inner ℝ d d]) B' := by
  intro v d
  have hst := qstep h0 hr hq h
  have hy := mem_of h.hp hst
  have hyp : ‖p + s - z‖ ≤ ‖p - z‖ := by
    have := norm_nonneg (p - z)
    linarith
  have hqq := hq.quad p h.hp (p + s) hy hyp
  rw [show p + s - p = s by abel] at hqq
  have hBv : B v = -P.F (p + s) := h.inv _
  have hs0 : 0 < ‖s‖ := norm_pos_iff.mpr hs
  have hσ0 : 0 < σ := lt_of_lt_of_le (by positivity) h.hσ
  have hv : ‖v‖ ≤ 1 / 16 * ‖s‖ := by
    apply blow hq h
    have e : B v = -((P.F (p + s) - P.F p - A z s) - (B - A z) s) := by
      rw [hBv]
      simp only [sub_apply, h.step]
      abel
    rw [e, norm_neg]
    calc _ ≤ ‖P.F (p + s) - P.F p - A z s‖ + ‖(B - A z) s‖ := norm_sub_le _ _
      _ ≤ L * ‖p - z‖ * ‖s‖ + ‖B - A z‖ * ‖s‖ := add_le_add hqq (ContinuousLinearMap.le_opNorm _ _)
      _ = _ := by ring
  set a : ℝ := inner ℝ v s / σ with ha
  have ha1 : a ≤ 1 / 16 := by
    rw [ha, div_le_iff₀ hσ0]
    calc inner ℝ v s ≤ ‖v‖ * ‖s‖ := real_inner_le_norm v s
      _ ≤ (1 / 16 * ‖s‖) * ‖s‖ := by gcongr
      _ = 1 / 16 * ‖s‖ ^ 2 := by ring
      _ ≤ _ := by gcongr; exact h.hσ
  have ha0 : (1 - a) ≠ 0 := by linarith
  have hvd : v = (1 - a) • d := by
    simp only [d]
    rw [smul_smul, mul_one_div_cancel ha0, one_smul]
  have hsd : inner ℝ s d / σ = a / (1 - a) := by
    simp only [d]
    rw [inner_smul_right, real_inner_comm v s, ha]
    ring
  have hBd : B d = -((1 / (1 - a)) • P.F (p + s)) := by
    simp only [d]
    rw [map_smul, hBv, smul_neg]
  refine ⟨hv, upd B (P.F (p + s)) s σ, hy, by simp [h.ld], by simp [h.ls], ?_, ?_, le_rfl, ?_, ?_, ?_⟩
  · rw [List.getD_append_right _ _ _ _ (by rw [h.ld]), h.ld]
    simp
  · rw [List.getD_append_right _ _ _ _ (by rw [h.ls]), h.ls]
    simp
  · intro b
    rw [qnUpdate_app _ dxs sg d _ k h.ld h.ls, h.hs, h.hsg, upd_apply]
    set w := qnUpdate (fun x y => inner ℝ x y) dxs sg (P.solve x0 b).1 with hw
    rw [map_add, h.inv b, map_smul, hBd, inner_add_right, inner_smul_right, add_div, mul_div_assoc, hsd, real_inner_comm w s]
    have e : inner ℝ w s / σ + inner ℝ w s / σ * (a / (1 - a)) = inner ℝ w s / σ * (1 / (1 - a)) := by
      field_simp
      ring
    rw [e, smul_neg, smul_smul]
    abel
  · rw [upd_apply, hBd, hsd, ← sub_eq_zero, sub_neg_eq_add]
    have : -((1 / (1 - a)) • P.F (p + s)) + (a / (1 - a)) • P.F (p + s) + P.F (p + s) =
        (-(1 / (1 - a)) + a / (1 - a) + 1) • P.F (p + s) := by
      rw [add_smul, add_smul, neg_smul, one_smul]
    rw [this]
    have : -(1 / (1 - a)) + a / (1 - a) + 1 = 0 := by field_simp; ring
    rw [this, zero_smul]
  · have hn : ‖upd B (P.F (p + s)) s σ - A z‖ ≤ ‖B - A z‖ + L * ‖p - z‖ := by
      have hb0 : 0 ≤ ‖B - A z‖ + L * ‖p - z‖ := add_nonneg (norm_nonneg _) (mul_nonneg hq.L0 (norm_nonneg _))
      refine ContinuousLinearMap.opNorm_le_bound _ hb0 fun u => ?_
      have e : (upd B (P.F (p + s)) s σ - A z) u = (B - A z) (u - (inner ℝ s u / σ) • s) +
          (inner ℝ s u / σ) • (P.F (p + s) - P.F p - A z s) := by
        simp only [sub_apply, upd_apply, map_sub, map_smul, h.step, smul_sub, smul_neg]
        abel
      rw [e]
      have hi : ‖inner ℝ s u / σ‖ ≤ ‖u‖ / ‖s‖ := by
        rw [norm_div, Real.norm_eq_abs, Real.norm_eq_abs, abs_of_pos hσ0]
        rw [div_le_div_iff₀ hσ0 hs0]
        calc |inner ℝ s u| * ‖s‖ ≤ (‖s‖ * ‖u‖) * ‖s‖ := by gcongr; exact abs_real_inner_le_norm s u
          _ = ‖u‖ * ‖s‖ ^ 2 := by ring
          _ ≤ _ := by gcongr; exact h.hσ
      calc _ ≤ ‖(B - A z) (u - (inner ℝ s u / σ) • s)‖ + ‖(inner ℝ s u / σ) • (P.F (p + s) - P.F p - A z s)‖ := norm_add_le _ _
        _ ≤ ‖B - A z‖ * ‖u‖ + (‖u‖ / ‖s‖) * (L * ‖p - z‖ * ‖s‖) := by
            refine add_le_add ((ContinuousLinearMap.le_opNorm _ _).trans ?_) ?_
            · gcongr
              exact proj_le s u hσ0 h.hσ
            · rw [norm_smul]
              gcongr
        _ = _ := by field_simp
    have hLp : 0 ≤ L * ‖p - z‖ := mul_nonneg hq.L0 (norm_nonneg _)
    have h1 : L * ‖p + s - z‖ ≤ 1 / 16 * (L * ‖p - z‖) := by
      calc L * ‖p + s - z‖ ≤ L * (1 / 16 * ‖p - z‖) := mul_le_mul_of_nonneg_left hst hq.L0
        _ = _ := by ring
    refine le_trans ?_ h.near
    have : ‖upd B (P.F (p + s)) s σ - A z‖ + 2 * L * ‖p + s - z‖ ≤ ‖B - A z‖ + 2 * L * ‖p - z‖ := by nlinarith
    have hc := hq.c0
    gcongr

end

/-- The quasi-Newton loop inside the basin, with the step `s` from `p` still to be added -/
private lemma qn_conv {P : Problem E R} {A : E → E →L[ℝ] R} {z : E} {r c L : ℝ} (h0 : P.F z = 0) (hr : 0 < r) (hq : QBasin P.F A z r c L)
    {x0 : E} (hsol : ∀ b, (P.solve x0 b).2 = true) (tol thetaMax : ℝ) (ht : 0 < tol) (itr miter neval : ℕ) :
    ∀ (n k : ℕ) (p s : E) (dxs : List E) (sg : List ℝ) (B : E →L[ℝ] R) (nd : ℝ), QInv P A z r c L x0 k p s (‖s‖ ^ 2) dxs sg B →
      2 * ((1 / 16) ^ n * ‖p - z‖) ≤ tol →
      let q := qnerrLoop P (fun x y => inner ℝ x y) (fun _ _ _ _ => true) tol thetaMax itr miter x0 neval k false p dxs sg nd
      ‖q.x - z‖ ≤ ‖p - z‖ ∧ q.k ≤ k + n + 1 := by
  have base : ∀ (k : ℕ) (p s : E) (dxs : List E) (sg : List ℝ) (B : E →L[ℝ] R) (nd : ℝ), QInv P A z r c L x0 k p s (‖s‖ ^ 2) dxs sg B → ‖s‖ ≤ tol →
      let q := qnerrLoop P (fun x y => inner ℝ x y) (fun _ _ _ _ => true) tol thetaMax itr miter x0 neval k false p dxs sg nd
      ‖q.x - z‖ ≤ ‖p - z‖ ∧ q.k ≤ k + 1 := by
    intro k p s dxs sg B nd h hsn
    have hst := qstep h0 hr hq h
    have hle : ‖p + s - z‖ ≤ ‖p - z‖ := by
      have := norm_nonneg (p - z)
      linarith
    have hc : sg.getD k 0 ≤ tol * tol := by
      rw [h.hsg, pow_two]
      exact mul_self_le_mul_self (norm_nonneg _) hsn
    rw [qnerrLoop]
    by_cases hk : miter < k
    · rw [dif_pos hk]
      exact ⟨le_rfl, by simp⟩
    · rw [dif_neg hk, if_pos (show _ ∧ _ from ⟨rfl, hc⟩)]
      simp only [h.hs]
      exact ⟨hle, le_rfl⟩
  intro n
  induction n with
  | zero =>
    intro k p s dxs sg B nd h hn
    exact base k p s dxs sg B nd h ((corr_le (qstep h0 hr hq h)).trans (by simpa using hn))
  | succ n ih =>
    intro k p s dxs sg B nd h hn
    by_cases hsn : ‖s‖ ≤ tol
    · obtain ⟨a, b⟩ := base k p s dxs sg B nd h hsn
      exact ⟨a, by omega⟩
    have hst := qstep h0 hr hq h
    have hle : ‖p + s - z‖ ≤ ‖p - z‖ := by
      have := norm_nonneg (p - z)
      linarith
    have hs0 : s ≠ 0 := by
      rintro rfl
      rw [norm_zero] at hsn
      linarith
    obtain ⟨-, B', hB'⟩ := qnext h0 hr hq h hs0
    have hnx : 2 * ((1 / 16) ^ n * ‖p + s - z‖) ≤ tol := by
      refine le_trans ?_ hn
      rw [pow_succ, mul_assoc]
      gcongr
    rw [qnerrLoop]
    by_cases hk : miter < k
    · rw [dif_pos hk]
      exact ⟨le_rfl, by simp only []; omega⟩
    rw [dif_neg hk]
    by_cases hc : sg.getD k 0 ≤ tol * tol
    · rw [if_pos (show _ ∧ _ from ⟨rfl, hc⟩)]
      simp only [h.hs]
      exact ⟨hle, by simp⟩
    rw [if_neg (fun h => hc h.2)]
    simp only [h.hs, h.hsg, hsol, Bool.true_eq_false, Bool.false_eq_true, if_false, or_false]
    split_ifs
    · exact ⟨hle, by simp⟩
    · obtain ⟨a, b⟩ := ih (k + 1) (p + s) _ _ _ B' _ hB' hnx
      exact ⟨a.trans hle, le_trans b (by omega)⟩

/-- `qnerr` as called from `nleq_err`, inside the basin -/
private lemma qn_called {P : Problem E R} {A : E → E →L[ℝ] R} {z : E} {r c L : ℝ} (h0 : P.F z = 0) (hr : 0 < r) (hb : Basin P.F A z r)
    (hq : QBasin P.F A z r c L) (hs : SolvesRegular P A) {x0 s : E} (hx : x0 ∈ Metric.ball z r) (hd : A x0 s = -P.F x0) (hs0 : s ≠ 0) (tol thetaMax : ℝ)
    (ht : 0 < tol) (itr miter n : ℕ) (hn : 2 * ((1 / 16) ^ n * ‖x0 + s - z‖) ≤ tol) :
    let q := qnerrCalled P (fun x y => inner ℝ x y) (fun _ _ _ _ => true) tol thetaMax itr miter x0 (x0 + s) s
    ‖q.x - z‖ ≤ ‖x0 + s - z‖ ∧ q.k ≤ n + 2 := by
  intro q
  have hsol : ∀ b, (P.solve x0 b).2 = true := fun b => (hs x0 b (hb.inj x0 hx)).2
  have hi : QInv P A z r c L x0 0 x0 s (‖s‖ ^ 2) [s] [‖s‖ ^ 2] (A x0) := by
    refine ⟨hx, rfl, rfl, rfl, rfl, le_rfl, fun b => ?_, hd, ?_⟩
    · simpa [qnUpdate] using (hs x0 b (hb.inj x0 hx)).1
    · have h1 := hq.lip x0 hx
      have h2 : ‖x0 - z‖ ≤ r := by
        rw [Metric.mem_ball, dist_eq_norm] at hx
        exact hx.le
      have hc := hq.c0
      have hL := hq.L0
      calc 64 * (c * (‖A x0 - A z‖ + 2 * L * ‖x0 - z‖)) ≤ 64 * (c * (L * ‖x0 - z‖ + 2 * L * ‖x0 - z‖)) := by gcongr
        _ = 192 * (c * (L * ‖x0 - z‖)) := by ring
        _ ≤ 192 * (c * (L * r)) := by gcongr
        _ ≤ 1 := hq.small
  obtain ⟨-, B', hB'⟩ := qnext h0 hr hq hi hs0
  have e : q = qnerrLoop P (fun x y => inner ℝ x y) (fun _ _ _ _ => true) tol thetaMax itr miter x0 0 0 true (x0 + s) [s] [‖s‖ ^ 2] ‖s‖ := by
    simp only [q, qnerrCalled, nrm_eq]
  rw [e, qnerrLoop, dif_neg (by omega), if_neg (by simp)]
  simp only [hsol, if_true, List.getD_cons_zero, Bool.true_eq_false, Bool.false_eq_true, if_false, or_false]
  split_ifs
  · exact ⟨le_rfl, by simp⟩
  · obtain ⟨a, b⟩ := qn_conv h0 hr hq hsol tol thetaMax ht itr miter 0 n 1 (x0 + s) _ _ _ B' _ hB' hn
    exact ⟨a, le_trans b (by omega)⟩

/-- The stand-alone quasi-Newton loop inside the basin: it converges if the contraction bound allows it -/
private lemma qn_succ {P : Problem E R} {A : E → E →L[ℝ] R} {z : E} {r c L : ℝ} (h0 : P.F z = 0) (hr : 0 < r) (hq : QBasin P.F A z r c L)
    {x0 : E} (hsol : ∀ b, (P.solve x0 b).2 = true) (tol thetaMax : ℝ) (ht : 0 < tol) (hθ : 1 / 16 ≤ thetaMax) (itr miter neval : ℕ) :
    ∀ (n k : ℕ) (p s : E) (dxs : List E) (sg : List ℝ) (B : E →L[ℝ] R) (nd : ℝ), QInv P A z r c L x0 k p s (‖s‖ ^ 2) dxs sg B →
      2 * ((1 / 16) ^ n * ‖p - z‖) ≤ tol → k + n ≤ miter →
      let q := qnerrLoop P (fun x y => inner ℝ x y) (fun _ _ _ _ => true) tol thetaMax itr miter x0 neval k false p dxs sg nd
      q.success = true ∧ ‖q.x - z‖ ≤ tol ∧ q.k ≤ k + n + 1 := by
  have base : ∀ (k : ℕ) (p s : E) (dxs : List E) (sg : List ℝ) (B : E →L[ℝ] R) (nd : ℝ), QInv P A z r c L x0 k p s (‖s‖ ^ 2) dxs sg B →
      ‖s‖ ≤ tol → k ≤ miter →
      let q := qnerrLoop P (fun x y => inner ℝ x y) (fun _ _ _ _ => true) tol thetaMax itr miter x0 neval k false p dxs sg nd
      q.success = true ∧ ‖q.x - z‖ ≤ tol ∧ q.k ≤ k + 1 := by
    intro k p s dxs sg B nd h hsn hk
    have hst := qstep h0 hr hq h
    have hc : sg.getD k 0 ≤ tol * tol := by
      rw [h.hsg, pow_two]
      exact mul_self_le_mul_self (norm_nonneg _) hsn
    rw [qnerrLoop, dif_neg (by omega), if_pos (show _ ∧ _ from ⟨rfl, hc⟩)]
    simp only [h.hs]
    exact ⟨trivial, err_le hst hsn, le_rfl⟩
  intro n
  induction n with
  | zero =>
    intro k p s dxs sg B nd h hn hk
    exact base k p s dxs sg B nd h ((corr_le (qstep h0 hr hq h)).trans (by simpa using hn)) (by omega)
  | succ n ih =>
    intro k p s dxs sg B nd h hn hk
    by_cases hsn : ‖s‖ ≤ tol
    · obtain ⟨a, b, b'⟩ := base k p s dxs sg B nd h hsn (by omega)
      exact ⟨a, b, by omega⟩
    have hst := qstep h0 hr hq h
    have hs0 : s ≠ 0 := by
      rintro rfl
      rw [norm_zero] at hsn
      linarith
    obtain ⟨hv, B', hB'⟩ := qnext h0 hr hq h hs0
    have hnx : 2 * ((1 / 16) ^ n * ‖p + s - z‖) ≤ tol := by
      refine le_trans ?_ hn
      rw [pow_succ, mul_assoc]
      gcongr
    have hc : ¬ sg.getD k 0 ≤ tol * tol := by
      rw [h.hsg, pow_two, not_le]
      exact mul_self_lt_mul_self ht.le (not_le.mp hsn)
    rw [qnerrLoop, dif_neg (by omega), if_neg (fun h => hc h.2)]
    simp only [h.hs, h.hsg, hsol, Bool.true_eq_false, Bool.false_eq_true, if_false, or_false]
    rw [if_neg]
    · obtain ⟨a, b, b'⟩ := ih (k + 1) (p + s) _ _ _ B' _ hB' hnx (by omega)
      exact ⟨a, b, le_trans b' (by omega)⟩
    · rw [not_lt]
      refine le_trans ?_ hθ
      have hs1 : 0 < ‖s‖ := norm_pos_iff.mpr hs0
      rw [Real.sqrt_le_left (by norm_num), real_inner_self_eq_norm_sq, div_le_iff₀ (by positivity), ← mul_pow]
      exact pow_le_pow_left₀ (norm_nonneg _) hv 2

/-- C114: with the method `qnerr`, started close enough to a regular zero and allowed enough iterations, `Newton.solve` reports success and returns
a point whose distance to the zero is at most the tolerance, if the contraction bound is at least `1/16` (default `1/2`). -/
theorem C114_converges_qnerr (P : Problem E R) (I : InexactProblem E R) (A : E → E →L[ℝ] R) (z : E) (hz : SmoothZero P.F A z)
    (hs : SolvesRegular P A) :
    ∃ r > 0, ∀ tol > 0, ∃ K : ℕ, ∀ (c : SolveArgs) (fuel : ℕ) (method : String) (x : E), c.tol = tol → K ≤ c.miter → 1 / 16 ≤ c.thetaMax →
      method.toLower = "qnerr" → ‖x - z‖ < r →
      ∃ q, newtonSolve P I (fun x y => inner ℝ x y) c fuel method x = .ok q ∧ q.success = true ∧ ‖q.x - z‖ ≤ tol ∧ q.k ≤ K := by
  obtain ⟨r, c', L, hb, hQ⟩ := qbasin hz
  refine ⟨min r (1 / 2), lt_min hb.pos (by norm_num), fun tol ht => ?_⟩
  obtain ⟨n, hn⟩ := steps tol r ht
  refine ⟨n + 2, fun c fuel method x hc hm hθ hl hx => ?_⟩
  have hxr : ‖x - z‖ < r := lt_of_lt_of_le hx (min_le_left _ _)
  have hx2 : ‖x - z‖ < 1 / 2 := lt_of_lt_of_le hx (min_le_right _ _)
  have hx' : x ∈ Metric.ball z r := by rw [Metric.mem_ball, dist_eq_norm]; exact hxr
  have hsol : ∀ b, (P.solve x b).2 = true := fun b => (hs x b (hb.inj x hx')).2
  have h1 := (hs x (-P.F x) (hb.inj x hx')).1
  set s := (P.solve x (-P.F x)).1 with hsdef
  have hst := hb.step x hx' x hx' s h1
  have hs1 : ‖s‖ ≤ 1 := (corr_le hst).trans (by linarith)
  have hloop : let q := qnerrLoop P (fun x y => inner ℝ x y) (fun _ _ _ _ => true) tol c.thetaMax 0 c.miter x 1 0 false x [s] [‖s‖] ‖s‖
      q.success = true ∧ ‖q.x - z‖ ≤ tol ∧ q.k ≤ n + 2 := by
    have hi : QInv P A z r c' L x 0 x s ‖s‖ [s] [‖s‖] (A x) := by
      refine ⟨hx', rfl, rfl, rfl, rfl, ?_, fun b => ?_, h1, ?_⟩
      · rw [pow_two]
        exact mul_le_of_le_one_left (norm_nonneg _) hs1
      · simpa [qnUpdate] using (hs x b (hb.inj x hx')).1
      · have k1 := hQ.lip x hx'
        have hc := hQ.c0
        have hL := hQ.L0
        calc 64 * (c' * (‖A x - A z‖ + 2 * L * ‖x - z‖)) ≤ 64 * (c' * (L * ‖x - z‖ + 2 * L * ‖x - z‖)) := by gcongr
          _ = 192 * (c' * (L * ‖x - z‖)) := by ring
          _ ≤ 192 * (c' * (L * r)) := by gcongr
          _ ≤ 1 := hQ.small
    rw [qnerrLoop, dif_neg (by omega)]
    simp only [List.getD_cons_zero, Bool.false_eq_true, if_false, true_and]
    by_cases hc1 : ‖s‖ ≤ tol * tol
    · rw [if_pos hc1]
      refine ⟨rfl, ?_, by simp⟩
      simp only []
      have e1 := err_le hst hc1
      have e2 := norm_nonneg (x - z)
      rcases le_total tol 1 with h | h
      · nlinarith
      · linarith
    · rw [if_neg hc1]
      have hs0 : s ≠ 0 := by
        intro h
        rw [h, norm_zero] at hc1
        exact hc1 (mul_self_nonneg _)
      have hsp : 0 < ‖s‖ := norm_pos_iff.mpr hs0
      obtain ⟨hv, B', hB'⟩ := qnext hz.zero hb.pos hQ hi hs0
      simp only [hsol, Bool.true_eq_false, if_false, or_false]
      rw [if_neg]
      · obtain ⟨a, b, b'⟩ := qn_succ hz.zero hb.pos hQ hsol tol c.thetaMax ht hθ 0 c.miter 1 n 1 (x + s) _ _ _ B' _ hB' (by
          refine le_trans ?_ hn
          gcongr
          have := norm_nonneg (x - z)
          linarith) (by omega)
        exact ⟨a, b, le_trans b' (by omega)⟩
      · rw [not_lt]
        refine le_trans ?_ hθ
        rw [Real.sqrt_le_left (by norm_num), real_inner_self_eq_norm_sq, div_le_iff₀ hsp]
        calc _ ≤ (1 / 16 * ‖s‖) ^ 2 := pow_le_pow_left₀ (norm_nonneg _) hv 2
          _ = (1 / 16) ^ 2 * (‖s‖ * ‖s‖) := by ring
          _ ≤ (1 / 16) ^ 2 * (1 * ‖s‖) := by gcongr
          _ = _ := by ring
  obtain ⟨a, b, b'⟩ := hloop
  refine ⟨_, ?_, a, b, b'⟩
  have ha : algo method.toLower = .qnerr := by rw [hl]; decide
  have hst' : setup method.toLower = .ok () := by rw [hl]; rfl
  rw [newtonSolve]
  simp only [ha, hst', qnerrAlone, hsol, nrm_eq, hc, ← hsdef]
  rfl

/-! ### Damped Newton -/

/-- The previous pass of `nleq_err`: full step from `y` with correction `dp` and simplified correction `db`, then perhaps quasi-Newton steps to `x` -/
private def Prev (P : Problem E R) (A : E → E →L[ℝ] R) (z : E) (r : ℝ) (x : E) (fx : R) : Option (E × E) → Prop
  | none => True
  | some (dp, db) => fx = P.F x ∧ ∃ y ∈ Metric.ball z r, y + dp ∈ Metric.ball z r ∧ ‖x - z‖ ≤ ‖y + dp - z‖ ∧ A y db = -P.F (y + dp) ∧
      ‖db‖ ≤ 1 / 16 * ‖dp‖

private lemma lam_one {P : Problem E R} {A : E → E →L[ℝ] R} {z : E} {r : ℝ} (hb : Basin P.F A z r) {x : E} (hx : x ∈ Metric.ball z r) {fx : R}
    {prev : Option (E × E)} (hp : Prev P A z r x fx prev) {d : E} (hd : A x d = -P.F x) :
    lamStart (fun x y : E => inner ℝ x y) prev d 1 = 1 := by
  cases prev with
  | none => rfl
  | some p =>
    obtain ⟨dp, db⟩ := p
    obtain ⟨-, y, hy, hy1, hxy, h1, h2⟩ := hp
    simp only [lamStart, nrm_eq, minQuot, mul_one]
    have h3 := hb.step y hy (y + dp) hy1 db h1
    have h4 := hb.step x hx x hx d hd
    have h5 : ‖y + dp - z‖ ≤ 16 / 15 * ‖db‖ := by
      have : ‖y + dp - z‖ ≤ ‖y + dp + db - z‖ + ‖db‖ := by
        calc ‖y + dp - z‖ = ‖(y + dp + db - z) - db‖ := by congr 1; abel
          _ ≤ _ := norm_sub_le _ _
      linarith
    have h6 : ‖d‖ ≤ 17 / 16 * ‖x - z‖ := by
      have : ‖d‖ ≤ ‖x + d - z‖ + ‖x - z‖ := by
        calc ‖d‖ = ‖(x + d - z) - (x - z)‖ := by congr 1; abel
          _ ≤ _ := norm_sub_le _ _
      linarith
    have h7 : ‖d‖ ≤ 6 / 5 * ‖db‖ := by
      have := norm_nonneg db
      linarith
    split_ifs with h0
    · apply min_eq_right
      rw [le_div_iff₀ h0, one_mul]
      have n1 := norm_nonneg d
      have n2 := norm_nonneg db
      have h8 : ‖db - d‖ ≤ 11 / 5 * ‖db‖ := (norm_sub_le _ _).trans (by linarith)
      calc ‖db - d‖ * ‖d‖ ≤ (11 / 5 * ‖db‖) * (6 / 5 * (1 / 16 * ‖dp‖)) := by
            gcongr
            exact h7.trans (by gcongr)
        _ ≤ ‖dp‖ * ‖db‖ := by
            have := mul_nonneg n2 (norm_nonneg dp)
            nlinarith
    · rfl

/-- The damping loop inside the basin accepts the full step at once -/
private lemma damp_conv {P : Problem E R} {A : E → E →L[ℝ] R} {z : E} {r : ℝ} (hb : Basin P.F A z r) (hs : SolvesRegular P A) (c : NleqCfg)
    (hm : c.lamMin < 1) {x : E} (hx : x ∈ Metric.ball z r) {d : E} (hd : A x d = -P.F x) (h0 : 0 < ‖d‖) (fuel : ℕ) (qn : Bool) :
    ∃ db th, A x db = -P.F (x + d) ∧ ‖db‖ ≤ 1 / 16 * ‖d‖ ∧
      ((‖db‖ ≤ c.tol ∧ damp P (fun x y => inner ℝ x y) c x d (fuel + 1) 1 false qn = .ok (.converged (x + d) (P.F (x + d)) db th 1)) ∨
       ∃ q, damp P (fun x y => inner ℝ x y) c x d (fuel + 1) 1 false qn = .ok (.accept (x + d) (P.F (x + d)) db th 1 q)) := by
  have hst := hb.step x hx x hx d hd
  have hxd := mem_of hx hst
  obtain ⟨h1, h2⟩ := hs x (-P.F (x + d)) (hb.inj x hx)
  set db := (P.solve x (-P.F (x + d))).1 with hdb
  have h3 := hb.simp x hx d hd hxd db h1
  refine ⟨db, ‖db‖ / ‖d‖, h1, h3, ?_⟩
  have hth : ‖db‖ / ‖d‖ ≤ 1 / 16 := by rw [div_le_iff₀ h0]; exact h3
  have hq : minQuot (1 / 2 * ‖d‖ * 1 * 1) ‖db‖ 1 = 1 := by
    unfold minQuot
    split_ifs with hp
    · apply min_eq_right
      rw [le_div_iff₀ hp]
      linarith
    · rfl
  have e : damp P (fun x y => inner ℝ x y) c x d (fuel + 1) 1 false qn =
      if ‖db‖ ≤ c.tol then .ok (.converged (x + d) (P.F (x + d)) db (‖db‖ / ‖d‖) 1)
      else .ok (.accept (x + d) (P.F (x + d)) db (‖db‖ / ‖d‖) 1 (decide (‖db‖ / ‖d‖ < c.thetaMax))) := by
    rw [damp, if_neg (by linarith)]
    simp only [one_smul, h2, nrm_eq, ← hdb, sub_self, zero_smul, sub_zero]
    rw [if_neg (by simp), if_neg, if_pos ⟨trivial, hq⟩]
    rintro (⟨_, h⟩ | ⟨_, h⟩)
    · linarith
    · linarith
  by_cases ht : ‖db‖ ≤ c.tol
  · left
    exact ⟨ht, by rw [e, if_pos ht]⟩
  · right
    exact ⟨_, by rw [e, if_neg ht]⟩

/-- The number of iterations allowed -/
private def budget : ℕ → ℕ
  | 0 => 1
  | n + 1 => budget n + n + 4

private lemma nleq_conv {P : Problem E R} {A : E → E →L[ℝ] R} {z : E} {r c' L : ℝ} (h0 : P.F z = 0) (hb : Basin P.F A z r)
    (hQ : QBasin P.F A z r c' L) (hs : SolvesRegular P A) (c : NleqCfg) (hm : c.lamMin < 1) (ht : 0 < c.tol) (fuel : ℕ) :
    ∀ (n k neval : ℕ) (x : E) (prev : Option (E × E)) (fx : R) (qn : Bool) (nd : ℝ) (sys : Option E), x ∈ Metric.ball z r →
      Prev P A z r x fx prev → 2 * ((1 / 16) ^ n * ‖x - z‖) ≤ c.tol → k + budget n ≤ c.miter →
      ∃ q, nleqLoop P (fun x y => inner ℝ x y) (fun _ _ _ _ => true) c (fuel + 1) k neval x prev fx 1 qn nd sys = .ok q ∧
        q.success = true ∧ ‖q.x - z‖ ≤ c.tol ∧ q.k ≤ k + budget n := by
  intro n
  induction n with
  | zero =>
    intro k neval x prev fx qn nd sys hx hp htol hk
    have hf : curRes P.F prev x fx = P.F x := by
      cases prev with
      | none => rfl
      | some p => exact hp.1
    obtain ⟨h1, h2⟩ := hs x (-P.F x) (hb.inj x hx)
    have hst := hb.step x hx x hx _ h1
    have hd : ‖(P.solve x (-P.F x)).1‖ ≤ c.tol := (corr_le hst).trans (by simpa using htol)
    simp only [budget] at hk
    rw [nleqLoop, dif_neg (by omega)]
    simp only [hf, h2, nrm_eq]
    refine ⟨_, by rw [if_neg (by simp), if_pos hd], rfl, err_le hst hd, by simp [budget]⟩
  | succ n ih =>
    intro k neval x prev fx qn nd sys hx hp htol hk
    have hf : curRes P.F prev x fx = P.F x := by
      cases prev with
      | none => rfl
      | some p => exact hp.1
    obtain ⟨h1, h2⟩ := hs x (-P.F x) (hb.inj x hx)
    have hst := hb.step x hx x hx _ h1
    simp only [budget] at hk
    rw [nleqLoop, dif_neg (by omega)]
    simp only [hf, h2, nrm_eq]
    by_cases hd : ‖(P.solve x (-P.F x)).1‖ ≤ c.tol
    · refine ⟨_, by rw [if_neg (by simp), if_pos hd], rfl, err_le hst hd, ?_⟩
      simp only [budget]
      omega
    · rw [if_neg (by simp), if_neg hd, lam_one hb hx hp h1]
      have hp0 : 0 < ‖(P.solve x (-P.F x)).1‖ := by linarith
      obtain ⟨db, th, g1, g2, g3⟩ := damp_conv hb hs c hm hx h1 hp0 fuel qn
      have hx' := mem_of hx hst
      have hn' : ∀ w : E, ‖w - z‖ ≤ ‖x + (P.solve x (-P.F x)).1 - z‖ → 2 * ((1 / 16) ^ n * ‖w - z‖) ≤ c.tol := by
        intro w hw
        refine le_trans ?_ htol
        rw [pow_succ, mul_assoc]
        gcongr
        exact hw.trans hst
      rcases g3 with ⟨g3, g4⟩ | ⟨q, g4⟩
      · rw [g4]
        simp only []
        refine ⟨_, by rw [if_neg (by simp)], rfl, err_le (hb.step x hx _ hx' db g1) g3, ?_⟩
        simp only [budget]
        omega
      · rw [g4]
        simp only []
        rw [if_neg (by simp)]
        by_cases hqn : q = true ∧ c.useQnerr = true
        · rw [if_pos hqn]
          obtain ⟨a1, a2⟩ := qn_called h0 hb.pos hb hQ hs hx h1 (norm_pos_iff.mp hp0) c.tol c.thetaMax ht (k + 1) (c.miter - (k + 1) + 1) n
            (hn' _ le_rfl)
          set Q := qnerrCalled P (fun x y => inner ℝ x y) (fun _ _ _ _ => true) c.tol c.thetaMax (k + 1) (c.miter - (k + 1) + 1) x
            (x + (P.solve x (-P.F x)).1) (P.solve x (-P.F x)).1 with hQdef
          have hQx : Q.x ∈ Metric.ball z r := by
            rw [Metric.mem_ball, dist_eq_norm] at hx' ⊢
            exact lt_of_le_of_lt a1 hx'
          obtain ⟨q', b1, b2, b3, b4⟩ := ih (k + 1 + Q.k) (neval + 1 + Q.neval) Q.x (some ((P.solve x (-P.F x)).1, db)) (P.F Q.x) Q.success Q.normdx
            (some x) hQx ⟨rfl, x, hx, hx', a1, g1, g2⟩ (hn' _ a1) (by omega)
          refine ⟨q', b1, b2, b3, ?_⟩
          simp only [budget]
          omega
        · rw [if_neg hqn]
          obtain ⟨q', b1, b2, b3, b4⟩ := ih (k + 1) (neval + 1) (x + (P.solve x (-P.F x)).1) (some ((P.solve x (-P.F x)).1, db))
            (P.F (x + (P.solve x (-P.F x)).1)) q ‖(P.solve x (-P.F x)).1‖ (some x) hx' ⟨rfl, x, hx, hx', le_rfl, g1, g2⟩ (hn' _ le_rfl) (by omega)
          refine ⟨q', b1, b2, b3, ?_⟩
          simp only [budget]
          omega

/-- C114: with the methods `nleq` and `nleq-err` (with or without quasi-Newton steps, whatever their contraction bound), started close enough to
a regular zero with damping factor `1` and allowed enough iterations, `Newton.solve` reports success and returns a point whose distance to the zero
is at most the tolerance. -/
theorem C114_converges_nleq (P : Problem E R) (I : InexactProblem E R) (A : E → E →L[ℝ] R) (z : E) (hz : SmoothZero P.F A z)
    (hs : SolvesRegular P A) :
    ∃ r > 0, ∀ tol > 0, ∃ K : ℕ, ∀ (c : SolveArgs) (fuel : ℕ) (method : String) (x : E), c.nleq.tol = tol → K ≤ c.nleq.miter → c.lam = 1 →
      c.nleq.lamMin < 1 → (method.toLower = "nleq" ∨ method.toLower = "nleq-err") → ‖x - z‖ < r →
      ∃ q, newtonSolve P I (fun x y => inner ℝ x y) c (fuel + 1) method x = .ok q ∧ q.success = true ∧ ‖q.x - z‖ ≤ tol ∧ q.k ≤ K := by
  obtain ⟨r, c', L, hb, hQ⟩ := qbasin hz
  refine ⟨r, hb.pos, fun tol ht => ?_⟩
  obtain ⟨n, hn⟩ := steps tol r ht
  refine ⟨budget n, fun c fuel method x hc hm hlam hmin hl hx => ?_⟩
  have hx' : x ∈ Metric.ball z r := by rw [Metric.mem_ball, dist_eq_norm]; exact hx
  have hbud : 0 < budget n := by cases n <;> simp [budget]
  obtain ⟨q, h1, h2, h3, h4⟩ := nleq_conv hz.zero hb hQ hs c.nleq hmin (by rw [hc]; exact ht) fuel n 0 0 x none 0 false 0 none hx' trivial (by
    rw [hc]
    refine le_trans ?_ hn
    gcongr) (by omega)
  refine ⟨q, ?_, h2, hc ▸ h3, by omega⟩
  have ha : algo method.toLower = .nleq := by rcases hl with h | h <;> rw [h] <;> decide
  have hst : setup method.toLower = .ok () := by rcases hl with h | h <;> rw [h] <;> rfl
  rw [newtonSolve]
  simp only [ha, hst]
  rw [hlam, nleqErr, h1, if_neg (by simp; omega)]
  rfl

end Local

section Dispatch
variable {X R : Type} [AddCommGroup X] [Module ℝ X] [AddCommGroup R]

/-- C114: the names (in any capitalisation) and the methods they select: `lu` Newton's method, `qnerr` the quasi-Newton method,
`nleq` and `nleq-err` the damped Newton method, `giant` the inexact Newton method; the result is that of the method. -/
theorem C114_dispatch (P : Problem X R) (I : InexactProblem X R) (inner : X → X → ℝ) (c : SolveArgs) (fuel : ℕ) (method : String) (u : X) :
    (method.toLower = "lu" → newtonSolve P I inner c fuel method u =
      (newtonStandard P inner (fun _ _ _ _ => true) c.tol c.debug c.miter u).mapError .driver) ∧
    (method.toLower = "qnerr" → newtonSolve P I inner c fuel method u =
      (qnerrAlone P inner (fun _ _ _ _ => true) c.tol c.thetaMax 0 c.miter u).mapError .driver) ∧
    (method.toLower = "nleq" ∨ method.toLower = "nleq-err" → newtonSolve P I inner c fuel method u =
      (nleqErr P inner (fun _ _ _ _ => true) c.nleq fuel c.lam u).mapError .driver) ∧
    (method.toLower = "giant" → newtonSolve P I inner c fuel method u = (giantGbit I inner c.giant fuel c.glam u).mapError .driver) := by
  refine ⟨fun h => ?_, fun h => ?_, fun h => ?_, fun h => ?_⟩
  · have ha : algo method.toLower = .standard := by rw [h]; decide
    have hs : setup method.toLower = .ok () := by rw [h]; rfl
    rw [newtonSolve]; simp only [ha, hs]; split_ifs <;> rfl
  · have ha : algo method.toLower = .qnerr := by rw [h]; decide
    have hs : setup method.toLower = .ok () := by rw [h]; rfl
    rw [newtonSolve]; simp only [ha, hs]; split_ifs <;> rfl
  · have ha : algo method.toLower = .nleq := by rcases h with h | h <;> rw [h] <;> decide
    have hs : setup method.toLower = .ok () := by rcases h with h | h <;> rw [h] <;> rfl
    rw [newtonSolve]; simp only [ha, hs]; split_ifs <;> rfl
  · have ha : algo method.toLower = .giant := by rw [h]; decide
    have hs : setup method.toLower = .ok () := by rw [h]; rfl
    rw [newtonSolve]; simp only [ha, hs]; split_ifs <;> rfl

/-- C114, failure: all other names raise as soon as a linear system is needed: also the spellings `qn-err`, `nleqerr`, `giant-gbit` and `giantgbit`,
for which `solve` has a branch, and `qr`, for which the linear solver has one. -/
theorem C114_names_fails (P : Problem X R) (I : InexactProblem X R) (inner : X → X → ℝ) (c : SolveArgs) (fuel : ℕ) (method : String) (u : X)
    (h1 : 0 < c.miter) (h2 : 0 < c.nleq.miter) (hm : method.toLower ∉ ["lu", "qnerr", "nleq", "nleq-err", "giant"]) :
    newtonSolve P I inner c fuel method u = .error (if method.toLower = "qr" then .attributeError else .runtimeError) := by
  have hs : setup method.toLower = .error (if method.toLower = "qr" then .attributeError else .runtimeError) := by
    simp only [List.mem_cons, List.not_mem_nil, or_false, not_or] at hm
    obtain ⟨m1, m2, m3, m4, m5⟩ := hm
    simp only [setup, exactName, exactSolver, if_neg m1, if_neg m2, if_neg m3, if_neg m4, if_neg m5]
    split_ifs <;> rfl
  rw [newtonSolve]
  simp only [hs]
  cases algo method.toLower
  · rfl
  · exact if_neg (fun h => by omega)
  · rfl
  · exact if_neg (fun h => by omega)

end Dispatch

/-- Non-vacuity: `x² = 2` near `√2`, with the exact linear solver. -/
example : RegularZero (fun x : ℝ => x ^ 2 - 2) (fun x => (2 * x) • (1 : ℝ →L[ℝ] ℝ)) (Real.sqrt 2) ∧
    SolvesRegular (⟨fun x : ℝ => x ^ 2 - 2, fun x b => (b / (2 * x), true)⟩ : Problem ℝ ℝ) (fun x => (2 * x) • (1 : ℝ →L[ℝ] ℝ)) := by
  constructor
  · have h2 : (0 : ℝ) < Real.sqrt 2 := Real.sqrt_pos.mpr (by norm_num)
    refine ⟨by norm_num, ?_, ?_, ?_⟩
    · have h := ((hasStrictFDerivAt_id (𝕜 := ℝ) (Real.sqrt 2)).pow 2).sub_const 2
      have e : (2 * Real.sqrt 2) • (1 : ℝ →L[ℝ] ℝ) = (2 • id (Real.sqrt 2) ^ (2 - 1)) • ContinuousLinearMap.id ℝ ℝ := by
        refine ContinuousLinearMap.ext fun y => ?_
        simp
      rw [e]
      exact h
    · fun_prop
    · refine ⟨ContinuousLinearEquiv.unitsEquivAut ℝ (Units.mk0 (2 * Real.sqrt 2) (by positivity)), ?_⟩
      ext
      simp
  · intro x b hi
    have hx : x ≠ 0 := by
      rintro rfl
      have := @hi 1 0 (by simp)
      norm_num at this
    refine ⟨?_, rfl⟩
    simp
    field_simp

/-- Non-vacuity: the same zero is smooth. -/
example : SmoothZero (fun x : ℝ => x ^ 2 - 2) (fun x => (2 * x) • (1 : ℝ →L[ℝ] ℝ)) (Real.sqrt 2) := by
  have h2 : (0 : ℝ) < Real.sqrt 2 := Real.sqrt_pos.mpr (by norm_num)
  refine ⟨by norm_num, ⟨1, one_pos, 2, fun x _ => ⟨?_, ?_⟩⟩, ?_⟩
  · have h := ((hasFDerivAt_id (𝕜 := ℝ) x).pow 2).sub_const 2
    have e : (2 * x) • (1 : ℝ →L[ℝ] ℝ) = (2 • id x ^ (2 - 1)) • ContinuousLinearMap.id ℝ ℝ := by
      refine ContinuousLinearMap.ext fun y => ?_
      simp
    rw [e]
    exact h
  · rw [← sub_smul, ← mul_sub, norm_smul, norm_mul]
    simp
  · refine ⟨ContinuousLinearEquiv.unitsEquivAut ℝ (Units.mk0 (2 * Real.sqrt 2) (by positivity)), ?_⟩
    ext
    simp

end Funpy.Props
