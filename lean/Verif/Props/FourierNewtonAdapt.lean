import Verif.Props.FourierNewtonRun
import Verif.Props.EndToEndPer

/-!
# C145: the adaptive solver on nonlinear periodic problems
-/

namespace Funpy.Props
namespace E3N
end E3N
open Spec Trig TrigSpec Matrix Finset Complex FourierStab FCv FUn FSy FTr FNl FNw Filter Topology E3N
open Funpy.Newton Adaptive
open scoped ContDiff

/-! ### Specification -/

/-- The first `n` entries of a list. -/
def E3N.vec (l : List ℂ) (n : ℕ) : Fin n → ℂ := fun i => l.getD i 0

/-- The environment of the adaptive solver is `Newton.solve` with the method `method` on the Fourier discretisations of the nonlinear periodic problem
`L u + N(u) = f`: `prolong` is that of periodic functions; the discretisations with odd numbers of modes are those of C144; the norm of the iteration bounds
every coefficient and is bounded by the weighted norm of the coefficients; the argument is not changed, or updated in place. -/
structure E3N.IsNlEnv (e : Ends) (s : TrigSpec.Source) (N : NL) (f : List ℂ) (r : ℕ) (c : ℂ) (eps : ℝ) (u : ℝ → ℂ) (ρ B : ℝ) (a : SolveArgs) (method : String)
    (E : Env (List ℂ)) : Prop where
  prolong : ∀ n l, E.prolong n l = Trig.prolongCol l n
  newton : ∀ k n st, n % 2 = 1 → ∃ (P : Problem (Fin n → ℂ) (Fin n → ℂ)) (I : InexactProblem (Fin n → ℂ) (Fin n → ℂ)) (ip : (Fin n → ℂ) → (Fin n → ℂ) → ℝ) (fuel : ℕ),
    Discretises e s N f r c eps u ρ P ∧
    (∀ x, Real.sqrt (ip x x) ≤ B * wnorm (r - 1) x) ∧ (∀ x i, ‖x i‖ ≤ Real.sqrt (ip x x)) ∧
    ∀ q, newtonSolve P I ip a fuel method (vec st n) = .ok q →
      (E.newton k n st).out = List.ofFn q.x ∧ (E.newton k n st).ok = q.success ∧ (E.newton k n st).it = q.k ∧
      ((E.newton k n st).arg = st ∨ (E.newton k n st).arg = List.ofFn q.x)

/-! ### Proofs -/

lemma E3N.loop {α : Type} (E : Env (List α)) (tol : ℝ) (maxFail K : ℕ) (Q : ℕ → Prop) (Good Err : List α → Prop) (Near : ℕ → List α → Prop)
    (hGE : ∀ l, Good l → Err l)
    (hpro : ∀ n l, Q n → l.length ≤ n → Good l → Near n (E.prolong n l) ∧ Err (E.prolong n l))
    (hstep : ∀ k n st, Q n → Near n st → ∃ s, s.length = n ∧ Good s ∧ (E.newton k n st).out = s ∧ (E.newton k n st).ok = true ∧ (E.newton k n st).it ≤ K ∧
      ((E.newton k n st).arg = st ∨ (E.newton k n st).arg = s)) :
    ∀ (l : List ℕ), l ≠ [] → l.Pairwise (· < ·) → (∀ n ∈ l, Q n) → ∀ k st anyOk, (0 < k → Good st) → (∀ n ∈ l, Near n (E.prolong n st)) → (∀ n ∈ l, st.length ≤ n) →
      ∃ s it, Adaptive.loop E tol maxFail k st anyOk l = some (s, true, it) ∧ Err s ∧ it ≤ K := by
  intro l
  induction l with
  | nil => intro h; exact absurd rfl h
  | cons n rest ih =>
    intro _ hp hN k st anyOk hst hnear hlen
    rw [List.pairwise_cons] at hp
    obtain ⟨s, hsl, hs, ho, hok, hit, harg⟩ := hstep k n (E.prolong n st) (hN n List.mem_cons_self) (hnear n List.mem_cons_self)
    rw [Adaptive.loop]
    simp only [hok, if_true]
    by_cases hc : E.dist (E.newton k n (E.prolong n st)).arg (E.newton k n (E.prolong n st)).out < tol ∧ k > 0
    · rw [if_pos hc]
      refine ⟨_, _, rfl, ?_, hit⟩
      rcases harg with h | h
      · rw [h]
        exact (hpro n st (hN n List.mem_cons_self) (hlen n List.mem_cons_self) (hst hc.2)).2
      · rw [h]
        exact hGE s hs
    · rw [if_neg hc]
      by_cases hr : rest = []
      · rw [if_pos hr]
        exact ⟨_, _, rfl, by rw [ho]; exact hGE s hs, hit⟩
      · rw [if_neg hr, ho]
        have hle : ∀ m ∈ rest, s.length ≤ m := fun m hm => by
          rw [hsl]
          exact (hp.1 m hm).le
        exact ih hr hp.2 (fun m hm => hN m (List.mem_cons_of_mem _ hm)) (k + 1) s true (fun _ => hs)
          (fun m hm => (hpro m s (hN m (List.mem_cons_of_mem _ hm)) (hle m hm) hs).1) hle

/-- small coefficients of a bounded family are small in the weaker norm, uniformly in their number -/
lemma E3N.modulus (p : ℕ) (M δ : ℝ) (hδ : 0 < δ) : ∃ τ > 0, ∀ n, n % 2 = 1 → ∀ d : Fin n → ℂ, wnorm (p + 1) d ≤ M → (∀ i, ‖d i‖ ≤ τ) → wnorm p d ≤ δ := by
  obtain ⟨m, hm⟩ := exists_nat_ge (M / (δ / 2))
  rw [div_le_iff₀ (by positivity)] at hm
  refine ⟨δ / 2 / ((2 * m + 1) * (m + 1) ^ p), by positivity, fun n hn d hd hdi => ?_⟩
  rw [wnorm_eq] at hd ⊢
  have h1 : ∀ k, ‖toCo d k‖ ≤ δ / 2 / ((2 * m + 1) * (m + 1) ^ p) := by
    intro k
    by_cases hk : k.natAbs ≤ n / 2
    · obtain ⟨i, rfl⟩ := exists_wave hn k hk
      rw [toCo_wave]
      exact hdi i
    · rw [toCo_out hn _ k (by omega), norm_zero]
      positivity
  have h2 := W_lo_bound p m (toCo d) _ h1
  have h3 : (2 * (m : ℝ) + 1) * (((m : ℝ) + 1) ^ p * (δ / 2 / ((2 * m + 1) * (m + 1) ^ p))) = δ / 2 := by field_simp
  rw [h3] at h2
  have h4 := W_hi_tail p 1 m (toCo d)
  rw [pow_one] at h4
  have h5 : W p (hi m (toCo d)) ≤ δ / 2 := by
    have h6 : ((m : ℝ) + 1) * W p (hi m (toCo d)) ≤ ((m : ℝ) + 1) * (δ / 2) := h4.trans (hd.trans (hm.trans (by linarith)))
    exact le_of_mul_le_mul_left h6 (by positivity)
  have h6 := W_add p (lo m (toCo d)) (hi m (toCo d))
  rw [lo_add_hi] at h6
  linarith

lemma E3N.ofFn_vec (l : List ℂ) : List.ofFn (vec l l.length) = l := by
  apply List.ext_getElem (by simp)
  intro i h1 h2
  rw [List.getElem_ofFn]
  unfold vec
  exact getD_lt' _ _ _ _

lemma E3N.vec_ofFn {n : ℕ} (x : Fin n → ℂ) : vec (List.ofFn x) n = x := by
  funext i
  unfold vec
  rw [getD_lt' _ _ _ (by simp), List.getElem_ofFn]

lemma E3N.co_vec (l : List ℂ) (hl : l.length % 2 = 1) (y : ℝ) : ev (toCo (vec l l.length)) y = trigEval l y := by
  have h1 := congrFun (fn_toCo hl ⟨-1, 1⟩ (vec l l.length)) y
  have h2 : Mapping.bwd ⟨-1, 1⟩ y = y := by
    simp only [Mapping.bwd, Mapping.diff]
    ring
  simp only [fourierFun, fn, h2, ofFn_vec] at h1
  exact h1

lemma E3N.co_prolong (l : List ℂ) (hl : l.length % 2 = 1) (n : ℕ) (hn : n % 2 = 1) (h : l.length ≤ n) :
    toCo (vec (Trig.prolongCol l n) n) = toCo (vec l l.length) := by
  have h0 : l ≠ [] := by
    rintro rfl
    simp at hl
  obtain ⟨h1, h2⟩ := C32_column l h0 n h
  apply ev_inj
  intro y
  have h3 := co_vec (Trig.prolongCol l n) (by rw [h1]; exact hn) y
  rw [h1] at h3
  rw [h3, h2, co_vec l hl]

variable (e : Ends) (he : e.e0 < e.e1) (s : TrigSpec.Source) (r : ℕ) (c : ℂ) (hs : IsOp s r c) (N : NL) (hN : N.Below r) (f : List ℂ)
  (u : ℝ → ℂ) (hu : ContDiff ℝ ∞ u) (hper : Function.Periodic u (Mapping.diff e))
include he hs hN hu hper

/-- **C145, nonlinear periodic problems are solved by the adaptive solver.**  Let `u` be a smooth periodic nondegenerate solution of `L u + N(u) = f`.  There is a
`ρ > 0`, and for every `δ > 0` there are a tolerance `τ > 0` and an `n₀` such that for every tolerance `0 < tol ≤ τ` of Newton's method there is an iteration limit
`K`, independent of the numbers of modes, such that: `SolverAdaptive.solve`, started from a state with an odd number of at least `n₀` coefficients, whose weighted
distance from `u` is at most `ρ / 2`, reports success, after at most `K` iterations on its last grid, with a function which agrees with `u`, with all
derivatives of order less than `r`, to within `δ` everywhere; provided the largest size `1 + 2^n_max` is not clipped. -/
theorem C145_adaptive (eps B : ℝ) (hB : 0 ≤ B) (hnd : Nondeg e s N r u) (heq : ∀ x, resid e s N u x = trigEval f (Mapping.bwd e x)) :
    ∃ ρ > 0, ∀ δ > 0, ∃ τ > 0, ∃ n0, ∀ tol, 0 < tol → tol ≤ τ → ∃ K : ℕ, ∀ (a : SolveArgs) (method : String), a.tol = tol → K ≤ a.miter → method.toLower = "lu" →
      ∀ E, IsNlEnv e s N f r c eps u ρ B a method E →
        ∀ (nMin nMax : ℕ) (atol : ℝ) (up maxFail : ℕ) (st : List ℂ), n0 ≤ st.length → st.length % 2 = 1 → min 7 nMin ≤ nMax → 2 ^ nMax < upperBd st.length up →
          wnorm r (vec st st.length - modes st.length e u) ≤ ρ / 2 →
          ∃ w it, Adaptive.solve E nMin nMax atol up maxFail false st.length st = some (w, true, it) ∧ it ≤ K ∧
            ∀ j < r, ∀ x, ‖iteratedDeriv j (E2P.asPer e w) x - iteratedDeriv j u x‖ ≤ δ := by
  obtain ⟨ρ, C0, K0, D0, M0, hgood, M1, hM1⟩ := FNw.setup e he s r c hs N hN f u hu hper hnd heq
  obtain ⟨κ, σ, hκ, hσ, h⟩ := FNw.newton_core e he s r c hs N hN f u hu hper eps heq ρ C0 K0 D0 M0 M1 hgood hM1
  obtain ⟨_, hconv⟩ := FNw.solves_core e he s r c hs N hN f u hu hper heq ρ C0 K0 D0 M0 M1 hgood hM1
  have hρ := hgood.hρ
  have hr1 : 1 ≤ r := hs.1
  have hω := om_pos e he
  set Ω := (om e + 1) ^ r with hΩ
  have hΩ0 : 0 < Ω := by positivity
  obtain ⟨F, hF, hfast⟩ := trunc_fast _ (smooth_fwd e u hu) (periodic_fwd e u hper) r 1
  obtain ⟨M2, hM2⟩ := exists_nat_ge (F / (ρ / 8))
  rw [div_le_iff₀ (by positivity)] at hM2
  refine ⟨ρ, hρ, fun δ hδ => ?_⟩
  obtain ⟨τ, hτ, hmod⟩ := modulus (r - 1) (4 * ρ) (δ / Ω) (by positivity)
  choose C hC using fun j => hconv 1 j
  obtain ⟨m, hm⟩ := exists_nat_ge (∑ j ∈ Finset.range r, |C j| / (δ / 2))
  refine ⟨τ, hτ, 2 * (M0 + M1) + 2 * M2 + m + 3, fun tol ht0 ht => ?_⟩
  obtain ⟨j0, hj0⟩ : ∃ j : ℕ, B * (5 / 4 * ((1 / 4 : ℝ) ^ j * (2 * ρ))) ≤ tol := by
    have h1 : Tendsto (fun j : ℕ => B * (5 / 4 * ((1 / 4 : ℝ) ^ j * (2 * ρ)))) atTop (𝓝 (B * (5 / 4 * (0 * (2 * ρ))))) :=
      (((tendsto_pow_atTop_nhds_zero_of_lt_one (by norm_num) (by norm_num)).mul_const _).const_mul _).const_mul _
    rw [zero_mul, mul_zero, mul_zero] at h1
    obtain ⟨j, hj⟩ := (h1.eventually (gt_mem_nhds ht0)).exists
    exact ⟨j, hj.le⟩
  refine ⟨j0 + 1, fun a method hat hmi hl E hE nMin nMax atol up maxFail st hst hodd hmin hup hnear => ?_⟩
  obtain ⟨s0, s1, s3⟩ := E2E.sizes nMin nMax st.length up hmin
  -- one call of the solver
  have call : ∀ k n st', n % 2 = 1 → st.length ≤ n → wnorm r (vec st' n - modes n e u) ≤ ρ → ∃ x : Fin n → ℂ,
      wnorm r (x - modes n e u) ≤ 7 / 8 * ρ ∧ (∀ j < r, ∀ y, ‖iteratedDeriv j (fourierFun e x) y - iteratedDeriv j u y‖ ≤ δ) ∧
      (E.newton k n st').out = List.ofFn x ∧ (E.newton k n st').ok = true ∧ (E.newton k n st').it ≤ j0 + 1 ∧
      ((E.newton k n st').arg = st' ∨ (E.newton k n st').arg = List.ofFn x) := by
    intro k n st' hn hle hv
    obtain ⟨P, I, ip, fuel, hP, hip, hip', hnew⟩ := hE.newton k n st' hn
    obtain ⟨vs, h0, h1, h2⟩ := h n (by omega) hn
    obtain ⟨h3, h4⟩ := (h1 vs).mpr rfl
    have hF : ∀ w, -P.F w = defect e s N f w := by
      intro w
      rw [hP.rhs]
      funext i
      simp only [Pi.neg_apply, neg_sub, defect]
    have hdv : ∀ q (w : Fin n → ℂ), wnorm q (w - vs) ≤ wnorm q (w - modes n e u) + wnorm q (vs - modes n e u) := by
      intro q w
      have h5 := wnorm_add q (w - modes n e u) (modes n e u - vs)
      rwa [sub_add_sub_cancel, wnorm_sub_comm _ (modes n e u)] at h5
    have h0' : wnorm (r - 1) (vs - modes n e u) ≤ 1 / 2 * ρ := (wnorm_mono (Nat.sub_le _ _) _).trans h0
    have hstep : ∀ w, wnorm (r - 1) (w - modes n e u) ≤ ρ → (P.solve w (-P.F w)).2 = true ∧ wnorm (r - 1) (w + (P.solve w (-P.F w)).1 - modes n e u) ≤ ρ ∧
        wnorm (r - 1) (w + (P.solve w (-P.F w)).1 - vs) ≤ 1 / 4 * wnorm (r - 1) (w - vs) ∧ wnorm r (w + (P.solve w (-P.F w)).1 - vs) ≤ 3 / 2 * ρ := by
      intro w hw
      obtain ⟨s', hs', hlin, hnodrop, hsol⟩ := hP.lin w hw
      obtain ⟨g1, _, g2⟩ := h2 w hw s' hs' hlin hnodrop
      obtain ⟨g3, g4⟩ := hsol g1 (-P.F w)
      obtain ⟨g5, _, g6⟩ := g2 _ (g3.trans (hF w))
      have g7 := hdv (r - 1) w
      exact ⟨g4, g5.trans (by linarith), (wnorm_mono (Nat.sub_le _ _) _).trans g6, g6.trans (by linarith)⟩
    have hv' : wnorm (r - 1) (vec st' n - modes n e u) ≤ ρ := (wnorm_mono (Nat.sub_le _ _) _).trans hv
    have hd : wnorm (r - 1) (vec st' n - vs) ≤ 2 * ρ := (hdv _ _).trans (by linarith)
    obtain ⟨q, g1, g2, g3, g4, g5, g6, y, d, g9, g10, g11, g12, g13, g7, g8⟩ := FNw.loop_conv P ip B ρ tol (modes n e u) vs (fun z => wnorm r (z - vs) ≤ 3 / 2 * ρ) hB hip hstep
      a.debug a.miter j0 0 0 (vec st' n) 0 none hv' ((hdv r _).trans (by linarith)) (le_trans (by gcongr) hj0) (by omega)
    have hq : newtonSolve P I ip a fuel method (vec st' n) = .ok q := by
      rw [newtonSolve]
      simp only [hl]
      have ha : algo "lu" = .standard := by decide
      have hst : setup "lu" = .ok () := rfl
      rw [ha, hst, hat, newtonStandard, g1]
      simp only []
      rw [if_neg (by simp; omega)]
      rfl
    obtain ⟨a1, a2, a3, a4⟩ := hnew q hq
    -- the last step
    have hlast : wnorm r (q.x - vs) ≤ 3 / 8 * ρ := by
      obtain ⟨s', hs', hlin, hnodrop, hsol⟩ := hP.lin y g12
      obtain ⟨k1, _, k2⟩ := h2 y g12 s' hs' hlin hnodrop
      obtain ⟨k3, _⟩ := hsol k1 (-P.F y)
      obtain ⟨_, _, k6⟩ := k2 _ (k3.trans (hF y))
      rw [← g13, ← g9] at k6
      have := hdv (r - 1) y
      exact k6.trans (by linarith)
    have hdM : wnorm r d ≤ 4 * ρ := by
      have k1 := wnorm_add r (q.x - vs) (vs - y)
      rw [sub_add_sub_cancel, wnorm_sub_comm r vs y, show q.x - y = d by rw [g9]; abel] at k1
      linarith
    have hds : wnorm (r - 1) d ≤ δ / Ω := by
      refine hmod n hn d ?_ fun i => (hip' d i).trans (g7.trans ht)
      rwa [Nat.sub_add_cancel hr1]
    refine ⟨q.x, ?_, fun j hj x => ?_, a1, a2.trans g2, by rw [a3]; omega, a4⟩
    · have k1 := wnorm_add r (q.x - vs) (vs - modes n e u)
      rw [sub_add_sub_cancel] at k1
      linarith
    · have k1 : ‖iteratedDeriv j (fourierFun e q.x) x - iteratedDeriv j (fourierFun e vs) x‖ ≤ δ / 2 := by
        rw [← fn_toCo hn, ← fn_toCo hn, ← FUn.fn_sub, ← toCo_sub]
        refine (iter_bound e he j _ x).trans ?_
        have k2 : W j (toCo (q.x - vs)) ≤ 1 / 3 * (δ / Ω) := by
          have k3 := W_mono j (r - 1) (by omega) (toCo (q.x - vs))
          rw [← wnorm_eq (r - 1)] at k3
          exact k3.trans (g8.trans (by gcongr))
        have k4 : om e ^ j ≤ Ω := by
          calc om e ^ j ≤ (om e + 1) ^ j := by gcongr; linarith
            _ ≤ (om e + 1) ^ r := pow_le_pow_right₀ (by linarith) hj.le
        calc om e ^ j * W j (toCo (q.x - vs)) ≤ Ω * (1 / 3 * (δ / Ω)) := mul_le_mul k4 k2 (W_nonneg _ _) hΩ0.le
          _ = δ / 3 := by field_simp
          _ ≤ δ / 2 := by linarith
      have k2 := hC j n (by omega) hn vs h3 h4 x
      have k3 : C j / (n : ℝ) ^ 1 ≤ δ / 2 := by
        have hn0 : (0 : ℝ) < n := by exact_mod_cast (by omega : 0 < n)
        have hmn : (m : ℝ) ≤ n := by exact_mod_cast (by omega : m ≤ n)
        rw [pow_one, div_le_iff₀ hn0]
        have h6 : |C j| / (δ / 2) ≤ m := (Finset.single_le_sum (f := fun j => |C j| / (δ / 2)) (fun i _ => by positivity)
          (Finset.mem_range.2 hj)).trans hm
        have h7 : |C j| ≤ m * (δ / 2) := (div_le_iff₀ (by positivity)).1 h6
        calc C j ≤ |C j| := le_abs_self _
          _ ≤ m * (δ / 2) := h7
          _ ≤ δ / 2 * n := by rw [mul_comm]; gcongr
      rw [show iteratedDeriv j (fourierFun e q.x) x - iteratedDeriv j u x = (iteratedDeriv j (fourierFun e q.x) x - iteratedDeriv j (fourierFun e vs) x)
        + (iteratedDeriv j (fourierFun e vs) x - iteratedDeriv j u x) by ring]
      exact (norm_add_le _ _).trans (by linarith)
  -- prolongation
  have hpro : ∀ n (l : List ℂ), n % 2 = 1 → l.length % 2 = 1 → st.length ≤ l.length → l.length ≤ n → wnorm r (vec l l.length - modes l.length e u) ≤ 7 / 8 * ρ →
      wnorm r (vec (E.prolong n l) n - modes n e u) ≤ ρ := by
    intro n l hn hlo hsl hln hw
    rw [wnorm_eq, toCo_sub, toCo_modes hlo] at hw
    rw [hE.prolong, wnorm_eq, toCo_sub, toCo_modes hn, co_prolong l hlo n hn hln]
    have k1 := hfast (l.length / 2) (n / 2) (by omega)
    rw [pow_one] at k1
    have k2 : W r (trunc (fun y => u (Mapping.fwd e y)) (n / 2) - trunc (fun y => u (Mapping.fwd e y)) (l.length / 2)) ≤ ρ / 8 := by
      have k3 : (M2 : ℝ) ≤ ((l.length / 2 : ℕ) : ℝ) := by exact_mod_cast (by omega : M2 ≤ l.length / 2)
      refine le_of_mul_le_mul_left (k1.trans (hM2.trans ?_)) (by positivity : (0 : ℝ) < ((l.length / 2 : ℕ) : ℝ) + 1)
      gcongr
      linarith
    have k4 := W_sub r (toCo (vec l l.length) - trunc (fun y => u (Mapping.fwd e y)) (l.length / 2))
      (trunc (fun y => u (Mapping.fwd e y)) (n / 2) - trunc (fun y => u (Mapping.fwd e y)) (l.length / 2))
    rw [sub_sub_sub_cancel_right] at k4
    linarith
  have hQ : ∀ n ∈ nDisc (ctorMin nMin) nMax st.length (upperBd st.length up) false, n % 2 = 1 ∧ st.length ≤ n := fun n hn =>
    ⟨E2P.sizes nMin nMax st.length up hodd (by omega) hup n hn, (s3 n hn).1⟩
  obtain ⟨w, it, hw, herr, hit⟩ := E3N.loop E atol maxFail (j0 + 1) (fun n => n % 2 = 1 ∧ st.length ≤ n)
    (fun l => l.length % 2 = 1 ∧ st.length ≤ l.length ∧ wnorm r (vec l l.length - modes l.length e u) ≤ 7 / 8 * ρ ∧
      ∀ j < r, ∀ x, ‖iteratedDeriv j (E2P.asPer e l) x - iteratedDeriv j u x‖ ≤ δ)
    (fun l => ∀ j < r, ∀ x, ‖iteratedDeriv j (E2P.asPer e l) x - iteratedDeriv j u x‖ ≤ δ)
    (fun n l => wnorm r (vec l n - modes n e u) ≤ ρ)
    (fun l hl => hl.2.2.2)
    (fun n l hn hln hl => ⟨hpro n l hn.1 hl.1 hl.2.1 hln hl.2.2.1, by
      rw [hE.prolong, E2P.asPer_prolong e l n (by rintro rfl; simp at hl) hln]
      exact hl.2.2.2⟩)
    (fun k n st' hn hv => by
      obtain ⟨x, b1, b2, b3, b4, b5, b6⟩ := call k n st' hn.1 hn.2 hv
      refine ⟨List.ofFn x, by simp, ⟨by simpa using hn.1, by simpa using hn.2, ?_, b2⟩, b3, b4, b5, b6⟩
      have : ∀ k (hk : k = n), wnorm r (vec (List.ofFn x) k - modes k e u) ≤ 7 / 8 * ρ := by
        rintro _ rfl
        rwa [vec_ofFn]
      exact this _ (by simp))
    _ s0 s1 hQ 0 st false (fun h => absurd h (lt_irrefl 0))
    (fun n hn => hpro n st (hQ n hn).1 hodd le_rfl (hQ n hn).2 (hnear.trans (by linarith))) (fun n hn => (hQ n hn).2)
  exact ⟨w, it, hw, hit, herr⟩

omit he hu hper in
/-- There are such environments, for every problem: exact linear solvers, no dropped entries, the Euclidean norm. -/
theorem E3N.env_exists (ρ : ℝ) (a : SolveArgs) (method : String) : ∃ E, IsNlEnv e s N f r c 0 u ρ 1 a method E := by
  classical
  choose P hP using fun n (hn : n % 2 = 1) => discretises_exists e s r c hs N hN f u n hn ρ
  let ip (n : ℕ) : (Fin n → ℂ) → (Fin n → ℂ) → ℝ := fun x y => ∑ i, ‖x i‖ * ‖y i‖
  have hip : ∀ n (x : Fin n → ℂ), ip n x x = ∑ i, ‖x i‖ ^ 2 := fun n x => sum_congr rfl fun i _ => (sq _).symm
  let I (n : ℕ) : InexactProblem (Fin n → ℂ) (Fin n → ℂ) := ⟨fun x => x, fun _ _ x _ _ => (x, true)⟩
  refine ⟨⟨fun n l => Trig.prolongCol l n, fun _ n st => if hn : n % 2 = 1 then
    match newtonSolve (P n hn) (I n) (ip n) a 0 method (vec st n) with
    | .ok q => ⟨List.ofFn q.x, st, q.success, q.k⟩
    | _ => ⟨st, st, false, 0⟩ else ⟨st, st, false, 0⟩, fun _ _ => 0⟩, fun n l => rfl, fun k n st hn => ⟨P n hn, I n, ip n, 0, hP n hn, fun x => ?_, fun x i => ?_, fun q hq => ?_⟩⟩
  · rw [hip, one_mul]
    refine Real.sqrt_le_iff.mpr ⟨wnorm_nonneg _ x, ?_⟩
    refine (Finset.sum_sq_le_sq_sum_of_nonneg fun i _ => norm_nonneg _).trans ?_
    have h : ∑ i, ‖x i‖ ≤ wnorm (r - 1) x := by
      unfold wnorm
      refine sum_le_sum fun i _ => ?_
      have : (1 : ℝ) ≤ (1 + |((wave n i : ℤ) : ℝ)|) ^ (r - 1) := one_le_pow₀ (by linarith [abs_nonneg ((wave n i : ℤ) : ℝ)])
      nlinarith [norm_nonneg (x i)]
    exact pow_le_pow_left₀ (sum_nonneg fun _ _ => norm_nonneg _) h 2
  · rw [hip]
    refine Real.le_sqrt_of_sq_le ?_
    exact Finset.single_le_sum (f := fun i => ‖x i‖ ^ 2) (fun i _ => by positivity) (Finset.mem_univ i)
  · simp only [dif_pos hn, hq]
    exact ⟨trivial, trivial, trivial, Or.inl trivial⟩

omit he hs hN hu hper in
/-- C145 for `-u'' + u + u³ = 2` on `[-1, 1]` and its solution `1`, with the default bounds (`n_max = 14`, `up_steps = 12`). -/
example : ∃ ρ > 0, ∀ δ > 0, ∃ τ > 0, ∃ n0, ∀ tol, 0 < tol → tol ≤ τ → ∃ K : ℕ, ∀ (a : SolveArgs) (method : String), a.tol = tol → K ≤ a.miter → method.toLower = "lu" →
    ∀ E, IsNlEnv ⟨-1, 1⟩ helm (.mul (.d 0) (.mul (.d 0) (.d 0))) [2] 2 (-(1 : ℝ) : ℂ) 0 (fun _ => 1) ρ 1 a method E →
      ∀ st : List ℂ, n0 ≤ st.length → st.length % 2 = 1 → 2 ^ 14 < upperBd st.length 12 →
        wnorm 2 (vec st st.length - modes st.length ⟨-1, 1⟩ fun _ => 1) ≤ ρ / 2 →
        ∃ w it, Adaptive.solve E 2 14 (1 / 10 ^ 8) 12 3 false st.length st = some (w, true, it) ∧ ∀ x, ‖E2P.asPer ⟨-1, 1⟩ w x - 1‖ ≤ δ := by
  obtain ⟨h1, h2, h3, h4, h5, h6⟩ := FNw.cubic
  obtain ⟨ρ, hρ, h⟩ := C145_adaptive ⟨-1, 1⟩ (by norm_num) helm 2 _ h1 _ h2 [2] _ h3 h4 0 1 zero_le_one h5 h6
  refine ⟨ρ, hρ, fun δ hδ => ?_⟩
  obtain ⟨τ, hτ, n0, h⟩ := h δ hδ
  refine ⟨τ, hτ, n0, fun tol ht ht' => ?_⟩
  obtain ⟨K, h⟩ := h tol ht ht'
  refine ⟨K, fun a method ha hm hl E hE st hst hodd hup hnear => ?_⟩
  obtain ⟨w, it, hw, _, hx⟩ := h a method ha hm hl E hE 2 14 (1 / 10 ^ 8) 12 3 st hst hodd (by norm_num) hup hnear
  exact ⟨w, it, hw, fun x => by simpa using hx 0 (by norm_num) x⟩

end Funpy.Props
