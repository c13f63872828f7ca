import Verif.Props.FourierConv
import Mathlib.Analysis.Calculus.UniformLimitsDeriv

/-!
# C129: uniquely solvable periodic problems are solved by the Fourier discretisation
-/

namespace Funpy.Props
namespace FUn
end FUn
open Spec Trig TrigSpec Matrix Finset Complex FourierStab FCv FUn Filter Topology
open scoped ContDiff

/-! ### Specification -/

/-- The homogeneous periodic problem has only the zero solution. -/
def FUn.UniquePer (e : Ends) (s : Source) (r : ℕ) : Prop :=
  ∀ w : ℝ → ℂ, ContDiff ℝ r w → Function.Periodic w (Mapping.diff e) → (∀ x, applyOp e s w x = 0) → ∀ x, w x = 0

/-! ### Proofs -/

/-- the frequency -/
noncomputable def FUn.om (e : Ends) : ℝ := 2 * Real.pi / Mapping.diff e

lemma FUn.om_pos (e : Ends) (he : e.e0 < e.e1) : 0 < om e := by
  have hd : 0 < Mapping.diff e := by unfold Mapping.diff; linarith
  unfold om
  positivity

lemma FUn.iter_bound (e : Ends) (he : e.e0 < e.e1) (j : ℕ) (a : Co) (x : ℝ) : ‖iteratedDeriv j (fn e a) x‖ ≤ om e ^ j * W j a := by
  rw [fn_iter]
  refine (ev_bound _ _).trans ?_
  have h := W_diag (fun k => dmul e k ^ j) 0 j (om e ^ j) (fun k => by
    rw [norm_pow, dmul_norm e he, ← mul_pow]
    have := (om_pos e he).le
    unfold om at *
    gcongr
    unfold wt
    linarith) a
  rwa [zero_add] at h

lemma FUn.fn_sub (e : Ends) (a b : Co) (j : ℕ) (x : ℝ) : iteratedDeriv j (fn e (a - b)) x = iteratedDeriv j (fn e a) x - iteratedDeriv j (fn e b) x := by
  rw [fn_iter, fn_iter, fn_iter]
  unfold fn
  rw [map_sub, map_sub, Pi.sub_apply]

/-- the derivatives of a pointwise limit -/
lemma FUn.limit_fn (e : Ends) (he : e.e0 < e.e1) (a : ℕ → Co) (u : ℝ → ℂ) (hu : ∀ x, Tendsto (fun m => fn e (a m) x) atTop (𝓝 (u x))) (s : ℕ)
    (hc : ∀ ε > 0, ∃ N, ∀ m ≥ N, ∀ l ≥ N, W s (a m - a l) ≤ ε) :
    ContDiff ℝ s u ∧ ∀ j ≤ s, TendstoUniformly (fun m => iteratedDeriv j (fn e (a m))) (iteratedDeriv j u) atTop := by
  have hω := om_pos e he
  have hcau : ∀ j ≤ s, ∀ ε > 0, ∃ N, ∀ m ≥ N, ∀ l ≥ N, ∀ x, ‖iteratedDeriv j (fn e (a m)) x - iteratedDeriv j (fn e (a l)) x‖ ≤ ε := by
    intro j hj ε hε
    obtain ⟨N, hN⟩ := hc (ε / om e ^ j) (by positivity)
    refine ⟨N, fun m hm l hl x => ?_⟩
    rw [← fn_sub]
    refine (iter_bound e he j _ x).trans ?_
    have h1 := (W_mono j s hj _).trans (hN m hm l hl)
    calc om e ^ j * W j (a m - a l) ≤ om e ^ j * (ε / om e ^ j) := by gcongr
      _ = ε := by field_simp
  have hex : ∀ j x, ∃ z, j ≤ s → Tendsto (fun m => iteratedDeriv j (fn e (a m)) x) atTop (𝓝 z) := by
    intro j x
    by_cases hj : j ≤ s
    · have : CauchySeq fun m => iteratedDeriv j (fn e (a m)) x := by
        rw [Metric.cauchySeq_iff]
        intro ε hε
        obtain ⟨N, hN⟩ := hcau j hj (ε / 2) (by positivity)
        refine ⟨N, fun m hm l hl => ?_⟩
        rw [dist_eq_norm]
        have := hN m hm l hl x
        linarith
      obtain ⟨z, hz⟩ := cauchySeq_tendsto_of_complete this
      exact ⟨z, fun _ => hz⟩
    · exact ⟨0, fun h => absurd h hj⟩
  choose g hg using hex
  have hunif : ∀ j ≤ s, TendstoUniformly (fun m => iteratedDeriv j (fn e (a m))) (g j) atTop := by
    intro j hj
    rw [Metric.tendstoUniformly_iff]
    intro ε hε
    obtain ⟨N, hN⟩ := hcau j hj (ε / 2) (by positivity)
    filter_upwards [eventually_ge_atTop N] with m hm x
    rw [dist_comm, dist_eq_norm]
    have h1 : Tendsto (fun l => ‖iteratedDeriv j (fn e (a m)) x - iteratedDeriv j (fn e (a l)) x‖) atTop
        (𝓝 ‖iteratedDeriv j (fn e (a m)) x - g j x‖) := (tendsto_const_nhds.sub (hg j x hj)).norm
    have h2 := le_of_tendsto h1 (by
      filter_upwards [eventually_ge_atTop N] with l hl
      exact hN m hm l hl x)
    linarith
  have hder : ∀ j < s, ∀ x, HasDerivAt (g j) (g (j + 1) x) x := by
    intro j hj x
    refine hasDerivAt_of_tendstoUniformly (hunif (j + 1) hj) (Eventually.of_forall fun m y => ?_) (fun y => hg j y hj.le) x
    rw [fn_iter, iteratedDeriv_succ, fn_iter]
    exact (fn_hasDeriv e _ y).differentiableAt.hasDerivAt
  have hiter : ∀ j ≤ s, iteratedDeriv j u = g j := by
    intro j
    induction j with
    | zero =>
      intro _
      rw [iteratedDeriv_zero]
      funext x
      have := hg 0 x (Nat.zero_le _)
      simp only [iteratedDeriv_zero] at this
      exact tendsto_nhds_unique (hu x) this
    | succ j ih =>
      intro hj
      rw [iteratedDeriv_succ, ih (by omega)]
      exact funext fun x => (hder j (by omega) x).deriv
  refine ⟨?_, fun j hj => by rw [hiter j hj]; exact hunif j hj⟩
  rw [contDiff_nat_iff_iteratedDeriv]
  refine ⟨fun m hm => ?_, fun m hm => ?_⟩
  · rw [hiter m hm]
    refine (hunif m hm).continuous (Frequently.of_forall fun l => ?_)
    exact (fn_contDiff e (a l)).continuous_iteratedDeriv m (by exact_mod_cast le_top)
  · rw [hiter m hm.le]
    exact fun x => (hder m hm x).differentiableAt

lemma FUn.agg_iter (r : ℕ) (w : ℝ → ℂ) (hw : ContDiff ℝ r w) (j : ℕ) (hj : j ≤ r) : iteratedDeriv j (aggregate w) = aggregate (iteratedDeriv j w) := by
  induction j with
  | zero => rw [iteratedDeriv_zero, iteratedDeriv_zero]
  | succ j ih =>
    have hc : Continuous (iteratedDeriv j w) := hw.continuous_iteratedDeriv j (by exact_mod_cast (by omega : j ≤ r))
    have hc1 : Continuous (iteratedDeriv (j + 1) w) := hw.continuous_iteratedDeriv (j + 1) (by exact_mod_cast hj)
    have hd : ∀ x, HasDerivAt (iteratedDeriv j w) (iteratedDeriv (j + 1) w x) x := fun x => by
      rw [iteratedDeriv_succ]
      exact ((hw.differentiable_iteratedDeriv j (by exact_mod_cast hj)) x).hasDerivAt
    have hI : ∀ y, ∫ t in (0 : ℝ)..y, iteratedDeriv (j + 1) w t = iteratedDeriv j w y - iteratedDeriv j w 0 := fun y =>
      intervalIntegral.integral_eq_sub_of_hasDerivAt (fun x _ => hd x) (hc1.intervalIntegrable _ _)
    rw [iteratedDeriv_succ, ih (by omega), agg_prim _ hc1]
    funext x
    rw [(agg_hasDeriv _ hc x).deriv, hI, hI, hI]
    ring

lemma FUn.agg_tendsto (f : ℕ → ℝ → ℂ) (u : ℝ → ℂ) (hf : ∀ m, Continuous (f m)) (hu : Continuous u) (h : TendstoUniformly f u atTop) (x : ℝ) :
    Tendsto (fun m => aggregate (f m) x) atTop (𝓝 (aggregate u x)) := by
  rw [Metric.tendsto_atTop]
  rw [Metric.tendstoUniformly_iff] at h
  intro ε hε
  obtain ⟨N, hN⟩ := eventually_atTop.mp (h (ε / 2) (by positivity))
  refine ⟨N, fun m hm => ?_⟩
  have h1 := agg_bound (f m - u) (ε / 2) (fun y => by
    rw [Pi.sub_apply, ← dist_eq_norm, dist_comm]
    exact (hN m hm y).le) x
  rw [agg_sub u (f m) hu (hf m), Pi.sub_apply] at h1
  rw [dist_eq_norm]
  linarith

lemma FUn.int_tendsto (e : Ends) (f : ℕ → ℝ → ℂ) (u : ℝ → ℂ) (hf : ∀ m, Continuous (f m)) (hu : Continuous u) (h : TendstoUniformly f u atTop) :
    Tendsto (fun m => ∫ y in e.e0..e.e1, f m y) atTop (𝓝 (∫ y in e.e0..e.e1, u y)) := by
  rw [Metric.tendsto_atTop]
  rw [Metric.tendstoUniformly_iff] at h
  intro ε hε
  obtain ⟨N, hN⟩ := eventually_atTop.mp (h (ε / (2 * (|e.e1 - e.e0| + 1))) (by positivity))
  refine ⟨N, fun m hm => ?_⟩
  have h1 := intervalIntegral.norm_integral_le_of_norm_le_const (a := e.e0) (b := e.e1) (C := ε / (2 * (|e.e1 - e.e0| + 1))) (f := fun y => f m y - u y)
    (fun y _ => by
      rw [← dist_eq_norm, dist_comm]
      exact (hN m hm y).le)
  rw [intervalIntegral.integral_sub ((hf m).intervalIntegrable _ _) (hu.intervalIntegrable _ _)] at h1
  rw [dist_eq_norm]
  refine lt_of_le_of_lt h1 ?_
  rw [div_mul_eq_mul_div, div_lt_iff₀ (by positivity)]
  have := abs_nonneg (e.e1 - e.e0)
  nlinarith

/-- the operator is continuous -/
lemma FUn.applyOp_tendsto (e : Ends) (s : Source) (r : ℕ) (c : ℂ) (hs : IsOp s r c) (f : ℕ → ℝ → ℂ) (u : ℝ → ℂ) (hf : ∀ m, ContDiff ℝ r (f m))
    (hu : ContDiff ℝ r u) (h : ∀ j ≤ r, TendstoUniformly (fun m => iteratedDeriv j (f m)) (iteratedDeriv j u) atTop) (x : ℝ) :
    Tendsto (fun m => applyOp e s (f m) x) atTop (𝓝 (applyOp e s u x)) := by
  have hcf : ∀ m, ∀ j ≤ r, Continuous (iteratedDeriv j (f m)) := fun m j hj => (hf m).continuous_iteratedDeriv j (by exact_mod_cast hj)
  have hcu : ∀ j ≤ r, Continuous (iteratedDeriv j u) := fun j hj => hu.continuous_iteratedDeriv j (by exact_mod_cast hj)
  unfold applyOp
  refine Tendsto.add (Tendsto.add ?_ ?_) ?_
  · refine tendsto_finsetSum _ fun j hj => ?_
    rw [mem_range, hs.2.2.1] at hj
    exact ((h j (by omega)).tendsto_at x).const_mul _
  · rcases hs.2.2.2.2.2.2.2 with h0 | ⟨q, d, h0, -, hd⟩
    · simp only [h0, List.map_nil, List.sum_nil]
      exact tendsto_const_nhds
    · simp only [h0, List.map_cons, List.map_nil, List.sum_cons, List.sum_nil, add_zero, hd, one_mul]
      have h1 := h 0 (Nat.zero_le _)
      simp only [iteratedDeriv_zero] at h1
      exact (int_tendsto e f u (fun m => (hf m).continuous) hu.continuous h1).const_mul _
  · refine tendsto_finsetSum _ fun j hj => ?_
    rw [mem_range] at hj
    have hjr : j ≤ r := by have := hs.2.2.2.2.2.1; omega
    simp only [agg_iter r u hu j hjr, fun m => agg_iter r (f m) (hf m) j hjr]
    exact (agg_tendsto _ _ (fun m => hcf m j hjr) (hcu j hjr) (h j hjr) x).const_mul _

lemma FUn.exists_limit (e : Ends) (he : e.e0 < e.e1) (a : ℕ → Co) (hc : ∀ ε > 0, ∃ N, ∀ m ≥ N, ∀ l ≥ N, W 0 (a m - a l) ≤ ε) :
    ∃ u : ℝ → ℂ, (∀ x, Tendsto (fun m => fn e (a m) x) atTop (𝓝 (u x))) ∧ Function.Periodic u (Mapping.diff e) := by
  have hex : ∀ x, ∃ z, Tendsto (fun m => fn e (a m) x) atTop (𝓝 z) := by
    intro x
    apply cauchySeq_tendsto_of_complete
    rw [Metric.cauchySeq_iff]
    intro ε hε
    obtain ⟨N, hN⟩ := hc (ε / 2) (by positivity)
    refine ⟨N, fun m hm l hl => ?_⟩
    rw [dist_eq_norm]
    have h1 := fn_sub e (a m) (a l) 0 x
    simp only [iteratedDeriv_zero] at h1
    rw [← h1]
    have h2 := ev_bound (a m - a l) (Mapping.bwd e x)
    have := hN m hm l hl
    show ‖ev (a m - a l) (Mapping.bwd e x)‖ < ε
    linarith
  choose u hu using hex
  refine ⟨u, hu, fun x => ?_⟩
  have h1 := hu (x + Mapping.diff e)
  have h2 : (fun m => fn e (a m) (x + Mapping.diff e)) = fun m => fn e (a m) x := funext fun m => fn_periodic e he _ x
  rw [h2] at h1
  exact tendsto_nhds_unique h1 (hu x)

lemma FUn.bwd_fwd (e : Ends) (he : e.e0 < e.e1) (y : ℝ) : Mapping.bwd e (Mapping.fwd e y) = y := by
  have : e.e1 - e.e0 ≠ 0 := by linarith
  simp only [Mapping.bwd, Mapping.fwd, Mapping.diff]
  field_simp; ring

/-- **uniqueness implies stability** -/
lemma FUn.cstable (e : Ends) (he : e.e0 < e.e1) (s : Source) (r : ℕ) (c : ℂ) (hs : IsOp s r c) (hu : UniquePer e s r) :
    ∃ S, 0 ≤ S ∧ (op e he s r c hs).CStable S := by
  refine (op e he s r c hs).stable_of_unique fun a hc hres => ?_
  have hr : (op e he s r c hs).p + 1 = r := by
    show r - 1 + 1 = r
    have := hs.1
    omega
  rw [hr] at hc
  obtain ⟨u, hlim, hper⟩ := exists_limit e he a (fun ε hε => by
    obtain ⟨N, hN⟩ := hc ε hε
    exact ⟨N, fun m hm l hl => (W_mono _ _ (Nat.zero_le r) _).trans (hN m hm l hl)⟩)
  obtain ⟨hcd, hun⟩ := limit_fn e he a u hlim r hc
  have hz := hu u hcd hper fun x => by
    have h1 := applyOp_tendsto e s r c hs (fun m => fn e (a m)) u (fun m => (fn_contDiff e _).of_le (by exact_mod_cast le_top)) hcd hun x
    have h2 : Tendsto (fun m => applyOp e s (fn e (a m)) x) atTop (𝓝 0) := by
      refine squeeze_zero_norm (fun m => ?_) hres
      rw [applyOp_fn e he s r c hs]
      exact ev_bound _ _
    exact tendsto_nhds_unique h1 h2
  intro ε hε
  have h3 := hun 0 (Nat.zero_le _)
  rw [Metric.tendstoUniformly_iff] at h3
  obtain ⟨N, hN⟩ := eventually_atTop.mp (h3 ε hε)
  refine ⟨N, fun m hm k => coeff_bound (a m) ε (fun y => ?_) k⟩
  have h4 := hN m hm (Mapping.fwd e y)
  simp only [iteratedDeriv_zero] at h4
  rw [hz, dist_zero_left] at h4
  unfold fn at h4
  rw [bwd_fwd e he] at h4
  exact h4.le

lemma FUn.applyOp_sub (e : Ends) (s : Source) (r : ℕ) (c : ℂ) (hs : IsOp s r c) (w u : ℝ → ℂ) (hw : ContDiff ℝ r w) (hu : ContDiff ℝ r u) (x : ℝ) :
    applyOp e s (w - u) x = applyOp e s w x - applyOp e s u x := by
  have hi : ∀ j ≤ r, iteratedDeriv j (w - u) = iteratedDeriv j w - iteratedDeriv j u := by
    intro j hj
    funext x
    exact iteratedDeriv_sub (hw.contDiffAt.of_le (by exact_mod_cast hj)) (hu.contDiffAt.of_le (by exact_mod_cast hj))
  have h1 : ∑ j ∈ range s.coeff.length, coefFun e (s.coeff.getD j (false, [])) x * iteratedDeriv j (w - u) x
      = (∑ j ∈ range s.coeff.length, coefFun e (s.coeff.getD j (false, [])) x * iteratedDeriv j w x)
        - ∑ j ∈ range s.coeff.length, coefFun e (s.coeff.getD j (false, [])) x * iteratedDeriv j u x := by
    rw [← sum_sub_distrib]
    apply sum_congr rfl
    intro j hj
    rw [mem_range, hs.2.2.1] at hj
    rw [hi j (by omega), Pi.sub_apply]
    ring
  have h2 : ∑ j ∈ range s.nl.length, coefFun e (s.nl.getD j (false, [])) x * iteratedDeriv j (aggregate (w - u)) x
      = (∑ j ∈ range s.nl.length, coefFun e (s.nl.getD j (false, [])) x * iteratedDeriv j (aggregate w) x)
        - ∑ j ∈ range s.nl.length, coefFun e (s.nl.getD j (false, [])) x * iteratedDeriv j (aggregate u) x := by
    rw [← sum_sub_distrib]
    apply sum_congr rfl
    intro j hj
    rw [mem_range] at hj
    have hjr : j ≤ r := by have := hs.2.2.2.2.2.1; omega
    rw [agg_iter r (w - u) (hw.sub hu) j hjr, agg_iter r _ hw j hjr, agg_iter r _ hu j hjr, hi j hjr,
      agg_sub _ _ (hu.continuous_iteratedDeriv j (by exact_mod_cast hjr)) (hw.continuous_iteratedDeriv j (by exact_mod_cast hjr)), Pi.sub_apply]
    ring
  have h3 : (s.integral.map fun p => trigEval p.1 (Mapping.bwd e x) * ∫ y in e.e0..e.e1, trigEval p.2 (Mapping.bwd e y) * (w - u) y).sum
      = (s.integral.map fun p => trigEval p.1 (Mapping.bwd e x) * ∫ y in e.e0..e.e1, trigEval p.2 (Mapping.bwd e y) * w y).sum
        - (s.integral.map fun p => trigEval p.1 (Mapping.bwd e x) * ∫ y in e.e0..e.e1, trigEval p.2 (Mapping.bwd e y) * u y).sum := by
    rcases hs.2.2.2.2.2.2.2 with h0 | ⟨q, d, h0, -, hd⟩
    · simp [h0]
    · simp only [h0, List.map_cons, List.map_nil, List.sum_cons, List.sum_nil, add_zero, hd, one_mul, Pi.sub_apply]
      rw [intervalIntegral.integral_sub (hw.continuous.intervalIntegrable _ _) (hu.continuous.intervalIntegrable _ _)]
      ring
  unfold applyOp
  rw [h1, h2, h3]
  ring

/-- **C129.**  If the homogeneous periodic problem has only the zero solution then for every right-hand side `f` with finitely many Fourier coefficients the
problem `L u = f` has exactly one periodic solution `u`, it is smooth, and for all sufficiently large odd numbers `n` of modes the discretised problem has
exactly one solution, which converges to `u` with all derivatives, uniformly and faster than every power of `1 / n`. -/
theorem C129_solves (e : Ends) (he : e.e0 < e.e1) (s : Source) (r : ℕ) (c : ℂ) (eps : ℝ) (hs : IsOp s r c) (huni : UniquePer e s r) (f : List ℂ) :
    ∃ u : ℝ → ℂ, ContDiff ℝ ∞ u ∧ Function.Periodic u (Mapping.diff e) ∧ (∀ x, applyOp e s u x = trigEval f (Mapping.bwd e x)) ∧
      (∀ w : ℝ → ℂ, ContDiff ℝ r w → Function.Periodic w (Mapping.diff e) → (∀ x, applyOp e s w x = trigEval f (Mapping.bwd e x)) → w = u) ∧
      ∀ t j : ℕ, ∃ C N, ∀ n, N ≤ n → n % 2 = 1 → NoDrop n (Mapping.diff e) eps s →
        (∃! v : Fin n → ℂ, quasi2diffmat n (Mapping.diff e) eps s *ᵥ v = fun i : Fin n => fourier (trigEval f) (wave n i)) ∧
        ∀ v : Fin n → ℂ, (quasi2diffmat n (Mapping.diff e) eps s *ᵥ v = fun i : Fin n => fourier (trigEval f) (wave n i)) →
          ∀ x, ‖iteratedDeriv j (fourierFun e v) x - iteratedDeriv j u x‖ ≤ C / (n : ℝ) ^ t := by
  obtain ⟨S, hS, hst⟩ := cstable e he s r c hs huni
  set L := op e he s r c hs with hL
  set φ := coOf f with hφ
  have hf : trigEval f = ev φ := funext fun y => (ev_coOf f y).symm
  obtain ⟨N0, hreg⟩ := regularC e he s r c hs S hS hst
  -- a solution of the discrete problem satisfies the equations on coefficients
  have hlo : ∀ n, n % 2 = 1 → ∀ v : Fin n → ℂ, (assemble n (Mapping.diff e) s *ᵥ v = fun i : Fin n => fourier (trigEval f) (wave n i)) →
      lo (n / 2) (L.Lam (toCo v)) = lo (n / 2) φ := by
    intro n hodd v hv
    ext k
    rw [lo_apply, lo_apply]
    split_ifs with h
    · obtain ⟨i, rfl⟩ := exists_wave hodd k h
      rw [hL, ← matrix_co e he s r c hs hodd, hv]
      show fourier (trigEval f) (wave n i) = _
      rw [hf, fourier_ev]
    · rfl
  have hsol : ∀ m, ∃ a : Co, (∀ k : ℤ, m + N0 < k.natAbs → a k = 0) ∧ lo (m + N0) (L.Lam a) = lo (m + N0) φ := by
    intro m
    have hodd : (2 * (m + N0) + 1) % 2 = 1 := by omega
    obtain ⟨v, hv, -⟩ := hreg (2 * (m + N0) + 1) (by omega) hodd (fun i => fourier (trigEval f) (wave _ i))
    have hd : (2 * (m + N0) + 1) / 2 = m + N0 := by omega
    refine ⟨toCo v, fun k hk => toCo_out hodd v k (by rw [hd]; exact hk), ?_⟩
    have := hlo _ hodd v hv
    rwa [hd] at this
  choose a ha1 ha2 using hsol
  have hcau : ∀ q, ∀ ε > 0, ∃ N, ∀ m ≥ N, ∀ l ≥ N, W q (a m - a l) ≤ ε := by
    intro q ε hε
    obtain ⟨C, N, hC, h⟩ := L.section_cauchy S hS hst φ q 1
    obtain ⟨N1, hN1⟩ := exists_nat_ge (C / ε)
    have key : ∀ m ≥ N + N1, ∀ l ≥ m, W q (a m - a l) ≤ ε := by
      intro m hm l hl
      have h1 := h (m + N0) (by omega) (l + N0) (by omega) (a m) (a l) (ha1 m) (ha1 l) (ha2 m) (ha2 l)
      rw [pow_one] at h1
      rw [div_le_iff₀ hε] at hN1
      have h2 : (N1 : ℝ) ≤ ((m + N0 : ℕ) : ℝ) := by exact_mod_cast (by omega : N1 ≤ m + N0)
      have h3 : (((m + N0 : ℕ) : ℝ) + 1) * W q (a m - a l) ≤ (((m + N0 : ℕ) : ℝ) + 1) * ε := by nlinarith
      exact le_of_mul_le_mul_left h3 (by positivity)
    refine ⟨N + N1, fun m hm l hl => ?_⟩
    rcases le_total m l with h1 | h1
    · exact key m hm l h1
    · have := key l hl m h1
      rwa [← W_neg, neg_sub] at this
  obtain ⟨u, hlim, hper⟩ := exists_limit e he a (hcau 0)
  have hlimit := fun q => limit_fn e he a u hlim q (hcau q)
  have hcd : ContDiff ℝ ∞ u := contDiff_infty.mpr fun q => (hlimit q).1
  have hcr := (hlimit r).1
  have hequ : ∀ x, applyOp e s u x = trigEval f (Mapping.bwd e x) := by
    intro x
    have h1 := applyOp_tendsto e s r c hs (fun m => fn e (a m)) u (fun m => (fn_contDiff e _).of_le (by exact_mod_cast le_top)) hcr (hlimit r).2 x
    have h2 : Tendsto (fun m => applyOp e s (fn e (a m)) x) atTop (𝓝 (trigEval f (Mapping.bwd e x))) := by
      obtain ⟨C, N, hC, h⟩ := L.residual_decay S hS hst φ 0 1
      rw [tendsto_iff_norm_sub_tendsto_zero]
      refine squeeze_zero' (Eventually.of_forall fun m => norm_nonneg _) (g := fun m : ℕ => C * (1 / ((m : ℝ) + 1))) ?_ ?_
      · filter_upwards [eventually_ge_atTop N] with m hm
        rw [applyOp_fn e he s r c hs, hf, ← Pi.sub_apply, ← map_sub]
        refine (ev_bound _ _).trans ?_
        have h3 := h (m + N0) (by omega) (a m) (ha1 m) (ha2 m)
        rw [pow_one] at h3
        rw [mul_one_div, le_div_iff₀ (by positivity)]
        have h4 := W_nonneg 0 (L.Lam (a m) - φ)
        push_cast at h3
        have h5 := Nat.cast_nonneg (α := ℝ) N0
        show W 0 (L.Lam (a m) - φ) * _ ≤ C
        nlinarith [mul_nonneg h5 h4]
      · have := tendsto_one_div_add_atTop_nhds_zero_nat (𝕜 := ℝ)
        simpa using this.const_mul C
    exact tendsto_nhds_unique h1 h2
  refine ⟨u, hcd, hper, hequ, fun w hw hwp hweq => ?_, fun t j => ?_⟩
  · have h1 := huni (w - u) (hw.sub hcr) (hwp.sub hper) fun x => by
      rw [FUn.applyOp_sub e s r c hs w u hw hcr, hweq, hequ, sub_self]
    funext x
    have := h1 x
    rw [Pi.sub_apply, sub_eq_zero] at this
    exact this
  · obtain ⟨C, N, hC, h⟩ := L.section_cauchy S hS hst φ j t
    have hω := om_pos e he
    refine ⟨om e ^ j * (C * 2 ^ t), N0 + 2 * N, fun n hn hodd hnd => ?_⟩
    rw [nodrop hnd]
    refine ⟨hreg n (by omega) hodd _, fun v hv x => ?_⟩
    have hn0 : (0 : ℝ) < (n : ℝ) ^ t := by
      have : 0 < n := by omega
      positivity
    have h2 : (n : ℝ) ^ t ≤ 2 ^ t * (((n / 2 : ℕ) : ℝ) + 1) ^ t := by
      rw [← mul_pow]
      gcongr
      exact_mod_cast (by omega : n ≤ 2 * (n / 2 + 1))
    have hconv : Tendsto (fun l => ‖iteratedDeriv j (fn e (toCo v)) x - iteratedDeriv j (fn e (a l)) x‖) atTop
        (𝓝 ‖iteratedDeriv j (fn e (toCo v)) x - iteratedDeriv j u x‖) :=
      (tendsto_const_nhds.sub (((hlimit j).2 j le_rfl).tendsto_at x)).norm
    rw [← fn_toCo hodd]
    refine le_of_tendsto hconv ?_
    filter_upwards [eventually_ge_atTop n] with l hl
    rw [← fn_sub, le_div_iff₀ hn0]
    have h3 := h (n / 2) (by omega) (l + N0) (by omega) (toCo v) (a l) (toCo_out hodd v) (ha1 l) (hlo n hodd v hv) (ha2 l)
    have h4 := iter_bound e he j (toCo v - a l) x
    have h5 := W_nonneg j (toCo v - a l)
    calc _ ≤ (om e ^ j * W j (toCo v - a l)) * (2 ^ t * (((n / 2 : ℕ) : ℝ) + 1) ^ t) := by gcongr
      _ = om e ^ j * (((((n / 2 : ℕ) : ℝ) + 1) ^ t * W j (toCo v - a l)) * 2 ^ t) := by ring
      _ ≤ _ := by gcongr

/-- **C129, elliptic problems** `-d u'' + p u' + q u + b₀ A u + b₁ (A u)' = f` with `d > 0`, real `p` and `q` and `q ≥ q₀ > β ≥ |b₀| + 2 |b₁|` are uniquely
solvable; hence the previous theorem applies to them. -/
theorem C129_elliptic (e : Ends) (he : e.e0 < e.e1) (d q0 β : ℝ) (hd : 0 < d) (p q b0 b1 : List ℂ) (hlen : p.length ≠ 0 ∧ q.length ≠ 0 ∧ b0.length ≠ 0 ∧ b1.length ≠ 0)
    (hp : ∀ y, (trigEval p y).im = 0) (hq : ∀ y, (trigEval q y).im = 0 ∧ q0 ≤ (trigEval q y).re)
    (hb : ∀ y, ‖trigEval b0 y‖ + 2 * ‖trigEval b1 y‖ ≤ β) (hβ : β < q0) :
    let s : Source := ⟨[(true, q), (true, p), (true, [(-d : ℂ)])], [], [(true, b0), (true, b1)]⟩
    IsOp s 2 (-d) ∧ UniquePer e s 2 := by
  intro s
  refine ⟨(C128_elliptic e he d q0 β hd p q b0 b1 hlen hp hq hb hβ).1, fun w hw hper h0 x => ?_⟩
  have := elliptic_est e he d q0 β hd p q b0 b1 hp hq hb hβ w hw hper 0 (fun x => by
    have h1 := h0 x
    simp only [s] at h1
    rw [h1, norm_zero]) x
  rw [mul_zero] at this
  exact norm_le_zero_iff.mp this

/-- **C129, problems which are not uniquely solvable.**  If a non-zero trigonometric polynomial solves the homogeneous problem then the matrices are singular for
all sufficiently large odd numbers of modes. -/
theorem C129_singular (e : Ends) (he : e.e0 < e.e1) (s : Source) (r : ℕ) (c : ℂ) (eps : ℝ) (hs : IsOp s r c) (w : List ℂ) (hw : ∃ y, trigEval w y ≠ 0)
    (h0 : ∀ x, applyOp e s (fun x => trigEval w (Mapping.bwd e x)) x = 0) :
    ∃ N, ∀ n, N ≤ n → n % 2 = 1 → NoDrop n (Mapping.diff e) eps s → ∃ v : Fin n → ℂ, v ≠ 0 ∧ quasi2diffmat n (Mapping.diff e) eps s *ᵥ v = 0 := by
  obtain ⟨N, hN⟩ := exists_bound (coOf w)
  refine ⟨2 * N, fun n hn hodd hnd => ⟨fun i => coOf w (wave n i), fun hv => ?_, ?_⟩⟩
  · obtain ⟨y, hy⟩ := hw
    apply hy
    have h1 := toCo_surj hodd (coOf w) (fun k hk => hN k (by omega))
    rw [← ev_coOf, ← h1, hv]
    simp [toCo]
  · rw [nodrop hnd]
    funext i
    rw [matrix_co e he s r c hs hodd, toCo_surj hodd (coOf w) (fun k hk => hN k (by omega)), ← fourier_ev]
    have h1 : ev ((op e he s r c hs).Lam (coOf w)) = fun _ => 0 := by
      funext y
      have h2 := h0 (Mapping.fwd e y)
      have h3 : (fun x => trigEval w (Mapping.bwd e x)) = fn e (coOf w) := funext fun x => (ev_coOf w _).symm
      rwa [h3, applyOp_fn e he s r c hs, bwd_fwd e he] at h2
    rw [h1]
    simp [fourier]

/-- the hypotheses hold for `-u'' + u = f` on `[-1, 1]` -/
example : UniquePer ⟨-1, 1⟩ helm 2 :=
  (C129_elliptic ⟨-1, 1⟩ (by norm_num) 1 1 0 one_pos [0] [1] [0] [0] (by simp) (fun y => by simp [trigEval])
    (fun y => by simp [trigEval, trigMode, wave]) (fun y => by simp [trigEval]) one_pos).2

/-- the hypotheses of the singular case hold for `u'' = f`, with the constant functions as solutions of the homogeneous problem -/
example : let s : Source := ⟨[(false, [0]), (false, [0]), (true, [1])], [], []⟩
    IsOp s 2 1 ∧ (∃ y, trigEval [1] y ≠ 0) ∧ ∀ x, applyOp ⟨-1, 1⟩ s (fun x => trigEval [1] (Mapping.bwd ⟨-1, 1⟩ x)) x = 0 := by
  refine ⟨⟨by norm_num, one_ne_zero, rfl, rfl, by simp, by simp, by simp, Or.inl rfl⟩, ⟨0, by simp [trigEval, trigMode, wave]⟩, fun x => ?_⟩
  have h : (fun x : ℝ => trigEval [1] (Mapping.bwd ⟨-1, 1⟩ x)) = fun _ => (1 : ℂ) := by
    funext x
    simp [trigEval, trigMode, wave]
  rw [h]
  simp [applyOp, coefFun, sum_range_succ, iteratedDeriv_const]

end Funpy.Props
