import Verif.Props.EigFound
import Mathlib.Analysis.SpecialFunctions.Trigonometric.Complex
import Mathlib.Analysis.SpecialFunctions.Trigonometric.Deriv
import Mathlib.Analysis.Complex.Polynomial.Basic

/-!
# C131: eigenvalues close to the spectrum; the second derivative with Dirichlet conditions
-/

namespace Funpy.Props
open Spec Cheb UltraS OpDisc Matrix Finset Sect WPos CoefNorm Cvg OdeP Eigs EigC
open scoped ContDiff

variable {n : ℕ}

/-- **C131, returned values are close to eigenvalues.**  For every disc and every `ε` there is an `N` such that for every number `n ≥ N` of coefficients
every value in the disc returned by `eigs` is within the distance `ε` of an eigenvalue of the boundary value problem. -/
theorem C131_close (e : Ends) (he : e.e0 < e.e1) (s : Source) (r : ℕ) (c eps : ℝ) (hs : IsODE s r c) (bcs : List BC)
    (hb : ∀ b ∈ bcs, BC.PointsIn e b ∧ BC.Mentions b) (ho : ∀ b ∈ bcs, OrdLt r b) (R ε : ℝ) (hε : 0 < ε) :
    ∃ N, ∀ n, N ≤ n → SecFits n n s → ∀ ordqz, QZ (n := n) ordqz → ∀ tol, 0 ≤ tol → ∀ ls,
      eigs ordqz (⟨e, r, eps, s, bcs⟩ : Disc n) tol = some (true, ls) → ∀ l ∈ ls, ‖l‖ ≤ R → ∃ μ, IsEig e s r bcs μ ∧ ‖l - μ‖ < ε := by
  have hcl : IsClosed {l : ℂ | ∀ μ, IsEig e s r bcs μ → ε ≤ ‖l - μ‖} := by
    simp only [Set.setOf_forall]
    exact isClosed_iInter fun μ => isClosed_iInter fun _ => isClosed_le continuous_const (by fun_prop)
  obtain ⟨N, hN⟩ := C131_no_spurious e he s r c eps hs bcs hb ho (Metric.closedBall 0 R ∩ {l : ℂ | ∀ μ, IsEig e s r bcs μ → ε ≤ ‖l - μ‖})
    ((isCompact_closedBall _ _).inter_right hcl) (fun l hl hE => by
      have := hl.2 l hE
      rw [sub_self, norm_zero] at this
      linarith)
  refine ⟨N, fun n hn hfit ordqz hqz tol ht ls hls l hl hlR => ?_⟩
  by_contra hc
  push Not at hc
  exact hN n hn hfit ordqz hqz tol ht ls hls l hl ⟨by rwa [mem_closedBall_zero_iff], hc⟩

/-! ### the second derivative -/

/-- `u ↦ u''` -/
def EigC.lap : Source := ⟨[(false, []), (false, []), (true, [1])], []⟩

lemma EigC.lap_ode : IsODE lap 2 1 := ⟨by norm_num, one_ne_zero, rfl, rfl, rfl⟩

lemma EigC.lap_apply (e : Ends) (u : ℝ → ℝ) (y : ℝ) : applyLin e lap u y = iteratedDeriv 2 u y := by
  rw [applyLin_sum e lap 2 1 lap_ode]
  simp [lap, sum_range_succ]

lemma EigC.lap_lin (e : Ends) (l : ℂ) (w : ℝ → ℂ) (y : ℝ) : lin e lap 2 1 l w y = iteratedDeriv 2 w y - l * w y := by
  unfold lin OdeStabC.Lin alC cf lap
  simp [sum_range_succ]
  ring

lemma EigC.lap_fits (hn : 2 ≤ n) : SecFits n n lap := by
  refine ⟨?_, by simp [lap]⟩
  intro j hj hf
  simp only [lap, List.length_cons, List.length_nil] at hj
  interval_cases j
  · simp [lap] at hf
  · simp [lap] at hf
  · exact ⟨Or.inl (by simp [lap]), by simp [lap]; omega⟩

/-- the Dirichlet conditions satisfy the hypotheses -/
lemma EigC.dir_ok (e : Ends) (he : e.e0 < e.e1) : (∀ b ∈ dirichlet e 0 0, BC.PointsIn e b ∧ BC.Mentions b) ∧ ∀ b ∈ dirichlet e 0 0, OrdLt 2 b := by
  constructor
  · intro b hb
    simp only [dirichlet, List.mem_cons, List.not_mem_nil, or_false] at hb
    rcases hb with rfl | rfl <;> simp [BC.PointsIn, BC.Mentions, he.le]
  · intro b hb
    simp only [dirichlet, List.mem_cons, List.not_mem_nil, or_false] at hb
    rcases hb with rfl | rfl <;> simp [OrdLt, feOrd]

lemma EigC.dir_hom (e : Ends) (u : ℝ → ℝ) : HomBC (dirichlet e 0 0) u ↔ u e.e0 = 0 ∧ u e.e1 = 0 := by
  simp [HomBC, dirichlet, BC.sem, FE.sem]

lemma EigC.sinh_deriv (μ : ℂ) (a y : ℝ) : HasDerivAt (fun y : ℝ => Complex.sinh (μ * (y - a))) (μ * Complex.cosh (μ * (y - a))) y := by
  have h1 : HasDerivAt (fun y : ℝ => μ * ((y : ℂ) - a)) (μ * 1) y :=
    (((hasDerivAt_id y).ofReal_comp).sub_const (a : ℂ)).const_mul μ
  have h2 := (Complex.hasDerivAt_sinh (μ * ((y : ℂ) - a))).comp y h1
  rw [mul_one, mul_comm] at h2
  exact h2

lemma EigC.cosh_deriv (μ : ℂ) (a y : ℝ) : HasDerivAt (fun y : ℝ => Complex.cosh (μ * (y - a))) (μ * Complex.sinh (μ * (y - a))) y := by
  have h1 : HasDerivAt (fun y : ℝ => μ * ((y : ℂ) - a)) (μ * 1) y :=
    (((hasDerivAt_id y).ofReal_comp).sub_const (a : ℂ)).const_mul μ
  have h2 := (Complex.hasDerivAt_cosh (μ * ((y : ℂ) - a))).comp y h1
  rw [mul_one, mul_comm] at h2
  exact h2

lemma EigC.sinh_iter (μ : ℂ) (a : ℝ) : iteratedDeriv 1 (fun y : ℝ => Complex.sinh (μ * (y - a))) = (fun y : ℝ => μ * Complex.cosh (μ * (y - a))) ∧
    iteratedDeriv 2 (fun y : ℝ => Complex.sinh (μ * (y - a))) = fun y : ℝ => μ * (μ * Complex.sinh (μ * (y - a))) := by
  have h1 : iteratedDeriv 1 (fun y : ℝ => Complex.sinh (μ * (y - a))) = fun y : ℝ => μ * Complex.cosh (μ * (y - a)) := by
    rw [iteratedDeriv_one]
    funext y
    exact (sinh_deriv μ a y).deriv
  refine ⟨h1, ?_⟩
  rw [iteratedDeriv_succ, h1]
  funext y
  exact ((cosh_deriv μ a y).const_mul μ).deriv

lemma EigC.sinh_cd (μ : ℂ) (a : ℝ) : ContDiff ℝ 2 (fun y : ℝ => Complex.sinh (μ * (y - a))) := by
  have h : ContDiff ℝ 2 (fun y : ℝ => μ * ((y : ℂ) - a)) := contDiff_const.mul (Complex.ofRealCLM.contDiff.sub contDiff_const)
  exact ((Complex.contDiff_sinh (n := 2)).restrict_scalars ℝ).comp h

/-- **C131, the Dirichlet problem.**  The eigenvalues of `u''` on an interval of length `b - a` with Dirichlet conditions are the numbers
`-(k π / (b - a))²`, `k = 1, 2, …`. -/
theorem C131_laplace (e : Ends) (he : e.e0 < e.e1) (l : ℂ) :
    IsEig e lap 2 (dirichlet e 0 0) l ↔ ∃ k : ℕ, 1 ≤ k ∧ l = ((-(k * Real.pi / (e.e1 - e.e0)) ^ 2 : ℝ) : ℂ) := by
  have hL : 0 < e.e1 - e.e0 := by linarith
  have hpi := Real.pi_pos
  constructor
  · rintro ⟨u, v, hu, hv, hbu, hbv, ⟨y, hy, hne⟩, hE⟩
    rw [dir_hom] at hbu hbv
    set w := cw u v with hw
    have hwc : ContDiff ℝ (2 : ℕ) w := cw_contDiff u v hu hv
    have hwa : w e.e0 = 0 := (cw_zero u v _).2 ⟨hbu.1, hbv.1⟩
    have hwb : w e.e1 = 0 := (cw_zero u v _).2 ⟨hbu.2, hbv.2⟩
    have hwl : ∀ t ∈ Set.Icc e.e0 e.e1, lin e lap 2 1 l w t = 0 := by
      intro t ht
      rw [hw, lin_cw e lap 2 1 lap_ode l u v hu hv, (hE t ht).1, (hE t ht).2]
      simp
    -- comparison with a solution with the same initial values
    have cmp : ∀ z : ℝ → ℂ, ContDiff ℝ (2 : ℕ) z → (∀ t, iteratedDeriv 2 z t = l * z t) → z e.e0 = 0 → iteratedDeriv 1 z e.e0 = 1 →
        ∀ t ∈ Set.Icc e.e0 e.e1, w t = iteratedDeriv 1 w e.e0 * z t := by
      intro z hz hz2 hz0 hz1 t ht
      have hzc : ContDiff ℝ (2 : ℕ) (fun t => iteratedDeriv 1 w e.e0 * z t) := contDiff_const.mul hz
      have h := OdeStabC.jet_zero (r := 2) (c := ((1 : ℝ) : ℂ)) (al := alC e lap l) (a := e.e0) (b := e.e1) (by simp)
        (fun j _ => (alC_cont e lap l j).continuousOn) (fun t => w t - iteratedDeriv 1 w e.e0 * z t) (hwc.sub hzc) (fun t ht => by
          have h1 := OdeStabC.Lin_sub (r := 2) (c := ((1 : ℝ) : ℂ)) (al := alC e lap l) w _ hwc hzc t
          have h2 := hwl t ht
          have h3 := lap_lin e l (fun t => iteratedDeriv 1 w e.e0 * z t) t
          rw [OdeStabC.iter_smul z hz _ 2 le_rfl, hz2] at h3
          unfold lin at h2 h3
          rw [h1, h2, h3]
          ring) (by
          funext j
          show iteratedDeriv j _ e.e0 = 0
          rw [OdeStabC.iter_sub w _ hwc hzc j j.2.le, OdeStabC.iter_smul z hz _ j j.2.le]
          fin_cases j
          · simp [hwa, hz0]
          · simp only [hz1]
            ring) 0 (by norm_num) t ht
      rw [iteratedDeriv_zero] at h
      exact sub_eq_zero.mp h
    obtain ⟨μ, hμ⟩ : ∃ μ : ℂ, μ * μ = l := by
      obtain ⟨μ, hμ⟩ := IsAlgClosed.exists_pow_nat_eq l (n := 2) (by norm_num)
      exact ⟨μ, by rw [← hμ]; ring⟩
    have hder : iteratedDeriv 1 w e.e0 ≠ 0 ∧ ∀ z : ℝ → ℂ, (∀ t ∈ Set.Icc e.e0 e.e1, w t = iteratedDeriv 1 w e.e0 * z t) → z e.e1 = 0 ∨ iteratedDeriv 1 w e.e0 = 0 := by
      refine ⟨?_, fun z hz => ?_⟩
      · intro h0
        have h1 := OdeStabC.jet_zero (r := 2) (c := ((1 : ℝ) : ℂ)) (al := alC e lap l) (a := e.e0) (b := e.e1) (by simp)
          (fun j _ => (alC_cont e lap l j).continuousOn) w hwc hwl (by
            funext j
            show iteratedDeriv j w e.e0 = 0
            fin_cases j
            · simp [hwa]
            · exact h0) 0 (by norm_num) y hy
        rw [iteratedDeriv_zero, hw, cw_zero] at h1
        rcases hne with h | h
        · exact h h1.1
        · exact h h1.2
      · have := hz e.e1 (Set.right_mem_Icc.mpr he.le)
        rw [hwb] at this
        rcases mul_eq_zero.mp this.symm with h | h
        · exact Or.inr h
        · exact Or.inl h
    by_cases hμ0 : μ = 0
    · -- a linear function
      exfalso
      have hl0 : l = 0 := by rw [← hμ, hμ0, zero_mul]
      have hd1 : ∀ t : ℝ, HasDerivAt (fun t : ℝ => ((t : ℂ) - e.e0)) 1 t := fun t => ((hasDerivAt_id t).ofReal_comp).sub_const _
      have hi1 : iteratedDeriv 1 (fun t : ℝ => ((t : ℂ) - e.e0)) = fun _ => 1 := by
        rw [iteratedDeriv_one]; funext t; exact (hd1 t).deriv
      have h := cmp (fun t => (t : ℂ) - e.e0) (Complex.ofRealCLM.contDiff.sub contDiff_const) (fun t => by
        rw [iteratedDeriv_succ, hi1, hl0]; simp) (by simp) (by rw [hi1])
      rcases hder.2 _ h with h | h
      · have : ((e.e1 - e.e0 : ℝ) : ℂ) = 0 := by push_cast; exact h
        rw [Complex.ofReal_eq_zero] at this
        linarith
      · exact hder.1 h
    · obtain ⟨hs1, hs2⟩ := sinh_iter μ e.e0
      have hsc : ContDiff ℝ (2 : ℕ) (fun t : ℝ => Complex.sinh (μ * (t - e.e0))) := sinh_cd μ e.e0
      have h := cmp (fun t => μ⁻¹ * Complex.sinh (μ * (t - e.e0))) (contDiff_const.mul hsc) (fun t => by
        rw [OdeStabC.iter_smul _ hsc _ 2 le_rfl, hs2, ← hμ]; ring) (by simp) (by
        rw [OdeStabC.iter_smul _ hsc _ 1 (by norm_num), hs1]
        simp [hμ0])
      rcases hder.2 _ h with h | h
      · have h1 : Complex.sinh (μ * (e.e1 - e.e0)) = 0 := by
          rcases mul_eq_zero.mp h with h | h
          · exact absurd (inv_eq_zero.mp h) hμ0
          · exact h
        have h2 : Complex.sin (μ * (e.e1 - e.e0) * Complex.I) = 0 := by rw [Complex.sin_mul_I, h1, zero_mul]
        obtain ⟨k, hk⟩ := Complex.sin_eq_zero_iff.mp h2
        have hLc : ((e.e1 : ℂ) - e.e0) ≠ 0 := by
          have : ((e.e1 - e.e0 : ℝ) : ℂ) ≠ 0 := by exact_mod_cast hL.ne'
          push_cast at this
          exact this
        refine ⟨k.natAbs, ?_, ?_⟩
        · rw [Nat.one_le_iff_ne_zero, Int.natAbs_ne_zero]
          rintro rfl
          rw [Int.cast_zero, zero_mul] at hk
          simp [hμ0, hLc] at hk
        · have h3 : l * ((e.e1 : ℂ) - e.e0) ^ 2 = -((k : ℂ) * Real.pi) ^ 2 := by
            rw [← hk, ← hμ, mul_pow, Complex.I_sq]
            ring
          have h4 : ((k.natAbs : ℕ) : ℂ) ^ 2 = (k : ℂ) ^ 2 := by
            have : ((k.natAbs : ℤ)) ^ 2 = k ^ 2 := Int.natAbs_sq k
            have h5 := congrArg (Int.cast : ℤ → ℂ) this
            rw [Int.cast_pow, Int.cast_pow, Int.cast_natCast] at h5
            exact h5
          rw [Complex.ofReal_neg, Complex.ofReal_pow, Complex.ofReal_div, Complex.ofReal_mul, Complex.ofReal_sub, Complex.ofReal_natCast,
            div_pow, mul_pow, h4, ← mul_pow, ← neg_div, eq_div_iff (pow_ne_zero 2 hLc), h3]
      · exact absurd h hder.1
  · rintro ⟨k, hk, rfl⟩
    set om : ℝ := k * Real.pi / (e.e1 - e.e0) with hom
    have hom0 : 0 < om := by
      have : (0 : ℝ) < k := by exact_mod_cast hk
      positivity
    have hd1 : ∀ t, HasDerivAt (fun t => Real.sin (om * (t - e.e0))) (om * Real.cos (om * (t - e.e0))) t := by
      intro t
      have h1 : HasDerivAt (fun t => om * (t - e.e0)) (om * 1) t := ((hasDerivAt_id t).sub_const _).const_mul om
      have h2 := (Real.hasDerivAt_sin (om * (t - e.e0))).comp t h1
      rw [mul_one, mul_comm] at h2
      exact h2
    have hd2 : ∀ t, HasDerivAt (fun t => om * Real.cos (om * (t - e.e0))) (-om ^ 2 * Real.sin (om * (t - e.e0))) t := by
      intro t
      have h1 : HasDerivAt (fun t => om * (t - e.e0)) (om * 1) t := ((hasDerivAt_id t).sub_const _).const_mul om
      have h2 := ((Real.hasDerivAt_cos (om * (t - e.e0))).comp t h1).const_mul om
      have : om * (-Real.sin (om * (t - e.e0)) * (om * 1)) = -om ^ 2 * Real.sin (om * (t - e.e0)) := by ring
      rw [this] at h2
      exact h2
    have hi : iteratedDeriv 2 (fun t => Real.sin (om * (t - e.e0))) = fun t => -om ^ 2 * Real.sin (om * (t - e.e0)) := by
      rw [iteratedDeriv_succ, iteratedDeriv_one, show deriv (fun t => Real.sin (om * (t - e.e0))) = fun t => om * Real.cos (om * (t - e.e0)) from
        funext fun t => (hd1 t).deriv]
      funext t
      exact (hd2 t).deriv
    refine ⟨fun t => Real.sin (om * (t - e.e0)), fun _ => 0, Real.contDiff_sin.comp (by fun_prop), contDiff_const, ?_, ?_, ?_, fun t ht => ?_⟩
    · rw [dir_hom]
      refine ⟨by simp, ?_⟩
      rw [hom, div_mul_cancel₀ _ hL.ne']
      exact Real.sin_nat_mul_pi k
    · rw [dir_hom]
      exact ⟨rfl, rfl⟩
    · have hpos : 0 < Real.pi / 2 / om := by positivity
      refine ⟨e.e0 + Real.pi / 2 / om, ⟨by linarith, ?_⟩, Or.inl ?_⟩
      · have h1 : Real.pi / 2 / om ≤ e.e1 - e.e0 := by
          rw [hom, div_div_eq_mul_div, div_le_iff₀ (by positivity)]
          have : (1 : ℝ) ≤ k := by exact_mod_cast hk
          nlinarith [mul_pos hpi hL]
        linarith
      · show Real.sin (om * (e.e0 + Real.pi / 2 / om - e.e0)) ≠ 0
        rw [add_sub_cancel_left, mul_div_cancel₀ _ hom0.ne', Real.sin_pi_div_two]
        norm_num
    · rw [lap_apply, lap_apply, hi]
      simp only [Complex.ofReal_re, Complex.ofReal_im, iteratedDeriv_const]
      constructor
      · ring
      · simp

/-- **C131, the Dirichlet problem is solved by `eigs`.**  For every `k ≥ 1` and `ε > 0`, for all large numbers of coefficients a successful `eigs` of the second
derivative with Dirichlet conditions returns a value within `ε` of `-(k π / (b - a))²` (unless a `β` is at most the tolerance); and for every disc, for all
large numbers of coefficients every returned value in it is within `ε` of one of these numbers. -/
theorem C131_laplace_eigs_partial (e : Ends) (he : e.e0 < e.e1) (eps ε : ℝ) (hε : 0 < ε) :
    (∀ k : ℕ, 1 ≤ k → ∃ N, ∀ n, N ≤ n → ∀ ordqz, QZ (n := n) ordqz → ∀ tol, 0 ≤ tol → ∀ ls,
      eigs ordqz (⟨e, 2, eps, lap, dirichlet e 0 0⟩ : Disc n) tol = some (true, ls) →
      (∃ l ∈ ls, ‖l - ((-(k * Real.pi / (e.e1 - e.e0)) ^ 2 : ℝ) : ℂ)‖ < ε) ∨
      ∃ M α β, OpDisc.matrix (⟨e, 2, eps, lap, dirichlet e 0 0⟩ : Disc n) = some M ∧
        ordqz (dense M) (rhsDense (⟨e, 2, eps, lap, dirichlet e 0 0⟩ : Disc n)) = some (α, β) ∧ ∃ i, ‖β i‖ ≤ tol ∧
          ∃ l, ‖l - ((-(k * Real.pi / (e.e1 - e.e0)) ^ 2 : ℝ) : ℂ)‖ < ε ∧ α i = l * β i) ∧
    ∀ R, ∃ N, ∀ n, N ≤ n → ∀ ordqz, QZ (n := n) ordqz → ∀ tol, 0 ≤ tol → ∀ ls,
      eigs ordqz (⟨e, 2, eps, lap, dirichlet e 0 0⟩ : Disc n) tol = some (true, ls) → ∀ l ∈ ls, ‖l‖ ≤ R →
        ∃ k : ℕ, 1 ≤ k ∧ ‖l - ((-(k * Real.pi / (e.e1 - e.e0)) ^ 2 : ℝ) : ℂ)‖ < ε := by
  have hL : 0 < e.e1 - e.e0 := by linarith
  have hpi := Real.pi_pos
  obtain ⟨hb, ho⟩ := dir_ok e he
  constructor
  · intro k hk
    set q : ℝ := (Real.pi / (e.e1 - e.e0)) ^ 2 with hq
    have hq0 : 0 < q := by positivity
    have hpow : ∀ j : ℕ, -((j : ℝ) * Real.pi / (e.e1 - e.e0)) ^ 2 = -((j : ℝ) ^ 2 * q) := by intro j; rw [hq]; ring
    set δ : ℝ := min ε (q / 2) with hδ
    have hδ0 : 0 < δ := lt_min hε (by positivity)
    obtain ⟨N, hN⟩ := C131_found_partial e he lap 2 1 eps lap_ode (dirichlet e 0 0) rfl hb ho _ ((C131_laplace e he _).2 ⟨k, hk, rfl⟩) δ hδ0 (by
      intro l hl hE
      obtain ⟨j, hj, rfl⟩ := (C131_laplace e he l).1 hE
      rw [mem_sphere_iff_norm, ← Complex.ofReal_sub, Complex.norm_real, Real.norm_eq_abs, hpow, hpow] at hl
      have h1 : |(k : ℝ) ^ 2 - (j : ℝ) ^ 2| * q = δ := by
        rw [← hl, ← abs_of_pos hq0, ← abs_mul, abs_of_pos hq0]
        congr 1
        ring
      by_cases hjk : j = k
      · rw [hjk, sub_self, abs_zero, zero_mul] at h1
        linarith
      · have h2 : (1 : ℝ) ≤ |(k : ℝ) ^ 2 - (j : ℝ) ^ 2| := by
          have h3 : ((k : ℤ) ^ 2 - (j : ℤ) ^ 2) ≠ 0 := by
            intro h0
            have h4 : (k : ℤ) ^ 2 = (j : ℤ) ^ 2 := by linarith
            have h5 : k ^ 2 = j ^ 2 := by exact_mod_cast h4
            exact hjk (Nat.pow_left_injective two_ne_zero h5.symm)
          have h4 := Int.one_le_abs h3
          have : ((|(k : ℤ) ^ 2 - (j : ℤ) ^ 2| : ℤ) : ℝ) = |(k : ℝ) ^ 2 - (j : ℝ) ^ 2| := by push_cast; rfl
          rw [← this]
          exact_mod_cast h4
        have h3 : δ ≤ q / 2 := min_le_right _ _
        nlinarith)
    refine ⟨N + 2, fun n hn ordqz hqz tol ht ls hls => ?_⟩
    rcases hN n (by omega) (lap_fits (by omega)) ordqz hqz tol ht ls hls with ⟨l, hl, h⟩ | ⟨M, α, β, hM, hq', i, l, hl, hi, hβ⟩
    · exact Or.inl ⟨l, hl, h.trans_le (min_le_left _ _)⟩
    · exact Or.inr ⟨M, α, β, hM, hq', i, hβ, l, hl.trans_le (min_le_left _ _), hi⟩
  · intro R
    obtain ⟨N, hN⟩ := C131_close e he lap 2 1 eps lap_ode (dirichlet e 0 0) hb ho R ε hε
    refine ⟨N + 2, fun n hn ordqz hqz tol ht ls hls l hl hlR => ?_⟩
    obtain ⟨μ, hμ, h⟩ := hN n (by omega) (lap_fits (by omega)) ordqz hqz tol ht ls hls l hl hlR
    obtain ⟨k, hk, rfl⟩ := (C131_laplace e he μ).1 hμ
    exact ⟨k, hk, h⟩

/-- on `[0, π]` the number `-4` is an eigenvalue and `0` is not -/
example : IsEig ⟨0, Real.pi⟩ lap 2 (dirichlet ⟨0, Real.pi⟩ 0 0) (-4) ∧ ¬ IsEig ⟨0, Real.pi⟩ lap 2 (dirichlet ⟨0, Real.pi⟩ 0 0) 0 := by
  constructor
  · rw [C131_laplace _ Real.pi_pos]
    refine ⟨2, by norm_num, ?_⟩
    have : (-(((2 : ℕ) : ℝ) * Real.pi / (Real.pi - 0)) ^ 2) = -4 := by
      rw [sub_zero, mul_div_assoc, div_self Real.pi_ne_zero]
      norm_num
    rw [this]
    norm_num
  · rw [C131_laplace _ Real.pi_pos]
    rintro ⟨k, hk, h⟩
    have h1 := Complex.ofReal_eq_zero.mp h.symm
    have h2 : (k : ℝ) ≠ 0 := by positivity
    rw [sub_zero, mul_div_assoc, div_self Real.pi_ne_zero, mul_one, neg_eq_zero] at h1
    exact h2 (pow_eq_zero_iff (two_ne_zero) |>.mp h1)

end Funpy.Props
