import Mathlib.Analysis.ODE.Gronwall
import Mathlib.Analysis.Calculus.IteratedDeriv.Lemmas
import Mathlib.Analysis.Calculus.Deriv.Pi
import Mathlib.Analysis.Calculus.Deriv.Prod
import Mathlib.MeasureTheory.Integral.IntervalIntegral.FundThmCalculus
import Mathlib.Topology.UniformSpace.UniformConvergence
import Mathlib.Topology.Order.ProjIcc
import Mathlib.Topology.Sequences
import Mathlib.Analysis.Normed.Module.FiniteDimension

/-!
# A priori estimates for linear ordinary differential equations with constant leading coefficient
-/

namespace Funpy.OdeStab
open Finset Set Filter Topology

/-- `c w^{(r)} + ∑_{j < r} α_j w^{(j)}` -/
noncomputable def Lin (r : ℕ) (c : ℝ) (al : ℕ → ℝ → ℝ) (w : ℝ → ℝ) (y : ℝ) : ℝ :=
  c * iteratedDeriv r w y + ∑ j ∈ range r, al j y * iteratedDeriv j w y

/-- the derivatives of order `< r` -/
noncomputable def jet (r : ℕ) (w : ℝ → ℝ) (y : ℝ) : Fin r → ℝ := fun j => iteratedDeriv j w y

variable {r : ℕ} {c a b : ℝ} {al : ℕ → ℝ → ℝ}

lemma jet_le (r : ℕ) (w : ℝ → ℝ) (y : ℝ) (j : ℕ) (hj : j < r) : |iteratedDeriv j w y| ≤ ‖jet r w y‖ := by
  have := norm_le_pi_norm (jet r w y) ⟨j, hj⟩
  simpa [jet] using this

lemma top_le (hc : c ≠ 0) (A : ℝ) (w : ℝ → ℝ) (y M : ℝ) (hA : ∀ j < r, |al j y| ≤ A) (hM : |Lin r c al w y| ≤ M) :
    |iteratedDeriv r w y| ≤ (r * A / |c|) * ‖jet r w y‖ + M / |c| := by
  have hc' : 0 < |c| := abs_pos.mpr hc
  have h1 : c * iteratedDeriv r w y = Lin r c al w y - ∑ j ∈ range r, al j y * iteratedDeriv j w y := by
    unfold Lin; ring
  have h2 : |∑ j ∈ range r, al j y * iteratedDeriv j w y| ≤ r * A * ‖jet r w y‖ := by
    refine (abs_sum_le_sum_abs _ _).trans ?_
    calc ∑ j ∈ range r, |al j y * iteratedDeriv j w y| ≤ ∑ j ∈ range r, A * ‖jet r w y‖ := by
          apply sum_le_sum
          intro j hj
          rw [Finset.mem_range] at hj
          rw [abs_mul]
          have hA0 : 0 ≤ A := (abs_nonneg _).trans (hA j hj)
          exact mul_le_mul (hA j hj) (jet_le r w y j hj) (abs_nonneg _) hA0
      _ = _ := by rw [sum_const, card_range, nsmul_eq_mul]; ring
  have h3 : |c| * |iteratedDeriv r w y| ≤ M + r * A * ‖jet r w y‖ := by
    rw [← abs_mul, h1]
    exact (abs_sub _ _).trans (add_le_add hM h2)
  rw [div_mul_eq_mul_div, ← add_div, le_div_iff₀ hc']
  linarith

lemma deriv_iter (w : ℝ → ℝ) (hw : ContDiff ℝ r w) (j : ℕ) (hj : j < r) (y : ℝ) :
    HasDerivAt (iteratedDeriv j w) (iteratedDeriv (j + 1) w y) y := by
  rw [iteratedDeriv_succ]
  apply DifferentiableAt.hasDerivAt
  exact (hw.differentiable_iteratedDeriv j (by exact_mod_cast hj)) y

/-- Gronwall's estimate -/
lemma gronwall (hc : c ≠ 0) (A : ℝ) (hA0 : 0 ≤ A) (a b : ℝ) :
    ∃ C, 0 ≤ C ∧ ∀ w : ℝ → ℝ, ContDiff ℝ r w → (∀ j < r, ∀ y ∈ Icc a b, |al j y| ≤ A) → ∀ M,
      (∀ y ∈ Icc a b, |Lin r c al w y| ≤ M) → ∀ y ∈ Icc a b, ‖jet r w y‖ ≤ C * (‖jet r w a‖ + M) := by
  have hc' : 0 < |c| := abs_pos.mpr hc
  set K : ℝ := 1 + r * A / |c| with hK
  have hK0 : 0 < K := by positivity
  refine ⟨Real.exp (K * (b - a)) * (1 + 1 / (|c| * K)), by positivity, fun w hw hA M hM y hy => ?_⟩
  have hM0 : 0 ≤ M := (abs_nonneg _).trans (hM y hy)
  have h := norm_le_gronwallBound_of_norm_deriv_right_le (f := jet r w) (f' := fun y (j : Fin r) => iteratedDeriv (j + 1) w y)
    (δ := ‖jet r w a‖) (K := K) (ε := M / |c|) (a := a) (b := b) (by
      apply Continuous.continuousOn
      apply continuous_pi
      intro j
      exact hw.continuous_iteratedDeriv j (by exact_mod_cast j.2.le)) (fun x _ => by
      apply HasDerivAt.hasDerivWithinAt
      rw [hasDerivAt_pi]
      intro j
      exact deriv_iter w hw j j.2 x) le_rfl (fun x hx => by
      have hx' : x ∈ Icc a b := ⟨hx.1, hx.2.le⟩
      have hn := norm_nonneg (jet r w x)
      rw [pi_norm_le_iff_of_nonneg (by positivity)]
      intro j
      rw [Real.norm_eq_abs]
      by_cases hj : (j : ℕ) + 1 < r
      · have h1 := jet_le r w x _ hj
        have h2 : 0 ≤ r * A / |c| * ‖jet r w x‖ := by positivity
        have h3 : 0 ≤ M / |c| := by positivity
        rw [hK, add_mul, one_mul]
        linarith
      · have hjr : (j : ℕ) + 1 = r := by omega
        have h1 := top_le hc A w x M (fun i hi => hA i hi x hx') (hM x hx')
        rw [hjr, hK, add_mul, one_mul]
        linarith) y hy
  rw [gronwallBound_of_K_ne_0 hK0.ne'] at h
  refine h.trans ?_
  have h1 : Real.exp (K * (y - a)) ≤ Real.exp (K * (b - a)) := by
    apply Real.exp_le_exp.mpr
    have := hy.2
    gcongr
  have hE : 0 < Real.exp (K * (b - a)) := Real.exp_pos _
  have hn := norm_nonneg (jet r w a)
  have h2 : M / |c| / K * (Real.exp (K * (y - a)) - 1) ≤ M / |c| / K * Real.exp (K * (b - a)) := by
    gcongr
    linarith
  have h3 : M / |c| / K = 1 / (|c| * K) * M := by field_simp
  have h4 : 0 ≤ 1 / (|c| * K) := by positivity
  rw [h3] at h2 ⊢
  calc ‖jet r w a‖ * Real.exp (K * (y - a)) + 1 / (|c| * K) * M * (Real.exp (K * (y - a)) - 1)
      ≤ ‖jet r w a‖ * Real.exp (K * (b - a)) + 1 / (|c| * K) * M * Real.exp (K * (b - a)) := by gcongr
    _ ≤ _ := by
      have : 0 ≤ Real.exp (K * (b - a)) * (1 / (|c| * K) * ‖jet r w a‖ + M) := by positivity
      linarith

/-! ### limits of smooth functions on an interval -/

/-- iterated antiderivatives of the extension of `v r` -/
noncomputable def anti (a b : ℝ) (hab : a ≤ b) (r : ℕ) (v : ℕ → ℝ → ℝ) : ℕ → ℝ → ℝ
  | 0 => fun y => v r (projIcc a b hab y)
  | i + 1 => fun y => v (r - i - 1) a + ∫ t in a..y, anti a b hab r v i t

lemma anti_cont (hab : a ≤ b) (v : ℕ → ℝ → ℝ) (hv : ContinuousOn (v r) (Icc a b)) (i : ℕ) : Continuous (anti a b hab r v i) := by
  induction i with
  | zero =>
    have h : Continuous fun y : Icc a b => v r y := by
      rw [continuousOn_iff_continuous_domRestrict] at hv
      exact hv
    exact h.comp continuous_projIcc
  | succ i ih =>
    have : ∀ y, HasDerivAt (anti a b hab r v (i + 1)) (anti a b hab r v i y) y := fun y =>
      (intervalIntegral.integral_hasDerivAt_right (ih.intervalIntegrable _ _) ih.aestronglyMeasurable.stronglyMeasurableAtFilter
        ih.continuousAt).const_add _
    exact continuous_iff_continuousAt.mpr fun y => (this y).continuousAt

lemma anti_deriv (hab : a ≤ b) (v : ℕ → ℝ → ℝ) (hv : ContinuousOn (v r) (Icc a b)) (i : ℕ) (y : ℝ) :
    HasDerivAt (anti a b hab r v (i + 1)) (anti a b hab r v i y) y := by
  have ih := anti_cont hab v hv i
  exact (intervalIntegral.integral_hasDerivAt_right (ih.intervalIntegrable _ _) ih.aestronglyMeasurable.stronglyMeasurableAtFilter
    ih.continuousAt).const_add _

lemma limit_fun (hab : a ≤ b) (z : ℕ → ℝ → ℝ) (hz : ∀ k, ContDiff ℝ r (z k)) (v : ℕ → ℝ → ℝ)
    (hv : ∀ j ≤ r, TendstoUniformlyOn (fun k y => iteratedDeriv j (z k) y) (v j) atTop (Icc a b)) :
    ∃ w : ℝ → ℝ, ContDiff ℝ r w ∧ ∀ j ≤ r, ∀ y ∈ Icc a b, iteratedDeriv j w y = v j y := by
  have hvc : ∀ j ≤ r, ContinuousOn (v j) (Icc a b) := fun j hj =>
    (hv j hj).continuousOn (Frequently.of_forall fun k => ((hz k).continuous_iteratedDeriv j (by exact_mod_cast hj)).continuousOn)
  -- the limits are antiderivatives of each other
  have hint : ∀ j < r, ∀ y ∈ Icc a b, v j y = v j a + ∫ t in a..y, v (j + 1) t := by
    intro j hj y hy
    have h1 : Tendsto (fun k => iteratedDeriv j (z k) y - iteratedDeriv j (z k) a) atTop (𝓝 (v j y - v j a)) :=
      ((hv j hj.le).tendsto_at hy).sub ((hv j hj.le).tendsto_at (left_mem_Icc.mpr hab))
    have hsub : Set.uIoc a y ⊆ Icc a b := by
      rw [Set.uIoc_of_le hy.1]
      intro t ht
      exact ⟨ht.1.le, ht.2.trans hy.2⟩
    have hii : IntervalIntegrable (v (j + 1)) MeasureTheory.volume a y := by
      apply ContinuousOn.intervalIntegrable
      rw [Set.uIcc_of_le hy.1]
      exact (hvc (j + 1) hj).mono (Icc_subset_Icc_right hy.2)
    have h2 : Tendsto (fun k => iteratedDeriv j (z k) y - iteratedDeriv j (z k) a) atTop (𝓝 (∫ t in a..y, v (j + 1) t)) := by
      rw [Metric.tendsto_atTop]
      intro ε hε
      have h3 := Metric.tendstoUniformlyOn_iff.mp (hv (j + 1) hj) (ε / (y - a + 1)) (div_pos hε (by linarith [hy.1]))
      obtain ⟨N, hN⟩ := eventually_atTop.mp h3
      refine ⟨N, fun k hk => ?_⟩
      have hcz := (hz k).continuous_iteratedDeriv (j + 1) (by exact_mod_cast hj)
      have h4 : iteratedDeriv j (z k) y - iteratedDeriv j (z k) a = ∫ t in a..y, iteratedDeriv (j + 1) (z k) t :=
        (intervalIntegral.integral_eq_sub_of_hasDerivAt (fun t _ => deriv_iter (z k) (hz k) j hj t) (hcz.intervalIntegrable _ _)).symm
      rw [h4, Real.dist_eq, ← intervalIntegral.integral_sub (hcz.intervalIntegrable _ _) hii]
      have h5 := intervalIntegral.norm_integral_le_of_norm_le_const (a := a) (b := y) (C := ε / (y - a + 1))
        (f := fun t => iteratedDeriv (j + 1) (z k) t - v (j + 1) t) (fun t ht => by
          have := hN k hk t (hsub ht)
          rw [dist_comm, Real.dist_eq] at this
          exact this.le)
      rw [Real.norm_eq_abs, abs_of_nonneg (by linarith [hy.1] : 0 ≤ y - a)] at h5
      refine lt_of_le_of_lt h5 ?_
      rw [div_mul_eq_mul_div, div_lt_iff₀ (by linarith [hy.1])]
      nlinarith [hy.1]
    have := tendsto_nhds_unique h1 h2
    linarith
  have hon : ∀ i ≤ r, ∀ y ∈ Icc a b, anti a b hab r v i y = v (r - i) y := by
    intro i
    induction i with
    | zero =>
      intro _ y hy
      show v r (projIcc a b hab y) = _
      rw [projIcc_of_mem hab hy]
      rfl
    | succ i ih =>
      intro hi y hy
      show v (r - i - 1) a + ∫ t in a..y, anti a b hab r v i t = _
      rw [show r - (i + 1) = r - i - 1 by omega, hint (r - i - 1) (by omega) y hy, show r - i - 1 + 1 = r - i by omega]
      congr 1
      apply intervalIntegral.integral_congr
      intro t ht
      rw [Set.uIcc_of_le hy.1] at ht
      exact ih (by omega) t ⟨ht.1, ht.2.trans hy.2⟩
  have hit : ∀ j ≤ r, iteratedDeriv j (anti a b hab r v r) = anti a b hab r v (r - j) := by
    intro j
    induction j with
    | zero => intro _; rw [iteratedDeriv_zero, Nat.sub_zero]
    | succ j ih =>
      intro hj
      rw [iteratedDeriv_succ, ih (by omega)]
      funext y
      have := anti_deriv hab v (hvc r le_rfl) (r - (j + 1)) y
      rw [show r - (j + 1) + 1 = r - j by omega] at this
      exact this.deriv
  refine ⟨anti a b hab r v r, ?_, fun j hj y hy => ?_⟩
  · rw [contDiff_nat_iff_iteratedDeriv]
    constructor
    · intro m hm
      rw [hit m hm]
      exact anti_cont hab v (hvc r le_rfl) _
    · intro m hm
      rw [hit m hm.le]
      intro y
      have := anti_deriv hab v (hvc r le_rfl) (r - (m + 1)) y
      rw [show r - (m + 1) + 1 = r - m by omega] at this
      exact this.differentiableAt
  · rw [hit j hj, hon (r - j) (by omega) y hy, show r - (r - j) = j by omega]

/-- a sequence which is Cauchy with all derivatives up to the order `r` has a limit -/
lemma exists_limit (hab : a ≤ b) (z : ℕ → ℝ → ℝ) (hz : ∀ k, ContDiff ℝ r (z k)) (δ : ℕ → ℝ) (hδ : Tendsto δ atTop (𝓝 0))
    (hd : ∀ j ≤ r, ∀ k l, ∀ y ∈ Icc a b, |iteratedDeriv j (z k) y - iteratedDeriv j (z l) y| ≤ δ k + δ l) :
    ∃ w : ℝ → ℝ, ContDiff ℝ r w ∧ ∀ j ≤ r, ∀ y ∈ Icc a b, Tendsto (fun k => iteratedDeriv j (z k) y) atTop (𝓝 (iteratedDeriv j w y)) := by
  have hcau : ∀ j ≤ r, UniformCauchySeqOn (fun k y => iteratedDeriv j (z k) y) atTop (Icc a b) := by
    intro j hj
    rw [Metric.uniformCauchySeqOn_iff]
    intro ε hε
    obtain ⟨N, hN⟩ := Metric.tendsto_atTop.mp hδ (ε / 2) (by positivity)
    refine ⟨N, fun m hm n hn y hy => ?_⟩
    rw [Real.dist_eq]
    refine lt_of_le_of_lt (hd j hj m n y hy) ?_
    have h1 := hN m hm
    have h2 := hN n hn
    rw [Real.dist_eq, sub_zero] at h1 h2
    have h1 := (le_abs_self _).trans_lt h1
    have h2 := (le_abs_self _).trans_lt h2
    linarith
  have hpt : ∀ j y, ∃ v, j ≤ r → y ∈ Icc a b → Tendsto (fun k => iteratedDeriv j (z k) y) atTop (𝓝 v) := by
    intro j y
    by_cases h : j ≤ r ∧ y ∈ Icc a b
    · obtain ⟨v, hv⟩ := cauchySeq_tendsto_of_complete ((hcau j h.1).cauchySeq h.2)
      exact ⟨v, fun _ _ => hv⟩
    · exact ⟨0, fun h1 h2 => absurd ⟨h1, h2⟩ h⟩
  choose v hv using hpt
  obtain ⟨w, hw, hwv⟩ := limit_fun hab z hz v fun j hj =>
    (hcau j hj).tendstoUniformlyOn_of_tendsto fun y hy => hv j y hj hy
  refine ⟨w, hw, fun j hj y hy => ?_⟩
  rw [hwv j hj y hy]
  exact hv j y hj hy

/-! ### uniqueness implies stability -/

lemma iter_smul (w : ℝ → ℝ) (t : ℝ) (j : ℕ) (y : ℝ) : iteratedDeriv j (fun y => t * w y) y = t * iteratedDeriv j w y :=
  iteratedDeriv_const_mul_field t w

lemma Lin_smul (w : ℝ → ℝ) (t y : ℝ) : Lin r c al (fun y => t * w y) y = t * Lin r c al w y := by
  unfold Lin
  simp only [iter_smul, mul_add, mul_sum]
  congr 1
  · ring
  · exact sum_congr rfl fun j _ => by ring

lemma iter_sub (w z : ℝ → ℝ) (hw : ContDiff ℝ r w) (hz : ContDiff ℝ r z) (j : ℕ) (hj : j ≤ r) (y : ℝ) :
    iteratedDeriv j (fun y => w y - z y) y = iteratedDeriv j w y - iteratedDeriv j z y :=
  iteratedDeriv_fun_sub (hw.of_le (by exact_mod_cast hj)).contDiffAt (hz.of_le (by exact_mod_cast hj)).contDiffAt

lemma Lin_sub (w z : ℝ → ℝ) (hw : ContDiff ℝ r w) (hz : ContDiff ℝ r z) (y : ℝ) :
    Lin r c al (fun y => w y - z y) y = Lin r c al w y - Lin r c al z y := by
  unfold Lin
  rw [iter_sub w z hw hz r le_rfl, sum_congr rfl fun j hj => by rw [iter_sub w z hw hz j (Finset.mem_range.mp hj).le]]
  simp only [mul_sub, sum_sub_distrib]
  ring

lemma jet_sub (w z : ℝ → ℝ) (hw : ContDiff ℝ r w) (hz : ContDiff ℝ r z) (y : ℝ) :
    jet r (fun y => w y - z y) y = jet r w y - jet r z y := by
  funext j
  exact iter_sub w z hw hz j j.2.le y

/-- A family of functionals of the derivatives of order `< r` on `[a, b]` which is homogeneous and continuous. -/
structure IsFunctional (r : ℕ) (a b : ℝ) (be : (ℕ → ℝ → ℝ) → ℝ) : Prop where
  /-- homogeneous -/
  smul : ∀ J t, be (fun j y => t * J j y) = t * be J
  /-- continuous -/
  tendsto : ∀ (J : ℕ → ℕ → ℝ → ℝ) (J' : ℕ → ℝ → ℝ), (∀ j < r, ∀ y ∈ Icc a b, Tendsto (fun k => J k j y) atTop (𝓝 (J' j y))) →
    Tendsto (fun k => be (J k)) atTop (𝓝 (be J'))

theorem stable_of_unique {ι : Type*} (hr : 1 ≤ r) (hc : c ≠ 0) (hab : a < b) (hal : ∀ j < r, ContinuousOn (al j) (Icc a b))
    (be : ι → (ℕ → ℝ → ℝ) → ℝ) (hbe : ∀ i, IsFunctional r a b (be i))
    (huniq : ∀ w : ℝ → ℝ, ContDiff ℝ r w → (∀ i, be i (fun j => iteratedDeriv j w) = 0) → (∀ y ∈ Icc a b, Lin r c al w y = 0) →
      ∀ y ∈ Icc a b, w y = 0) :
    ∃ S, 0 ≤ S ∧ ∀ w : ℝ → ℝ, ContDiff ℝ r w → (∀ i, be i (fun j => iteratedDeriv j w) = 0) → ∀ M,
      (∀ y ∈ Icc a b, |Lin r c al w y| ≤ M) → ∀ j ≤ r, ∀ y ∈ Icc a b, |iteratedDeriv j w y| ≤ S * M := by
  classical
  -- a bound of the coefficients
  obtain ⟨A, hA0, hA⟩ : ∃ A, 0 ≤ A ∧ ∀ j < r, ∀ y ∈ Icc a b, |al j y| ≤ A := by
    have : ∀ j, ∃ A, j < r → ∀ y ∈ Icc a b, |al j y| ≤ A := by
      intro j
      by_cases hj : j < r
      · obtain ⟨A, hA⟩ := isCompact_Icc.exists_bound_of_continuousOn (hal j hj)
        exact ⟨A, fun _ y hy => hA y hy⟩
      · exact ⟨0, fun h => absurd h hj⟩
    choose A hA using this
    refine ⟨∑ j ∈ range r, |A j|, by positivity, fun j hj y hy => ?_⟩
    exact ((hA j hj y hy).trans (le_abs_self _)).trans (single_le_sum (f := fun j => |A j|) (fun _ _ => abs_nonneg _) (Finset.mem_range.mpr hj))
  obtain ⟨C, hC, hgr⟩ := gronwall (r := r) (al := al) hc A hA0 a b
  have hc' : 0 < |c| := abs_pos.mpr hc
  suffices hsuf : ∃ S, 0 ≤ S ∧ ∀ w : ℝ → ℝ, ContDiff ℝ r w → (∀ i, be i (fun j => iteratedDeriv j w) = 0) → ∀ M,
      (∀ y ∈ Icc a b, |Lin r c al w y| ≤ M) → ‖jet r w a‖ ≤ S * M by
    obtain ⟨S, hS, h⟩ := hsuf
    refine ⟨C * (S + 1) + ((r * A / |c|) * (C * (S + 1)) + 1 / |c|), by positivity, fun w hw hbw M hM j hj y hy => ?_⟩
    have hM0 : 0 ≤ M := (abs_nonneg _).trans (hM y hy)
    have h1 := hgr w hw hA M hM y hy
    have h2 := h w hw hbw M hM
    have h3 : ‖jet r w y‖ ≤ C * (S + 1) * M := h1.trans (by
      calc C * (‖jet r w a‖ + M) ≤ C * (S * M + M) := by gcongr
        _ = _ := by ring)
    rcases hj.lt_or_eq with hj | rfl
    · refine (jet_le _ _ y j hj).trans (h3.trans ?_)
      have : 0 ≤ ((r * A / |c|) * (C * (S + 1)) + 1 / |c|) * M := by positivity
      linarith
    · refine (top_le hc A _ y M (fun i hi => hA i hi y hy) (hM y hy)).trans ?_
      have h4 : (j * A / |c|) * ‖jet j w y‖ ≤ (j * A / |c|) * (C * (S + 1) * M) := by gcongr
      have h5 : 0 ≤ C * (S + 1) * M := by positivity
      rw [div_eq_mul_one_div M]
      linarith
  by_contra hcon
  push Not at hcon
  -- a normalised sequence
  have hseq : ∀ k : ℕ, ∃ z : ℝ → ℝ, ContDiff ℝ r z ∧ (∀ i, be i (fun j => iteratedDeriv j z) = 0) ∧ ‖jet r z a‖ = 1 ∧
      ∀ y ∈ Icc a b, |Lin r c al z y| ≤ 1 / ((k : ℝ) + 1) := by
    intro k
    obtain ⟨w, hw, hbw, M, hM, h3⟩ := hcon (k + 1) (by positivity)
    have hM0 : 0 ≤ M := (abs_nonneg _).trans (hM a (left_mem_Icc.mpr hab.le))
    have hρ : 0 < ‖jet r w a‖ := lt_of_le_of_lt (by positivity) h3
    refine ⟨fun y => ‖jet r w a‖⁻¹ * w y, contDiff_const.mul hw, fun i => ?_, ?_, fun t ht => ?_⟩
    · have := (hbe i).smul (fun j => iteratedDeriv j w) ‖jet r w a‖⁻¹
      rw [hbw i, mul_zero] at this
      rw [← this]
      congr 1
      funext j t
      exact iter_smul w _ j t
    · have : jet r (fun y => ‖jet r w a‖⁻¹ * w y) a = ‖jet r w a‖⁻¹ • jet r w a := by
        funext j
        exact iter_smul w _ j a
      rw [this, norm_smul, norm_inv, norm_norm, inv_mul_cancel₀ hρ.ne']
    · rw [Lin_smul, abs_mul, abs_inv, abs_norm, inv_mul_le_iff₀ hρ, mul_one_div, le_div_iff₀ (by positivity)]
      have := hM t ht
      nlinarith [abs_nonneg (Lin r c al w t)]
  choose z hz hzb hz1 hzL using hseq
  -- a convergent subsequence of the initial values
  obtain ⟨η, hη, φ, hφ, hlim⟩ := (isCompact_sphere (0 : Fin r → ℝ) 1).tendsto_subseq (x := fun k => jet r (z k) a)
    (fun k => by rw [mem_sphere_zero_iff_norm]; exact hz1 k)
  set δ : ℕ → ℝ := fun k => ‖jet r (z (φ k)) a - η‖ + 1 / ((φ k : ℝ) + 1) with hδ
  have hδlim : Tendsto δ atTop (𝓝 0) := by
    have h1 : Tendsto (fun k => ‖jet r (z (φ k)) a - η‖) atTop (𝓝 0) := by
      rw [← tendsto_iff_norm_sub_tendsto_zero]
      exact hlim
    have h2 : Tendsto (fun k => 1 / ((φ k : ℝ) + 1)) atTop (𝓝 0) := (tendsto_one_div_add_atTop_nhds_zero_nat (𝕜 := ℝ)).comp hφ.tendsto_atTop
    have := h1.add h2
    rwa [add_zero] at this
  set D : ℝ := C + (r * A / |c|) * C + 1 / |c| with hD
  have hD0 : 0 ≤ D := by positivity
  have hdiff : ∀ j ≤ r, ∀ k l, ∀ y ∈ Icc a b, |iteratedDeriv j (z (φ k)) y - iteratedDeriv j (z (φ l)) y| ≤ D * (δ k + δ l) := by
    intro j hj k l y hy
    set μ := 1 / ((φ k : ℝ) + 1) + 1 / ((φ l : ℝ) + 1) with hμ
    have hμ0 : 0 ≤ μ := by positivity
    have hL : ∀ t ∈ Icc a b, |Lin r c al (fun y => z (φ k) y - z (φ l) y) t| ≤ μ := by
      intro t ht
      rw [Lin_sub _ _ (hz _) (hz _)]
      exact (abs_sub _ _).trans (add_le_add (hzL _ t ht) (hzL _ t ht))
    have hs : ContDiff ℝ r fun y => z (φ k) y - z (φ l) y := (hz _).sub (hz _)
    have h1 := hgr _ hs hA μ hL y hy
    have h2 : ‖jet r (fun y => z (φ k) y - z (φ l) y) a‖ + μ ≤ δ k + δ l := by
      rw [jet_sub _ _ (hz _) (hz _), show jet r (z (φ k)) a - jet r (z (φ l)) a
        = (jet r (z (φ k)) a - η) - (jet r (z (φ l)) a - η) by abel]
      have := norm_sub_le (jet r (z (φ k)) a - η) (jet r (z (φ l)) a - η)
      simp only [hδ, hμ]
      linarith
    have hδ0 : 0 ≤ δ k + δ l := le_trans (by positivity) h2
    have h3 : ‖jet r (fun y => z (φ k) y - z (φ l) y) y‖ ≤ C * (δ k + δ l) := h1.trans (by gcongr)
    have h4 : μ ≤ δ k + δ l := le_trans (by linarith [norm_nonneg (jet r (fun y => z (φ k) y - z (φ l) y) a)]) h2
    rw [← iter_sub _ _ (hz _) (hz _) j hj]
    rcases hj.lt_or_eq with hj | rfl
    · refine (jet_le _ _ y j hj).trans (h3.trans ?_)
      have : 0 ≤ (r * A / |c|) * C + 1 / |c| := by positivity
      rw [hD]
      nlinarith
    · refine (top_le hc A _ y μ (fun i hi => hA i hi y hy) (hL y hy)).trans ?_
      have h5 : (j * A / |c|) * ‖jet j (fun y => z (φ k) y - z (φ l) y) y‖ ≤ (j * A / |c|) * (C * (δ k + δ l)) := by gcongr
      have h6 : μ / |c| ≤ (δ k + δ l) / |c| := by gcongr
      have h7 : 0 ≤ C * (δ k + δ l) := by positivity
      rw [hD]
      calc _ ≤ (j * A / |c|) * (C * (δ k + δ l)) + (δ k + δ l) / |c| := add_le_add h5 h6
        _ ≤ _ := by
          rw [div_eq_mul_one_div (δ k + δ l)]
          nlinarith
  obtain ⟨w, hw, htw⟩ := exists_limit hab.le (fun k => z (φ k)) (fun k => hz _) (fun k => D * δ k) (by
    have := hδlim.const_mul D
    rwa [mul_zero] at this) (fun j hj k l y hy => (hdiff j hj k l y hy).trans (by rw [mul_add]))
  have hzero := huniq w hw (fun i => by
    have h1 := (hbe i).tendsto (fun k j => iteratedDeriv j (z (φ k))) (fun j => iteratedDeriv j w) fun j hj y hy => htw j hj.le y hy
    simp only [hzb] at h1
    exact (tendsto_nhds_unique h1 tendsto_const_nhds)) (fun y hy => by
    have h1 : Tendsto (fun k => Lin r c al (z (φ k)) y) atTop (𝓝 (Lin r c al w y)) := by
      unfold Lin
      exact ((htw r le_rfl y hy).const_mul c).add (tendsto_finsetSum _ fun j hj => (htw j (Finset.mem_range.mp hj).le y hy).const_mul _)
    have h2 : Tendsto (fun k => Lin r c al (z (φ k)) y) atTop (𝓝 0) := by
      apply squeeze_zero_norm (fun k => ?_) ((tendsto_one_div_add_atTop_nhds_zero_nat (𝕜 := ℝ)).comp hφ.tendsto_atTop)
      exact hzL (φ k) y hy
    exact tendsto_nhds_unique h1 h2)
  -- all derivatives vanish
  have hall : ∀ j < r, ∀ y ∈ Icc a b, iteratedDeriv j w y = 0 := by
    intro j
    induction j with
    | zero => intro _ y hy; rw [iteratedDeriv_zero]; exact hzero y hy
    | succ j ih =>
      intro hj y hy
      have h1 := (deriv_iter w hw j (by omega) y).hasDerivWithinAt (s := Icc a b)
      have h2 : HasDerivWithinAt (iteratedDeriv j w) 0 (Icc a b) y :=
        (hasDerivWithinAt_const y (Icc a b) (0 : ℝ)).congr (fun t ht => ih (by omega) t ht) (ih (by omega) y hy)
      exact (uniqueDiffOn_Icc hab y hy).eq_deriv _ h1 h2
  have hη0 : η = 0 := by
    funext j
    have h1 : Tendsto (fun k => iteratedDeriv j (z (φ k)) a) atTop (𝓝 (η j)) := (tendsto_pi_nhds.mp hlim) j
    have h2 := htw j j.2.le a (left_mem_Icc.mpr hab.le)
    rw [hall j j.2 a (left_mem_Icc.mpr hab.le)] at h2
    exact tendsto_nhds_unique h1 h2
  rw [hη0] at hη
  simp at hη

end Funpy.OdeStab
