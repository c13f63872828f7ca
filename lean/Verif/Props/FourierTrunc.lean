import Verif.Props.FourierSymUnique
import Mathlib.Analysis.PSeries

/-!
# Fourier truncations of smooth periodic functions
-/

namespace Funpy.Props
namespace FTr
end FTr
open Spec Trig TrigSpec Matrix Finset Complex FourierStab FCv FUn FSy FTr Filter Topology
open scoped ContDiff

/-- the interval `[-1, 1]` -/
noncomputable def FTr.E1 : Ends := ⟨-1, 1⟩

lemma FTr.E1_lt : E1.e0 < E1.e1 := by norm_num [E1]
lemma FTr.E1_diff : Mapping.diff E1 = 2 := by norm_num [E1, Mapping.diff]
lemma FTr.E1_bwd (y : ℝ) : Mapping.bwd E1 y = y := by
  rw [Cheb.bwd_eq, E1_diff]
  norm_num [E1]

lemma FTr.fc_E1 (g : ℝ → ℂ) (k : ℤ) : fourier g k = fc E1 g k / 2 := by
  unfold Spec.fourier fc
  congr 1
  show (∫ y in (-1 : ℝ)..1, _) = ∫ y in (-1 : ℝ)..1, _
  congr 1
  funext y
  have : dmul E1 k = Real.pi * I * k := by
    unfold dmul
    rw [E1_diff]
    push_cast
    ring
  rw [this]
  congr 2
  ring

/-- coefficients of a smooth periodic function decay -/
lemma FTr.decay (g : ℝ → ℂ) (hg : ContDiff ℝ ∞ g) (hp : Function.Periodic g 2) (t : ℕ) : ∃ C, 0 ≤ C ∧ ∀ k, wt k ^ t * ‖fourier g k‖ ≤ C := by
  have hb : ∀ j : ℕ, ∃ M, 0 ≤ M ∧ ∀ k, ‖fc E1 (iteratedDeriv j g) k‖ ≤ M := by
    intro j
    have hc : Continuous (iteratedDeriv j g) := hg.continuous_iteratedDeriv j (by exact_mod_cast le_top)
    obtain ⟨M, hM⟩ := (isCompact_Icc (a := (-1 : ℝ)) (b := 1)).exists_bound_of_continuousOn hc.continuousOn
    have hM0 : 0 ≤ M := (norm_nonneg _).trans (hM 0 (by norm_num))
    refine ⟨M * 2, by positivity, fun k => ?_⟩
    have h := intervalIntegral.norm_integral_le_of_norm_le_const (a := E1.e0) (b := E1.e1) (C := M)
      (f := fun y => iteratedDeriv j g y * cexp (-(dmul E1 k * y))) (fun y hy => by
        rw [Set.uIoc_of_le E1_lt.le] at hy
        have h1 : ‖cexp (-(dmul E1 k * y))‖ = 1 := by
          have : -(dmul E1 k * y) = ((-(2 * Real.pi / Mapping.diff E1 * k * y) : ℝ) : ℂ) * I := by
            unfold dmul
            push_cast
            ring
          rw [this, Complex.norm_exp_ofReal_mul_I]
        rw [norm_mul, h1, mul_one]
        exact hM y ⟨hy.1.le, hy.2⟩)
    refine h.trans (le_of_eq ?_)
    norm_num [E1]
  have hiter : ∀ j k, fc E1 (iteratedDeriv j g) k = dmul E1 k ^ j * fc E1 g k := by
    intro j k
    induction j with
    | zero => simp
    | succ j ih =>
      rw [pow_succ', mul_assoc, ← ih]
      refine fc_deriv E1 E1_lt _ _ (fun y => ?_) (hg.continuous_iteratedDeriv (j + 1) (by exact_mod_cast le_top)) ?_ k
      · rw [iteratedDeriv_succ]
        exact ((hg.differentiable_iteratedDeriv j (by exact_mod_cast WithTop.coe_lt_top _)) y).hasDerivAt
      · rw [E1_diff]
        exact iter_periodic g 2 hp j
  obtain ⟨M, hM, h0⟩ := hb 0
  obtain ⟨M', hM', h1⟩ := hb t
  refine ⟨2 ^ t * (M + M'), by positivity, fun k => ?_⟩
  have h2 := h0 k
  have h3 := h1 k
  rw [iteratedDeriv_zero] at h2
  rw [hiter, norm_mul, norm_pow, dmul_norm E1 E1_lt, E1_diff] at h3
  have hn : ‖fourier g k‖ ≤ ‖fc E1 g k‖ := by
    rw [fc_E1, norm_div]
    have := norm_nonneg (fc E1 g k)
    norm_num
  have hw := wt_pos k
  have h4 : (wt k) ^ t * ‖fourier g k‖ ≤ (wt k) ^ t * ‖fc E1 g k‖ := by gcongr
  refine h4.trans ?_
  have hpi : (1 : ℝ) ≤ 2 * Real.pi / 2 := by linarith [Real.two_le_pi]
  have hf := norm_nonneg (fc E1 g k)
  rcases Nat.eq_zero_or_pos k.natAbs with hk | hk
  · have : wt k = 1 := by rw [wt, hk]; simp
    rw [this, one_pow, one_mul]
    have h5 : (1 : ℝ) ≤ 2 ^ t := one_le_pow₀ (by norm_num)
    nlinarith
  · have hk1 : (1 : ℝ) ≤ k.natAbs := by exact_mod_cast hk
    have h5 : wt k ≤ 2 * (2 * Real.pi / 2 * k.natAbs) := by
      unfold wt
      nlinarith
    calc wt k ^ t * ‖fc E1 g k‖ ≤ (2 * (2 * Real.pi / 2 * k.natAbs)) ^ t * ‖fc E1 g k‖ := by gcongr
      _ = 2 ^ t * ((2 * Real.pi / 2 * k.natAbs) ^ t * ‖fc E1 g k‖) := by rw [mul_pow, mul_assoc]
      _ ≤ 2 ^ t * (M + M') := by gcongr; linarith

/-- the Fourier truncation -/
noncomputable def FTr.trunc (g : ℝ → ℂ) (m : ℕ) : Co :=
  Finsupp.onFinset (Icc (-(m : ℤ)) m) (fun k => if k.natAbs ≤ m then fourier g k else 0) (fun k hk => by
    rw [Finset.mem_Icc]
    have : k.natAbs ≤ m := by
      by_contra h
      rw [if_neg h] at hk
      exact hk rfl
    omega)

lemma FTr.trunc_apply (g : ℝ → ℂ) (m : ℕ) (k : ℤ) : trunc g m k = if k.natAbs ≤ m then fourier g k else 0 := rfl

lemma FTr.trunc_out (g : ℝ → ℂ) (m : ℕ) (k : ℤ) (h : m < k.natAbs) : trunc g m k = 0 := by
  rw [trunc_apply, if_neg (by omega)]

lemma FTr.sum_wt (S : Finset ℤ) : ∑ k ∈ S, 1 / wt k ^ 2 ≤ 1 + ∑' k : ℤ, 1 / ((k : ℝ)) ^ 2 := by
  have hs : Summable fun k : ℤ => 1 / ((k : ℝ)) ^ 2 := Real.summable_one_div_int_pow.mpr one_lt_two
  have h1 : ∀ k ∈ S, 1 / wt k ^ 2 ≤ (if k = 0 then (1 : ℝ) else 0) + 1 / ((k : ℝ)) ^ 2 := by
    intro k _
    split_ifs with h
    · subst h
      simp [wt]
    · rw [zero_add]
      have h2 : ((k : ℝ)) ^ 2 = (k.natAbs : ℝ) ^ 2 := by
        rw [Nat.cast_natAbs, Int.cast_abs, sq_abs]
      rw [h2]
      have h3 : (0 : ℝ) < k.natAbs := by exact_mod_cast Int.natAbs_pos.mpr h
      unfold wt
      gcongr
      linarith
  refine (sum_le_sum h1).trans ?_
  rw [sum_add_distrib]
  refine add_le_add ?_ (hs.sum_le_tsum _ fun k _ => by positivity)
  rw [sum_ite_eq']
  split_ifs <;> norm_num

lemma FTr.trunc_W (g : ℝ → ℂ) (hg : ContDiff ℝ ∞ g) (hp : Function.Periodic g 2) (s : ℕ) : ∃ C, 0 ≤ C ∧ ∀ m, W s (trunc g m) ≤ C := by
  obtain ⟨C, hC, h⟩ := decay g hg hp (s + 2)
  have hpos : 0 ≤ ∑' k : ℤ, 1 / ((k : ℝ)) ^ 2 := tsum_nonneg fun k => by positivity
  refine ⟨C * (1 + ∑' k : ℤ, 1 / ((k : ℝ)) ^ 2), by positivity, fun m => ?_⟩
  rw [W_eq s _ _ subset_rfl]
  calc ∑ k ∈ (trunc g m).support, wt k ^ s * ‖trunc g m k‖ ≤ ∑ k ∈ (trunc g m).support, C * (1 / wt k ^ 2) := by
        apply sum_le_sum
        intro k _
        have hw := wt_pos k
        have h1 : ‖trunc g m k‖ ≤ ‖fourier g k‖ := by
          rw [trunc_apply]
          split_ifs
          · rfl
          · rw [norm_zero]; exact norm_nonneg _
        have h2 := h k
        rw [mul_one_div, le_div_iff₀ (by positivity)]
        calc wt k ^ s * ‖trunc g m k‖ * wt k ^ 2 ≤ wt k ^ s * ‖fourier g k‖ * wt k ^ 2 := by gcongr
          _ = wt k ^ (s + 2) * ‖fourier g k‖ := by ring
          _ ≤ C := h2
    _ = C * ∑ k ∈ (trunc g m).support, 1 / wt k ^ 2 := by rw [mul_sum]
    _ ≤ _ := by gcongr; exact sum_wt _

lemma FTr.trunc_diff (g : ℝ → ℂ) (m l : ℕ) (h : m ≤ l) : trunc g l - trunc g m = hi m (trunc g l) := by
  ext k
  rw [Finsupp.sub_apply, hi_apply, trunc_apply, trunc_apply]
  by_cases h1 : k.natAbs ≤ m
  · rw [if_pos h1, if_pos (by omega), if_neg (by omega), sub_self]
  · rw [if_neg h1, if_pos (by omega : m < k.natAbs), sub_zero]

/-- the truncations converge faster than every power -/
lemma FTr.trunc_fast (g : ℝ → ℂ) (hg : ContDiff ℝ ∞ g) (hp : Function.Periodic g 2) (s t : ℕ) :
    ∃ C, 0 ≤ C ∧ ∀ m l : ℕ, m ≤ l → ((m : ℝ) + 1) ^ t * W s (trunc g l - trunc g m) ≤ C := by
  obtain ⟨C, hC, h⟩ := trunc_W g hg hp (s + t)
  refine ⟨C, hC, fun m l hml => ?_⟩
  rw [trunc_diff g m l hml]
  exact (W_hi_tail s t m _).trans (h l)

lemma FTr.trunc_cauchy (g : ℝ → ℂ) (hg : ContDiff ℝ ∞ g) (hp : Function.Periodic g 2) (s : ℕ) :
    ∀ ε > 0, ∃ N, ∀ m ≥ N, ∀ l ≥ N, W s (trunc g m - trunc g l) ≤ ε := by
  intro ε hε
  obtain ⟨C, hC, h⟩ := trunc_fast g hg hp s 1
  obtain ⟨N, hN⟩ := exists_nat_ge (C / ε)
  have key : ∀ m ≥ N, ∀ l ≥ m, W s (trunc g l - trunc g m) ≤ ε := by
    intro m hm l hl
    have h1 := h m l hl
    rw [pow_one] at h1
    rw [div_le_iff₀ hε] at hN
    have h2 : (N : ℝ) ≤ m := by exact_mod_cast hm
    have h3 : ((m : ℝ) + 1) * W s (trunc g l - trunc g m) ≤ ((m : ℝ) + 1) * ε := by nlinarith
    exact le_of_mul_le_mul_left h3 (by positivity)
  refine ⟨N, fun m hm l hl => ?_⟩
  rcases le_total m l with h1 | h1
  · rw [← W_neg, neg_sub]
    exact key m hm l h1
  · exact key l hl m h1

/-- the truncations converge to the function -/
lemma FTr.trunc_tendsto (g : ℝ → ℂ) (hg : ContDiff ℝ ∞ g) (hp : Function.Periodic g 2) (y : ℝ) :
    Tendsto (fun m => ev (trunc g m) y) atTop (𝓝 (g y)) := by
  have hev : ∀ a, fn E1 a = ev a := fun a => by funext y; rw [fn, E1_bwd]
  obtain ⟨v, hv, hvp⟩ := exists_limit E1 E1_lt (trunc g) (trunc_cauchy g hg hp 0)
  obtain ⟨hvc, hun⟩ := limit_fn E1 E1_lt (trunc g) v hv 0 (trunc_cauchy g hg hp 0)
  have h0 := hun 0 le_rfl
  simp only [iteratedDeriv_zero, hev] at h0
  have hcv : Continuous v := hvc.continuous
  have hfour : ∀ k, fourier v k = fourier g k := by
    intro k
    have h1 : Tendsto (fun m => fourier (ev (trunc g m)) k) atTop (𝓝 (fourier v k)) := by
      unfold Spec.fourier
      refine Tendsto.div_const ?_ _
      refine int_tendsto E1 (fun m y => ev (trunc g m) y * cexp (-(I * Real.pi * k * y))) (fun y => v y * cexp (-(I * Real.pi * k * y)))
        (fun m => (ev_cont _).mul (by fun_prop)) (hcv.mul (by fun_prop)) ?_
      rw [Metric.tendstoUniformly_iff] at h0 ⊢
      intro ε hε
      filter_upwards [h0 ε hε] with m hm x
      have h2 := hm x
      rw [dist_eq_norm] at h2 ⊢
      rw [← sub_mul, norm_mul]
      have h3 : ‖cexp (-(I * Real.pi * k * x))‖ = 1 := by
        have : -(I * Real.pi * k * x) = ((-(Real.pi * k * x) : ℝ) : ℂ) * I := by
          push_cast
          ring
        rw [this, Complex.norm_exp_ofReal_mul_I]
      rw [h3, mul_one]
      exact h2
    have h2 : Tendsto (fun m => fourier (ev (trunc g m)) k) atTop (𝓝 (fourier g k)) := by
      refine tendsto_const_nhds.congr' ?_
      filter_upwards [eventually_ge_atTop k.natAbs] with m hm
      rw [fourier_ev, trunc_apply, if_pos hm]
    exact tendsto_nhds_unique h1 h2
  have hvg : v - g = 0 := by
    have hcg := hg.continuous
    rw [E1_diff] at hvp
    funext x
    refine fc_zero E1 E1_lt (v - g) (hcv.sub hcg) (by rw [E1_diff]; exact hvp.sub hp) (fun k => ?_) x
    have h1 := hfour k
    rw [fc_E1, fc_E1, div_left_inj' two_ne_zero, ← sub_eq_zero] at h1
    rw [← h1]
    unfold fc
    rw [← intervalIntegral.integral_sub (Continuous.intervalIntegrable (by fun_prop) _ _) (Continuous.intervalIntegrable (by fun_prop) _ _)]
    congr 1
    funext z
    rw [Pi.sub_apply]
    ring
  have := hv y
  rw [sub_eq_zero.mp hvg] at this
  simpa only [hev] using this

end Funpy.Props
