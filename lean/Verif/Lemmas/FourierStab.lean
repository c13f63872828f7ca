import Verif.Spec.Fourier
import Mathlib.LinearAlgebra.Finsupp.LinearCombination
import Mathlib.LinearAlgebra.Finsupp.LSum
import Mathlib.Analysis.SpecialFunctions.Integrals.Basic
import Mathlib.Data.Finsupp.Order
import Mathlib.Analysis.Complex.Trigonometric

/-!
# Weighted `ℓ¹` norms of Fourier coefficients and stability of Fourier truncations
-/

namespace Funpy.FourierStab
open Spec Finset Complex

/-- finitely supported Fourier coefficients -/
abbrev Co := ℤ →₀ ℂ

/-- `1 + |k|` -/
noncomputable def wt (k : ℤ) : ℝ := (k.natAbs : ℝ) + 1

lemma wt_pos (k : ℤ) : 0 < wt k := by unfold wt; positivity
lemma one_le_wt (k : ℤ) : 1 ≤ wt k := by unfold wt; linarith [Nat.cast_nonneg (α := ℝ) k.natAbs]
lemma wt_add (j k : ℤ) : wt (j + k) ≤ wt j * wt k := by
  unfold wt
  have h : ((j + k).natAbs : ℝ) ≤ j.natAbs + k.natAbs := by exact_mod_cast Int.natAbs_add_le j k
  have h1 := Nat.cast_nonneg (α := ℝ) j.natAbs
  have h2 := Nat.cast_nonneg (α := ℝ) k.natAbs
  nlinarith [mul_nonneg h1 h2]

/-- `∑_k (1 + |k|)^s |a_k|` -/
noncomputable def W (s : ℕ) (a : Co) : ℝ := a.sum fun k c => wt k ^ s * ‖c‖

lemma W_eq (s : ℕ) (a : Co) (S : Finset ℤ) (h : a.support ⊆ S) : W s a = ∑ k ∈ S, wt k ^ s * ‖a k‖ := by
  unfold W
  rw [Finsupp.sum_of_support_subset _ h]
  simp

lemma W_nonneg (s : ℕ) (a : Co) : 0 ≤ W s a := by
  rw [W_eq s a _ subset_rfl]
  exact sum_nonneg fun k _ => mul_nonneg (pow_nonneg (wt_pos k).le _) (norm_nonneg _)

lemma W_zero (s : ℕ) : W s 0 = 0 := by simp [W]

lemma W_add (s : ℕ) (a b : Co) : W s (a + b) ≤ W s a + W s b := by
  classical
  rw [W_eq s (a + b) _ Finsupp.support_add, W_eq s a (a.support ∪ b.support) subset_union_left,
    W_eq s b (a.support ∪ b.support) subset_union_right, ← sum_add_distrib]
  apply sum_le_sum
  intro k _
  rw [← mul_add]
  have := (wt_pos k).le
  gcongr
  simpa using norm_add_le (a k) (b k)

lemma W_smul (s : ℕ) (r : ℂ) (a : Co) : W s (r • a) = ‖r‖ * W s a := by
  rw [W_eq s (r • a) a.support Finsupp.support_smul, W_eq s a _ subset_rfl, mul_sum]
  apply sum_congr rfl
  intro k _
  rw [Finsupp.smul_apply, smul_eq_mul, norm_mul]
  ring

lemma W_neg (s : ℕ) (a : Co) : W s (-a) = W s a := by
  have := W_smul s (-1) a
  simpa using this

lemma W_sub (s : ℕ) (a b : Co) : W s (a - b) ≤ W s a + W s b := by
  rw [sub_eq_add_neg]
  exact (W_add _ _ _).trans (by rw [W_neg])

lemma W_sum {ι : Type*} (s : ℕ) (S : Finset ι) (f : ι → Co) : W s (∑ i ∈ S, f i) ≤ ∑ i ∈ S, W s (f i) := by
  classical
  induction S using Finset.induction_on with
  | empty => simp [W_zero]
  | insert a S h ih =>
    rw [sum_insert h, sum_insert h]
    exact (W_add _ _ _).trans (by linarith)

lemma W_single (s : ℕ) (k : ℤ) (c : ℂ) : W s (Finsupp.single k c) = wt k ^ s * ‖c‖ := by
  unfold W
  rw [Finsupp.sum_single_index]
  simp

lemma W_mono (s s' : ℕ) (h : s ≤ s') (a : Co) : W s a ≤ W s' a := by
  rw [W_eq s a _ subset_rfl, W_eq s' a _ subset_rfl]
  apply sum_le_sum
  intro k _
  have := one_le_wt k
  gcongr

/-- a linear map is bounded if it is bounded on the basis -/
lemma W_map (T : Co →ₗ[ℂ] Co) (s s' : ℕ) (C : ℝ) (h : ∀ k, W s' (T (Finsupp.single k 1)) ≤ C * wt k ^ s) (a : Co) :
    W s' (T a) ≤ C * W s a := by
  have h1 : T a = ∑ k ∈ a.support, a k • T (Finsupp.single k 1) := by
    conv_lhs => rw [← Finsupp.sum_single a]
    rw [Finsupp.sum, map_sum]
    apply sum_congr rfl
    intro k _
    rw [← map_smul]
    simp
  rw [h1, W_eq s a _ subset_rfl, mul_sum]
  refine (W_sum _ _ _).trans (sum_le_sum fun k _ => ?_)
  rw [W_smul]
  calc ‖a k‖ * W s' (T (Finsupp.single k 1)) ≤ ‖a k‖ * (C * wt k ^ s) := by gcongr; exact h k
    _ = _ := by ring

/-- the part with `|k| > m` -/
noncomputable def hi (m : ℕ) (a : Co) : Co := a.filter fun k => m < k.natAbs

/-- the part with `|k| ≤ m` -/
noncomputable def lo (m : ℕ) (a : Co) : Co := a.filter fun k => k.natAbs ≤ m

lemma hi_apply (m : ℕ) (a : Co) (k : ℤ) : hi m a k = if m < k.natAbs then a k else 0 := Finsupp.filter_apply _ _ _

lemma lo_apply (m : ℕ) (a : Co) (k : ℤ) : lo m a k = if k.natAbs ≤ m then a k else 0 := Finsupp.filter_apply _ _ _

lemma lo_add_hi (m : ℕ) (a : Co) : lo m a + hi m a = a := by
  ext k
  rw [Finsupp.add_apply, lo_apply, hi_apply]
  by_cases h : k.natAbs ≤ m
  · rw [if_pos h, if_neg (by omega), add_zero]
  · rw [if_neg h, if_pos (by omega), zero_add]

lemma support_mono_filter (p : ℤ → Prop) [DecidablePred p] (a : Co) : (a.filter p).support ⊆ a.support := by
  intro k hk
  rw [Finsupp.mem_support_iff, Finsupp.filter_apply] at hk
  rw [Finsupp.mem_support_iff]
  intro h
  rw [h, ite_self] at hk
  exact hk rfl

lemma W_lo (s m : ℕ) (a : Co) : W s (lo m a) ≤ W s a := by
  rw [W_eq s (lo m a) a.support (support_mono_filter _ _), W_eq s a _ subset_rfl]
  apply sum_le_sum
  intro k _
  have := (wt_pos k).le
  rw [lo_apply]
  split_ifs
  · exact le_rfl
  · rw [norm_zero, mul_zero]; positivity

lemma W_hi_tail (s t m : ℕ) (a : Co) : ((m : ℝ) + 1) ^ t * W s (hi m a) ≤ W (s + t) a := by
  rw [W_eq s (hi m a) a.support (support_mono_filter _ _), W_eq (s + t) a _ subset_rfl, mul_sum]
  apply sum_le_sum
  intro k _
  have := (wt_pos k).le
  rw [hi_apply]
  split_ifs with h
  · have hm : (m : ℝ) + 1 ≤ wt k := by
      unfold wt
      have : (m : ℝ) ≤ k.natAbs := by exact_mod_cast h.le
      linarith
    have h2 : ((m : ℝ) + 1) ^ t ≤ wt k ^ t := by gcongr
    calc ((m : ℝ) + 1) ^ t * (wt k ^ s * ‖a k‖) ≤ wt k ^ t * (wt k ^ s * ‖a k‖) := by gcongr
      _ = _ := by rw [pow_add]; ring
  · rw [norm_zero, mul_zero, mul_zero]; positivity

lemma W_lo_bound (s m : ℕ) (F : Co) (M : ℝ) (h : ∀ k, ‖F k‖ ≤ M) : W s (lo m F) ≤ (2 * m + 1) * ((m + 1) ^ s * M) := by
  have hM : 0 ≤ M := (norm_nonneg _).trans (h 0)
  have hs : (lo m F).support ⊆ Icc (-(m : ℤ)) m := by
    intro k hk
    rw [Finsupp.mem_support_iff, lo_apply] at hk
    rw [mem_Icc]
    by_contra hc
    rw [if_neg (by omega)] at hk
    exact hk rfl
  rw [W_eq _ _ _ hs]
  calc ∑ k ∈ Icc (-(m : ℤ)) m, wt k ^ s * ‖lo m F k‖ ≤ ∑ k ∈ Icc (-(m : ℤ)) m, ((m : ℝ) + 1) ^ s * M := by
        apply sum_le_sum
        intro k hk
        rw [mem_Icc] at hk
        have h1 : wt k ≤ (m : ℝ) + 1 := by
          unfold wt
          have : (k.natAbs : ℝ) ≤ m := by exact_mod_cast (by omega : k.natAbs ≤ m)
          linarith
        have h2 : ‖lo m F k‖ ≤ M := by
          rw [lo_apply]
          split_ifs
          · exact h k
          · rw [norm_zero]; exact hM
        have := (wt_pos k).le
        gcongr
    _ = _ := by
      rw [sum_const, nsmul_eq_mul, Int.card_Icc]
      congr 1
      have : ((m : ℤ) + 1 - -(m : ℤ)).toNat = 2 * m + 1 := by omega
      rw [this]
      push_cast
      ring

lemma exists_bound (a : Co) : ∃ m : ℕ, ∀ k : ℤ, m < k.natAbs → a k = 0 := by
  refine ⟨a.support.sup Int.natAbs, fun k hk => ?_⟩
  by_contra h
  have := Finset.le_sup (f := Int.natAbs) (Finsupp.mem_support_iff.mpr h)
  omega

/-! ### evaluation -/

/-- the trigonometric polynomial with the coefficients `a` -/
noncomputable def ev : Co →ₗ[ℂ] (ℝ → ℂ) := Finsupp.linearCombination ℂ fun (k : ℤ) (y : ℝ) => cexp (I * Real.pi * k * y)

lemma ev_apply (a : Co) (y : ℝ) : ev a y = ∑ k ∈ a.support, a k * cexp (I * Real.pi * k * y) := by
  unfold ev
  rw [Finsupp.linearCombination_apply, Finsupp.sum, Finset.sum_apply]
  rfl

lemma ev_single (k : ℤ) (c : ℂ) (y : ℝ) : ev (Finsupp.single k c) y = c * cexp (I * Real.pi * k * y) := by
  unfold ev
  rw [Finsupp.linearCombination_single]
  rfl

lemma norm_mode (k : ℤ) (y : ℝ) : ‖cexp (I * Real.pi * k * y)‖ = 1 := by
  have : (I * Real.pi * k * y : ℂ) = ((Real.pi * k * y : ℝ) : ℂ) * I := by push_cast; ring
  rw [this, Complex.norm_exp_ofReal_mul_I]

lemma ev_bound (a : Co) (y : ℝ) : ‖ev a y‖ ≤ W 0 a := by
  rw [ev_apply, W_eq 0 a _ subset_rfl]
  refine (norm_sum_le _ _).trans (sum_le_sum fun k _ => ?_)
  rw [norm_mul, norm_mode, mul_one, pow_zero, one_mul]

lemma ev_cont (a : Co) : Continuous (ev a) := by
  have : ev a = fun y : ℝ => ∑ k ∈ a.support, a k * cexp (I * Real.pi * k * y) := funext (ev_apply a)
  rw [this]
  fun_prop

lemma integral_mode (w : ℤ) : ∫ y in (-1 : ℝ)..1, cexp (I * Real.pi * w * y) = if w = 0 then 2 else 0 := by
  split_ifs with h
  · subst h
    simp
    norm_num
  · have hc : (I * Real.pi * w : ℂ) ≠ 0 := by
      have : (w : ℂ) ≠ 0 := by exact_mod_cast h
      exact mul_ne_zero (mul_ne_zero I_ne_zero (by exact_mod_cast Real.pi_ne_zero)) this
    rw [integral_exp_mul_complex hc, div_eq_zero_iff]
    left
    rw [sub_eq_zero, Complex.exp_eq_exp_iff_exists_int]
    exact ⟨w, by push_cast; ring⟩

lemma fourier_ev (a : Co) (w : ℤ) : fourier (ev a) w = a w := by
  have h1 : ∀ y : ℝ, ev a y * cexp (-(I * Real.pi * w * y)) = ∑ k ∈ a.support, a k * cexp (I * Real.pi * ((k - w : ℤ) : ℂ) * y) := by
    intro y
    rw [ev_apply, sum_mul]
    apply sum_congr rfl
    intro k _
    rw [mul_assoc, ← Complex.exp_add]
    congr 2
    push_cast
    ring
  unfold fourier
  simp only [h1]
  rw [intervalIntegral.integral_finsetSum (fun k _ => Continuous.intervalIntegrable (by fun_prop) _ _)]
  simp only [intervalIntegral.integral_const_mul, integral_mode]
  rw [div_eq_iff (by norm_num)]
  by_cases h : w ∈ a.support
  · rw [sum_eq_single_of_mem w h]
    · simp
    · intro k _ hk
      rw [if_neg (by omega), mul_zero]
  · rw [Finsupp.notMem_support_iff.mp h, zero_mul]
    apply sum_eq_zero
    intro k hk
    rw [if_neg, mul_zero]
    intro h0
    apply h
    rwa [show w = k by omega]

lemma ev_inj (a b : Co) (h : ∀ y, ev a y = ev b y) : a = b := by
  ext w
  rw [← fourier_ev a, ← fourier_ev b, funext h]

lemma coeff_bound (a : Co) (M : ℝ) (h : ∀ y, ‖ev a y‖ ≤ M) (k : ℤ) : ‖a k‖ ≤ M := by
  rw [← fourier_ev a k]
  unfold fourier
  rw [norm_div]
  have h1 := intervalIntegral.norm_integral_le_of_norm_le_const (a := -1) (b := 1) (C := M)
    (f := fun y : ℝ => ev a y * cexp (-(I * Real.pi * k * y))) (fun y _ => by
      rw [norm_mul]
      have : cexp (-(I * Real.pi * k * y)) = cexp (I * Real.pi * ((-k : ℤ) : ℂ) * y) := by
        congr 1; push_cast; ring
      rw [this, norm_mode, mul_one]
      exact h y)
  rw [show |(1 : ℝ) - -1| = 2 by norm_num] at h1
  rw [show ‖(2 : ℂ)‖ = 2 by norm_num]
  linarith

lemma coeff_le_W (a : Co) (k : ℤ) : ‖a k‖ ≤ W 0 a := coeff_bound a _ (ev_bound a) k

/-! ### multipliers and products -/

/-- the multiplier `μ` -/
noncomputable def diag (μ : ℤ → ℂ) : Co →ₗ[ℂ] Co := Finsupp.linearCombination ℂ fun k => Finsupp.single k (μ k)

lemma diag_single (μ : ℤ → ℂ) (k : ℤ) (c : ℂ) : diag μ (Finsupp.single k c) = Finsupp.single k (c * μ k) := by
  unfold diag
  rw [Finsupp.linearCombination_single]
  simp

lemma diag_apply (μ : ℤ → ℂ) (a : Co) (k : ℤ) : diag μ a k = μ k * a k := by
  induction a using Finsupp.induction_linear with
  | zero => simp
  | add f g hf hg => rw [map_add, Finsupp.add_apply, hf, hg, Finsupp.add_apply]; ring
  | single j c =>
    rw [diag_single, Finsupp.single_apply, Finsupp.single_apply]
    split_ifs with h
    · rw [h]; ring
    · ring

lemma W_diag (μ : ℤ → ℂ) (s p : ℕ) (B : ℝ) (h : ∀ k, ‖μ k‖ ≤ B * wt k ^ p) (a : Co) : W s (diag μ a) ≤ B * W (s + p) a := by
  apply W_map
  intro k
  rw [diag_single, one_mul, W_single, pow_add]
  have := (wt_pos k).le
  calc wt k ^ s * ‖μ k‖ ≤ wt k ^ s * (B * wt k ^ p) := by gcongr; exact h k
    _ = _ := by ring

/-- multiplication by `exp(i π m y)` -/
noncomputable def shift (m : ℤ) : Co →ₗ[ℂ] Co := Finsupp.linearCombination ℂ fun k => Finsupp.single (k + m) 1

lemma shift_single (m k : ℤ) (c : ℂ) : shift m (Finsupp.single k c) = Finsupp.single (k + m) c := by
  unfold shift
  rw [Finsupp.linearCombination_single]
  simp

lemma W_shift (m : ℤ) (s : ℕ) (a : Co) : W s (shift m a) ≤ wt m ^ s * W s a := by
  apply W_map
  intro k
  rw [shift_single, W_single, norm_one, mul_one, ← mul_pow, mul_comm (wt m)]
  have := (wt_pos (k + m)).le
  gcongr
  exact wt_add k m

lemma ev_shift (m : ℤ) (a : Co) (y : ℝ) : ev (shift m a) y = cexp (I * Real.pi * m * y) * ev a y := by
  induction a using Finsupp.induction_linear with
  | zero => simp
  | add f g hf hg => rw [map_add, map_add, Pi.add_apply, hf, hg, map_add, Pi.add_apply]; ring
  | single j c =>
    rw [shift_single, ev_single, ev_single, mul_left_comm, ← Complex.exp_add]
    congr 2
    push_cast
    ring

/-- multiplication by the trigonometric polynomial `q` -/
noncomputable def mul (q : Co) : Co →ₗ[ℂ] Co := ∑ m ∈ q.support, q m • shift m

lemma ev_mul (q a : Co) (y : ℝ) : ev (mul q a) y = ev q y * ev a y := by
  unfold mul
  rw [LinearMap.sum_apply, map_sum, Finset.sum_apply, ev_apply q, sum_mul]
  apply sum_congr rfl
  intro m _
  rw [LinearMap.smul_apply, map_smul, Pi.smul_apply, ev_shift, smul_eq_mul]
  ring

lemma W_mul (q : Co) (s : ℕ) (a : Co) : W s (mul q a) ≤ W s q * W s a := by
  unfold mul
  rw [LinearMap.sum_apply, W_eq s q _ subset_rfl, sum_mul]
  refine (W_sum _ _ _).trans (sum_le_sum fun m _ => ?_)
  rw [LinearMap.smul_apply, W_smul]
  calc ‖q m‖ * W s (shift m a) ≤ ‖q m‖ * (wt m ^ s * W s a) := by gcongr; exact W_shift m s a
    _ = _ := by ring

/-! ### operators -/

/-- a multiplier of order `p + 1` plus an operator of order `p` -/
structure Op where
  /-- order minus one -/
  p : ℕ
  /-- leading multiplier -/
  lead : ℤ → ℂ
  /-- its lower bound -/
  γ : ℝ
  /-- positive -/
  hγ : 0 < γ
  /-- lower bound -/
  hlead : ∀ k, k ≠ 0 → γ * wt k ^ (p + 1) ≤ ‖lead k‖
  /-- the lower order part -/
  K : Co →ₗ[ℂ] Co
  /-- its order -/
  hK : ∀ s, ∃ C, 0 ≤ C ∧ ∀ a, W s (K a) ≤ C * W (s + p) a

namespace Op
variable (L : Op)

/-- the operator -/
noncomputable def Lam : Co →ₗ[ℂ] Co := diag L.lead + L.K

lemma Lam_apply (a : Co) : L.Lam a = diag L.lead a + L.K a := rfl

/-- the maximum norm is controlled by that of the image -/
def Stable (S : ℝ) : Prop := ∀ a M, (∀ y, ‖ev (L.Lam a) y‖ ≤ M) → ∀ y, ‖ev a y‖ ≤ S * M

/-- the coefficients are controlled by the norm of the image -/
def CStable (S : ℝ) : Prop := ∀ a k, ‖a k‖ ≤ S * W 0 (L.Lam a)

lemma Stable.c {L : Op} {S : ℝ} (h : L.Stable S) : L.CStable S := fun a => coeff_bound a _ (h a _ fun y => ev_bound _ y)

lemma W_lead (s : ℕ) (a : Co) : L.γ * W (s + (L.p + 1)) a ≤ W s (diag L.lead a) + L.γ * ‖a 0‖ := by
  classical
  set T := insert 0 (a.support) with hT
  have hd : (diag L.lead a).support ⊆ T := by
    intro k hk
    rw [Finsupp.mem_support_iff, diag_apply] at hk
    rw [hT, mem_insert, Finsupp.mem_support_iff]
    right
    intro h
    rw [h, mul_zero] at hk
    exact hk rfl
  rw [W_eq _ a T (subset_insert _ _), W_eq _ _ T hd, mul_sum]
  have hz : L.γ * ‖a 0‖ = ∑ k ∈ T, if k = 0 then L.γ * ‖a 0‖ else 0 := by
    rw [sum_ite_eq' T 0, if_pos (mem_insert_self _ _)]
  rw [hz, ← sum_add_distrib]
  apply sum_le_sum
  intro k _
  rw [diag_apply, norm_mul]
  have hw := (wt_pos k).le
  by_cases h : k = 0
  · subst h
    rw [if_pos rfl]
    have : wt 0 = 1 := by simp [wt]
    rw [this, one_pow, one_pow, one_mul, one_mul]
    have := mul_nonneg (norm_nonneg (L.lead 0)) (norm_nonneg (a 0))
    linarith
  · rw [if_neg h, add_zero, pow_add]
    have := L.hlead k h
    calc L.γ * (wt k ^ s * wt k ^ (L.p + 1) * ‖a k‖) = wt k ^ s * (L.γ * wt k ^ (L.p + 1) * ‖a k‖) := by ring
      _ ≤ _ := by gcongr

/-- regularity: the coefficients gain the full order -/
lemma regularity (S : ℝ) (hS : 0 ≤ S) (hst : L.CStable S) (s : ℕ) : ∃ C, 0 ≤ C ∧ ∀ a, W (s + (L.p + 1)) a ≤ C * W s (L.Lam a) := by
  obtain ⟨C, hC, hK⟩ := L.hK s
  have hγ := L.hγ
  obtain ⟨m, hm⟩ := exists_nat_ge (2 * (C / L.γ))
  set B : ℝ := 1 / L.γ + S + C / L.γ * ((2 * m + 1) * ((m + 1) ^ (s + L.p) * S)) with hB
  refine ⟨2 * B, by positivity, fun a => ?_⟩
  set P := W s (L.Lam a) with hP
  have hP0 : 0 ≤ P := W_nonneg _ _
  have hc : ∀ k, ‖a k‖ ≤ S * P := fun k => (hst a k).trans (mul_le_mul_of_nonneg_left (W_mono _ _ (Nat.zero_le s) _) hS)
  have h1 : L.γ * W (s + (L.p + 1)) a ≤ (P + C * W (s + L.p) a) + L.γ * (S * P) := by
    refine (L.W_lead s a).trans (add_le_add ?_ (by gcongr; exact hc 0))
    rw [show diag L.lead a = L.Lam a - L.K a by rw [Lam_apply]; abel]
    exact (W_sub _ _ _).trans (add_le_add le_rfl (hK a))
  have h2 : W (s + L.p) a ≤ (2 * m + 1) * ((m + 1) ^ (s + L.p) * (S * P)) + W (s + L.p) (hi m a) := by
    conv_lhs => rw [← lo_add_hi m a]
    exact (W_add _ _ _).trans (add_le_add (W_lo_bound _ _ _ _ hc) le_rfl)
  have h3 : ((m : ℝ) + 1) * W (s + L.p) (hi m a) ≤ W (s + (L.p + 1)) a := by
    have := W_hi_tail (s + L.p) 1 m a
    rwa [pow_one] at this
  have h4 : C / L.γ * W (s + L.p) (hi m a) ≤ W (s + (L.p + 1)) a / 2 := by
    have h0 := W_nonneg (s + L.p) (hi m a)
    nlinarith
  have h5 : W (s + (L.p + 1)) a ≤ P / L.γ + C / L.γ * W (s + L.p) a + S * P := by
    have h6 : L.γ * W (s + (L.p + 1)) a ≤ L.γ * (P / L.γ + C / L.γ * W (s + L.p) a + S * P) := by
      refine h1.trans (le_of_eq ?_)
      field_simp
    exact le_of_mul_le_mul_left h6 hγ
  have h6 : C / L.γ * W (s + L.p) a ≤ C / L.γ * ((2 * m + 1) * ((m + 1) ^ (s + L.p) * (S * P))) + W (s + (L.p + 1)) a / 2 := by
    calc C / L.γ * W (s + L.p) a ≤ C / L.γ * ((2 * m + 1) * ((m + 1) ^ (s + L.p) * (S * P)) + W (s + L.p) (hi m a)) := by gcongr
      _ = C / L.γ * ((2 * m + 1) * ((m + 1) ^ (s + L.p) * (S * P))) + C / L.γ * W (s + L.p) (hi m a) := by ring
      _ ≤ _ := by gcongr
  have h7 : B * P = P / L.γ + S * P + C / L.γ * ((2 * m + 1) * ((m + 1) ^ (s + L.p) * (S * P))) := by
    rw [hB]
    field_simp
  linarith

lemma hi_Lam (m : ℕ) (a : Co) (ha : ∀ k : ℤ, m < k.natAbs → a k = 0) : hi m (L.Lam a) = hi m (L.K a) := by
  ext k
  rw [hi_apply, hi_apply, Lam_apply, Finsupp.add_apply, diag_apply]
  split_ifs with h
  · rw [ha k h, mul_zero, zero_add]
  · rfl

lemma tail (s t : ℕ) : ∃ C, 0 ≤ C ∧ ∀ m a, (∀ k : ℤ, m < k.natAbs → a k = 0) →
    ((m : ℝ) + 1) ^ t * W s (hi m (L.Lam a)) ≤ C * W (s + t + L.p) a := by
  obtain ⟨C, hC, hK⟩ := L.hK (s + t)
  refine ⟨C, hC, fun m a ha => ?_⟩
  rw [L.hi_Lam m a ha]
  exact (W_hi_tail s t m _).trans (hK a)

/-- **discrete stability** -/
lemma discrete_stability (S : ℝ) (hS : 0 ≤ S) (hst : L.CStable S) (s : ℕ) :
    ∃ C N, 0 ≤ C ∧ ∀ m, N ≤ m → ∀ a, (∀ k : ℤ, m < k.natAbs → a k = 0) → W (s + (L.p + 1)) a ≤ C * W s (lo m (L.Lam a)) := by
  obtain ⟨C, hC, hreg⟩ := L.regularity S hS hst s
  obtain ⟨D, hD, htail⟩ := L.tail s 1
  obtain ⟨N, hN⟩ := exists_nat_ge (2 * (C * D))
  refine ⟨2 * C, N, by positivity, fun m hm a ha => ?_⟩
  have h1 := hreg a
  have h2 := htail m a ha
  rw [pow_one, show s + 1 + L.p = s + (L.p + 1) by ring] at h2
  set T := W s (hi m (L.Lam a)) with hT
  have hT0 : 0 ≤ T := W_nonneg _ _
  have h3 : W s (L.Lam a) ≤ W s (lo m (L.Lam a)) + T := by
    conv_lhs => rw [← lo_add_hi m (L.Lam a)]
    exact W_add _ _ _
  have hmN : (N : ℝ) ≤ m := by exact_mod_cast hm
  have h4 : C * T ≤ W (s + (L.p + 1)) a / 2 := by
    rcases hD.eq_or_lt with hD0 | hD0
    · rw [← hD0, zero_mul] at h2
      have : T = 0 := by
        have h6 : 0 < (m : ℝ) + 1 := by positivity
        nlinarith
      rw [this, mul_zero]
      have := W_nonneg (s + (L.p + 1)) a
      positivity
    · have h5 : D * (2 * (C * T)) ≤ D * W (s + (L.p + 1)) a := by
        calc D * (2 * (C * T)) = 2 * (C * D) * T := by ring
          _ ≤ ((m : ℝ) + 1) * T := by gcongr; linarith
          _ ≤ _ := h2
      have := le_of_mul_le_mul_left h5 hD0
      linarith
  have h5 : W (s + (L.p + 1)) a ≤ C * W s (lo m (L.Lam a)) + C * T := by
    refine h1.trans ?_
    rw [← mul_add]
    gcongr
  linarith

/-- **spectral convergence of the residual** -/
lemma residual_decay (S : ℝ) (hS : 0 ≤ S) (hst : L.CStable S) (φ : Co) (s t : ℕ) :
    ∃ C N, 0 ≤ C ∧ ∀ m, N ≤ m → ∀ a, (∀ k : ℤ, m < k.natAbs → a k = 0) → lo m (L.Lam a) = lo m φ →
      ((m : ℝ) + 1) ^ t * W s (L.Lam a - φ) ≤ C := by
  obtain ⟨C, N, hC, hds⟩ := L.discrete_stability S hS hst (s + t)
  obtain ⟨D, hD, htail⟩ := L.tail s t
  obtain ⟨N1, hN1⟩ := exists_bound φ
  refine ⟨D * (C * W (s + t) φ), N + N1, mul_nonneg hD (mul_nonneg hC (W_nonneg _ _)), fun m hm a ha heq => ?_⟩
  have h1 := hds m (by omega) a ha
  rw [heq] at h1
  have h2 := h1.trans (mul_le_mul_of_nonneg_left (W_lo (s + t) m φ) hC)
  have h3 : L.Lam a - φ = hi m (L.Lam a) := by
    have hφ : lo m φ = φ := by
      ext k
      rw [lo_apply]
      split_ifs with hk
      · rfl
      · rw [hN1 k (by omega)]
    conv_lhs => rw [← lo_add_hi m (L.Lam a), heq, hφ]
    abel
  rw [h3]
  refine (htail m a ha).trans ?_
  gcongr
  exact (W_mono _ _ (by omega) a).trans h2

/-- regularity up to lower order terms -/
lemma weak_regularity : ∃ C, 0 ≤ C ∧ ∀ a, W (L.p + 1) a ≤ C * (W 0 (L.Lam a) + W L.p a) := by
  obtain ⟨C, hC, hK⟩ := L.hK 0
  have hγ := L.hγ
  refine ⟨(1 + C + L.γ) / L.γ, by positivity, fun a => ?_⟩
  have h1 := L.W_lead 0 a
  rw [zero_add] at h1
  have h2 : W 0 (diag L.lead a) ≤ W 0 (L.Lam a) + C * W L.p a := by
    rw [show diag L.lead a = L.Lam a - L.K a by rw [Lam_apply]; abel]
    have := hK a
    rw [zero_add] at this
    exact (W_sub _ _ _).trans (add_le_add le_rfl this)
  have h3 : ‖a 0‖ ≤ W L.p a := (coeff_le_W a 0).trans (W_mono _ _ (Nat.zero_le _) _)
  have h4 := W_nonneg 0 (L.Lam a)
  have h5 := W_nonneg L.p a
  rw [div_mul_eq_mul_div, le_div_iff₀ hγ]
  nlinarith [mul_nonneg hC h4, mul_nonneg hγ.le h4]

/-- **uniqueness implies stability**: if no sequence converging to a non-zero limit is mapped to a null sequence then the operator is stable -/
lemma stable_of_unique (hu : ∀ a : ℕ → Co, (∀ ε > 0, ∃ N, ∀ m ≥ N, ∀ l ≥ N, W (L.p + 1) (a m - a l) ≤ ε) → Filter.Tendsto (fun m => W 0 (L.Lam (a m))) Filter.atTop (nhds 0) →
    ∀ ε > 0, ∃ N, ∀ m ≥ N, ∀ k, ‖a m k‖ ≤ ε) : ∃ S, 0 ≤ S ∧ L.CStable S := by
  by_contra hcon
  push Not at hcon
  have h0 : ∀ m : ℕ, ∃ a : Co, W (L.p + 1) a = 1 ∧ W 0 (L.Lam a) ≤ 1 / ((m : ℝ) + 1) := by
    intro m
    have h1 := hcon ((m : ℝ) + 1) (by positivity)
    unfold CStable at h1
    push Not at h1
    obtain ⟨b, k, hb⟩ := h1
    set w := W (L.p + 1) b with hw
    have h2 : ‖b k‖ ≤ w := (coeff_le_W b k).trans (W_mono _ _ (Nat.zero_le _) _)
    have h3 := W_nonneg 0 (L.Lam b)
    have hm : (0 : ℝ) < (m : ℝ) + 1 := by positivity
    have hw0 : 0 < w := lt_of_lt_of_le (lt_of_le_of_lt (by positivity) hb) h2
    have hn : ‖((1 / w : ℝ) : ℂ)‖ = 1 / w := by
      rw [Complex.norm_real, Real.norm_eq_abs, abs_of_pos (by positivity)]
    refine ⟨((1 / w : ℝ) : ℂ) • b, ?_, ?_⟩
    · rw [W_smul, hn, ← hw]
      field_simp
    · rw [map_smul, W_smul, hn, one_div_mul_eq_div, div_le_div_iff₀ hw0 hm]
      linarith
  choose a ha1 ha2 using h0
  have hcoef : ∀ m k, ‖a m k‖ ≤ 1 := fun m k => by
    rw [← ha1 m]
    exact (coeff_le_W _ k).trans (W_mono _ _ (Nat.zero_le _) _)
  -- a subsequence converges coefficientwise
  have hK : IsCompact (Set.univ.pi fun _ : ℤ => Metric.closedBall (0 : ℂ) 1) := isCompact_univ_pi fun _ => isCompact_closedBall _ _
  obtain ⟨b, -, φ, hφ, hlim⟩ := hK.tendsto_subseq (x := fun m => (a m : ℤ → ℂ)) (fun m k _ => by
    rw [mem_closedBall_zero_iff]; exact hcoef m k)
  have hlimk : ∀ k, Filter.Tendsto (fun m => a (φ m) k) Filter.atTop (nhds (b k)) := fun k => (tendsto_pi_nhds.mp hlim) k
  have hres : Filter.Tendsto (fun m => W 0 (L.Lam (a (φ m)))) Filter.atTop (nhds 0) := by
    refine squeeze_zero (fun m => W_nonneg _ _) (fun m => (ha2 (φ m)).trans ?_) tendsto_one_div_add_atTop_nhds_zero_nat
    have : (m : ℝ) ≤ φ m := by exact_mod_cast hφ.id_le m
    gcongr
  obtain ⟨C, hC, hreg⟩ := L.weak_regularity
  -- Cauchy in the lower norm
  have htail : ∀ M d, W (L.p + 1) d ≤ 2 → W L.p (hi M d) ≤ 2 / ((M : ℝ) + 1) := fun M d hd => by
    have := W_hi_tail L.p 1 M d
    rw [pow_one] at this
    rw [le_div_iff₀ (by positivity)]
    linarith
  have hdiff : ∀ m l, W (L.p + 1) (a m - a l) ≤ 2 := fun m l => (W_sub _ _ _).trans (by rw [ha1, ha1]; norm_num)
  have hlow : ∀ ε > 0, ∃ N, ∀ m ≥ N, ∀ l ≥ N, W L.p (a (φ m) - a (φ l)) ≤ ε := by
    intro ε hε
    obtain ⟨M, hM⟩ := exists_nat_ge (4 / ε)
    have hM1 : 2 / ((M : ℝ) + 1) ≤ ε / 2 := by
      rw [div_le_iff₀ hε] at hM
      rw [div_le_iff₀ (by positivity)]
      nlinarith
    set δ : ℝ := ε / 2 / ((2 * M + 1) * (M + 1) ^ L.p) / 2 with hδ
    have hδ0 : 0 < δ := by positivity
    have hfin : ∀ᶠ m in Filter.atTop, ∀ k ∈ Icc (-(M : ℤ)) M, ‖a (φ m) k - b k‖ < δ := by
      rw [Filter.eventually_all_finset]
      intro k _
      have := (tendsto_iff_norm_sub_tendsto_zero.mp (hlimk k)).eventually (gt_mem_nhds hδ0)
      exact this
    obtain ⟨N, hN⟩ := Filter.eventually_atTop.mp hfin
    refine ⟨N, fun m hm l hl => ?_⟩
    set d := a (φ m) - a (φ l) with hd
    have h1 : W L.p (lo M d) ≤ (2 * M + 1) * ((M + 1) ^ L.p * (2 * δ)) := by
      have h2 : lo M d = lo M (lo M d) := by
        ext k
        rw [lo_apply M (lo M d), lo_apply M d k]
        split_ifs <;> rfl
      rw [h2]
      apply W_lo_bound
      intro k
      rw [lo_apply]
      split_ifs with hk
      · have hk' : k ∈ Icc (-(M : ℤ)) M := by rw [mem_Icc]; omega
        have h3 := hN m hm k hk'
        have h4 := hN l hl k hk'
        rw [hd, Finsupp.sub_apply, show a (φ m) k - a (φ l) k = (a (φ m) k - b k) - (a (φ l) k - b k) by ring]
        refine (norm_sub_le _ _).trans ?_
        linarith
      · rw [norm_zero]; positivity
    have h5 : (2 * (M : ℝ) + 1) * (((M : ℝ) + 1) ^ L.p * (2 * δ)) = ε / 2 := by
      rw [hδ]
      field_simp
    have h6 := htail M d (hdiff _ _)
    have h7 : W L.p d ≤ W L.p (lo M d) + W L.p (hi M d) := by
      conv_lhs => rw [← lo_add_hi M d]
      exact W_add _ _ _
    linarith
  have hcau : ∀ ε > 0, ∃ N, ∀ m ≥ N, ∀ l ≥ N, W (L.p + 1) (a (φ m) - a (φ l)) ≤ ε := by
    intro ε hε
    set η := ε / (3 * (C + 1)) with hη
    have hη0 : 0 < η := by positivity
    obtain ⟨N1, hN1⟩ := hlow η hη0
    obtain ⟨N2, hN2⟩ := Filter.eventually_atTop.mp (hres.eventually (gt_mem_nhds hη0))
    refine ⟨N1 + N2, fun m hm l hl => ?_⟩
    have h1 := hreg (a (φ m) - a (φ l))
    have h2 := hN1 m (by omega) l (by omega)
    have h3 : W 0 (L.Lam (a (φ m) - a (φ l))) ≤ 2 * η := by
      rw [map_sub]
      have h4 := hN2 m (by omega)
      have h5 := hN2 l (by omega)
      exact (W_sub _ _ _).trans (by linarith)
    have h6 : C * (3 * η) ≤ ε := by
      rw [hη, show C * (3 * (ε / (3 * (C + 1)))) = ε * (C / (C + 1)) by field_simp]
      have : C / (C + 1) ≤ 1 := by rw [div_le_one (by positivity)]; linarith
      nlinarith
    calc _ ≤ C * (W 0 (L.Lam (a (φ m) - a (φ l))) + W L.p (a (φ m) - a (φ l))) := h1
      _ ≤ C * (3 * η) := by gcongr; linarith
      _ ≤ ε := h6
  have hzero := hu (fun m => a (φ m)) hcau hres
  -- the limit vanishes, which contradicts the normalisation
  set η : ℝ := 1 / (8 * (C + 1)) with hη
  have hη0 : 0 < η := by positivity
  obtain ⟨M, hM⟩ := exists_nat_ge (2 / η)
  have hM1 : 2 / ((M : ℝ) + 1) ≤ η := by
    rw [div_le_iff₀ hη0] at hM
    rw [div_le_iff₀ (by positivity)]
    nlinarith
  obtain ⟨N1, hN1⟩ := hzero (η / ((2 * M + 1) * (M + 1) ^ L.p)) (by positivity)
  obtain ⟨N2, hN2⟩ := Filter.eventually_atTop.mp (hres.eventually (gt_mem_nhds hη0))
  set d := a (φ (N1 + N2)) with hd
  have h1 := hreg d
  rw [ha1] at h1
  have h2 := hN2 (N1 + N2) (by omega)
  have h3 := W_lo_bound L.p M d _ (hN1 (N1 + N2) (by omega))
  have h4 : (2 * (M : ℝ) + 1) * (((M : ℝ) + 1) ^ L.p * (η / ((2 * M + 1) * (M + 1) ^ L.p))) = η := by field_simp
  have h5 := htail M d (by rw [ha1]; norm_num)
  have h6 : W L.p d ≤ W L.p (lo M d) + W L.p (hi M d) := by
    conv_lhs => rw [← lo_add_hi M d]
    exact W_add _ _ _
  have h7 : C * (W 0 (L.Lam d) + W L.p d) ≤ C * (3 * η) := by
    gcongr
    linarith
  have h8 : C * (3 * η) < 1 := by
    rw [hη, show C * (3 * (1 / (8 * (C + 1)))) = 3 / 8 * (C / (C + 1)) by field_simp]
    have : C / (C + 1) ≤ 1 := by rw [div_le_one (by positivity)]; linarith
    linarith
  linarith

lemma lo_sub (m : ℕ) (a b : Co) : lo m (a - b) = lo m a - lo m b := by
  ext k
  rw [lo_apply, Finsupp.sub_apply, Finsupp.sub_apply, lo_apply, lo_apply]
  split_ifs <;> simp

/-- the solutions of the sections are a Cauchy sequence in every norm -/
lemma section_cauchy (S : ℝ) (hS : 0 ≤ S) (hst : L.CStable S) (φ : Co) (s t : ℕ) :
    ∃ C N, 0 ≤ C ∧ ∀ m, N ≤ m → ∀ l, m ≤ l → ∀ a b, (∀ k : ℤ, m < k.natAbs → a k = 0) → (∀ k : ℤ, l < k.natAbs → b k = 0) →
      lo m (L.Lam a) = lo m φ → lo l (L.Lam b) = lo l φ → ((m : ℝ) + 1) ^ t * W s (a - b) ≤ C := by
  obtain ⟨C, N, hC, hds⟩ := L.discrete_stability S hS hst s
  obtain ⟨D, N1, hD, hdec⟩ := L.residual_decay S hS hst φ s t
  refine ⟨C * D, N + N1, by positivity, fun m hm l hl a b ha hb hla hlb => ?_⟩
  have h1 := hds l (by omega) (a - b) (fun k hk => by rw [Finsupp.sub_apply, ha k (by omega), hb k hk, sub_zero])
  have h2 : lo l (L.Lam (a - b)) = lo l (L.Lam a - φ) := by rw [map_sub, lo_sub, lo_sub, hlb]
  rw [h2] at h1
  have h3 := hdec m (by omega) a ha hla
  have h4 := W_lo s l (L.Lam a - φ)
  have h5 : W s (a - b) ≤ C * W s (L.Lam a - φ) := (W_mono _ _ (by omega) _).trans (h1.trans (by gcongr))
  have hm0 : (0 : ℝ) ≤ ((m : ℝ) + 1) ^ t := by positivity
  calc _ ≤ ((m : ℝ) + 1) ^ t * (C * W s (L.Lam a - φ)) := by gcongr
    _ = C * (((m : ℝ) + 1) ^ t * W s (L.Lam a - φ)) := by ring
    _ ≤ _ := by gcongr

end Op
end Funpy.FourierStab
