import Verif.Lemmas.CoefNorm

/-!
# Stability of the truncated operator on coefficient sequences

`Lam` is a linear differential operator of order `r` with constant leading coefficient, acting on Chebyshev coefficients and giving
`C^{(r)}` coefficients; `Drop n` collects what is lost when all products are cut after `n` coefficients.
-/

namespace Funpy.CoefNorm
open Spec Finset Polynomial

/-- a differential operator: order, leading coefficient, polynomial coefficients of the lower derivatives -/
structure Op where
  /-- order -/
  r : ℕ
  /-- leading coefficient -/
  al : ℝ
  /-- lower order coefficients -/
  q : ℕ → ℝ[X]

namespace Op

variable (L : Op)

/-- the product `q_j u^{(j)}` in `C^{(j)}` -/
noncomputable def prod (j : ℕ) : Co →ₗ[ℝ] Co := mul j (L.q j) ∘ₗ dm j

/-- the lower order terms -/
noncomputable def low : Co →ₗ[ℝ] Co := ∑ j ∈ range L.r, conv j (L.r - j) ∘ₗ L.prod j

/-- the operator -/
noncomputable def Lam : Co →ₗ[ℝ] Co := L.al • dm L.r + L.low

/-- what is dropped when the products are cut after `n` coefficients -/
noncomputable def drop (n : ℕ) (F : Co) : Co := ∑ j ∈ range L.r, conv j (L.r - j) (hi n (L.prod j F))

/-- the truncated operator -/
noncomputable def LamN (n : ℕ) (F : Co) : Co := L.Lam F - L.drop n F

lemma low_apply (F : Co) : L.low F = ∑ j ∈ range L.r, conv j (L.r - j) (L.prod j F) := by
  unfold low
  rw [LinearMap.sum_apply]
  rfl

lemma Lam_apply (F : Co) : L.Lam F = L.al • dm L.r F + L.low F := rfl

lemma hi_sub (m : ℕ) (a b : Co) : hi m (a - b) = hi m a - hi m b := by
  ext k
  rw [Finsupp.sub_apply, hi_apply, hi_apply, hi_apply]
  split_ifs <;> simp

lemma hi_add (m : ℕ) (a b : Co) : hi m (a + b) = hi m a + hi m b := by
  ext k
  rw [Finsupp.add_apply, hi_apply, hi_apply, hi_apply]
  split_ifs <;> simp

lemma lo_sub (m : ℕ) (a b : Co) : lo m (a - b) = lo m a - lo m b := by
  ext k
  rw [Finsupp.sub_apply, lo_apply, lo_apply, lo_apply]
  split_ifs <;> simp

lemma drop_sub (n : ℕ) (F G : Co) : L.drop n (F - G) = L.drop n F - L.drop n G := by
  unfold drop
  rw [← sum_sub_distrib]
  apply sum_congr rfl
  intro j _
  rw [map_sub, hi_sub, map_sub]

lemma LamN_sub (n : ℕ) (F G : Co) : L.LamN n (F - G) = L.LamN n F - L.LamN n G := by
  unfold LamN
  rw [drop_sub, map_sub]
  abel

lemma ser_prod (j : ℕ) (F : Co) (x : ℝ) : ser j (L.prod j F) x = (L.q j).eval x * iteratedDeriv j (ser 0 F) x := by
  show ser j (mul j (L.q j) (dm j F)) x = _
  rw [ser_mul, ser_iteratedDeriv]

lemma ser_Lam (F : Co) (x : ℝ) :
    ser L.r (L.Lam F) x = L.al * iteratedDeriv L.r (ser 0 F) x + ∑ j ∈ range L.r, (L.q j).eval x * iteratedDeriv j (ser 0 F) x := by
  rw [Lam_apply, map_add, map_smul, low_apply, map_sum, Pi.add_apply, Pi.smul_apply, smul_eq_mul, ser_iteratedDeriv, Finset.sum_apply]
  congr 1
  apply sum_congr rfl
  intro j hj
  have := ser_conv j (L.r - j) (L.prod j F) x
  rw [show j + (L.r - j) = L.r by rw [mem_range] at hj; omega] at this
  rw [this, ser_prod]

/-- the products are bounded -/
lemma prod_bound (j s : ℕ) : ∃ C, 0 ≤ C ∧ ∀ F, W (sig j s) (L.prod j F) ≤ C * W (s + 1) F := by
  obtain ⟨C, hC, h⟩ := W_mul j (sig j s) (L.q j)
  obtain ⟨D, hD, h'⟩ := W_dm j s
  refine ⟨C * D, by positivity, fun F => ?_⟩
  refine (h _).trans ?_
  rw [mul_assoc]
  gcongr
  exact h' F

lemma sum_bound (f : ℕ → ℝ → Prop) (hf : ∀ j C D, C ≤ D → f j C → f j D) (n : ℕ) (h : ∀ j < n, ∃ C, 0 ≤ C ∧ f j C) :
    ∃ C, 0 ≤ C ∧ ∀ j < n, f j C := by
  induction n with
  | zero => exact ⟨0, le_rfl, by simp⟩
  | succ n ih =>
    obtain ⟨C, hC, h1⟩ := ih fun j hj => h j (by omega)
    obtain ⟨D, hD, h2⟩ := h n (by omega)
    refine ⟨max C D, hC.trans (le_max_left _ _), fun j hj => ?_⟩
    by_cases hjn : j = n
    · subst hjn; exact hf _ _ _ (le_max_right _ _) h2
    · exact hf _ _ _ (le_max_left _ _) (h1 j (by omega))

/-- the lower order terms lose no power -/
lemma low_bound (s : ℕ) : ∃ C, 0 ≤ C ∧ ∀ F, W (s + 1) (L.low F) ≤ C * W (s + 1) F := by
  obtain ⟨C, hC, h⟩ := sum_bound (fun j C => ∀ F, W (s + 1) (conv j (L.r - j) (L.prod j F)) ≤ C * W (s + 1) F)
    (fun j C D hCD h F => (h F).trans (mul_le_mul_of_nonneg_right hCD (W_nonneg _ _))) L.r (fun j hj => by
      obtain ⟨C, hC, h⟩ := conv_gain j (L.r - j) s (by omega)
      obtain ⟨D, hD, h'⟩ := L.prod_bound j s
      refine ⟨C * D, by positivity, fun F => (h _).trans ?_⟩
      rw [mul_assoc]
      gcongr
      exact h' F)
  refine ⟨L.r * C, by positivity, fun F => ?_⟩
  rw [low_apply]
  refine (W_sum _ _ _).trans ((sum_le_sum fun j hj => h j (mem_range.mp hj) F).trans ?_)
  rw [sum_const, card_range, nsmul_eq_mul, mul_assoc]

lemma sig_add (j s t : ℕ) : sig j s + t = sig j (s + t) := by
  unfold sig
  split_ifs <;> omega

/-- what is dropped is small -/
lemma drop_bound (s t : ℕ) : ∃ C, 0 ≤ C ∧ ∀ (n : ℕ) F, ((n : ℝ) + 1) ^ t * W (s + 1) (L.drop n F) ≤ C * W (s + t + 1) F := by
  obtain ⟨C, hC, h⟩ := sum_bound (fun j C => ∀ (n : ℕ) F, ((n : ℝ) + 1) ^ t * W (s + 1) (conv j (L.r - j) (hi n (L.prod j F))) ≤ C * W (s + t + 1) F)
    (fun j C D hCD h n F => (h n F).trans (mul_le_mul_of_nonneg_right hCD (W_nonneg _ _))) L.r (fun j hj => by
      obtain ⟨C, hC, h⟩ := conv_gain j (L.r - j) s (by omega)
      obtain ⟨D, hD, h'⟩ := L.prod_bound j (s + t)
      refine ⟨C * D, by positivity, fun n F => ?_⟩
      calc ((n : ℝ) + 1) ^ t * W (s + 1) (conv j (L.r - j) (hi n (L.prod j F)))
          ≤ ((n : ℝ) + 1) ^ t * (C * W (sig j s) (hi n (L.prod j F))) := by gcongr; exact h _
        _ = C * (((n : ℝ) + 1) ^ t * W (sig j s) (hi n (L.prod j F))) := by ring
        _ ≤ C * W (sig j s + t) (L.prod j F) := by gcongr; exact W_hi_tail _ _ _ _
        _ ≤ C * (D * W (s + t + 1) F) := by rw [sig_add]; gcongr; exact h' F
        _ = _ := by ring)
  refine ⟨L.r * C, by positivity, fun n F => ?_⟩
  calc ((n : ℝ) + 1) ^ t * W (s + 1) (L.drop n F)
      ≤ ((n : ℝ) + 1) ^ t * ∑ j ∈ range L.r, W (s + 1) (conv j (L.r - j) (hi n (L.prod j F))) := by
        gcongr; exact W_sum _ _ _
    _ = ∑ j ∈ range L.r, ((n : ℝ) + 1) ^ t * W (s + 1) (conv j (L.r - j) (hi n (L.prod j F))) := mul_sum _ _ _
    _ ≤ ∑ j ∈ range L.r, C * W (s + t + 1) F := sum_le_sum fun j hj => h j (mem_range.mp hj) n F
    _ = _ := by rw [sum_const, card_range, nsmul_eq_mul, mul_assoc]

/-- nothing is dropped when `n` is large -/
lemma drop_zero (F : Co) : ∃ N, ∀ n, N ≤ n → L.drop n F = 0 := by
  have : ∀ m, ∃ N, ∀ n, N ≤ n → ∀ j < m, hi n (L.prod j F) = 0 := by
    intro m
    induction m with
    | zero => exact ⟨0, by simp⟩
    | succ m ih =>
      obtain ⟨N, hN⟩ := ih
      obtain ⟨N', -, hN'⟩ := exists_bound (L.prod m F)
      refine ⟨max N N', fun n hn j hj => ?_⟩
      by_cases h : j = m
      · subst h
        ext k
        rw [hi_apply]
        split_ifs with hk
        · exact hN' k (le_trans (le_trans (le_max_right _ _) hn) hk)
        · rfl
      · exact hN n (le_trans (le_max_left _ _) hn) j (by omega)
  obtain ⟨N, hN⟩ := this L.r
  refine ⟨N, fun n hn => sum_eq_zero fun j hj => ?_⟩
  rw [hN n hn j (mem_range.mp hj), map_zero]

/-- the sup norm on the interval is controlled by the image -/
def Stable (V : Set Co) (S : ℝ) : Prop :=
  ∀ F ∈ V, ∀ M, (∀ x, |x| ≤ 1 → |ser L.r (L.Lam F) x| ≤ M) → ∀ x, |x| ≤ 1 → |ser 0 F x| ≤ S * M

lemma W_lo_bound (s m : ℕ) (F : Co) (M : ℝ) (h : ∀ k, |F k| ≤ M) : W s (lo m F) ≤ (m + 1) ^ (s + 1) * M := by
  have hM : 0 ≤ M := (abs_nonneg _).trans (h 0)
  have hs : (lo m F).support ⊆ range m := by
    intro k hk
    rw [Finsupp.mem_support_iff, lo_apply] at hk
    by_contra hc
    rw [if_neg (by simpa using hc)] at hk
    exact hk rfl
  rw [W_eq _ _ _ hs]
  calc ∑ k ∈ range m, ((k : ℝ) + 1) ^ s * |lo m F k| ≤ ∑ k ∈ range m, ((m : ℝ) + 1) ^ s * M := by
        apply sum_le_sum
        intro k hk
        rw [mem_range] at hk
        have h1 : (k : ℝ) ≤ m := by exact_mod_cast hk.le
        have h2 : |lo m F k| ≤ M := by
          rw [lo_apply, if_pos hk]; exact h k
        gcongr
    _ = m * (((m : ℝ) + 1) ^ s * M) := by rw [sum_const, card_range, nsmul_eq_mul]
    _ ≤ (m + 1) * (((m : ℝ) + 1) ^ s * M) := by gcongr; linarith
    _ = _ := by ring

/-- regularity: the coefficients of `F` are bounded by those of the image, with one more power -/
lemma regularity (V : Set Co) (S : ℝ) (hS : 0 ≤ S) (hst : L.Stable V S) (hr : 1 ≤ L.r) (hal : L.al ≠ 0) (s : ℕ) (hs : 2 * L.r ≤ s) :
    ∃ C, 0 ≤ C ∧ ∀ F ∈ V, W (s + 1) F ≤ C * W s (L.Lam F) := by
  obtain ⟨s, rfl⟩ : ∃ s', s = s' + 1 := ⟨s - 1, by omega⟩
  obtain ⟨C, hC, hlow⟩ := L.low_bound s
  have hal' : 0 < |L.al| := abs_pos.mpr hal
  set A : ℝ := (L.r + 1) ^ (s + 1 + 1) / |L.al| with hA
  have hA0 : 0 ≤ A := by positivity
  obtain ⟨m, hm⟩ := exists_nat_ge (2 * (A * C))
  set B : ℝ := (L.r + 1) ^ (s + 1 + 1 + 1) * (2 * S) + A + A * C * ((m + 1) ^ (s + 1 + 1) * (2 * S)) with hB
  refine ⟨2 * B, by positivity, fun F hF => ?_⟩
  set P := W (s + 1) (L.Lam F) with hP
  have hP0 : 0 ≤ P := W_nonneg _ _
  have hc : ∀ k, |F k| ≤ 2 * S * P := by
    intro k
    have := coeff_bound F (S * P) (hst F hF P fun x hx => (ser_bound _ _ x hx).trans (W_mono _ _ hs _)) k
    linarith
  have h1 : W (s + 1 + 1) (hi L.r F) ≤ A * (P + C * W (s + 1) F) := by
    have h2 : |L.al| * W (s + 1) (dm L.r F) ≤ P + C * W (s + 1) F := by
      rw [← W_smul, show L.al • dm L.r F = L.Lam F - L.low F by rw [Lam_apply]; abel]
      exact (W_sub _ _ _).trans (add_le_add le_rfl (hlow F))
    calc W (s + 1 + 1) (hi L.r F) ≤ (L.r + 1) ^ (s + 1 + 1) * W (s + 1) (dm L.r F) := W_dm_lower _ _ hr _
      _ = A * (|L.al| * W (s + 1) (dm L.r F)) := by rw [hA]; field_simp
      _ ≤ _ := by gcongr
  have h3 : W (s + 1 + 1) (lo L.r F) ≤ (L.r + 1) ^ (s + 1 + 1 + 1) * (2 * S * P) := W_lo_bound _ _ _ _ hc
  have h4 : W (s + 1) (lo m F) ≤ (m + 1) ^ (s + 1 + 1) * (2 * S * P) := W_lo_bound _ _ _ _ hc
  have h5 : ((m : ℝ) + 1) * W (s + 1) (hi m F) ≤ W (s + 1 + 1) F := by
    have := W_hi_tail (s + 1) 1 m F
    rwa [pow_one] at this
  have h6 : W (s + 1) F ≤ W (s + 1) (lo m F) + W (s + 1) (hi m F) := by
    conv_lhs => rw [← lo_add_hi m F]
    exact W_add _ _ _
  have h7 : W (s + 1 + 1) F ≤ W (s + 1 + 1) (lo L.r F) + W (s + 1 + 1) (hi L.r F) := by
    conv_lhs => rw [← lo_add_hi L.r F]
    exact W_add _ _ _
  have h8 : A * C * W (s + 1) (hi m F) ≤ W (s + 1 + 1) F / 2 := by
    have h0 := W_nonneg (s + 1) (hi m F)
    nlinarith
  have h9 : A * C * W (s + 1) F ≤ A * C * ((m + 1) ^ (s + 1 + 1) * (2 * S * P)) + W (s + 1 + 1) F / 2 := by
    have : 0 ≤ A * C := by positivity
    calc A * C * W (s + 1) F ≤ A * C * (W (s + 1) (lo m F) + W (s + 1) (hi m F)) := by gcongr
      _ = A * C * W (s + 1) (lo m F) + A * C * W (s + 1) (hi m F) := by ring
      _ ≤ _ := by gcongr
  have h10 : W (s + 1 + 1) F ≤ B * P + W (s + 1 + 1) F / 2 := by
    rw [hB]
    calc W (s + 1 + 1) F ≤ (L.r + 1) ^ (s + 1 + 1 + 1) * (2 * S * P) + A * (P + C * W (s + 1) F) := h7.trans (add_le_add h3 h1)
      _ = (L.r + 1) ^ (s + 1 + 1 + 1) * (2 * S * P) + A * P + A * C * W (s + 1) F := by ring
      _ ≤ (L.r + 1) ^ (s + 1 + 1 + 1) * (2 * S * P) + A * P + (A * C * ((m + 1) ^ (s + 1 + 1) * (2 * S * P)) + W (s + 1 + 1) F / 2) := by
        gcongr
      _ = _ := by ring
  linarith

/-- the high part of the truncated operator contains no leading term -/
lemma hi_LamN (n : ℕ) (F : Co) (hF : ∀ k, n ≤ k → F k = 0) : hi (n - L.r) (L.LamN n F) = hi (n - L.r) (L.low F - L.drop n F) := by
  have h : hi (n - L.r) (L.al • dm L.r F) = 0 := by
    ext k
    rw [hi_apply]
    split_ifs with hk
    · rw [Finsupp.smul_apply, dm_apply, hF _ (by omega)]
      simp
    · rfl
  unfold LamN
  rw [Lam_apply, show L.al • dm L.r F + L.low F - L.drop n F = L.al • dm L.r F + (L.low F - L.drop n F) by abel, hi_add, h, zero_add]

/-- the high part and what is dropped are small -/
lemma tail_bound (s t : ℕ) : ∃ C, 0 ≤ C ∧ ∀ n F, (∀ k, n ≤ k → F k = 0) →
    (((n - L.r : ℕ) : ℝ) + 1) ^ t * (W (s + 1) (hi (n - L.r) (L.LamN n F)) + W (s + 1) (L.drop n F)) ≤ C * W (s + t + 1) F := by
  obtain ⟨C, hC, hlow⟩ := L.low_bound (s + t)
  obtain ⟨D, hD, hdrop⟩ := L.drop_bound (s + t) 0
  obtain ⟨E, hE, hdrop'⟩ := L.drop_bound s t
  refine ⟨C + D + E, by positivity, fun n F hF => ?_⟩
  rw [L.hi_LamN n F hF, _root_.mul_add]
  have h1 : (((n - L.r : ℕ) : ℝ) + 1) ^ t * W (s + 1) (hi (n - L.r) (L.low F - L.drop n F)) ≤ (C + D) * W (s + t + 1) F := by
    have h2 := W_hi_tail (s + 1) t (n - L.r) (L.low F - L.drop n F)
    rw [show s + 1 + t = s + t + 1 by ring] at h2
    have h3 := hdrop n F
    rw [pow_zero, one_mul, add_zero] at h3
    refine h2.trans ((W_sub _ _ _).trans ?_)
    rw [_root_.add_mul]
    exact add_le_add (hlow F) h3
  have h4 : (((n - L.r : ℕ) : ℝ) + 1) ^ t * W (s + 1) (L.drop n F) ≤ E * W (s + t + 1) F := by
    refine le_trans ?_ (hdrop' n F)
    have : ((n - L.r : ℕ) : ℝ) ≤ n := by exact_mod_cast Nat.sub_le _ _
    gcongr
    exact W_nonneg _ _
  calc _ ≤ (C + D) * W (s + t + 1) F + E * W (s + t + 1) F := add_le_add h1 h4
    _ = _ := by ring

lemma Lam_split (n : ℕ) (F : Co) : L.Lam F = lo (n - L.r) (L.LamN n F) + (hi (n - L.r) (L.LamN n F) + L.drop n F) := by
  rw [← add_assoc, lo_add_hi]
  unfold LamN
  abel

/-- **discrete stability**: for large `n` the truncated problem controls the coefficients -/
lemma discrete_stability (V : Set Co) (S : ℝ) (hS : 0 ≤ S) (hst : L.Stable V S) (hr : 1 ≤ L.r) (hal : L.al ≠ 0) (s : ℕ)
    (hs : 2 * L.r ≤ s) :
    ∃ C N, 0 ≤ C ∧ ∀ n, N ≤ n → ∀ F ∈ V, (∀ k, n ≤ k → F k = 0) → W (s + 1) F ≤ C * W s (lo (n - L.r) (L.LamN n F)) := by
  obtain ⟨C, hC, hreg⟩ := L.regularity V S hS hst hr hal s hs
  obtain ⟨s, rfl⟩ : ∃ s', s = s' + 1 := ⟨s - 1, by omega⟩
  obtain ⟨D, hD, htail⟩ := L.tail_bound s 1
  obtain ⟨m, hm⟩ := exists_nat_ge (2 * (C * D))
  refine ⟨2 * C, m + L.r, by positivity, fun n hn F hF hF0 => ?_⟩
  have h1 := hreg F hF
  have h2 : W (s + 1) (L.Lam F) ≤ W (s + 1) (lo (n - L.r) (L.LamN n F)) + (W (s + 1) (hi (n - L.r) (L.LamN n F)) + W (s + 1) (L.drop n F)) := by
    rw [L.Lam_split n F]
    exact (W_add _ _ _).trans (add_le_add le_rfl (W_add _ _ _))
  have h3 := htail n F hF0
  rw [pow_one] at h3
  set T := W (s + 1) (hi (n - L.r) (L.LamN n F)) + W (s + 1) (L.drop n F)
  have hT : 0 ≤ T := add_nonneg (W_nonneg _ _) (W_nonneg _ _)
  have hmn : (m : ℝ) ≤ ((n - L.r : ℕ) : ℝ) := by exact_mod_cast (by omega : m ≤ n - L.r)
  have h4 : C * T ≤ W (s + 1 + 1) F / 2 := by
    have h5 : 2 * (C * D) * T ≤ D * W (s + 1 + 1) F := by
      calc 2 * (C * D) * T ≤ (((n - L.r : ℕ) : ℝ) + 1) * T := by gcongr; linarith
        _ ≤ _ := h3
    rcases hD.eq_or_lt with hD0 | hD0
    · rw [← hD0, zero_mul] at h3
      have : T = 0 := by
        have h6 : 0 < ((n - L.r : ℕ) : ℝ) + 1 := by positivity
        nlinarith
      rw [this, mul_zero]
      have := W_nonneg (s + 1 + 1) F
      positivity
    · have : D * (2 * (C * T)) ≤ D * W (s + 1 + 1) F := by linarith
      have := le_of_mul_le_mul_left this hD0
      linarith
  have h5 : W (s + 1 + 1) F ≤ C * W (s + 1) (lo (n - L.r) (L.LamN n F)) + C * T := by
    refine h1.trans ?_
    rw [← _root_.mul_add]
    gcongr
  linarith

/-- **spectral convergence of the residual**: solutions of the truncated problems with fixed data have residuals which decrease faster
than every power -/
lemma residual_decay (V : Set Co) (S : ℝ) (hS : 0 ≤ S) (hst : L.Stable V S) (hr : 1 ≤ L.r) (hal : L.al ≠ 0) (φ F0 : Co) (t : ℕ) :
    ∃ C N, 0 ≤ C ∧ ∀ n, N ≤ n → ∀ F, F - F0 ∈ V → (∀ k, n ≤ k → F k = 0) →
      lo (n - L.r) (L.LamN n F) = lo (n - L.r) φ → ∀ x, |x| ≤ 1 →
      (((n - L.r : ℕ) : ℝ) + 1) ^ t * |ser L.r (L.Lam F) x - ser L.r φ x| ≤ C := by
  obtain ⟨C, N, hC, hds⟩ := L.discrete_stability V S hS hst hr hal (2 * L.r + t) (by omega)
  obtain ⟨D, hD, htail⟩ := L.tail_bound (2 * L.r - 1) t
  rw [show 2 * L.r - 1 + 1 = 2 * L.r by omega, show 2 * L.r - 1 + t + 1 = 2 * L.r + t by omega] at htail
  obtain ⟨N1, hN1⟩ := L.drop_zero F0
  obtain ⟨N2, -, hN2⟩ := exists_bound φ
  obtain ⟨N3, -, hN3⟩ := exists_bound F0
  set B := W (2 * L.r + t + 1) F0 + C * W (2 * L.r + t) (φ - L.Lam F0) with hB
  have hB0 : 0 ≤ B := add_nonneg (W_nonneg _ _) (mul_nonneg hC (W_nonneg _ _))
  refine ⟨D * B, N + N1 + N2 + N3 + L.r, by positivity, fun n hn F hFV hF0 heq x hx => ?_⟩
  have h1 := hds n (by omega) (F - F0) hFV (fun k hk => by rw [Finsupp.sub_apply, hF0 k hk, hN3 k (by omega), sub_zero])
  rw [LamN_sub, lo_sub, heq, ← lo_sub, LamN, hN1 n (by omega), sub_zero] at h1
  have h2 : W (2 * L.r + t + 1) F ≤ B := by
    calc W (2 * L.r + t + 1) F = W (2 * L.r + t + 1) (F0 + (F - F0)) := by congr 1; abel
      _ ≤ W (2 * L.r + t + 1) F0 + W (2 * L.r + t + 1) (F - F0) := W_add _ _ _
      _ ≤ _ := by
        rw [hB]
        gcongr
        refine h1.trans ?_
        gcongr
        exact W_lo _ _ _
  have h3 : L.Lam F - φ = hi (n - L.r) (L.LamN n F) + L.drop n F := by
    have hφ : lo (n - L.r) φ = φ := by
      ext k
      rw [lo_apply]
      split_ifs with hk
      · rfl
      · rw [hN2 k (by omega)]
    conv_lhs => rw [L.Lam_split n F, heq, hφ]
    abel
  have h4 : |ser L.r (L.Lam F) x - ser L.r φ x| ≤ W (2 * L.r) (hi (n - L.r) (L.LamN n F)) + W (2 * L.r) (L.drop n F) := by
    have := ser_bound L.r (L.Lam F - φ) x hx
    rw [map_sub, Pi.sub_apply] at this
    refine this.trans ?_
    rw [h3]
    exact W_add _ _ _
  calc (((n - L.r : ℕ) : ℝ) + 1) ^ t * |ser L.r (L.Lam F) x - ser L.r φ x|
      ≤ (((n - L.r : ℕ) : ℝ) + 1) ^ t * (W (2 * L.r) (hi (n - L.r) (L.LamN n F)) + W (2 * L.r) (L.drop n F)) := by gcongr
    _ ≤ D * W (2 * L.r + t) F := htail n F hF0
    _ ≤ D * B := by gcongr; exact (W_mono _ _ (by omega) _).trans h2

end Op
end Funpy.CoefNorm
