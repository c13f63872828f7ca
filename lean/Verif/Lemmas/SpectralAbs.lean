import Verif.Lemmas.SpectralStab

/-!
# Stability of truncated operators on coefficient sequences, abstract form

The arguments of `SpectralStab` for an operator `al u^(r) + low u` where only bounds of the lower order part `low` and of what is dropped by the truncation are
known; finite rank integral terms are of this kind.
-/

namespace Funpy.CoefNorm
open Spec Finset Polynomial

/-- an operator with constant leading coefficient, and what its truncations drop -/
structure AOp where
  /-- order -/
  r : ℕ
  /-- leading coefficient -/
  al : ℝ
  /-- lower order part -/
  low : Co →ₗ[ℝ] Co
  /-- what is dropped with `n` coefficients -/
  drop : ℕ → Co →ₗ[ℝ] Co
  /-- the lower order part loses no power -/
  low_bound : ∀ s : ℕ, ∃ C, 0 ≤ C ∧ ∀ F, W (s + 1) (low F) ≤ C * W (s + 1) F
  /-- what is dropped is small -/
  drop_bound : ∀ s t : ℕ, ∃ C, 0 ≤ C ∧ ∀ (n : ℕ) F, ((n : ℝ) + 1) ^ t * W (s + 1) (drop n F) ≤ C * W (s + t + 1) F
  /-- nothing is dropped when `n` is large -/
  drop_zero : ∀ F, ∃ N, ∀ n, N ≤ n → drop n F = 0

namespace AOp
open Op (hi_sub hi_add lo_sub W_lo_bound)

variable (L : AOp)

/-- the operator -/
noncomputable def Lam : Co →ₗ[ℝ] Co := L.al • dm L.r + L.low

/-- the truncated operator -/
noncomputable def LamN (n : ℕ) (F : Co) : Co := L.Lam F - L.drop n F

lemma Lam_apply (F : Co) : L.Lam F = L.al • dm L.r F + L.low F := rfl

lemma LamN_sub (n : ℕ) (F G : Co) : L.LamN n (F - G) = L.LamN n F - L.LamN n G := by
  unfold LamN
  rw [map_sub, map_sub]
  abel

/-- the sup norm on the interval is controlled by the image -/
def Stable (V : Set Co) (S : ℝ) : Prop :=
  ∀ F ∈ V, ∀ M, (∀ x, |x| ≤ 1 → |ser L.r (L.Lam F) x| ≤ M) → ∀ x, |x| ≤ 1 → |ser 0 F x| ≤ S * M

/-- regularity: the coefficients of `F` are bounded by those of the image, with one more power -/
lemma regularity (V : Set Co) (S : ℝ) (hS : 0 ≤ S) (hst : L.Stable V S) (hr : 1 ≤ L.r) (hal : L.al ≠ 0) (s : ℕ) (hs : 2 * L.r ≤ s) :
    ∃ C, 0 ≤ C ∧ ∀ F ∈ V, W (s + 1) F ≤ C * W s (L.Lam F) := by
  obtain ⟨s, rfl⟩ : ∃ s', s = s' + 1 := ⟨s - 1, by omega⟩
  obtain ⟨C, hC, hlow⟩ := L.low_bound s
  have hal' : 0 < |L.al| := abs_pos.mpr hal
  set A : ℝ := (L.r + 1) ^ (s + 1 + 1) / |L.al| with hA
  have hA0 : 0 ≤ A := by positivity
  obtain ⟨m, hm⟩ := exists_nat_ge (2 * (A * C))
  set B : ℝ := (L.r + 1) ^ (s + 1 + 1 + 1) * (2 * S) + A + A * C * ((m + 1) ^ (s + 1 + 1) * (2 * S)) with hB
  refine ⟨2 * B, by positivity, fun F hF => ?_⟩
  set P := W (s + 1) (L.Lam F) with hP
  have hP0 : 0 ≤ P := W_nonneg _ _
  have hc : ∀ k, |F k| ≤ 2 * S * P := by
    intro k
    have := coeff_bound F (S * P) (hst F hF P fun x hx => (ser_bound _ _ x hx).trans (W_mono _ _ hs _)) k
    linarith
  have h1 : W (s + 1 + 1) (hi L.r F) ≤ A * (P + C * W (s + 1) F) := by
    have h2 : |L.al| * W (s + 1) (dm L.r F) ≤ P + C * W (s + 1) F := by
      rw [← W_smul, show L.al • dm L.r F = L.Lam F - L.low F by rw [Lam_apply]; abel]
      exact (W_sub _ _ _).trans (add_le_add le_rfl (hlow F))
    calc W (s + 1 + 1) (hi L.r F) ≤ (L.r + 1) ^ (s + 1 + 1) * W (s + 1) (dm L.r F) := W_dm_lower _ _ hr _
      _ = A * (|L.al| * W (s + 1) (dm L.r F)) := by rw [hA]; field_simp
      _ ≤ _ := by gcongr
  have h3 : W (s + 1 + 1) (lo L.r F) ≤ (L.r + 1) ^ (s + 1 + 1 + 1) * (2 * S * P) := W_lo_bound _ _ _ _ hc
  have h4 : W (s + 1) (lo m F) ≤ (m + 1) ^ (s + 1 + 1) * (2 * S * P) := W_lo_bound _ _ _ _ hc
  have h5 : ((m : ℝ) + 1) * W (s + 1) (hi m F) ≤ W (s + 1 + 1) F := by
    have := W_hi_tail (s + 1) 1 m F
    rwa [pow_one] at this
  have h6 : W (s + 1) F ≤ W (s + 1) (lo m F) + W (s + 1) (hi m F) := by
    conv_lhs => rw [← lo_add_hi m F]
    exact W_add _ _ _
  have h7 : W (s + 1 + 1) F ≤ W (s + 1 + 1) (lo L.r F) + W (s + 1 + 1) (hi L.r F) := by
    conv_lhs => rw [← lo_add_hi L.r F]
    exact W_add _ _ _
  have h8 : A * C * W (s + 1) (hi m F) ≤ W (s + 1 + 1) F / 2 := by
    have h0 := W_nonneg (s + 1) (hi m F)
    nlinarith
  have h9 : A * C * W (s + 1) F ≤ A * C * ((m + 1) ^ (s + 1 + 1) * (2 * S * P)) + W (s + 1 + 1) F / 2 := by
    have : 0 ≤ A * C := by positivity
    calc A * C * W (s + 1) F ≤ A * C * (W (s + 1) (lo m F) + W (s + 1) (hi m F)) := by gcongr
      _ = A * C * W (s + 1) (lo m F) + A * C * W (s + 1) (hi m F) := by ring
      _ ≤ _ := by gcongr
  have h10 : W (s + 1 + 1) F ≤ B * P + W (s + 1 + 1) F / 2 := by
    rw [hB]
    calc W (s + 1 + 1) F ≤ (L.r + 1) ^ (s + 1 + 1 + 1) * (2 * S * P) + A * (P + C * W (s + 1) F) := h7.trans (add_le_add h3 h1)
      _ = (L.r + 1) ^ (s + 1 + 1 + 1) * (2 * S * P) + A * P + A * C * W (s + 1) F := by ring
      _ ≤ (L.r + 1) ^ (s + 1 + 1 + 1) * (2 * S * P) + A * P + (A * C * ((m + 1) ^ (s + 1 + 1) * (2 * S * P)) + W (s + 1 + 1) F / 2) := by
        gcongr
      _ = _ := by ring
  linarith

/-- the high part of the truncated operator contains no leading term -/
lemma hi_LamN (n : ℕ) (F : Co) (hF : ∀ k, n ≤ k → F k = 0) : hi (n - L.r) (L.LamN n F) = hi (n - L.r) (L.low F - L.drop n F) := by
  have h : hi (n - L.r) (L.al • dm L.r F) = 0 := by
    ext k
    rw [hi_apply]
    split_ifs with hk
    · rw [Finsupp.smul_apply, dm_apply, hF _ (by omega)]
      simp
    · rfl
  unfold LamN
  rw [Lam_apply, show L.al • dm L.r F + L.low F - L.drop n F = L.al • dm L.r F + (L.low F - L.drop n F) by abel, hi_add, h, zero_add]

/-- the high part and what is dropped are small -/
lemma tail_bound (s t : ℕ) : ∃ C, 0 ≤ C ∧ ∀ n F, (∀ k, n ≤ k → F k = 0) →
    (((n - L.r : ℕ) : ℝ) + 1) ^ t * (W (s + 1) (hi (n - L.r) (L.LamN n F)) + W (s + 1) (L.drop n F)) ≤ C * W (s + t + 1) F := by
  obtain ⟨C, hC, hlow⟩ := L.low_bound (s + t)
  obtain ⟨D, hD, hdrop⟩ := L.drop_bound (s + t) 0
  obtain ⟨E, hE, hdrop'⟩ := L.drop_bound s t
  refine ⟨C + D + E, by positivity, fun n F hF => ?_⟩
  rw [L.hi_LamN n F hF, _root_.mul_add]
  have h1 : (((n - L.r : ℕ) : ℝ) + 1) ^ t * W (s + 1) (hi (n - L.r) (L.low F - L.drop n F)) ≤ (C + D) * W (s + t + 1) F := by
    have h2 := W_hi_tail (s + 1) t (n - L.r) (L.low F - L.drop n F)
    rw [show s + 1 + t = s + t + 1 by ring] at h2
    have h3 := hdrop n F
    rw [pow_zero, one_mul, add_zero] at h3
    refine h2.trans ((W_sub _ _ _).trans ?_)
    rw [_root_.add_mul]
    exact add_le_add (hlow F) h3
  have h4 : (((n - L.r : ℕ) : ℝ) + 1) ^ t * W (s + 1) (L.drop n F) ≤ E * W (s + t + 1) F := by
    refine le_trans ?_ (hdrop' n F)
    have : ((n - L.r : ℕ) : ℝ) ≤ n := by exact_mod_cast Nat.sub_le _ _
    gcongr
    exact W_nonneg _ _
  calc _ ≤ (C + D) * W (s + t + 1) F + E * W (s + t + 1) F := add_le_add h1 h4
    _ = _ := by ring

lemma Lam_split (n : ℕ) (F : Co) : L.Lam F = lo (n - L.r) (L.LamN n F) + (hi (n - L.r) (L.LamN n F) + L.drop n F) := by
  rw [← add_assoc, lo_add_hi]
  unfold LamN
  abel

/-- **discrete stability**: for large `n` the truncated problem controls the coefficients -/
lemma discrete_stability (V : Set Co) (S : ℝ) (hS : 0 ≤ S) (hst : L.Stable V S) (hr : 1 ≤ L.r) (hal : L.al ≠ 0) (s : ℕ)
    (hs : 2 * L.r ≤ s) :
    ∃ C N, 0 ≤ C ∧ ∀ n, N ≤ n → ∀ F ∈ V, (∀ k, n ≤ k → F k = 0) → W (s + 1) F ≤ C * W s (lo (n - L.r) (L.LamN n F)) := by
  obtain ⟨C, hC, hreg⟩ := L.regularity V S hS hst hr hal s hs
  obtain ⟨s, rfl⟩ : ∃ s', s = s' + 1 := ⟨s - 1, by omega⟩
  obtain ⟨D, hD, htail⟩ := L.tail_bound s 1
  obtain ⟨m, hm⟩ := exists_nat_ge (2 * (C * D))
  refine ⟨2 * C, m + L.r, by positivity, fun n hn F hF hF0 => ?_⟩
  have h1 := hreg F hF
  have h2 : W (s + 1) (L.Lam F) ≤ W (s + 1) (lo (n - L.r) (L.LamN n F)) + (W (s + 1) (hi (n - L.r) (L.LamN n F)) + W (s + 1) (L.drop n F)) := by
    rw [L.Lam_split n F]
    exact (W_add _ _ _).trans (add_le_add le_rfl (W_add _ _ _))
  have h3 := htail n F hF0
  rw [pow_one] at h3
  set T := W (s + 1) (hi (n - L.r) (L.LamN n F)) + W (s + 1) (L.drop n F)
  have hT : 0 ≤ T := add_nonneg (W_nonneg _ _) (W_nonneg _ _)
  have hmn : (m : ℝ) ≤ ((n - L.r : ℕ) : ℝ) := by exact_mod_cast (by omega : m ≤ n - L.r)
  have h4 : C * T ≤ W (s + 1 + 1) F / 2 := by
    have h5 : 2 * (C * D) * T ≤ D * W (s + 1 + 1) F := by
      calc 2 * (C * D) * T ≤ (((n - L.r : ℕ) : ℝ) + 1) * T := by gcongr; linarith
        _ ≤ _ := h3
    rcases hD.eq_or_lt with hD0 | hD0
    · rw [← hD0, zero_mul] at h3
      have : T = 0 := by
        have h6 : 0 < ((n - L.r : ℕ) : ℝ) + 1 := by positivity
        nlinarith
      rw [this, mul_zero]
      have := W_nonneg (s + 1 + 1) F
      positivity
    · have : D * (2 * (C * T)) ≤ D * W (s + 1 + 1) F := by linarith
      have := le_of_mul_le_mul_left this hD0
      linarith
  have h5 : W (s + 1 + 1) F ≤ C * W (s + 1) (lo (n - L.r) (L.LamN n F)) + C * T := by
    refine h1.trans ?_
    rw [← _root_.mul_add]
    gcongr
  linarith

/-- **spectral convergence of the residual**: solutions of the truncated problems with fixed data have residuals which decrease faster
than every power -/
lemma residual_decay (V : Set Co) (S : ℝ) (hS : 0 ≤ S) (hst : L.Stable V S) (hr : 1 ≤ L.r) (hal : L.al ≠ 0) (φ F0 : Co) (t : ℕ) :
    ∃ C N, 0 ≤ C ∧ ∀ n, N ≤ n → ∀ F, F - F0 ∈ V → (∀ k, n ≤ k → F k = 0) →
      lo (n - L.r) (L.LamN n F) = lo (n - L.r) φ → ∀ x, |x| ≤ 1 →
      (((n - L.r : ℕ) : ℝ) + 1) ^ t * |ser L.r (L.Lam F) x - ser L.r φ x| ≤ C := by
  obtain ⟨C, N, hC, hds⟩ := L.discrete_stability V S hS hst hr hal (2 * L.r + t) (by omega)
  obtain ⟨D, hD, htail⟩ := L.tail_bound (2 * L.r - 1) t
  rw [show 2 * L.r - 1 + 1 = 2 * L.r by omega, show 2 * L.r - 1 + t + 1 = 2 * L.r + t by omega] at htail
  obtain ⟨N1, hN1⟩ := L.drop_zero F0
  obtain ⟨N2, -, hN2⟩ := exists_bound φ
  obtain ⟨N3, -, hN3⟩ := exists_bound F0
  set B := W (2 * L.r + t + 1) F0 + C * W (2 * L.r + t) (φ - L.Lam F0) with hB
  have hB0 : 0 ≤ B := add_nonneg (W_nonneg _ _) (mul_nonneg hC (W_nonneg _ _))
  refine ⟨D * B, N + N1 + N2 + N3 + L.r, by positivity, fun n hn F hFV hF0 heq x hx => ?_⟩
  have h1 := hds n (by omega) (F - F0) hFV (fun k hk => by rw [Finsupp.sub_apply, hF0 k hk, hN3 k (by omega), sub_zero])
  rw [LamN_sub, lo_sub, heq, ← lo_sub, LamN, hN1 n (by omega), sub_zero] at h1
  have h2 : W (2 * L.r + t + 1) F ≤ B := by
    calc W (2 * L.r + t + 1) F = W (2 * L.r + t + 1) (F0 + (F - F0)) := by congr 1; abel
      _ ≤ W (2 * L.r + t + 1) F0 + W (2 * L.r + t + 1) (F - F0) := W_add _ _ _
      _ ≤ _ := by
        rw [hB]
        gcongr
        refine h1.trans ?_
        gcongr
        exact W_lo _ _ _
  have h3 : L.Lam F - φ = hi (n - L.r) (L.LamN n F) + L.drop n F := by
    have hφ : lo (n - L.r) φ = φ := by
      ext k
      rw [lo_apply]
      split_ifs with hk
      · rfl
      · rw [hN2 k (by omega)]
    conv_lhs => rw [L.Lam_split n F, heq, hφ]
    abel
  have h4 : |ser L.r (L.Lam F) x - ser L.r φ x| ≤ W (2 * L.r) (hi (n - L.r) (L.LamN n F)) + W (2 * L.r) (L.drop n F) := by
    have := ser_bound L.r (L.Lam F - φ) x hx
    rw [map_sub, Pi.sub_apply] at this
    refine this.trans ?_
    rw [h3]
    exact W_add _ _ _
  calc (((n - L.r : ℕ) : ℝ) + 1) ^ t * |ser L.r (L.Lam F) x - ser L.r φ x|
      ≤ (((n - L.r : ℕ) : ℝ) + 1) ^ t * (W (2 * L.r) (hi (n - L.r) (L.LamN n F)) + W (2 * L.r) (L.drop n F)) := by gcongr
    _ ≤ D * W (2 * L.r + t) F := htail n F hF0
    _ ≤ D * B := by gcongr; exact (W_mono _ _ (by omega) _).trans h2

end AOp
end Funpy.CoefNorm
