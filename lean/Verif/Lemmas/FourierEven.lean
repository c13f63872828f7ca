import Verif.Lemmas.FourierStab

/-!
# Stability of Fourier truncations to the modes `-m, …, m - 1`
-/

namespace Funpy.FourierStab
open Spec Finset Complex

/-- the modes `-m, …, m - 1` -/
noncomputable def sq (m : ℕ) (a : Co) : Co := a.filter fun k => -(m : ℤ) ≤ k ∧ k < m

/-- the mode `-m` -/
noncomputable def cut (m : ℕ) (a : Co) : Co := Finsupp.single (-(m : ℤ)) (a (-(m : ℤ)))

lemma sq_apply (m : ℕ) (a : Co) (k : ℤ) : sq m a k = if -(m : ℤ) ≤ k ∧ k < m then a k else 0 := Finsupp.filter_apply _ _ _

lemma W_sq (s m : ℕ) (a : Co) : W s (sq m a) ≤ W s a := by
  rw [W_eq s (sq m a) a.support (support_mono_filter _ _), W_eq s a _ subset_rfl]
  apply sum_le_sum
  intro k _
  have := (wt_pos k).le
  rw [sq_apply]
  split_ifs
  · exact le_rfl
  · rw [norm_zero, mul_zero]; positivity

lemma W_sq_tail (s t m : ℕ) (a : Co) : ((m : ℝ) + 1) ^ t * W s (a - sq m a) ≤ W (s + t) a := by
  have hsub : (a - sq m a).support ⊆ a.support := by
    intro k hk
    rw [Finsupp.mem_support_iff] at hk ⊢
    intro h
    rw [Finsupp.sub_apply, sq_apply, h, ite_self, sub_zero] at hk
    exact hk rfl
  rw [W_eq s _ a.support hsub, W_eq (s + t) a _ subset_rfl, mul_sum]
  apply sum_le_sum
  intro k _
  have := (wt_pos k).le
  rw [Finsupp.sub_apply, sq_apply]
  split_ifs with h
  · rw [sub_self, norm_zero, mul_zero, mul_zero]; positivity
  · rw [sub_zero]
    have hm : (m : ℝ) + 1 ≤ wt k := by
      unfold wt
      have : (m : ℝ) ≤ k.natAbs := by exact_mod_cast (by omega : m ≤ k.natAbs)
      linarith
    have h2 : ((m : ℝ) + 1) ^ t ≤ wt k ^ t := by gcongr
    calc ((m : ℝ) + 1) ^ t * (wt k ^ s * ‖a k‖) ≤ wt k ^ t * (wt k ^ s * ‖a k‖) := by gcongr
      _ = _ := by rw [pow_add]; ring

lemma wt_neg (m : ℕ) : wt (-(m : ℤ)) = (m : ℝ) + 1 := by
  unfold wt
  rw [Int.natAbs_neg, Int.natAbs_natCast]

lemma coeff_W (s : ℕ) (a : Co) (k : ℤ) : wt k ^ s * ‖a k‖ ≤ W s a := by
  classical
  rw [W_eq s a (insert k a.support) (subset_insert _ _)]
  exact single_le_sum (f := fun k => wt k ^ s * ‖a k‖) (fun i _ => mul_nonneg (pow_nonneg (wt_pos i).le _) (norm_nonneg _)) (mem_insert_self _ _)

lemma W_cut (s t m : ℕ) (a : Co) : ((m : ℝ) + 1) ^ t * W s (cut m a) ≤ W (s + t) a := by
  unfold cut
  rw [W_single, wt_neg]
  have := coeff_W (s + t) a (-(m : ℤ))
  rw [wt_neg, pow_add] at this
  linarith

namespace Op
variable (L : Op) (E : Co →ₗ[ℂ] Co) (hE : ∀ s, ∃ C, 0 ≤ C ∧ ∀ a, W s (E a) ≤ C * W (s + L.p) a)
include hE

/-- what the truncation misses -/
lemma defect (s t : ℕ) : ∃ C, 0 ≤ C ∧ ∀ (m : ℕ) a, (∀ k : ℤ, (k < -m ∨ m ≤ k) → a k = 0) →
    ((m : ℝ) + 1) ^ t * W s (L.Lam a - sq m (L.Lam a - E (cut m a))) ≤ C * W (s + t + L.p) a := by
  obtain ⟨C, hC, hK⟩ := L.hK (s + t)
  obtain ⟨D, hD, hED⟩ := hE s
  refine ⟨C + D, by positivity, fun m a ha => ?_⟩
  have h1 : L.Lam a - sq m (L.Lam a - E (cut m a)) = (L.K a - sq m (L.K a)) + sq m (E (cut m a)) := by
    ext k
    rw [Finsupp.sub_apply, Finsupp.add_apply, Finsupp.sub_apply, sq_apply, sq_apply, sq_apply, Lam_apply, Finsupp.sub_apply, Finsupp.add_apply, diag_apply]
    split_ifs with h
    · ring
    · rw [ha k (by omega)]
      ring
  rw [h1]
  have h2 := W_sq_tail s t m (L.K a)
  have h3 := (W_sq s m (E (cut m a))).trans (hED _)
  have h4 := W_cut (s + L.p) t m a
  rw [show s + L.p + t = s + t + L.p by ring] at h4
  have h0 : (0 : ℝ) ≤ ((m : ℝ) + 1) ^ t := by positivity
  calc _ ≤ ((m : ℝ) + 1) ^ t * (W s (L.K a - sq m (L.K a)) + D * W (s + L.p) (cut m a)) :=
        mul_le_mul_of_nonneg_left ((W_add _ _ _).trans (add_le_add le_rfl h3)) h0
    _ = ((m : ℝ) + 1) ^ t * W s (L.K a - sq m (L.K a)) + D * (((m : ℝ) + 1) ^ t * W (s + L.p) (cut m a)) := by ring
    _ ≤ C * W (s + t + L.p) a + D * W (s + t + L.p) a := add_le_add (h2.trans (hK a)) (by gcongr)
    _ = _ := by ring

/-- **discrete stability** -/
lemma discrete_stability_sq (S : ℝ) (hS : 0 ≤ S) (hst : L.CStable S) (s : ℕ) :
    ∃ C N, 0 ≤ C ∧ ∀ m : ℕ, N ≤ m → ∀ a, (∀ k : ℤ, (k < -m ∨ m ≤ k) → a k = 0) → W (s + (L.p + 1)) a ≤ C * W s (sq m (L.Lam a - E (cut m a))) := by
  obtain ⟨C, hC, hreg⟩ := L.regularity S hS hst s
  obtain ⟨D, hD, htail⟩ := L.defect E hE s 1
  obtain ⟨N, hN⟩ := exists_nat_ge (2 * (C * D))
  refine ⟨2 * C, N, by positivity, fun m hm a ha => ?_⟩
  have h1 := hreg a
  have h2 := htail m a ha
  rw [pow_one, show s + 1 + L.p = s + (L.p + 1) by ring] at h2
  set T := W s (L.Lam a - sq m (L.Lam a - E (cut m a))) with hT
  have hT0 : 0 ≤ T := W_nonneg _ _
  have h3 : W s (L.Lam a) ≤ W s (sq m (L.Lam a - E (cut m a))) + T := by
    have := W_add s (sq m (L.Lam a - E (cut m a))) (L.Lam a - sq m (L.Lam a - E (cut m a)))
    rwa [add_sub_cancel] at this
  have hmN : (N : ℝ) ≤ m := by exact_mod_cast hm
  have hm0 : 0 < (m : ℝ) + 1 := by positivity
  have h4 : C * T ≤ W (s + (L.p + 1)) a / 2 := by
    have hW := W_nonneg (s + (L.p + 1)) a
    have h5 : ((m : ℝ) + 1) * (C * T) ≤ ((m : ℝ) + 1) * (W (s + (L.p + 1)) a / 2) := by
      calc ((m : ℝ) + 1) * (C * T) = C * (((m : ℝ) + 1) * T) := by ring
        _ ≤ C * (D * W (s + (L.p + 1)) a) := by gcongr
        _ = 2 * (C * D) * (W (s + (L.p + 1)) a / 2) := by ring
        _ ≤ ((m : ℝ) + 1) * (W (s + (L.p + 1)) a / 2) := by gcongr; linarith
    exact le_of_mul_le_mul_left h5 hm0
  have h5 : W (s + (L.p + 1)) a ≤ C * W s (sq m (L.Lam a - E (cut m a))) + C * T := by
    refine h1.trans ?_
    rw [← _root_.mul_add]
    gcongr
  linarith

/-- **spectral convergence of the residual** -/
lemma residual_decay_sq (S : ℝ) (hS : 0 ≤ S) (hst : L.CStable S) (φ : Co) (s t : ℕ) :
    ∃ C N, 0 ≤ C ∧ ∀ m : ℕ, N ≤ m → ∀ a, (∀ k : ℤ, (k < -m ∨ m ≤ k) → a k = 0) → sq m (L.Lam a - E (cut m a)) = sq m φ →
      ((m : ℝ) + 1) ^ t * W s (L.Lam a - φ) ≤ C ∧ ((m : ℝ) + 1) ^ t * W s (cut m a) ≤ C := by
  obtain ⟨C, N, hC, hds⟩ := L.discrete_stability_sq E hE S hS hst (s + t)
  obtain ⟨D, hD, htail⟩ := L.defect E hE s t
  obtain ⟨N1, hN1⟩ := exists_bound φ
  have hw := W_nonneg (s + t) φ
  refine ⟨D * (C * W (s + t) φ) + C * W (s + t) φ, N + N1 + 1, by positivity, fun m hm a ha heq => ?_⟩
  have h1 := hds m (by omega) a ha
  rw [heq] at h1
  have h2 := h1.trans (mul_le_mul_of_nonneg_left (W_sq (s + t) m φ) hC)
  have h3 : L.Lam a - φ = L.Lam a - sq m (L.Lam a - E (cut m a)) := by
    have hφ : sq m φ = φ := by
      ext k
      rw [sq_apply]
      split_ifs with hk
      · rfl
      · rw [hN1 k (by omega)]
    rw [heq, hφ]
  rw [h3]
  have h4 := htail m a ha
  have h5 : W (s + t + L.p) a ≤ C * W (s + t) φ := (W_mono _ _ (by omega) a).trans h2
  have h6 : W (s + t) a ≤ C * W (s + t) φ := (W_mono _ _ (by omega) a).trans h2
  have h7 := W_cut s t m a
  have h8 : D * W (s + t + L.p) a ≤ D * (C * W (s + t) φ) := by gcongr
  have h9 : 0 ≤ D * (C * W (s + t) φ) := by positivity
  have h10 : 0 ≤ C * W (s + t) φ := by positivity
  exact ⟨by linarith, by linarith⟩

/-- the solutions of the sections are close to those of the symmetric sections -/
lemma section_cauchy_sq (S : ℝ) (hS : 0 ≤ S) (hst : L.CStable S) (φ : Co) (s t : ℕ) :
    ∃ C N, 0 ≤ C ∧ ∀ m : ℕ, N ≤ m → ∀ l : ℕ, m ≤ l → ∀ a b, (∀ k : ℤ, (k < -m ∨ m ≤ k) → a k = 0) → (∀ k : ℤ, l < k.natAbs → b k = 0) →
      sq m (L.Lam a - E (cut m a)) = sq m φ → lo l (L.Lam b) = lo l φ →
      ((m : ℝ) + 1) ^ t * W s (a - b) ≤ C ∧ ((m : ℝ) + 1) ^ t * W s (cut m a) ≤ C := by
  obtain ⟨C, N, hC, hds⟩ := L.discrete_stability S hS hst s
  obtain ⟨D, N1, hD, hdec⟩ := L.residual_decay_sq E hE S hS hst φ s t
  refine ⟨C * D + D, N + N1, by positivity, fun m hm l hl a b ha hb hla hlb => ?_⟩
  have h1 := hds l (by omega) (a - b) (fun k hk => by rw [Finsupp.sub_apply, ha k (by omega), hb k hk, sub_zero])
  have h2 : lo l (L.Lam (a - b)) = lo l (L.Lam a - φ) := by rw [map_sub, lo_sub, lo_sub, hlb]
  rw [h2] at h1
  obtain ⟨h3, h3'⟩ := hdec m (by omega) a ha hla
  have h4 := W_lo s l (L.Lam a - φ)
  have h5 : W s (a - b) ≤ C * W s (L.Lam a - φ) := (W_mono _ _ (by omega) _).trans (h1.trans (by gcongr))
  have hm0 : (0 : ℝ) ≤ ((m : ℝ) + 1) ^ t := by positivity
  have h6 : ((m : ℝ) + 1) ^ t * W s (a - b) ≤ C * D := by
    calc _ ≤ ((m : ℝ) + 1) ^ t * (C * W s (L.Lam a - φ)) := by gcongr
      _ = C * (((m : ℝ) + 1) ^ t * W s (L.Lam a - φ)) := by ring
      _ ≤ _ := by gcongr
  have : 0 ≤ C * D := by positivity
  exact ⟨by linarith, by linarith⟩

end Op
end Funpy.FourierStab
