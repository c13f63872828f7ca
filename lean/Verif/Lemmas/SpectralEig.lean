import Verif.Lemmas.SpectralStab

/-!
# The truncated eigenvalue equation on coefficient sequences
-/

namespace Funpy.CoefNorm
open Spec Finset Polynomial

namespace Op
variable (L : Op)

/-- regularity without a stability hypothesis: the coefficients with two more powers are bounded by those of the image and the largest coefficient -/
lemma regularity' (hr : 1 ≤ L.r) (hal : L.al ≠ 0) (s : ℕ) :
    ∃ C, 0 ≤ C ∧ ∀ F Q, (∀ k, |F k| ≤ Q) → W (s + 2) F ≤ C * (W (s + 1) (L.Lam F) + Q) := by
  obtain ⟨C, hC, hlow⟩ := L.low_bound s
  have hal' : 0 < |L.al| := abs_pos.mpr hal
  set A : ℝ := (L.r + 1) ^ (s + 1 + 1) / |L.al| with hA
  have hA0 : 0 ≤ A := by positivity
  obtain ⟨m, hm⟩ := exists_nat_ge (2 * (A * C))
  set B : ℝ := (L.r + 1) ^ (s + 1 + 1 + 1) + A + A * C * ((m + 1) ^ (s + 1 + 1)) with hB
  refine ⟨2 * B, by positivity, fun F Q hc => ?_⟩
  have hQ0 : 0 ≤ Q := (abs_nonneg _).trans (hc 0)
  set P := W (s + 1) (L.Lam F) with hP
  have hP0 : 0 ≤ P := W_nonneg _ _
  have h1 : W (s + 1 + 1) (hi L.r F) ≤ A * (P + C * W (s + 1) F) := by
    have h2 : |L.al| * W (s + 1) (dm L.r F) ≤ P + C * W (s + 1) F := by
      rw [← W_smul, show L.al • dm L.r F = L.Lam F - L.low F by rw [Lam_apply]; abel]
      exact (W_sub _ _ _).trans (add_le_add le_rfl (hlow F))
    calc W (s + 1 + 1) (hi L.r F) ≤ (L.r + 1) ^ (s + 1 + 1) * W (s + 1) (dm L.r F) := W_dm_lower _ _ hr _
      _ = A * (|L.al| * W (s + 1) (dm L.r F)) := by rw [hA]; field_simp
      _ ≤ _ := by gcongr
  have h3 : W (s + 1 + 1) (lo L.r F) ≤ (L.r + 1) ^ (s + 1 + 1 + 1) * Q := W_lo_bound _ _ _ _ hc
  have h4 : W (s + 1) (lo m F) ≤ (m + 1) ^ (s + 1 + 1) * Q := W_lo_bound _ _ _ _ hc
  have h5 : ((m : ℝ) + 1) * W (s + 1) (hi m F) ≤ W (s + 1 + 1) F := by
    have := W_hi_tail (s + 1) 1 m F
    rwa [pow_one] at this
  have h6 : W (s + 1) F ≤ W (s + 1) (lo m F) + W (s + 1) (hi m F) := by
    conv_lhs => rw [← lo_add_hi m F]
    exact W_add _ _ _
  have h7 : W (s + 1 + 1) F ≤ W (s + 1 + 1) (lo L.r F) + W (s + 1 + 1) (hi L.r F) := by
    conv_lhs => rw [← lo_add_hi L.r F]
    exact W_add _ _ _
  have h8 : A * C * W (s + 1) (hi m F) ≤ W (s + 1 + 1) F / 2 := by
    have h0 := W_nonneg (s + 1) (hi m F)
    nlinarith
  have h9 : A * C * W (s + 1) F ≤ A * C * ((m + 1) ^ (s + 1 + 1) * Q) + W (s + 1 + 1) F / 2 := by
    have : 0 ≤ A * C := by positivity
    calc A * C * W (s + 1) F ≤ A * C * (W (s + 1) (lo m F) + W (s + 1) (hi m F)) := by gcongr
      _ = A * C * W (s + 1) (lo m F) + A * C * W (s + 1) (hi m F) := by ring
      _ ≤ _ := by gcongr
  have h11 : 0 ≤ (((L.r : ℝ) + 1) ^ (s + 1 + 1 + 1) + A * C * (((m : ℝ) + 1) ^ (s + 1 + 1))) * P + A * Q := by positivity
  have h10 : W (s + 1 + 1) F ≤ B * (P + Q) + W (s + 1 + 1) F / 2 := by
    rw [hB]
    calc W (s + 1 + 1) F ≤ (L.r + 1) ^ (s + 1 + 1 + 1) * Q + A * (P + C * W (s + 1) F) := h7.trans (add_le_add h3 h1)
      _ = (L.r + 1) ^ (s + 1 + 1 + 1) * Q + A * P + A * C * W (s + 1) F := by ring
      _ ≤ (L.r + 1) ^ (s + 1 + 1 + 1) * Q + A * P + (A * C * ((m + 1) ^ (s + 1 + 1) * Q) + W (s + 1 + 1) F / 2) := by
        gcongr
      _ ≤ _ := by linarith
  show W (s + 1 + 1) F ≤ _
  linarith

/-- `F`, `G` solve the truncated eigenvalue equation for `p + i q` -/
structure Eqs (n : ℕ) (F G : Co) (p q : ℝ) : Prop where
  /-- support -/
  F0 : ∀ k, n ≤ k → F k = 0
  /-- support -/
  G0 : ∀ k, n ≤ k → G k = 0
  /-- real part -/
  eF : lo (n - L.r) (L.LamN n F) = lo (n - L.r) (conv 0 L.r (p • F - q • G))
  /-- imaginary part -/
  eG : lo (n - L.r) (L.LamN n G) = lo (n - L.r) (conv 0 L.r (q • F + p • G))

lemma W_comb (s : ℕ) (p q R : ℝ) (hp : |p| ≤ R) (hq : |q| ≤ R) (F G : Co) :
    W s (p • F - q • G) ≤ R * (W s F + W s G) ∧ W s (q • F + p • G) ≤ R * (W s F + W s G) := by
  have hF := W_nonneg s F
  have hG := W_nonneg s G
  constructor
  · refine (W_sub _ _ _).trans ?_
    rw [W_smul, W_smul, _root_.mul_add]
    gcongr
  · refine (W_add _ _ _).trans ?_
    rw [W_smul, W_smul, _root_.mul_add]
    gcongr

/-- the coefficients of solutions of the truncated equation decrease, uniformly in the number of coefficients -/
lemma eig_decay (hr : 1 ≤ L.r) (hal : L.al ≠ 0) (R : ℝ) (hR : 0 ≤ R) (s : ℕ) :
    ∃ C N, 0 ≤ C ∧ ∀ n, N ≤ n → ∀ F G p q, |p| ≤ R → |q| ≤ R → L.Eqs n F G p q → ∀ Q, (∀ k, |F k| ≤ Q) → (∀ k, |G k| ≤ Q) →
      W (s + 2) F + W (s + 2) G ≤ C * Q := by
  obtain ⟨C, hC, hreg⟩ := L.regularity' hr hal s
  obtain ⟨D, hD, htail⟩ := L.tail_bound s 1
  set E : ℝ := 2 * (C * (2 ^ L.r * R)) with hE
  have hE0 : 0 ≤ E := by positivity
  obtain ⟨m, hm⟩ := exists_nat_ge (4 * E)
  obtain ⟨N, hN⟩ := exists_nat_ge (4 * (C * D))
  refine ⟨2 * (E * (2 * ((m : ℝ) + 1) ^ (s + 1 + 1)) + 2 * C), N + L.r, by positivity, fun n hn F G p q hp hq hEq Q hF hG => ?_⟩
  have hQ0 : 0 ≤ Q := (abs_nonneg _).trans (hF 0)
  -- the image of one of the functions
  have key : ∀ H K : Co, (∀ k, n ≤ k → H k = 0) → lo (n - L.r) (L.LamN n H) = lo (n - L.r) (conv 0 L.r K) →
      W (s + 1) K ≤ R * (W (s + 1) F + W (s + 1) G) → (∀ k, |H k| ≤ Q) →
      W (s + 2) H ≤ C * (2 ^ L.r * R) * (W (s + 1) F + W (s + 1) G) + W (s + 2) H / 4 + C * Q := by
    intro H K hH hlo hK hHQ
    have h1 := hreg H Q hHQ
    have h2 : W (s + 1) (L.Lam H) ≤ W (s + 1) (lo (n - L.r) (L.LamN n H)) + (W (s + 1) (hi (n - L.r) (L.LamN n H)) + W (s + 1) (L.drop n H)) := by
      conv_lhs => rw [L.Lam_split n H]
      exact (W_add _ _ _).trans (add_le_add le_rfl (W_add _ _ _))
    have h3 := htail n H hH
    rw [pow_one, show s + 1 + 1 = s + 2 from rfl] at h3
    set T := W (s + 1) (hi (n - L.r) (L.LamN n H)) + W (s + 1) (L.drop n H)
    have hT : 0 ≤ T := add_nonneg (W_nonneg _ _) (W_nonneg _ _)
    have hmn : (N : ℝ) ≤ ((n - L.r : ℕ) : ℝ) := by exact_mod_cast (by omega : N ≤ n - L.r)
    have hW := W_nonneg (s + 2) H
    have h4 : C * T ≤ W (s + 2) H / 4 := by
      have h5 : 4 * (C * D) * T ≤ D * W (s + 2) H := by
        calc 4 * (C * D) * T ≤ (((n - L.r : ℕ) : ℝ) + 1) * T := by gcongr; linarith
          _ ≤ _ := h3
      rcases hD.eq_or_lt with hD0 | hD0
      · rw [← hD0, zero_mul] at h3
        have : T = 0 := by
          have h6 : 0 < ((n - L.r : ℕ) : ℝ) + 1 := by positivity
          nlinarith
        rw [this, mul_zero]
        positivity
      · have : D * (4 * (C * T)) ≤ D * W (s + 2) H := by linarith
        have := le_of_mul_le_mul_left this hD0
        linarith
    have h5 : W (s + 1) (lo (n - L.r) (L.LamN n H)) ≤ 2 ^ L.r * (R * (W (s + 1) F + W (s + 1) G)) := by
      rw [hlo]
      refine (W_lo _ _ _).trans ((W_conv _ _ _ _).trans ?_)
      gcongr
    calc W (s + 2) H ≤ C * (2 ^ L.r * (R * (W (s + 1) F + W (s + 1) G)) + T + Q) := by
          refine h1.trans ?_
          gcongr
          exact h2.trans (by gcongr)
      _ = C * (2 ^ L.r * R) * (W (s + 1) F + W (s + 1) G) + C * T + C * Q := by ring
      _ ≤ _ := by gcongr
  obtain ⟨c1, c2⟩ := W_comb (s + 1) p q R hp hq F G
  have kF := key F _ hEq.F0 hEq.eF c1 hF
  have kG := key G _ hEq.G0 hEq.eG c2 hG
  have low : ∀ H : Co, (∀ k, |H k| ≤ Q) → E * W (s + 1) H ≤ E * (((m : ℝ) + 1) ^ (s + 1 + 1) * Q) + W (s + 2) H / 4 := by
    intro H hH
    have h4 : W (s + 1) (lo m H) ≤ (m + 1) ^ (s + 1 + 1) * Q := W_lo_bound _ _ _ _ hH
    have h5 : ((m : ℝ) + 1) * W (s + 1) (hi m H) ≤ W (s + 2) H := by
      have := W_hi_tail (s + 1) 1 m H
      rwa [pow_one] at this
    have h6 : W (s + 1) H ≤ W (s + 1) (lo m H) + W (s + 1) (hi m H) := by
      conv_lhs => rw [← lo_add_hi m H]
      exact W_add _ _ _
    have h8 : E * W (s + 1) (hi m H) ≤ W (s + 2) H / 4 := by
      have h0 := W_nonneg (s + 1) (hi m H)
      nlinarith
    calc E * W (s + 1) H ≤ E * (W (s + 1) (lo m H) + W (s + 1) (hi m H)) := by gcongr
      _ = E * W (s + 1) (lo m H) + E * W (s + 1) (hi m H) := by ring
      _ ≤ _ := by gcongr
  have lF := low F hF
  have lG := low G hG
  have : E * (W (s + 1) F + W (s + 1) G) = 2 * (C * (2 ^ L.r * R) * (W (s + 1) F + W (s + 1) G)) := by rw [hE]; ring
  linarith

/-- **residual of the truncated eigenvalue equation**, and bounds of the derivatives -/
lemma eig_residual (hr : 1 ≤ L.r) (hal : L.al ≠ 0) (R : ℝ) (hR : 0 ≤ R) :
    ∃ C N, 0 ≤ C ∧ ∀ n, N ≤ n → ∀ F G p q, |p| ≤ R → |q| ≤ R → L.Eqs n F G p q → ∀ Q, (∀ k, |F k| ≤ Q) → (∀ k, |G k| ≤ Q) →
      ∀ x, |x| ≤ 1 →
        (((n - L.r : ℕ) : ℝ) + 1) * |ser L.r (L.Lam F) x - (p * ser 0 F x - q * ser 0 G x)| ≤ C * Q ∧
        (((n - L.r : ℕ) : ℝ) + 1) * |ser L.r (L.Lam G) x - (q * ser 0 F x + p * ser 0 G x)| ≤ C * Q ∧
        ∀ j < L.r, |iteratedDeriv j (ser 0 F) x| ≤ C * Q ∧ |iteratedDeriv j (ser 0 G) x| ≤ C * Q := by
  obtain ⟨s, hs⟩ : ∃ s, s + 1 = 2 * L.r := ⟨2 * L.r - 1, by omega⟩
  obtain ⟨C, N, hC, hdec⟩ := L.eig_decay hr hal R hR s
  obtain ⟨D, hD, htail⟩ := L.tail_bound s 1
  obtain ⟨B, hB, hder⟩ := sum_bound (fun j B => ∀ a x, |x| ≤ 1 → |iteratedDeriv j (ser 0 a) x| ≤ B * W (s + 2) a)
    (fun j B B' hBB h a x hx => (h a x hx).trans (mul_le_mul_of_nonneg_right hBB (W_nonneg _ _))) L.r (fun j hj => by
      obtain ⟨B, hB, h⟩ := W_dm j (2 * j)
      refine ⟨B, hB, fun a x hx => ?_⟩
      rw [ser_iteratedDeriv]
      refine (ser_bound _ _ x hx).trans ((W_mono _ (sig j (2 * j)) (by unfold sig; split_ifs <;> omega) _).trans ((h a).trans ?_))
      gcongr
      exact W_mono _ _ (by omega) _)
  refine ⟨(D + 2 ^ L.r * R + B) * C, N, by positivity, fun n hn F G p q hp hq hEq Q hF hG x hx => ?_⟩
  have hQ0 : 0 ≤ Q := (abs_nonneg _).trans (hF 0)
  have hX := hdec n hn F G p q hp hq hEq Q hF hG
  set X := W (s + 2) F + W (s + 2) G with hXd
  have hX0 : 0 ≤ X := add_nonneg (W_nonneg _ _) (W_nonneg _ _)
  have hFX : W (s + 2) F ≤ X := by rw [hXd]; linarith [W_nonneg (s + 2) G]
  have hGX : W (s + 2) G ≤ X := by rw [hXd]; linarith [W_nonneg (s + 2) F]
  have key : ∀ H K : Co, (∀ k, n ≤ k → H k = 0) → lo (n - L.r) (L.LamN n H) = lo (n - L.r) (conv 0 L.r K) → W (s + 2) H ≤ X →
      W (s + 2) K ≤ R * X → (((n - L.r : ℕ) : ℝ) + 1) * |ser L.r (L.Lam H) x - ser 0 K x| ≤ (D + 2 ^ L.r * R) * X := by
    intro H K hH hlo hHX hK
    have h1 : L.Lam H - conv 0 L.r K = (hi (n - L.r) (L.LamN n H) + L.drop n H) - hi (n - L.r) (conv 0 L.r K) := by
      rw [L.Lam_split n H, hlo, ← lo_add_hi (n - L.r) (conv 0 L.r K)]
      have : ∀ a, lo (n - L.r) (lo (n - L.r) a + hi (n - L.r) a) = lo (n - L.r) a := fun a => by rw [lo_add_hi]
      rw [this]
      have : ∀ a, hi (n - L.r) (lo (n - L.r) a + hi (n - L.r) a) = hi (n - L.r) a := fun a => by rw [lo_add_hi]
      rw [this]
      abel
    have h2 := ser_conv 0 L.r K x
    rw [zero_add] at h2
    have h3 : ser L.r (L.Lam H) x - ser 0 K x = ser L.r (L.Lam H - conv 0 L.r K) x := by rw [map_sub, Pi.sub_apply, h2]
    have h4 := ser_bound L.r (L.Lam H - conv 0 L.r K) x hx
    rw [← hs] at h4
    have h5 := htail n H hH
    rw [pow_one] at h5
    have h6 := W_hi_tail (s + 1) 1 (n - L.r) (conv 0 L.r K)
    rw [pow_one] at h6
    have h7 := W_conv 0 L.r (s + 2) K
    have hn0 : (0 : ℝ) ≤ ((n - L.r : ℕ) : ℝ) + 1 := by positivity
    rw [h3]
    calc (((n - L.r : ℕ) : ℝ) + 1) * |ser L.r (L.Lam H - conv 0 L.r K) x|
        ≤ (((n - L.r : ℕ) : ℝ) + 1) * ((W (s + 1) (hi (n - L.r) (L.LamN n H)) + W (s + 1) (L.drop n H)) + W (s + 1) (hi (n - L.r) (conv 0 L.r K))) := by
          gcongr
          refine h4.trans ?_
          rw [h1]
          exact (W_sub _ _ _).trans (add_le_add (W_add _ _ _) le_rfl)
      _ ≤ D * W (s + 2) H + 2 ^ L.r * W (s + 2) K := by
          rw [_root_.mul_add]
          exact add_le_add h5 (h6.trans h7)
      _ ≤ D * X + 2 ^ L.r * (R * X) := by gcongr
      _ = _ := by ring
  obtain ⟨c1, c2⟩ := W_comb (s + 2) p q R hp hq F G
  have kF := key F _ hEq.F0 hEq.eF hFX c1
  have kG := key G _ hEq.G0 hEq.eG hGX c2
  rw [map_sub, map_smul, map_smul, Pi.sub_apply, Pi.smul_apply, Pi.smul_apply, smul_eq_mul, smul_eq_mul] at kF
  rw [map_add, map_smul, map_smul, Pi.add_apply, Pi.smul_apply, Pi.smul_apply, smul_eq_mul, smul_eq_mul] at kG
  have hb1 : (D + 2 ^ L.r * R) * X ≤ (D + 2 ^ L.r * R + B) * C * Q := by
    calc (D + 2 ^ L.r * R) * X ≤ (D + 2 ^ L.r * R + B) * (C * Q) := by
          apply mul_le_mul _ hX hX0 (by positivity)
          linarith
      _ = _ := by ring
  have hb2 : ∀ H, W (s + 2) H ≤ X → B * W (s + 2) H ≤ (D + 2 ^ L.r * R + B) * C * Q := by
    intro H hH
    calc B * W (s + 2) H ≤ (D + 2 ^ L.r * R + B) * (C * Q) := by
          apply mul_le_mul _ (hH.trans hX) (W_nonneg _ _) (by positivity)
          have : (0 : ℝ) ≤ 2 ^ L.r * R := by positivity
          linarith
      _ = _ := by ring
  exact ⟨kF.trans hb1, kG.trans hb1, fun j hj => ⟨(hder j hj F x hx).trans (hb2 F hFX), (hder j hj G x hx).trans (hb2 G hGX)⟩⟩

end Op
end Funpy.CoefNorm
