import Verif.Lemmas.FourierStab

/-!
# Families of perturbed operators: uniform regularity and stability

`L.Lam + T` for linear maps `T` which lose at most `L.p` powers, with constants that depend on the bounds of `T` only.
-/

namespace Funpy.FourierStab
open Spec Finset Complex

namespace Op

variable (L : Op)

/-- the coefficients are bounded by the image under `L.Lam + T` -/
def CSt (T : Co →ₗ[ℂ] Co) (S : ℝ) : Prop := ∀ a k, ‖a k‖ ≤ S * W 0 (L.Lam a + T a)

/-- regularity up to lower order terms -/
lemma weak_regularity_fam (C1 : ℝ) (hC1 : 0 ≤ C1) : ∃ C, 0 ≤ C ∧ ∀ T : Co →ₗ[ℂ] Co, (∀ a, W 0 (T a) ≤ C1 * W L.p a) →
    ∀ a, W (L.p + 1) a ≤ C * (W 0 (L.Lam a + T a) + W L.p a) := by
  obtain ⟨C, hC, h⟩ := L.weak_regularity
  refine ⟨C * (1 + C1), by positivity, fun T hT a => ?_⟩
  have h1 : W 0 (L.Lam a) ≤ W 0 (L.Lam a + T a) + C1 * W L.p a := by
    calc W 0 (L.Lam a) = W 0 ((L.Lam a + T a) - T a) := by rw [add_sub_cancel_right]
      _ ≤ _ := (W_sub _ _ _).trans (add_le_add le_rfl (hT a))
  have h2 := W_nonneg 0 (L.Lam a + T a)
  have h3 := W_nonneg L.p a
  calc W (L.p + 1) a ≤ C * (W 0 (L.Lam a) + W L.p a) := h a
    _ ≤ C * ((W 0 (L.Lam a + T a) + C1 * W L.p a) + W L.p a) := by gcongr
    _ ≤ C * ((1 + C1) * (W 0 (L.Lam a + T a) + W L.p a)) := by
      gcongr
      nlinarith [mul_nonneg hC1 h2]
    _ = _ := by ring

/-- regularity with uniform constants -/
lemma regularity_fam (C1 S : ℝ) (hC1 : 0 ≤ C1) (hS : 0 ≤ S) : ∃ C, 0 ≤ C ∧ ∀ T : Co →ₗ[ℂ] Co, (∀ a, W 0 (T a) ≤ C1 * W L.p a) → L.CSt T S →
    ∀ a, W (L.p + 1) a ≤ C * W 0 (L.Lam a + T a) := by
  obtain ⟨C, hC, hw⟩ := L.weak_regularity_fam C1 hC1
  obtain ⟨m, hm⟩ := exists_nat_ge (2 * C)
  set B : ℝ := (2 * m + 1) * ((m + 1) ^ L.p * S) with hB
  have hB0 : 0 ≤ B := by positivity
  refine ⟨2 * (C * (1 + B)), by positivity, fun T hT hst a => ?_⟩
  have h1 := hw T hT a
  set P := W 0 (L.Lam a + T a) with hP
  have h2 : W L.p a ≤ B * P + W L.p (hi m a) := by
    conv_lhs => rw [← lo_add_hi m a]
    refine (W_add _ _ _).trans (add_le_add ?_ le_rfl)
    have := W_lo_bound L.p m a (S * P) (fun k => hst a k)
    calc _ ≤ _ := this
      _ = _ := by rw [hB]; ring
  have h3 : ((m : ℝ) + 1) * W L.p (hi m a) ≤ W (L.p + 1) a := by
    have := W_hi_tail L.p 1 m a
    rwa [pow_one] at this
  have h0 := W_nonneg L.p (hi m a)
  have h4 : C * W L.p (hi m a) ≤ W (L.p + 1) a / 2 := by nlinarith
  have h5 : C * (P + W L.p a) ≤ C * (P + (B * P + W L.p (hi m a))) := by gcongr
  linarith

/-- **discrete stability** with uniform constants -/
lemma discrete_stability_fam (C1 C2 S : ℝ) (hC1 : 0 ≤ C1) (hC2 : 0 ≤ C2) (hS : 0 ≤ S) : ∃ C N, 0 ≤ C ∧ ∀ T : Co →ₗ[ℂ] Co,
    (∀ a, W 0 (T a) ≤ C1 * W L.p a) → (∀ a, W 1 (T a) ≤ C2 * W (L.p + 1) a) → L.CSt T S → ∀ m, N ≤ m → ∀ a, (∀ k : ℤ, m < k.natAbs → a k = 0) →
    W (L.p + 1) a ≤ C * W 0 (lo m (L.Lam a + T a)) := by
  obtain ⟨C, hC, hreg⟩ := L.regularity_fam C1 S hC1 hS
  obtain ⟨D, hD, hK⟩ := L.hK 1
  obtain ⟨N, hN⟩ := exists_nat_ge (2 * (C * (D + C2)))
  refine ⟨2 * C, N, by positivity, fun T hT hT1 hst m hm a ha => ?_⟩
  have h1 := hreg T hT hst a
  set R := W 0 (hi m (L.Lam a + T a)) with hR
  have hR0 : 0 ≤ R := W_nonneg _ _
  have h2 : ((m : ℝ) + 1) * R ≤ (D + C2) * W (L.p + 1) a := by
    have h3 : hi m (L.Lam a + T a) = hi m (L.K a + T a) := by
      ext k
      rw [hi_apply, hi_apply, Finsupp.add_apply, Finsupp.add_apply, Lam_apply, Finsupp.add_apply, diag_apply]
      split_ifs with h
      · rw [ha k h, mul_zero, zero_add]
      · rfl
    have h4 := W_hi_tail 0 1 m (L.K a + T a)
    rw [pow_one, zero_add] at h4
    rw [hR, h3]
    refine h4.trans ((W_add _ _ _).trans ?_)
    rw [add_mul]
    have h5 := hK a
    rw [add_comm 1 L.p] at h5
    exact add_le_add h5 (hT1 a)
  have h3 : W 0 (L.Lam a + T a) ≤ W 0 (lo m (L.Lam a + T a)) + R := by
    conv_lhs => rw [← lo_add_hi m (L.Lam a + T a)]
    exact W_add _ _ _
  have hmN : (N : ℝ) ≤ m := by exact_mod_cast hm
  have hX := W_nonneg (L.p + 1) a
  have h4 : C * R ≤ W (L.p + 1) a / 2 := by
    rcases (add_nonneg hD hC2).eq_or_lt with hD0 | hD0
    · rw [← hD0, zero_mul] at h2
      have : R = 0 := by
        have h6 : 0 < (m : ℝ) + 1 := by positivity
        nlinarith
      rw [this, mul_zero]
      linarith
    · have h5 : (D + C2) * (2 * (C * R)) ≤ (D + C2) * W (L.p + 1) a := by
        calc (D + C2) * (2 * (C * R)) = 2 * (C * (D + C2)) * R := by ring
          _ ≤ ((m : ℝ) + 1) * R := by gcongr; linarith
          _ ≤ _ := h2
      have := le_of_mul_le_mul_left h5 hD0
      linarith
  have h5 : W (L.p + 1) a ≤ C * W 0 (lo m (L.Lam a + T a)) + C * R := by
    refine h1.trans ?_
    rw [← mul_add]
    gcongr
  linarith

/-- **uniqueness implies uniform stability** along a convergent family of perturbations -/
lemma stable_fam_of_unique (T : ℕ → Co →ₗ[ℂ] Co) (C1 : ℝ) (hC1 : 0 ≤ C1) (hT : ∀ m a, W 0 (T m a) ≤ C1 * W L.p a)
    (hTc : ∀ ε > 0, ∃ N, ∀ m ≥ N, ∀ l ≥ N, ∀ a, W 0 (T m a - T l a) ≤ ε * W L.p a)
    (hu : ∀ (ι : ℕ → ℕ) (a : ℕ → Co), Filter.Tendsto ι Filter.atTop Filter.atTop → (∀ ε > 0, ∃ N, ∀ m ≥ N, ∀ l ≥ N, W (L.p + 1) (a m - a l) ≤ ε) →
      Filter.Tendsto (fun m => W 0 (L.Lam (a m) + T (ι m) (a m))) Filter.atTop (nhds 0) → ∀ ε > 0, ∃ N, ∀ m ≥ N, ∀ k, ‖a m k‖ ≤ ε) :
    ∃ S N, 0 ≤ S ∧ ∀ m, N ≤ m → L.CSt (T m) S := by
  by_contra hcon
  push Not at hcon
  have h0 : ∀ m : ℕ, ∃ (l : ℕ) (a : Co), m ≤ l ∧ W (L.p + 1) a = 1 ∧ W 0 (L.Lam a + T l a) ≤ 1 / ((m : ℝ) + 1) := by
    intro m
    obtain ⟨l, hl, h1⟩ := hcon ((m : ℝ) + 1) m (by positivity)
    unfold CSt at h1
    push Not at h1
    obtain ⟨b, k, hb⟩ := h1
    set w := W (L.p + 1) b with hw
    have h2 : ‖b k‖ ≤ w := (coeff_le_W b k).trans (W_mono _ _ (Nat.zero_le _) _)
    have h3 := W_nonneg 0 (L.Lam b + T l b)
    have hm : (0 : ℝ) < (m : ℝ) + 1 := by positivity
    have hw0 : 0 < w := lt_of_lt_of_le (lt_of_le_of_lt (by positivity) hb) h2
    have hn : ‖((1 / w : ℝ) : ℂ)‖ = 1 / w := by
      rw [Complex.norm_real, Real.norm_eq_abs, abs_of_pos (by positivity)]
    refine ⟨l, ((1 / w : ℝ) : ℂ) • b, hl, ?_, ?_⟩
    · rw [W_smul, hn, ← hw]
      field_simp
    · rw [map_smul, map_smul, ← smul_add, W_smul, hn, one_div_mul_eq_div, div_le_div_iff₀ hw0 hm]
      linarith
  choose ι a hι ha1 ha2 using h0
  have hcoef : ∀ m k, ‖a m k‖ ≤ 1 := fun m k => by
    rw [← ha1 m]
    exact (coeff_le_W _ k).trans (W_mono _ _ (Nat.zero_le _) _)
  -- a subsequence converges coefficientwise
  have hK : IsCompact (Set.univ.pi fun _ : ℤ => Metric.closedBall (0 : ℂ) 1) := isCompact_univ_pi fun _ => isCompact_closedBall _ _
  obtain ⟨b, -, φ, hφ, hlim⟩ := hK.tendsto_subseq (x := fun m => (a m : ℤ → ℂ)) (fun m k _ => by
    rw [mem_closedBall_zero_iff]; exact hcoef m k)
  have hlimk : ∀ k, Filter.Tendsto (fun m => a (φ m) k) Filter.atTop (nhds (b k)) := fun k => (tendsto_pi_nhds.mp hlim) k
  have hres : Filter.Tendsto (fun m => W 0 (L.Lam (a (φ m)) + T (ι (φ m)) (a (φ m)))) Filter.atTop (nhds 0) := by
    refine squeeze_zero (fun m => W_nonneg _ _) (fun m => (ha2 (φ m)).trans ?_) tendsto_one_div_add_atTop_nhds_zero_nat
    have : (m : ℝ) ≤ φ m := by exact_mod_cast hφ.id_le m
    gcongr
  obtain ⟨C, hC, hreg⟩ := L.weak_regularity_fam C1 hC1
  -- Cauchy in the lower norm
  have htail : ∀ M d, W (L.p + 1) d ≤ 2 → W L.p (hi M d) ≤ 2 / ((M : ℝ) + 1) := fun M d hd => by
    have := W_hi_tail L.p 1 M d
    rw [pow_one] at this
    rw [le_div_iff₀ (by positivity)]
    linarith
  have hdiff : ∀ m l, W (L.p + 1) (a m - a l) ≤ 2 := fun m l => (W_sub _ _ _).trans (by rw [ha1, ha1]; norm_num)
  have hlow : ∀ ε > 0, ∃ N, ∀ m ≥ N, ∀ l ≥ N, W L.p (a (φ m) - a (φ l)) ≤ ε := by
    intro ε hε
    obtain ⟨M, hM⟩ := exists_nat_ge (4 / ε)
    have hM1 : 2 / ((M : ℝ) + 1) ≤ ε / 2 := by
      rw [div_le_iff₀ hε] at hM
      rw [div_le_iff₀ (by positivity)]
      nlinarith
    set δ : ℝ := ε / 2 / ((2 * M + 1) * (M + 1) ^ L.p) / 2 with hδ
    have hδ0 : 0 < δ := by positivity
    have hfin : ∀ᶠ m in Filter.atTop, ∀ k ∈ Icc (-(M : ℤ)) M, ‖a (φ m) k - b k‖ < δ := by
      rw [Filter.eventually_all_finset]
      intro k _
      have := (tendsto_iff_norm_sub_tendsto_zero.mp (hlimk k)).eventually (gt_mem_nhds hδ0)
      exact this
    obtain ⟨N, hN⟩ := Filter.eventually_atTop.mp hfin
    refine ⟨N, fun m hm l hl => ?_⟩
    set d := a (φ m) - a (φ l) with hd
    have h1 : W L.p (lo M d) ≤ (2 * M + 1) * ((M + 1) ^ L.p * (2 * δ)) := by
      have h2 : lo M d = lo M (lo M d) := by
        ext k
        rw [lo_apply M (lo M d), lo_apply M d k]
        split_ifs <;> rfl
      rw [h2]
      apply W_lo_bound
      intro k
      rw [lo_apply]
      split_ifs with hk
      · have hk' : k ∈ Icc (-(M : ℤ)) M := by rw [mem_Icc]; omega
        have h3 := hN m hm k hk'
        have h4 := hN l hl k hk'
        rw [hd, Finsupp.sub_apply, show a (φ m) k - a (φ l) k = (a (φ m) k - b k) - (a (φ l) k - b k) by ring]
        refine (norm_sub_le _ _).trans ?_
        linarith
      · rw [norm_zero]; positivity
    have h5 : (2 * (M : ℝ) + 1) * (((M : ℝ) + 1) ^ L.p * (2 * δ)) = ε / 2 := by
      rw [hδ]
      field_simp
    have h6 := htail M d (hdiff _ _)
    have h7 : W L.p d ≤ W L.p (lo M d) + W L.p (hi M d) := by
      conv_lhs => rw [← lo_add_hi M d]
      exact W_add _ _ _
    linarith
  have hcau : ∀ ε > 0, ∃ N, ∀ m ≥ N, ∀ l ≥ N, W (L.p + 1) (a (φ m) - a (φ l)) ≤ ε := by
    intro ε hε
    set η := ε / (4 * (C + 1)) with hη
    have hη0 : 0 < η := by positivity
    obtain ⟨N1, hN1⟩ := hlow η hη0
    obtain ⟨N2, hN2⟩ := Filter.eventually_atTop.mp (hres.eventually (gt_mem_nhds hη0))
    obtain ⟨N3, hN3⟩ := hTc η hη0
    refine ⟨N1 + N2 + N3, fun m hm l hl => ?_⟩
    have h1 := hreg (T (ι (φ m))) (hT _) (a (φ m) - a (φ l))
    have h2 := hN1 m (by omega) l (by omega)
    have h3 : W 0 (L.Lam (a (φ m) - a (φ l)) + T (ι (φ m)) (a (φ m) - a (φ l))) ≤ 3 * η := by
      have h4 := hN2 m (by omega)
      have h5 := hN2 l (by omega)
      have h6 : L.Lam (a (φ m) - a (φ l)) + T (ι (φ m)) (a (φ m) - a (φ l)) = ((L.Lam (a (φ m)) + T (ι (φ m)) (a (φ m)))
          - (L.Lam (a (φ l)) + T (ι (φ l)) (a (φ l)))) - (T (ι (φ m)) (a (φ l)) - T (ι (φ l)) (a (φ l))) := by
        rw [map_sub, map_sub]
        abel
      have h7 := hN3 (ι (φ m)) ((by omega : N3 ≤ m).trans ((hφ.id_le m).trans (hι _))) (ι (φ l)) ((by omega : N3 ≤ l).trans ((hφ.id_le l).trans (hι _))) (a (φ l))
      have h8 : W L.p (a (φ l)) ≤ 1 := by
        rw [← ha1 (φ l)]
        exact W_mono _ _ (Nat.le_succ _) _
      have h9 : η * W L.p (a (φ l)) ≤ η := by nlinarith
      rw [h6]
      exact (W_sub _ _ _).trans (by linarith [W_sub 0 (L.Lam (a (φ m)) + T (ι (φ m)) (a (φ m))) (L.Lam (a (φ l)) + T (ι (φ l)) (a (φ l)))])
    have h6 : C * (4 * η) ≤ ε := by
      rw [hη, show C * (4 * (ε / (4 * (C + 1)))) = ε * (C / (C + 1)) by field_simp]
      have : C / (C + 1) ≤ 1 := by rw [div_le_one (by positivity)]; linarith
      nlinarith
    calc _ ≤ C * (W 0 (L.Lam (a (φ m) - a (φ l)) + T (ι (φ m)) (a (φ m) - a (φ l))) + W L.p (a (φ m) - a (φ l))) := h1
      _ ≤ C * (4 * η) := by gcongr; linarith
      _ ≤ ε := h6
  have hzero := hu (fun m => ι (φ m)) (fun m => a (φ m)) (Filter.tendsto_atTop_mono (fun m => (hφ.id_le m).trans (hι _)) Filter.tendsto_id) hcau hres
  -- the limit vanishes, which contradicts the normalisation
  set η : ℝ := 1 / (8 * (C + 1)) with hη
  have hη0 : 0 < η := by positivity
  obtain ⟨M, hM⟩ := exists_nat_ge (2 / η)
  have hM1 : 2 / ((M : ℝ) + 1) ≤ η := by
    rw [div_le_iff₀ hη0] at hM
    rw [div_le_iff₀ (by positivity)]
    nlinarith
  obtain ⟨N1, hN1⟩ := hzero (η / ((2 * M + 1) * (M + 1) ^ L.p)) (by positivity)
  obtain ⟨N2, hN2⟩ := Filter.eventually_atTop.mp (hres.eventually (gt_mem_nhds hη0))
  set d := a (φ (N1 + N2)) with hd
  have h1 := hreg (T (ι (φ (N1 + N2)))) (hT _) d
  rw [ha1] at h1
  have h2 := hN2 (N1 + N2) (by omega)
  have h3 := W_lo_bound L.p M d _ (hN1 (N1 + N2) (by omega))
  have h4 : (2 * (M : ℝ) + 1) * (((M : ℝ) + 1) ^ L.p * (η / ((2 * M + 1) * (M + 1) ^ L.p))) = η := by field_simp
  have h5 := htail M d (by rw [ha1]; norm_num)
  have h6 : W L.p d ≤ W L.p (lo M d) + W L.p (hi M d) := by
    conv_lhs => rw [← lo_add_hi M d]
    exact W_add _ _ _
  have h7 : C * (W 0 (L.Lam d + T (ι (φ (N1 + N2))) d) + W L.p d) ≤ C * (3 * η) := by
    gcongr
    linarith
  have h8 : C * (3 * η) < 1 := by
    rw [hη, show C * (3 * (1 / (8 * (C + 1)))) = 3 / 8 * (C / (C + 1)) by field_simp]
    have : C / (C + 1) ≤ 1 := by rw [div_le_one (by positivity)]; linarith
    linarith
  linarith

end Op
end Funpy.FourierStab
