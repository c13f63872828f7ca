import Verif.Lemmas.SpectralAbs

/-!
# Differential operators with finite rank integral terms on coefficient sequences
-/

namespace Funpy.CoefNorm
open Spec Finset Polynomial

/-- `hi` as a linear map -/
noncomputable def hiL (m : ℕ) : Co →ₗ[ℝ] Co where
  toFun := hi m
  map_add' := Op.hi_add m
  map_smul' t a := by
    ext k
    rw [hi_apply, RingHom.id_apply, Finsupp.smul_apply, Finsupp.smul_apply, hi_apply]
    split_ifs <;> simp

lemma hiL_apply (m : ℕ) (a : Co) : hiL m a = hi m a := rfl

lemma ser_continuous (j : ℕ) (a : Co) : Continuous (ser j a) :=
  continuous_iff_continuousAt.2 fun x => (ser_hasDeriv j a x).continuousAt

/-- the integral over `[-1, 1]` of the series with the Chebyshev coefficients `a` -/
noncomputable def intI : Co →ₗ[ℝ] ℝ where
  toFun a := ∫ t in (-1 : ℝ)..1, ser 0 a t
  map_add' a b := by
    rw [map_add, ← intervalIntegral.integral_add ((ser_continuous 0 a).intervalIntegrable _ _) ((ser_continuous 0 b).intervalIntegrable _ _)]
    rfl
  map_smul' t a := by
    rw [map_smul, RingHom.id_apply, smul_eq_mul, ← intervalIntegral.integral_const_mul]
    rfl

lemma intI_apply (a : Co) : intI a = ∫ t in (-1 : ℝ)..1, ser 0 a t := rfl

lemma intI_bound (a : Co) : |intI a| ≤ 2 * W 0 a := by
  have h := intervalIntegral.norm_integral_le_of_norm_le_const (a := (-1 : ℝ)) (b := 1) (f := ser 0 a) (C := W 0 a) (fun x hx => by
    rw [Set.uIoc_of_le (by norm_num)] at hx
    exact ser_bound 0 a x (abs_le.2 ⟨hx.1.le, hx.2⟩))
  rw [intI_apply]
  rw [Real.norm_eq_abs] at h
  refine h.trans (le_of_eq ?_)
  rw [show |(1 : ℝ) - -1| = 2 by norm_num]
  ring

/-- the term `γ ∫ d u` -/
noncomputable def rank1 (γ : Co) (d : ℝ[X]) : Co →ₗ[ℝ] Co := LinearMap.toSpanSingleton ℝ Co γ ∘ₗ intI ∘ₗ mul 0 d

/-- what is dropped when the product `d u` is cut after `n` coefficients -/
noncomputable def rank1drop (γ : Co) (d : ℝ[X]) (n : ℕ) : Co →ₗ[ℝ] Co := LinearMap.toSpanSingleton ℝ Co γ ∘ₗ intI ∘ₗ hiL n ∘ₗ mul 0 d

lemma rank1_apply (γ : Co) (d : ℝ[X]) (F : Co) : rank1 γ d F = intI (mul 0 d F) • γ := rfl

lemma rank1drop_apply (γ : Co) (d : ℝ[X]) (n : ℕ) (F : Co) : rank1drop γ d n F = intI (hi n (mul 0 d F)) • γ := rfl

lemma rank1_bound (γ : Co) (d : ℝ[X]) (s : ℕ) : ∃ C, 0 ≤ C ∧ ∀ F, W (s + 1) (rank1 γ d F) ≤ C * W (s + 1) F := by
  obtain ⟨C, hC, h⟩ := W_mul 0 0 d
  refine ⟨2 * C * W (s + 1) γ, mul_nonneg (by positivity) (W_nonneg _ _), fun F => ?_⟩
  rw [rank1_apply, W_smul]
  have h0 := W_nonneg (s + 1) γ
  calc |intI (mul 0 d F)| * W (s + 1) γ ≤ (2 * (C * W (s + 1) F)) * W (s + 1) γ := by
        gcongr
        refine (intI_bound _).trans ?_
        gcongr
        refine (h F).trans ?_
        gcongr
        exact W_mono _ _ (by omega) _
    _ = _ := by ring

lemma rank1drop_bound (γ : Co) (d : ℝ[X]) (s t : ℕ) :
    ∃ C, 0 ≤ C ∧ ∀ (n : ℕ) F, ((n : ℝ) + 1) ^ t * W (s + 1) (rank1drop γ d n F) ≤ C * W (s + t + 1) F := by
  obtain ⟨C, hC, h⟩ := W_mul 0 t d
  refine ⟨2 * C * W (s + 1) γ, mul_nonneg (by positivity) (W_nonneg _ _), fun n F => ?_⟩
  rw [rank1drop_apply, W_smul]
  have h0 := W_nonneg (s + 1) γ
  have h1 : ((n : ℝ) + 1) ^ t * |intI (hi n (mul 0 d F))| ≤ 2 * (C * W (s + t + 1) F) := by
    calc ((n : ℝ) + 1) ^ t * |intI (hi n (mul 0 d F))| ≤ ((n : ℝ) + 1) ^ t * (2 * W 0 (hi n (mul 0 d F))) := by
          gcongr
          exact intI_bound _
      _ = 2 * (((n : ℝ) + 1) ^ t * W 0 (hi n (mul 0 d F))) := by ring
      _ ≤ 2 * W (0 + t) (mul 0 d F) := by gcongr; exact W_hi_tail _ _ _ _
      _ ≤ 2 * (C * W t F) := by rw [zero_add]; gcongr; exact h F
      _ ≤ _ := by gcongr; exact W_mono _ _ (by omega) _
  calc ((n : ℝ) + 1) ^ t * (|intI (hi n (mul 0 d F))| * W (s + 1) γ) = (((n : ℝ) + 1) ^ t * |intI (hi n (mul 0 d F))|) * W (s + 1) γ := by ring
    _ ≤ (2 * (C * W (s + t + 1) F)) * W (s + 1) γ := by gcongr
    _ = _ := by ring

/-- a differential operator -/
noncomputable def Op.toA (L : Op) : AOp where
  r := L.r
  al := L.al
  low := L.low
  drop n := ∑ j ∈ range L.r, conv j (L.r - j) ∘ₗ hiL n ∘ₗ L.prod j
  low_bound := L.low_bound
  drop_bound s t := by
    obtain ⟨C, hC, h⟩ := L.drop_bound s t
    refine ⟨C, hC, fun n F => ?_⟩
    have := h n F
    rw [Op.drop] at this
    rwa [LinearMap.sum_apply]
  drop_zero F := by
    obtain ⟨N, hN⟩ := L.drop_zero F
    refine ⟨N, fun n hn => ?_⟩
    have := hN n hn
    rw [Op.drop] at this
    rwa [LinearMap.sum_apply]

lemma Op.toA_Lam (L : Op) (F : Co) : L.toA.Lam F = L.Lam F := rfl

lemma Op.toA_LamN (L : Op) (n : ℕ) (F : Co) : L.toA.LamN n F = L.LamN n F := by
  show L.Lam F - (∑ j ∈ range L.r, conv j (L.r - j) ∘ₗ hiL n ∘ₗ L.prod j) F = L.Lam F - L.drop n F
  rw [LinearMap.sum_apply, Op.drop]
  rfl

/-- an integral term is added -/
noncomputable def AOp.addInt (L : AOp) (γ : Co) (d : ℝ[X]) : AOp where
  r := L.r
  al := L.al
  low := L.low + rank1 γ d
  drop n := L.drop n + rank1drop γ d n
  low_bound s := by
    obtain ⟨C, hC, h⟩ := L.low_bound s
    obtain ⟨D, hD, h'⟩ := rank1_bound γ d s
    refine ⟨C + D, by positivity, fun F => ?_⟩
    rw [LinearMap.add_apply, _root_.add_mul]
    exact (W_add _ _ _).trans (add_le_add (h F) (h' F))
  drop_bound s t := by
    obtain ⟨C, hC, h⟩ := L.drop_bound s t
    obtain ⟨D, hD, h'⟩ := rank1drop_bound γ d s t
    refine ⟨C + D, by positivity, fun n F => ?_⟩
    rw [LinearMap.add_apply, _root_.add_mul]
    have hp : (0 : ℝ) ≤ ((n : ℝ) + 1) ^ t := by positivity
    calc ((n : ℝ) + 1) ^ t * W (s + 1) (L.drop n F + rank1drop γ d n F)
        ≤ ((n : ℝ) + 1) ^ t * (W (s + 1) (L.drop n F) + W (s + 1) (rank1drop γ d n F)) := by gcongr; exact W_add _ _ _
      _ = ((n : ℝ) + 1) ^ t * W (s + 1) (L.drop n F) + ((n : ℝ) + 1) ^ t * W (s + 1) (rank1drop γ d n F) := by ring
      _ ≤ _ := add_le_add (h n F) (h' n F)
  drop_zero F := by
    obtain ⟨N, hN⟩ := L.drop_zero F
    obtain ⟨N', -, hN'⟩ := exists_bound (mul 0 d F)
    refine ⟨max N N', fun n hn => ?_⟩
    rw [LinearMap.add_apply, hN n ((le_max_left _ _).trans hn), zero_add, rank1drop_apply]
    have : hi n (mul 0 d F) = 0 := by
      ext k
      rw [hi_apply]
      split_ifs with hk
      · exact hN' k (((le_max_right _ _).trans hn).trans hk)
      · rfl
    rw [this, map_zero, zero_smul]

lemma AOp.addInt_Lam (L : AOp) (γ : Co) (d : ℝ[X]) (F : Co) : (L.addInt γ d).Lam F = L.Lam F + intI (mul 0 d F) • γ := by
  show L.al • dm L.r F + (L.low F + rank1 γ d F) = (L.al • dm L.r F + L.low F) + intI (mul 0 d F) • γ
  rw [rank1_apply, add_assoc]

lemma AOp.addInt_LamN (L : AOp) (γ : Co) (d : ℝ[X]) (n : ℕ) (F : Co) : (L.addInt γ d).LamN n F = L.LamN n F + intI (lo n (mul 0 d F)) • γ := by
  unfold AOp.LamN
  rw [addInt_Lam]
  show L.Lam F + intI (mul 0 d F) • γ - (L.drop n F + rank1drop γ d n F) = _
  rw [rank1drop_apply]
  conv_lhs => rw [← lo_add_hi n (mul 0 d F)]
  rw [map_add, _root_.add_smul]
  have : hi n (lo n (mul 0 d F) + hi n (mul 0 d F)) = hi n (mul 0 d F) := by rw [lo_add_hi]
  rw [this]
  abel

/-- several integral terms are added -/
noncomputable def AOp.addInts (L : AOp) : List (Co × ℝ[X]) → AOp
  | [] => L
  | p :: l => (L.addInts l).addInt p.1 p.2

lemma AOp.addInts_r (L : AOp) (l : List (Co × ℝ[X])) : (L.addInts l).r = L.r := by
  induction l with
  | nil => rfl
  | cons p l ih => exact ih

lemma AOp.addInts_al (L : AOp) (l : List (Co × ℝ[X])) : (L.addInts l).al = L.al := by
  induction l with
  | nil => rfl
  | cons p l ih => exact ih

lemma AOp.addInts_Lam (L : AOp) (l : List (Co × ℝ[X])) (F : Co) :
    (L.addInts l).Lam F = L.Lam F + (l.map fun p => intI (mul 0 p.2 F) • p.1).sum := by
  induction l with
  | nil => simp [addInts]
  | cons p l ih =>
    show ((L.addInts l).addInt p.1 p.2).Lam F = _
    rw [addInt_Lam, ih, List.map_cons, List.sum_cons]
    abel

lemma AOp.addInts_LamN (L : AOp) (l : List (Co × ℝ[X])) (n : ℕ) (F : Co) :
    (L.addInts l).LamN n F = L.LamN n F + (l.map fun p => intI (lo n (mul 0 p.2 F)) • p.1).sum := by
  induction l with
  | nil => simp [addInts]
  | cons p l ih =>
    show ((L.addInts l).addInt p.1 p.2).LamN n F = _
    rw [addInt_LamN, ih, List.map_cons, List.sum_cons]
    abel

end Funpy.CoefNorm
