import Verif.Lemmas.OdeStab

/-!
# A priori estimates for differential equations with finite rank integral terms
-/

namespace Funpy.OdeStab
open Set Filter Topology Finset

variable {r : ℕ} {c a b : ℝ} {al : ℕ → ℝ → ℝ}

/-- functionals of the solution which are linear and bounded by its maximum on `[a, b]` -/
structure IsMean (r : ℕ) (a b T : ℝ) (τ : (ℝ → ℝ) → ℝ) : Prop where
  /-- homogeneous -/
  smul : ∀ w t, ContDiff ℝ r w → τ (fun y => t * w y) = t * τ w
  /-- additive -/
  sub : ∀ w z, ContDiff ℝ r w → ContDiff ℝ r z → τ (fun y => w y - z y) = τ w - τ z
  /-- bounded -/
  bound : ∀ w, ContDiff ℝ r w → ∀ M, (∀ y ∈ Icc a b, |w y| ≤ M) → |τ w| ≤ T * M

/-- the operator with the terms `g_i τ_i(w)` -/
noncomputable def LinI {m : ℕ} (r : ℕ) (c : ℝ) (al : ℕ → ℝ → ℝ) (g : Fin m → ℝ → ℝ) (τ : Fin m → (ℝ → ℝ) → ℝ) (w : ℝ → ℝ) (y : ℝ) : ℝ :=
  Lin r c al w y + ∑ i, g i y * τ i w

variable {m : ℕ} {g : Fin m → ℝ → ℝ} {τ : Fin m → (ℝ → ℝ) → ℝ} {T : ℝ}

lemma LinI_sub (hτ : ∀ i, IsMean r a b T (τ i)) (w z : ℝ → ℝ) (hw : ContDiff ℝ r w) (hz : ContDiff ℝ r z) (y : ℝ) :
    LinI r c al g τ (fun y => w y - z y) y = LinI r c al g τ w y - LinI r c al g τ z y := by
  unfold LinI
  rw [Lin_sub w z hw hz, Finset.sum_congr rfl fun i _ => by rw [(hτ i).sub w z hw hz, mul_sub], sum_sub_distrib]
  ring

lemma LinI_smul (hτ : ∀ i, IsMean r a b T (τ i)) (w : ℝ → ℝ) (hw : ContDiff ℝ r w) (t y : ℝ) :
    LinI r c al g τ (fun y => t * w y) y = t * LinI r c al g τ w y := by
  unfold LinI
  rw [Lin_smul, mul_add, mul_sum]
  congr 1
  exact Finset.sum_congr rfl fun i _ => by rw [(hτ i).smul w t hw]; ring

/-- initial values and means -/
noncomputable def ext (r : ℕ) (τ : Fin m → (ℝ → ℝ) → ℝ) (a : ℝ) (w : ℝ → ℝ) : (Fin r → ℝ) × (Fin m → ℝ) := (jet r w a, fun i => τ i w)

/-- **uniqueness implies stability**, with integral terms -/
theorem stable_of_unique_int {ι : Type*} (hr : 1 ≤ r) (hc : c ≠ 0) (hab : a < b) (hal : ∀ j < r, ContinuousOn (al j) (Icc a b))
    (hg : ∀ i, ContinuousOn (g i) (Icc a b)) (hT : 0 ≤ T) (hτ : ∀ i, IsMean r a b T (τ i))
    (be : ι → (ℕ → ℝ → ℝ) → ℝ) (hbe : ∀ i, IsFunctional r a b (be i))
    (huniq : ∀ w : ℝ → ℝ, ContDiff ℝ r w → (∀ i, be i (fun j => iteratedDeriv j w) = 0) → (∀ y ∈ Icc a b, LinI r c al g τ w y = 0) →
      ∀ y ∈ Icc a b, w y = 0) :
    ∃ S, 0 ≤ S ∧ ∀ w : ℝ → ℝ, ContDiff ℝ r w → (∀ i, be i (fun j => iteratedDeriv j w) = 0) → ∀ M,
      (∀ y ∈ Icc a b, |LinI r c al g τ w y| ≤ M) → ∀ j ≤ r, ∀ y ∈ Icc a b, |iteratedDeriv j w y| ≤ S * M := by
  classical
  -- a bound of the coefficients
  obtain ⟨A, hA0, hA⟩ : ∃ A, 0 ≤ A ∧ ∀ j < r, ∀ y ∈ Icc a b, |al j y| ≤ A := by
    have : ∀ j, ∃ A, j < r → ∀ y ∈ Icc a b, |al j y| ≤ A := by
      intro j
      by_cases hj : j < r
      · obtain ⟨A, hA⟩ := isCompact_Icc.exists_bound_of_continuousOn (hal j hj)
        exact ⟨A, fun _ y hy => hA y hy⟩
      · exact ⟨0, fun h => absurd h hj⟩
    choose A hA using this
    refine ⟨∑ j ∈ range r, |A j|, by positivity, fun j hj y hy => ?_⟩
    exact ((hA j hj y hy).trans (le_abs_self _)).trans (single_le_sum (f := fun j => |A j|) (fun _ _ => abs_nonneg _) (Finset.mem_range.mpr hj))
  obtain ⟨G, hG0, hG⟩ : ∃ G, 0 ≤ G ∧ ∀ y ∈ Icc a b, ∀ t : Fin m → ℝ, |∑ i, g i y * t i| ≤ G * ‖t‖ := by
    have : ∀ i, ∃ B, ∀ y ∈ Icc a b, |g i y| ≤ B := fun i => by
      obtain ⟨B, hB⟩ := isCompact_Icc.exists_bound_of_continuousOn (hg i)
      exact ⟨B, fun y hy => hB y hy⟩
    choose B hB using this
    refine ⟨∑ i, |B i|, by positivity, fun y hy t => ?_⟩
    rw [sum_mul]
    refine (abs_sum_le_sum_abs _ _).trans (sum_le_sum fun i _ => ?_)
    rw [abs_mul]
    have h1 := (hB i y hy).trans (le_abs_self _)
    have h2 : |t i| ≤ ‖t‖ := by simpa using norm_le_pi_norm t i
    gcongr
  obtain ⟨C, hC, hgr⟩ := gronwall (r := r) (al := al) hc A hA0 a b
  have hc' : 0 < |c| := abs_pos.mpr hc
  -- all derivatives are bounded by the initial values, the means and the image
  set D : ℝ := C * (1 + G) + ((r * A / |c|) * (C * (1 + G)) + (G + 1) / |c|) with hD
  have hD0 : 0 ≤ D := by positivity
  have hC' : 0 ≤ C * (1 + G) := by positivity
  have hall : ∀ w : ℝ → ℝ, ContDiff ℝ r w → ∀ M, (∀ y ∈ Icc a b, |LinI r c al g τ w y| ≤ M) → ∀ j ≤ r, ∀ y ∈ Icc a b,
      |iteratedDeriv j w y| ≤ D * (‖ext r τ a w‖ + M) := by
    intro w hw M hM j hj y hy
    have hM0 : 0 ≤ M := (abs_nonneg _).trans (hM y hy)
    set v := ‖ext r τ a w‖ with hv
    have hv0 : 0 ≤ v := norm_nonneg _
    have hj1 : ‖jet r w a‖ ≤ v := le_max_left _ _
    have ht1 : ‖fun i => τ i w‖ ≤ v := le_max_right _ _
    have hL : ∀ y ∈ Icc a b, |Lin r c al w y| ≤ M + G * v := by
      intro y hy
      have h1 : Lin r c al w y = LinI r c al g τ w y - ∑ i, g i y * τ i w := by unfold LinI; ring
      rw [h1]
      refine (abs_sub _ _).trans (add_le_add (hM y hy) ((hG y hy _).trans ?_))
      gcongr
    have h1 : ‖jet r w y‖ ≤ C * (1 + G) * (v + M) := (hgr w hw hA _ hL y hy).trans (by
      rw [mul_assoc]
      gcongr
      nlinarith)
    have h0 : 0 ≤ C * (1 + G) * (v + M) := by positivity
    rcases hj.lt_or_eq with hj | rfl
    · refine (jet_le _ _ y j hj).trans (h1.trans ?_)
      have : 0 ≤ ((r * A / |c|) * (C * (1 + G)) + (G + 1) / |c|) * (v + M) := by positivity
      rw [hD]
      linarith
    · refine (top_le hc A _ y _ (fun i hi => hA i hi y hy) (hL y hy)).trans ?_
      have h4 : (j * A / |c|) * ‖jet j w y‖ ≤ (j * A / |c|) * (C * (1 + G) * (v + M)) := by gcongr
      have h5 : (M + G * v) / |c| ≤ (G + 1) / |c| * (v + M) := by
        rw [div_mul_eq_mul_div]
        gcongr
        nlinarith
      rw [hD]
      linarith
  suffices hsuf : ∃ S, 0 ≤ S ∧ ∀ w : ℝ → ℝ, ContDiff ℝ r w → (∀ i, be i (fun j => iteratedDeriv j w) = 0) → ∀ M,
      (∀ y ∈ Icc a b, |LinI r c al g τ w y| ≤ M) → ‖ext r τ a w‖ ≤ S * M by
    obtain ⟨S, hS, h⟩ := hsuf
    refine ⟨D * (S + 1), by positivity, fun w hw hbw M hM j hj y hy => (hall w hw M hM j hj y hy).trans ?_⟩
    have h2 := h w hw hbw M hM
    calc D * (‖ext r τ a w‖ + M) ≤ D * (S * M + M) := by gcongr
      _ = _ := by ring
  by_contra hcon
  push Not at hcon
  -- a normalised sequence
  have hseq : ∀ k : ℕ, ∃ z : ℝ → ℝ, ContDiff ℝ r z ∧ (∀ i, be i (fun j => iteratedDeriv j z) = 0) ∧ ‖ext r τ a z‖ = 1 ∧
      ∀ y ∈ Icc a b, |LinI r c al g τ z y| ≤ 1 / ((k : ℝ) + 1) := by
    intro k
    obtain ⟨w, hw, hbw, M, hM, h3⟩ := hcon (k + 1) (by positivity)
    have hM0 : 0 ≤ M := (abs_nonneg _).trans (hM a (left_mem_Icc.mpr hab.le))
    have hρ : 0 < ‖ext r τ a w‖ := lt_of_le_of_lt (by positivity) h3
    refine ⟨fun y => ‖ext r τ a w‖⁻¹ * w y, contDiff_const.mul hw, fun i => ?_, ?_, fun t ht => ?_⟩
    · have := (hbe i).smul (fun j => iteratedDeriv j w) ‖ext r τ a w‖⁻¹
      rw [hbw i, mul_zero] at this
      rw [← this]
      congr 1
      funext j t
      exact iter_smul w _ j t
    · have : ext r τ a (fun y => ‖ext r τ a w‖⁻¹ * w y) = ‖ext r τ a w‖⁻¹ • ext r τ a w := by
        refine Prod.ext ?_ ?_
        · funext j
          exact iter_smul w _ j a
        · funext i
          exact (hτ i).smul w _ hw
      rw [this, norm_smul, norm_inv, norm_norm, inv_mul_cancel₀ hρ.ne']
    · rw [LinI_smul hτ w hw, abs_mul, abs_inv, abs_norm, inv_mul_le_iff₀ hρ, mul_one_div, le_div_iff₀ (by positivity)]
      have := hM t ht
      nlinarith [abs_nonneg (LinI r c al g τ w t)]
  choose z hz hzb hz1 hzL using hseq
  -- a convergent subsequence of the initial values and means
  obtain ⟨η, hη, φ, hφ, hlim⟩ := (isCompact_sphere (0 : (Fin r → ℝ) × (Fin m → ℝ)) 1).tendsto_subseq (x := fun k => ext r τ a (z k))
    (fun k => by rw [mem_sphere_zero_iff_norm]; exact hz1 k)
  set δ : ℕ → ℝ := fun k => ‖ext r τ a (z (φ k)) - η‖ + 1 / ((φ k : ℝ) + 1) with hδ
  have hδlim : Tendsto δ atTop (𝓝 0) := by
    have h1 : Tendsto (fun k => ‖ext r τ a (z (φ k)) - η‖) atTop (𝓝 0) := by
      rw [← tendsto_iff_norm_sub_tendsto_zero]
      exact hlim
    have h2 : Tendsto (fun k => 1 / ((φ k : ℝ) + 1)) atTop (𝓝 0) := (tendsto_one_div_add_atTop_nhds_zero_nat (𝕜 := ℝ)).comp hφ.tendsto_atTop
    have := h1.add h2
    rwa [add_zero] at this
  have hdiff : ∀ j ≤ r, ∀ k l, ∀ y ∈ Icc a b, |iteratedDeriv j (z (φ k)) y - iteratedDeriv j (z (φ l)) y| ≤ D * (δ k + δ l) := by
    intro j hj k l y hy
    set μ := 1 / ((φ k : ℝ) + 1) + 1 / ((φ l : ℝ) + 1) with hμ
    have hL : ∀ t ∈ Icc a b, |LinI r c al g τ (fun y => z (φ k) y - z (φ l) y) t| ≤ μ := by
      intro t ht
      rw [LinI_sub hτ _ _ (hz _) (hz _)]
      exact (abs_sub _ _).trans (add_le_add (hzL _ t ht) (hzL _ t ht))
    rw [← iter_sub _ _ (hz _) (hz _) j hj]
    refine (hall _ ((hz _).sub (hz _)) μ hL j hj y hy).trans ?_
    have h1 : ext r τ a (fun y => z (φ k) y - z (φ l) y) = (ext r τ a (z (φ k)) - η) - (ext r τ a (z (φ l)) - η) := by
      rw [show (ext r τ a (z (φ k)) - η) - (ext r τ a (z (φ l)) - η) = ext r τ a (z (φ k)) - ext r τ a (z (φ l)) by abel]
      refine Prod.ext (jet_sub _ _ (hz _) (hz _) a) ?_
      funext i
      exact (hτ i).sub _ _ (hz _) (hz _)
    have h2 := norm_sub_le (ext r τ a (z (φ k)) - η) (ext r τ a (z (φ l)) - η)
    rw [h1]
    refine mul_le_mul_of_nonneg_left ?_ hD0
    simp only [hδ, hμ]
    linarith
  have hDlim : Tendsto (fun k => D * δ k) atTop (𝓝 0) := by
    have := hδlim.const_mul D
    rwa [mul_zero] at this
  obtain ⟨w, hw, htw⟩ := exists_limit hab.le (fun k => z (φ k)) (fun k => hz _) (fun k => D * δ k) hDlim
    (fun j hj k l y hy => (hdiff j hj k l y hy).trans (by rw [mul_add]))
  have hunif : ∀ k, ∀ y ∈ Icc a b, |z (φ k) y - w y| ≤ D * δ k := by
    intro k y hy
    have h1 := htw 0 (Nat.zero_le r) y hy
    simp only [iteratedDeriv_zero] at h1
    have h2 : Tendsto (fun l => |z (φ k) y - z (φ l) y|) atTop (𝓝 |z (φ k) y - w y|) := (tendsto_const_nhds.sub h1).abs
    have h3 : Tendsto (fun l => D * δ k + D * δ l) atTop (𝓝 (D * δ k + 0)) := tendsto_const_nhds.add hDlim
    rw [add_zero] at h3
    refine le_of_tendsto_of_tendsto' h2 h3 fun l => ?_
    have := hdiff 0 (Nat.zero_le r) k l y hy
    rw [iteratedDeriv_zero, iteratedDeriv_zero, mul_add] at this
    exact this
  have htτ : ∀ i, Tendsto (fun k => τ i (z (φ k))) atTop (𝓝 (τ i w)) := by
    intro i
    rw [tendsto_iff_norm_sub_tendsto_zero]
    have h1 := hDlim.const_mul T
    rw [mul_zero] at h1
    refine squeeze_zero (fun _ => norm_nonneg _) (fun k => ?_) h1
    rw [Real.norm_eq_abs, ← (hτ i).sub _ _ (hz _) hw]
    exact (hτ i).bound _ ((hz _).sub hw) _ (hunif k)
  have hzero := huniq w hw (fun i => by
    have h1 := (hbe i).tendsto (fun k j => iteratedDeriv j (z (φ k))) (fun j => iteratedDeriv j w) fun j hj y hy => htw j hj.le y hy
    simp only [hzb] at h1
    exact (tendsto_nhds_unique h1 tendsto_const_nhds)) (fun y hy => by
    have h1 : Tendsto (fun k => LinI r c al g τ (z (φ k)) y) atTop (𝓝 (LinI r c al g τ w y)) := by
      unfold LinI Lin
      exact (((htw r le_rfl y hy).const_mul c).add (tendsto_finsetSum _ fun j hj => (htw j (Finset.mem_range.mp hj).le y hy).const_mul _)).add
        (tendsto_finsetSum _ fun i _ => (htτ i).const_mul _)
    have h2 : Tendsto (fun k => LinI r c al g τ (z (φ k)) y) atTop (𝓝 0) := by
      apply squeeze_zero_norm (fun k => ?_) ((tendsto_one_div_add_atTop_nhds_zero_nat (𝕜 := ℝ)).comp hφ.tendsto_atTop)
      exact hzL (φ k) y hy
    exact tendsto_nhds_unique h1 h2)
  -- all derivatives and means vanish
  have hders : ∀ j < r, ∀ y ∈ Icc a b, iteratedDeriv j w y = 0 := by
    intro j
    induction j with
    | zero => intro _ y hy; rw [iteratedDeriv_zero]; exact hzero y hy
    | succ j ih =>
      intro hj y hy
      have h1 := (deriv_iter w hw j (by omega) y).hasDerivWithinAt (s := Icc a b)
      have h2 : HasDerivWithinAt (iteratedDeriv j w) 0 (Icc a b) y :=
        (hasDerivWithinAt_const y (Icc a b) (0 : ℝ)).congr (fun t ht => ih (by omega) t ht) (ih (by omega) y hy)
      exact (uniqueDiffOn_Icc hab y hy).eq_deriv _ h1 h2
  have hη0 : η = 0 := by
    refine Prod.ext ?_ ?_
    · funext j
      have h1 : Tendsto (fun k => iteratedDeriv j (z (φ k)) a) atTop (𝓝 (η.1 j)) := (tendsto_pi_nhds.mp ((continuous_fst.tendsto η).comp hlim)) j
      have h2 := htw j j.2.le a (left_mem_Icc.mpr hab.le)
      rw [hders j j.2 a (left_mem_Icc.mpr hab.le)] at h2
      exact tendsto_nhds_unique h1 h2
    · funext i
      have h1 : Tendsto (fun k => τ i (z (φ k))) atTop (𝓝 (η.2 i)) := (tendsto_pi_nhds.mp ((continuous_snd.tendsto η).comp hlim)) i
      have h2 : τ i w = 0 := by
        have := (hτ i).bound w hw 0 (fun y hy => by rw [hzero y hy, abs_zero])
        rw [mul_zero] at this
        exact abs_eq_zero.1 (le_antisymm this (abs_nonneg _))
      have h3 := htτ i
      rw [h2] at h3
      exact tendsto_nhds_unique h1 h3
  rw [hη0] at hη
  simp at hη

end Funpy.OdeStab
