import Verif.Props.FourierNL
import Mathlib.Topology.MetricSpace.Contracting
import Mathlib.Analysis.Normed.Lp.PiLp

/-!
# Newton's method for the truncated nonlinear problem on Fourier coefficients

A linear operator `L` with a nonlinearity `N` of lower order near approximate solutions `P m` at which the derivatives are uniformly stable.
-/

namespace Funpy.Props
namespace FNw
end FNw
open Spec Trig TrigSpec Matrix Finset Complex FourierStab FCv FUn FNl FNw Filter Topology

lemma FNw.lo_add (m : ℕ) (a b : Co) : lo m (a + b) = lo m a + lo m b := by
  ext k
  rw [lo_apply, Finsupp.add_apply, Finsupp.add_apply, lo_apply, lo_apply]
  split_ifs <;> simp

/-- vanishing outside of `|k| ≤ m` -/
def FNw.Out (m : ℕ) (a : Co) : Prop := ∀ k : ℤ, m < k.natAbs → a k = 0

lemma FNw.Out.sub {m : ℕ} {a b : Co} (ha : Out m a) (hb : Out m b) : Out m (a - b) := fun k hk => by
  rw [Finsupp.sub_apply, ha k hk, hb k hk, sub_zero]

lemma FNw.Out.add {m : ℕ} {a b : Co} (ha : Out m a) (hb : Out m b) : Out m (a + b) := fun k hk => by
  rw [Finsupp.add_apply, ha k hk, hb k hk, add_zero]

/-- the residual of the equation -/
noncomputable def FNw.G (e : Ends) (L : Op) (N : NL) (φ a : Co) : Co := L.Lam a + N.co e a - φ

/-- uniform constants in a ball around the approximate solutions -/
structure FNw.Good (e : Ends) (L : Op) (N : NL) (P : ℕ → Co) (ρ C K D : ℝ) (N0 : ℕ) : Prop where
  hρ : 0 < ρ
  hC : 0 ≤ C
  hK : 0 ≤ K
  hD : 0 ≤ D
  h1 : 8 * (C * K * ρ) ≤ 1
  h2 : 8 * (C * D * ρ) ≤ 1
  stab : ∀ m, N0 ≤ m → ∀ a, W L.p (a - P m) ≤ ρ → ∀ h, Out m h → W (L.p + 1) h ≤ C * W 0 (lo m (L.Lam h + N.dco e a h))
  taylor : ∀ m, N0 ≤ m → ∀ a b, W L.p (a - P m) ≤ ρ → W L.p (b - P m) ≤ ρ → W 0 (N.co e b - N.co e a - N.dco e a (b - a)) ≤ K * W L.p (b - a) ^ 2
  lip : ∀ m, N0 ≤ m → ∀ a b, W L.p (a - P m) ≤ ρ → W L.p (b - P m) ≤ ρ → ∀ h, W 0 (N.dco e b h - N.dco e a h) ≤ D * W L.p (b - a) * W L.p h

lemma FNw.good (e : Ends) (he : e.e0 < e.e1) (L : Op) (N : NL) (hN : N.Below (L.p + 1)) (P : ℕ → Co) (B : ℝ) (hB : ∀ m, W (L.p + 1) (P m) ≤ B)
    (S : ℝ) (M0 : ℕ) (hS : 0 ≤ S) (hst : ∀ m, M0 ≤ m → L.CSt (N.dco e (P m)) S) : ∃ ρ C K D N0, Good e L N P ρ C K D N0 := by
  have hBp : ∀ m, W L.p (P m) ≤ B := fun m => (W_mono _ _ (Nat.le_succ _) _).trans (hB m)
  obtain ⟨C1, hC1, hb1⟩ := dco_bound e he N L.p 0 hN B
  obtain ⟨C2, hC2, hb2⟩ := dco_bound e he N L.p 1 hN B
  obtain ⟨K, hK, ht⟩ := co_taylor e he N L.p 0 hN (B + 1)
  obtain ⟨D, hD, hl⟩ := dco_lip e he N L.p 0 hN (B + 1)
  simp only [zero_add] at hb1 ht hl
  rw [add_comm 1 L.p] at hb2
  obtain ⟨C, N1, hC, hds⟩ := L.discrete_stability_fam C1 C2 S hC1 hC2 hS
  set C' := 2 * C with hC'
  set X := C' * K + C' * D with hX
  have hX0 : 0 ≤ X := by positivity
  set ρ : ℝ := 1 / (8 * (X + 1)) with hρ
  have hρ0 : 0 < ρ := by positivity
  have hρ1 : ρ ≤ 1 := by
    rw [hρ, div_le_one (by positivity)]
    linarith
  have hXρ : 8 * (X * ρ) ≤ 1 := by
    rw [hρ, show 8 * (X * (1 / (8 * (X + 1)))) = X / (X + 1) by field_simp, div_le_one (by positivity)]
    linarith
  have hball : ∀ m a, W L.p (a - P m) ≤ ρ → W L.p a ≤ B + 1 := by
    intro m a ha
    calc W L.p a = W L.p ((a - P m) + P m) := by rw [sub_add_cancel]
      _ ≤ _ := W_add _ _ _
      _ ≤ B + 1 := by linarith [hBp m]
  have hK' : 8 * (C' * K * ρ) ≤ 1 := by
    have : 0 ≤ C' * D * ρ := by positivity
    rw [hX] at hXρ
    linarith
  have hD' : 8 * (C' * D * ρ) ≤ 1 := by
    have : 0 ≤ C' * K * ρ := by positivity
    rw [hX] at hXρ
    linarith
  refine ⟨ρ, C', K, D, M0 + N1, hρ0, by positivity, hK, hD, hK', hD', fun m hm a ha h hh => ?_, fun m hm a b ha hb => ht a b (hball m a ha) (hball m b hb),
    fun m hm a b ha hb h => hl a b (hball m a ha) (hball m b hb) h⟩
  have h1 := hds (N.dco e (P m)) (hb1 _ (hBp m)) (hb2 _ (hB m)) (hst m (by omega)) m (by omega) h hh
  have h2 := hl a (P m) (hball m a ha) ((hBp m).trans (by linarith)) h
  rw [← W_neg, neg_sub] at ha
  have h3 : W 0 (lo m (L.Lam h + N.dco e (P m) h)) ≤ W 0 (lo m (L.Lam h + N.dco e a h)) + D * ρ * W (L.p + 1) h := by
    have h4 : L.Lam h + N.dco e (P m) h = (L.Lam h + N.dco e a h) + (N.dco e (P m) h - N.dco e a h) := by abel
    rw [h4, lo_add]
    refine (W_add _ _ _).trans (add_le_add le_rfl ((W_lo _ _ _).trans (h2.trans ?_)))
    have h5 := W_mono L.p (L.p + 1) (Nat.le_succ _) h
    have h6 := W_nonneg L.p h
    have h7 := W_nonneg L.p (P m - a)
    gcongr
  have h5 := W_nonneg (L.p + 1) h
  have h6 : C * (D * ρ * W (L.p + 1) h) ≤ W (L.p + 1) h / 2 := by
    have : C * (D * ρ * W (L.p + 1) h) = (C' * D * ρ) * W (L.p + 1) h / 2 := by rw [hC']; ring
    rw [this]
    have : C' * D * ρ ≤ 1 := by linarith [show 0 ≤ C' * D * ρ by positivity]
    nlinarith
  have h7 := mul_le_mul_of_nonneg_left h3 hC
  rw [mul_add] at h7
  rw [hC']
  linarith

variable {e : Ends} {L : Op} {N : NL} {P : ℕ → Co} {ρ C K D : ℝ} {N0 : ℕ}

lemma FNw.Good.center (h : Good e L N P ρ C K D N0) (m : ℕ) : W L.p (P m - P m) ≤ ρ := by
  rw [sub_self, W_zero]
  exact h.hρ.le

/-- distances to a solution are bounded by residuals -/
lemma FNw.Good.dist (h : Good e L N P ρ C K D N0) (φ : Co) (m : ℕ) (hm : N0 ≤ m) (a b : Co) (ha : Out m a) (hb : Out m b) (hab : W L.p (a - P m) ≤ ρ)
    (hbb : W L.p (b - P m) ≤ ρ) : W (L.p + 1) (b - a) ≤ 2 * C * (W 0 (lo m (G e L N φ b)) + W 0 (lo m (G e L N φ a))) := by
  have hC := h.hC
  have hK := h.hK
  have h1 := h.stab m hm a hab (b - a) (hb.sub ha)
  have h2 := h.taylor m hm a b hab hbb
  have h3 : L.Lam (b - a) + N.dco e a (b - a) = (G e L N φ b - G e L N φ a) - (N.co e b - N.co e a - N.dco e a (b - a)) := by
    unfold G
    rw [map_sub]
    abel
  have h4 : W 0 (lo m (L.Lam (b - a) + N.dco e a (b - a))) ≤ (W 0 (lo m (G e L N φ b)) + W 0 (lo m (G e L N φ a))) + K * W L.p (b - a) ^ 2 := by
    rw [h3, lo_sub', lo_sub']
    exact (W_sub _ _ _).trans (add_le_add (W_sub _ _ _) ((W_lo _ _ _).trans h2))
  have h5 : W L.p (b - a) ≤ 2 * ρ := by
    calc W L.p (b - a) = W L.p ((b - P m) - (a - P m)) := by congr 1; abel
      _ ≤ _ := W_sub _ _ _
      _ ≤ _ := by linarith
  have h6 := W_nonneg L.p (b - a)
  have h7 := W_mono L.p (L.p + 1) (Nat.le_succ _) (b - a)
  have h8 : C * (K * W L.p (b - a) ^ 2) ≤ W (L.p + 1) (b - a) / 2 := by
    calc C * (K * W L.p (b - a) ^ 2) = C * K * W L.p (b - a) * W L.p (b - a) := by ring
      _ ≤ C * K * (2 * ρ) * W L.p (b - a) := by gcongr
      _ = (C * K * ρ) * 2 * W L.p (b - a) := by ring
      _ ≤ 1 / 8 * 2 * W L.p (b - a) := by
        have := h.h1
        gcongr
        linarith
      _ ≤ _ := by linarith
  have h9 := mul_le_mul_of_nonneg_left h4 hC
  rw [mul_add] at h9
  linarith
where
  lo_sub' := Op.lo_sub

/-- a Newton step from a point of the ball is quadratically close to the solution -/
lemma FNw.Good.newton (h : Good e L N P ρ C K D N0) (φ : Co) (m : ℕ) (hm : N0 ≤ m) (s a δ : Co) (hs : Out m s) (ha : Out m a) (hδ : Out m δ)
    (hsb : W L.p (s - P m) ≤ ρ) (hab : W L.p (a - P m) ≤ ρ) (hsol : lo m (G e L N φ s) = 0) (hstep : lo m (L.Lam δ + N.dco e a δ) = - lo m (G e L N φ a)) :
    W (L.p + 1) (a + δ - s) ≤ C * K * W L.p (s - a) ^ 2 ∧ W (L.p + 1) (a + δ - s) ≤ 1 / 4 * W L.p (s - a) := by
  have hC := h.hC
  have hK := h.hK
  have h1 := h.stab m hm a hab (a + δ - s) ((ha.add hδ).sub hs)
  have h2 := h.taylor m hm a s hab hsb
  have h3 : L.Lam (a + δ - s) + N.dco e a (a + δ - s) = (L.Lam δ + N.dco e a δ + G e L N φ a) - G e L N φ s + (N.co e s - N.co e a - N.dco e a (s - a)) := by
    unfold G
    simp only [map_sub, map_add]
    abel
  have h4 : lo m (L.Lam (a + δ - s) + N.dco e a (a + δ - s)) = lo m (N.co e s - N.co e a - N.dco e a (s - a)) := by
    rw [h3, lo_add, Op.lo_sub, lo_add, hstep, hsol]
    simp
  rw [h4] at h1
  have h5 : W (L.p + 1) (a + δ - s) ≤ C * K * W L.p (s - a) ^ 2 := by
    refine h1.trans ?_
    rw [mul_assoc]
    gcongr
    exact (W_lo _ _ _).trans h2
  refine ⟨h5, h5.trans ?_⟩
  have h6 : W L.p (s - a) ≤ 2 * ρ := by
    calc W L.p (s - a) = W L.p ((s - P m) - (a - P m)) := by congr 1; abel
      _ ≤ _ := W_sub _ _ _
      _ ≤ _ := by linarith
  have h7 := W_nonneg L.p (s - a)
  calc C * K * W L.p (s - a) ^ 2 = C * K * W L.p (s - a) * W L.p (s - a) := by ring
    _ ≤ C * K * (2 * ρ) * W L.p (s - a) := by gcongr
    _ = (C * K * ρ) * 2 * W L.p (s - a) := by ring
    _ ≤ 1 / 8 * 2 * W L.p (s - a) := by
      have := h.h1
      gcongr
      linarith
    _ = _ := by ring

/-- the linearised equations are uniquely solvable -/
lemma FNw.Good.solve (h : Good e L N P ρ C K D N0) (m : ℕ) (hm : N0 ≤ m) (a : Co) (hab : W L.p (a - P m) ≤ ρ) (b : Co) :
    ∃ δ, Out m δ ∧ lo m (L.Lam δ + N.dco e a δ) = lo m b := by
  have hodd : (2 * m + 1) % 2 = 1 := by omega
  have hd : (2 * m + 1) / 2 = m := by omega
  set A : (Fin (2 * m + 1) → ℂ) →ₗ[ℂ] (Fin (2 * m + 1) → ℂ) :=
    { toFun := fun v i => (L.Lam (toCo v) + N.dco e a (toCo v)) (wave (2 * m + 1) i)
      map_add' := fun v w => by
        have : toCo (v + w) = toCo v + toCo w := by simp [toCo, sum_add_distrib]
        funext i
        rw [this, map_add, map_add, Pi.add_apply, Finsupp.add_apply, Finsupp.add_apply, Finsupp.add_apply, Finsupp.add_apply, Finsupp.add_apply]
        ring
      map_smul' := fun c v => by
        have : toCo (c • v) = c • toCo v := by simp [toCo, smul_sum]
        funext i
        rw [this, map_smul, map_smul, ← smul_add]
        rfl } with hA
  have hout : ∀ v : Fin (2 * m + 1) → ℂ, Out m (toCo v) := fun v k hk => toCo_out hodd v k (by rw [hd]; exact hk)
  have hAl : ∀ v w, (∀ i, A v i = w (wave (2 * m + 1) i)) → lo m (L.Lam (toCo v) + N.dco e a (toCo v)) = lo m w := by
    intro v w hv
    ext k
    rw [lo_apply, lo_apply]
    split_ifs with hk
    · obtain ⟨i, rfl⟩ := exists_wave hodd k (by rw [hd]; exact hk)
      exact hv i
    · rfl
  have hinj : Function.Injective A := by
    rw [← LinearMap.ker_eq_bot, LinearMap.ker_eq_bot']
    intro v hv
    have h1 := h.stab m hm a hab (toCo v) (hout v)
    have h2 : lo m (L.Lam (toCo v) + N.dco e a (toCo v)) = lo m 0 := hAl v 0 fun i => by rw [hv]; rfl
    rw [h2, show lo m (0 : Co) = 0 by ext k; simp [lo_apply], W_zero, mul_zero] at h1
    funext i
    have h3 := (coeff_le_W (toCo v) (wave (2 * m + 1) i)).trans ((W_mono 0 _ (Nat.zero_le _) _).trans h1)
    rw [toCo_wave] at h3
    exact norm_le_zero_iff.mp h3
  obtain ⟨v, hv⟩ := LinearMap.injective_iff_surjective.1 hinj fun i => b (wave (2 * m + 1) i)
  exact ⟨toCo v, hout v, hAl v b fun i => by rw [hv]⟩

/-- coordinates in which the norm `W p` is the `ℓ¹` norm -/
noncomputable def FNw.X (p : ℕ) {n : ℕ} (b : PiLp 1 fun _ : Fin n => ℂ) : Co := toCo fun i => ((1 / wt (wave n i) ^ p : ℝ) : ℂ) * b i

/-- the coordinates -/
noncomputable def FNw.Y (p n : ℕ) (a : Co) : PiLp 1 fun _ : Fin n => ℂ := WithLp.toLp 1 fun i => ((wt (wave n i) ^ p : ℝ) : ℂ) * a (wave n i)

lemma FNw.W_toCo (p : ℕ) {n : ℕ} (v : Fin n → ℂ) : W p (toCo v) = ∑ i : Fin n, wt (wave n i) ^ p * ‖v i‖ := by
  classical
  rw [W_eq p (toCo v) (univ.image fun i : Fin n => wave n i) (fun k hk => by
    by_contra h
    rw [Finsupp.mem_support_iff] at hk
    apply hk
    unfold toCo
    rw [Finsupp.finsetSum_apply]
    refine sum_eq_zero fun i _ => ?_
    rw [Finsupp.single_apply, if_neg]
    intro h1
    exact h (mem_image.mpr ⟨i, mem_univ _, h1⟩)), sum_image (fun i _ j _ hij => Fin.ext (wave_inj _ _ hij))]
  exact sum_congr rfl fun i _ => by rw [toCo_wave]

lemma FNw.toCo_sub {n : ℕ} (v w : Fin n → ℂ) : toCo (v - w) = toCo v - toCo w := by simp [toCo, sum_sub_distrib]

lemma FNw.X_dist (p : ℕ) {n : ℕ} (b b' : PiLp 1 fun _ : Fin n => ℂ) : W p (X p b - X p b') = dist b b' := by
  unfold X
  rw [← toCo_sub, W_toCo, PiLp.dist_eq_of_L1]
  refine sum_congr rfl fun i _ => ?_
  have hw := wt_pos (wave n i)
  rw [Pi.sub_apply, ← mul_sub, norm_mul, Complex.norm_real, Real.norm_eq_abs, abs_of_pos (by positivity), dist_eq_norm]
  field_simp

lemma FNw.X_Y (p : ℕ) {n : ℕ} (hn : n % 2 = 1) (a : Co) (ha : Out (n / 2) a) : X p (Y p n a) = a := by
  conv_rhs => rw [← toCo_surj hn a ha]
  unfold X Y
  congr 1
  funext i
  have hw := wt_pos (wave n i)
  rw [← mul_assoc, ← Complex.ofReal_mul]
  have : 1 / wt (wave n i) ^ p * wt (wave n i) ^ p = 1 := by field_simp
  rw [this, Complex.ofReal_one, one_mul]

/-- **existence and uniqueness** of the solution of the truncated nonlinear problem in the ball -/
lemma FNw.Good.exists_unique (h : Good e L N P ρ C K D N0) (hP : ∀ m, Out m (P m)) (φ : Co) (N1 : ℕ)
    (hres : ∀ m, N1 ≤ m → C * W 0 (lo m (G e L N φ (P m))) ≤ ρ / 2) (m : ℕ) (hm : N0 ≤ m) (hm1 : N1 ≤ m) :
    ∃! a, Out m a ∧ W L.p (a - P m) ≤ ρ ∧ lo m (G e L N φ a) = 0 := by
  have hC := h.hC
  have hK := h.hK
  have hD := h.hD
  have hρ := h.hρ
  have hstep : ∀ a : Co, ∃ δ, Out m δ ∧ lo m (L.Lam δ + N.dco e (P m) δ) = lo m (G e L N φ a) := fun a => h.solve m hm (P m) (h.center m) _
  choose δ hδ1 hδ2 using hstep
  -- the step is a contraction
  have hcontr : ∀ a b, Out m a → Out m b → W L.p (a - P m) ≤ ρ → W L.p (b - P m) ≤ ρ → W L.p ((a - δ a) - (b - δ b)) ≤ 1 / 2 * W L.p (a - b) := by
    intro a b ha hb hab hbb
    have h1 := h.stab m hm (P m) (h.center m) ((a - δ a) - (b - δ b)) ((ha.sub (hδ1 a)).sub (hb.sub (hδ1 b)))
    have h2 : L.Lam ((a - δ a) - (b - δ b)) + N.dco e (P m) ((a - δ a) - (b - δ b))
        = (((G e L N φ a - (L.Lam (δ a) + N.dco e (P m) (δ a))) - (G e L N φ b - (L.Lam (δ b) + N.dco e (P m) (δ b))))
          + (N.dco e (P m) (a - b) - N.dco e b (a - b))) - (N.co e a - N.co e b - N.dco e b (a - b)) := by
      unfold G
      simp only [map_sub]
      abel
    have h3 : lo m (L.Lam ((a - δ a) - (b - δ b)) + N.dco e (P m) ((a - δ a) - (b - δ b)))
        = lo m ((N.dco e (P m) (a - b) - N.dco e b (a - b)) - (N.co e a - N.co e b - N.dco e b (a - b))) := by
      rw [h2, Op.lo_sub, lo_add, Op.lo_sub _ (G e L N φ a - _), Op.lo_sub _ (G e L N φ a), Op.lo_sub _ (G e L N φ b), hδ2, hδ2, sub_self, sub_self, sub_self, zero_add,
        ← Op.lo_sub]
    rw [h3] at h1
    have h4 := h.lip m hm b (P m) hbb (h.center m) (a - b)
    have h5 := h.taylor m hm b a hbb hab
    have h6 : W L.p (P m - b) ≤ ρ := by rwa [← W_neg, neg_sub]
    have h7 : W L.p (a - b) ≤ 2 * ρ := by
      calc W L.p (a - b) = W L.p ((a - P m) - (b - P m)) := by congr 1; abel
        _ ≤ _ := W_sub _ _ _
        _ ≤ _ := by linarith
    have h8 := W_nonneg L.p (a - b)
    have h9 : W 0 (lo m ((N.dco e (P m) (a - b) - N.dco e b (a - b)) - (N.co e a - N.co e b - N.dco e b (a - b))))
        ≤ D * ρ * W L.p (a - b) + K * (2 * ρ) * W L.p (a - b) := by
      refine (W_lo _ _ _).trans ((W_sub _ _ _).trans (add_le_add (h4.trans (by gcongr)) (h5.trans ?_)))
      rw [pow_two, mul_assoc]
      gcongr
    have h10 := mul_le_mul_of_nonneg_left h9 hC
    have h11 := h.h1
    have h12 := h.h2
    have h13 : C * (D * ρ * W L.p (a - b) + K * (2 * ρ) * W L.p (a - b)) = (C * D * ρ) * W L.p (a - b) + 2 * ((C * K * ρ) * W L.p (a - b)) := by ring
    have h14 : (C * D * ρ) * W L.p (a - b) ≤ 1 / 8 * W L.p (a - b) := by gcongr; linarith
    have h15 : (C * K * ρ) * W L.p (a - b) ≤ 1 / 8 * W L.p (a - b) := by gcongr; linarith
    have h16 := W_mono L.p (L.p + 1) (Nat.le_succ _) ((a - δ a) - (b - δ b))
    linarith
  -- it maps the ball to itself
  have hstart : W L.p ((P m - δ (P m)) - P m) ≤ ρ / 2 := by
    have h1 := h.stab m hm (P m) (h.center m) (δ (P m)) (hδ1 _)
    rw [hδ2] at h1
    have h2 : (P m - δ (P m)) - P m = -δ (P m) := by abel
    rw [h2, W_neg]
    exact (W_mono _ _ (Nat.le_succ _) _).trans (h1.trans (hres m hm1))
  have hmaps : ∀ a, Out m a → W L.p (a - P m) ≤ ρ → W L.p ((a - δ a) - P m) ≤ ρ := by
    intro a ha hab
    have h1 := hcontr a (P m) ha (hP m) hab (h.center m)
    have h2 : (a - δ a) - P m = ((a - δ a) - (P m - δ (P m))) + ((P m - δ (P m)) - P m) := by abel
    rw [h2]
    refine (W_add _ _ _).trans ?_
    linarith
  -- uniqueness
  have huniq : ∀ a b, Out m a → Out m b → W L.p (a - P m) ≤ ρ → W L.p (b - P m) ≤ ρ → lo m (G e L N φ a) = 0 → lo m (G e L N φ b) = 0 → b = a := by
    intro a b ha hb hab hbb ha0 hb0
    have h1 := h.dist φ m hm a b ha hb hab hbb
    rw [ha0, hb0, W_zero, add_zero, mul_zero] at h1
    ext k
    have h2 := (coeff_le_W (b - a) k).trans ((W_mono 0 _ (Nat.zero_le _) _).trans h1)
    rw [Finsupp.sub_apply] at h2
    exact sub_eq_zero.mp (norm_le_zero_iff.mp h2)
  have hodd : (2 * m + 1) % 2 = 1 := by omega
  have hd : (2 * m + 1) / 2 = m := by omega
  have hXout : ∀ b : PiLp 1 fun _ : Fin (2 * m + 1) => ℂ, Out m (X L.p b) := fun b k hk => toCo_out hodd _ k (by rw [hd]; exact hk)
  have hXY : ∀ a, Out m a → X L.p (Y L.p (2 * m + 1) a) = a := fun a ha => X_Y L.p hodd a (by rw [hd]; exact ha)
  set F : (PiLp 1 fun _ : Fin (2 * m + 1) => ℂ) → (PiLp 1 fun _ : Fin (2 * m + 1) => ℂ) := fun b => Y L.p (2 * m + 1) (X L.p b - δ (X L.p b)) with hF
  have hXF : ∀ b, X L.p (F b) = X L.p b - δ (X L.p b) := fun b => hXY _ ((hXout b).sub (hδ1 _))
  set s : Set (PiLp 1 fun _ : Fin (2 * m + 1) => ℂ) := Metric.closedBall (Y L.p (2 * m + 1) (P m)) ρ with hs
  have hmem : ∀ b, b ∈ s ↔ W L.p (X L.p b - P m) ≤ ρ := by
    intro b
    rw [hs, Metric.mem_closedBall, ← X_dist, hXY _ (hP m)]
  have hFs : Set.MapsTo F s s := by
    intro b hb
    rw [hmem] at hb ⊢
    rw [hXF]
    exact hmaps _ (hXout b) hb
  have hFc : ContractingWith (1 / 2) (hFs.restrict F s s) := by
    refine ⟨?_, ?_⟩
    · rw [← NNReal.coe_lt_coe]
      norm_num
    · refine LipschitzWith.of_dist_le_mul fun b b' => ?_
      have h1 := hcontr _ _ (hXout b.1) (hXout b'.1) ((hmem _).mp b.2) ((hmem _).mp b'.2)
      rw [← hXF, ← hXF, X_dist, X_dist] at h1
      have h2 : (((1 / 2 : NNReal)) : ℝ) = 1 / 2 := by norm_num
      rw [h2]
      exact h1
  have hsc : IsComplete s := Metric.isClosed_closedBall.isComplete
  obtain ⟨b, hb, hfix, -⟩ := hFc.exists_fixedPoint' hsc hFs (Metric.mem_closedBall_self hρ.le : Y L.p (2 * m + 1) (P m) ∈ s) (edist_ne_top _ _)
  have hz : δ (X L.p b) = 0 := by
    have h1 := hXF b
    rw [hfix] at h1
    have h2 : δ (X L.p b) = X L.p b - (X L.p b - δ (X L.p b)) := by abel
    rw [h2, ← h1, sub_self]
  refine ⟨X L.p b, ⟨hXout b, (hmem b).mp hb, ?_⟩, fun a ha => huniq _ _ (hXout b) ha.1 ((hmem b).mp hb) ha.2.1 ?_ ha.2.2⟩ <;>
  · rw [← hδ2, hz, map_zero, map_zero, add_zero]
    ext k
    simp [lo_apply]

/-- functions with few modes: higher norms are bounded by lower ones -/
lemma FNw.W_inv (m s j : ℕ) (a : Co) (ha : Out m a) : W (s + j) a ≤ ((m : ℝ) + 1) ^ j * W s a := by
  rw [W_eq _ a _ subset_rfl, W_eq _ a _ subset_rfl, mul_sum]
  apply sum_le_sum
  intro k hk
  rw [Finsupp.mem_support_iff] at hk
  have h1 : k.natAbs ≤ m := by
    by_contra h
    exact hk (ha k (by omega))
  have h2 : wt k ≤ (m : ℝ) + 1 := by
    unfold wt
    have : (k.natAbs : ℝ) ≤ m := by exact_mod_cast h1
    linarith
  have h3 := (wt_pos k).le
  calc wt k ^ (s + j) * ‖a k‖ = wt k ^ j * (wt k ^ s * ‖a k‖) := by rw [pow_add]; ring
    _ ≤ _ := by gcongr

end Funpy.Props
