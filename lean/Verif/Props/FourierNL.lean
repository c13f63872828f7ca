import Verif.Props.FourierUnique
import Verif.Lemmas.FourierFam

/-!
# Polynomial nonlinearities of periodic functions

Definitions for C143 and estimates of the nonlinearities on Fourier coefficients.
-/

namespace Funpy.Props
namespace FNl
end FNl
open Spec Trig TrigSpec Matrix Finset Complex FourierStab FCv FUn FNl Filter Topology
open scoped ContDiff

/-! ### Specification -/

/-- Nonlinear differential expressions: polynomials in `u, u', u'', …` whose coefficients are trigonometric polynomials. -/
inductive FNl.NL where
  /-- a coefficient function -/
  | coef (q : List ℂ)
  /-- `u^(j)` -/
  | d (j : ℕ)
  /-- a sum -/
  | add (A B : NL)
  /-- a product -/
  | mul (A B : NL)

/-- The value of the expression for the function `u` at `x`. -/
noncomputable def FNl.NL.val (e : Ends) : NL → (ℝ → ℂ) → ℝ → ℂ
  | .coef q, _, x => trigEval q (Mapping.bwd e x)
  | .d j, u, x => iteratedDeriv j u x
  | .add A B, u, x => A.val e u x + B.val e u x
  | .mul A B, u, x => A.val e u x * B.val e u x

/-- The expression contains derivatives of order less than `r` only. -/
def FNl.NL.Below (r : ℕ) : NL → Prop
  | .coef _ => True
  | .d j => j < r
  | .add A B => A.Below r ∧ B.Below r
  | .mul A B => A.Below r ∧ B.Below r

/-! ### Proofs -/

/-- the directional derivative -/
noncomputable def FNl.NL.dval (e : Ends) : NL → (ℝ → ℂ) → (ℝ → ℂ) → ℝ → ℂ
  | .coef _, _, _, _ => 0
  | .d j, _, w, x => iteratedDeriv j w x
  | .add A B, u, w, x => A.dval e u w x + B.dval e u w x
  | .mul A B, u, w, x => A.val e u x * B.dval e u w x + B.val e u x * A.dval e u w x

/-- the expression on coefficients -/
noncomputable def FNl.NL.co (e : Ends) : NL → Co → Co
  | .coef q, _ => coOf q
  | .d j, a => FourierStab.diag (fun k => dmul e k ^ j) a
  | .add A B, a => A.co e a + B.co e a
  | .mul A B, a => FourierStab.mul (A.co e a) (B.co e a)

/-- the directional derivative on coefficients -/
noncomputable def FNl.NL.dco (e : Ends) : NL → Co → Co →ₗ[ℂ] Co
  | .coef _, _ => 0
  | .d j, _ => FourierStab.diag (fun k => dmul e k ^ j)
  | .add A B, a => A.dco e a + B.dco e a
  | .mul A B, a => (FourierStab.mul (A.co e a)).comp (B.dco e a) + (FourierStab.mul (B.co e a)).comp (A.dco e a)

lemma FNl.val_fn (e : Ends) (N : NL) (a : Co) (x : ℝ) : N.val e (fn e a) x = ev (N.co e a) (Mapping.bwd e x) := by
  induction N with
  | coef q => exact (ev_coOf q _).symm
  | d j => simp only [NL.val, NL.co, fn_iter]; rfl
  | add A B hA hB => simp only [NL.val, NL.co, hA, hB, map_add, Pi.add_apply]
  | mul A B hA hB => simp only [NL.val, NL.co, hA, hB, ev_mul]

lemma FNl.dval_fn (e : Ends) (N : NL) (a h : Co) (x : ℝ) : N.dval e (fn e a) (fn e h) x = ev (N.dco e a h) (Mapping.bwd e x) := by
  induction N with
  | coef q => simp [NL.dval, NL.dco]
  | d j => simp only [NL.dval, NL.dco, fn_iter]; rfl
  | add A B hA hB => simp only [NL.dval, NL.dco, hA, hB, LinearMap.add_apply, map_add, Pi.add_apply]
  | mul A B hA hB => simp only [NL.dval, NL.dco, hA, hB, val_fn, LinearMap.add_apply, LinearMap.comp_apply, map_add, Pi.add_apply, ev_mul]

lemma FNl.d_bound (e : Ends) (he : e.e0 < e.e1) (p j : ℕ) (hj : j ≤ p) (s : ℕ) (a : Co) :
    W s (FourierStab.diag (fun k => dmul e k ^ j) a) ≤ (2 * Real.pi / Mapping.diff e + 1) ^ p * W (s + p) a :=
  W_diag _ s p _ (dmul_le e he p j hj) a

lemma FNl.om1_pos (e : Ends) (he : e.e0 < e.e1) : 0 < 2 * Real.pi / Mapping.diff e + 1 := by
  have := om_pos e he
  unfold om at this
  linarith

lemma FNl.mul_le (q a : Co) (s : ℕ) (A B : ℝ) (hq : W s q ≤ A) (ha : W s a ≤ B) : W s (FourierStab.mul q a) ≤ A * B :=
  (W_mul _ _ _).trans (mul_le_mul hq ha (W_nonneg _ _) ((W_nonneg _ _).trans hq))

/-- the size of the nonlinearity -/
lemma FNl.co_bound (e : Ends) (he : e.e0 < e.e1) (N : NL) (p s : ℕ) (hN : N.Below (p + 1)) (ρ : ℝ) :
    ∃ C, 0 ≤ C ∧ ∀ a, W (s + p) a ≤ ρ → W s (N.co e a) ≤ C := by
  induction N with
  | coef q => exact ⟨W s (coOf q), W_nonneg _ _, fun a _ => le_rfl⟩
  | d j =>
    have := om1_pos e he
    refine ⟨(2 * Real.pi / Mapping.diff e + 1) ^ p * |ρ|, by positivity, fun a ha => ?_⟩
    refine (d_bound e he p j (Nat.lt_succ_iff.mp hN) s a).trans ?_
    gcongr
    exact ha.trans (le_abs_self _)
  | add A B hA hB =>
    obtain ⟨C, hC, h1⟩ := hA hN.1
    obtain ⟨D, hD, h2⟩ := hB hN.2
    exact ⟨C + D, by positivity, fun a ha => (W_add _ _ _).trans (add_le_add (h1 a ha) (h2 a ha))⟩
  | mul A B hA hB =>
    obtain ⟨C, hC, h1⟩ := hA hN.1
    obtain ⟨D, hD, h2⟩ := hB hN.2
    exact ⟨C * D, by positivity, fun a ha => mul_le _ _ _ _ _ (h1 a ha) (h2 a ha)⟩

/-- the size of the derivative -/
lemma FNl.dco_bound (e : Ends) (he : e.e0 < e.e1) (N : NL) (p s : ℕ) (hN : N.Below (p + 1)) (ρ : ℝ) :
    ∃ C, 0 ≤ C ∧ ∀ a, W (s + p) a ≤ ρ → ∀ h, W s (N.dco e a h) ≤ C * W (s + p) h := by
  induction N with
  | coef q => exact ⟨0, le_rfl, fun a _ h => by simp [NL.dco, W_zero]⟩
  | d j =>
    have := om1_pos e he
    exact ⟨(2 * Real.pi / Mapping.diff e + 1) ^ p, by positivity, fun a ha h => d_bound e he p j (Nat.lt_succ_iff.mp hN) s h⟩
  | add A B hA hB =>
    obtain ⟨C, hC, h1⟩ := hA hN.1
    obtain ⟨D, hD, h2⟩ := hB hN.2
    refine ⟨C + D, by positivity, fun a ha h => ?_⟩
    rw [add_mul]
    exact (W_add _ _ _).trans (add_le_add (h1 a ha h) (h2 a ha h))
  | mul A B hA hB =>
    obtain ⟨C, hC, h1⟩ := hA hN.1
    obtain ⟨D, hD, h2⟩ := hB hN.2
    obtain ⟨C', hC', h3⟩ := co_bound e he A p s hN.1 ρ
    obtain ⟨D', hD', h4⟩ := co_bound e he B p s hN.2 ρ
    refine ⟨C' * D + D' * C, by positivity, fun a ha h => ?_⟩
    rw [add_mul, mul_assoc, mul_assoc]
    exact (W_add _ _ _).trans (add_le_add (mul_le _ _ _ _ _ (h3 a ha) (h2 a ha h)) (mul_le _ _ _ _ _ (h4 a ha) (h1 a ha h)))

/-- the nonlinearity is Lipschitz on bounded sets -/
lemma FNl.co_lip (e : Ends) (he : e.e0 < e.e1) (N : NL) (p s : ℕ) (hN : N.Below (p + 1)) (ρ : ℝ) :
    ∃ C, 0 ≤ C ∧ ∀ a b, W (s + p) a ≤ ρ → W (s + p) b ≤ ρ → W s (N.co e b - N.co e a) ≤ C * W (s + p) (b - a) := by
  induction N with
  | coef q => exact ⟨0, le_rfl, fun a b _ _ => by simp [NL.co, W_zero]⟩
  | d j =>
    have := om1_pos e he
    refine ⟨(2 * Real.pi / Mapping.diff e + 1) ^ p, by positivity, fun a b ha hb => ?_⟩
    simp only [NL.co]
    rw [← map_sub]
    exact d_bound e he p j (Nat.lt_succ_iff.mp hN) s _
  | add A B hA hB =>
    obtain ⟨C, hC, h1⟩ := hA hN.1
    obtain ⟨D, hD, h2⟩ := hB hN.2
    refine ⟨C + D, by positivity, fun a b ha hb => ?_⟩
    simp only [NL.co]
    rw [add_mul, add_sub_add_comm]
    exact (W_add _ _ _).trans (add_le_add (h1 a b ha hb) (h2 a b ha hb))
  | mul A B hA hB =>
    obtain ⟨C, hC, h1⟩ := hA hN.1
    obtain ⟨D, hD, h2⟩ := hB hN.2
    obtain ⟨C', hC', h3⟩ := co_bound e he A p s hN.1 ρ
    obtain ⟨D', hD', h4⟩ := co_bound e he B p s hN.2 ρ
    refine ⟨D' * C + C' * D, by positivity, fun a b ha hb => ?_⟩
    have h5 : (NL.mul A B).co e b - (NL.mul A B).co e a
        = FourierStab.mul (B.co e b) (A.co e b - A.co e a) + FourierStab.mul (A.co e a) (B.co e b - B.co e a) := by
      apply ev_inj
      intro y
      simp only [NL.co, map_sub, map_add, ev_mul, Pi.add_apply, Pi.sub_apply]
      ring
    rw [h5, add_mul, mul_assoc, mul_assoc]
    exact (W_add _ _ _).trans (add_le_add (mul_le _ _ _ _ _ (h4 b hb) (h1 a b ha hb)) (mul_le _ _ _ _ _ (h3 a ha) (h2 a b ha hb)))

/-- the derivative is Lipschitz on bounded sets -/
lemma FNl.dco_lip (e : Ends) (he : e.e0 < e.e1) (N : NL) (p s : ℕ) (hN : N.Below (p + 1)) (ρ : ℝ) :
    ∃ C, 0 ≤ C ∧ ∀ a b, W (s + p) a ≤ ρ → W (s + p) b ≤ ρ → ∀ h, W s (N.dco e b h - N.dco e a h) ≤ C * W (s + p) (b - a) * W (s + p) h := by
  induction N with
  | coef q => exact ⟨0, le_rfl, fun a b _ _ h => by simp [NL.dco, W_zero]⟩
  | d j => exact ⟨0, le_rfl, fun a b _ _ h => by simp [NL.dco, W_zero]⟩
  | add A B hA hB =>
    obtain ⟨C, hC, h1⟩ := hA hN.1
    obtain ⟨D, hD, h2⟩ := hB hN.2
    refine ⟨C + D, by positivity, fun a b ha hb h => ?_⟩
    simp only [NL.dco, LinearMap.add_apply]
    rw [add_mul, add_mul, add_sub_add_comm]
    exact (W_add _ _ _).trans (add_le_add (h1 a b ha hb h) (h2 a b ha hb h))
  | mul A B hA hB =>
    obtain ⟨C, hC, h1⟩ := hA hN.1
    obtain ⟨D, hD, h2⟩ := hB hN.2
    obtain ⟨C', hC', h3⟩ := co_bound e he A p s hN.1 ρ
    obtain ⟨D', hD', h4⟩ := co_bound e he B p s hN.2 ρ
    obtain ⟨E, hE, h5⟩ := co_lip e he A p s hN.1 ρ
    obtain ⟨F, hF, h6⟩ := co_lip e he B p s hN.2 ρ
    obtain ⟨G, hG, h7⟩ := dco_bound e he A p s hN.1 ρ
    obtain ⟨H, hH, h8⟩ := dco_bound e he B p s hN.2 ρ
    refine ⟨E * H + C' * D + (F * G + D' * C), by positivity, fun a b ha hb h => ?_⟩
    set δ := W (s + p) (b - a) with hδ
    set η := W (s + p) h with hη
    have h9 : (NL.mul A B).dco e b h - (NL.mul A B).dco e a h
        = (FourierStab.mul (A.co e b - A.co e a) (B.dco e b h) + FourierStab.mul (A.co e a) (B.dco e b h - B.dco e a h))
          + (FourierStab.mul (B.co e b - B.co e a) (A.dco e b h) + FourierStab.mul (B.co e a) (A.dco e b h - A.dco e a h)) := by
      apply ev_inj
      intro y
      simp only [NL.dco, LinearMap.add_apply, LinearMap.comp_apply, map_sub, map_add, ev_mul, Pi.add_apply, Pi.sub_apply]
      ring
    rw [h9]
    have k1 := mul_le _ _ _ _ _ (h5 a b ha hb) (h8 b hb h)
    have k2 := mul_le _ _ _ _ _ (h3 a ha) (h2 a b ha hb h)
    have k3 := mul_le _ _ _ _ _ (h6 a b ha hb) (h7 b hb h)
    have k4 := mul_le _ _ _ _ _ (h4 a ha) (h1 a b ha hb h)
    refine (W_add _ _ _).trans ((add_le_add ((W_add _ _ _).trans (add_le_add k1 k2)) ((W_add _ _ _).trans (add_le_add k3 k4))).trans (le_of_eq ?_))
    ring

/-- the remainder is quadratic -/
lemma FNl.co_taylor (e : Ends) (he : e.e0 < e.e1) (N : NL) (p s : ℕ) (hN : N.Below (p + 1)) (ρ : ℝ) :
    ∃ C, 0 ≤ C ∧ ∀ a b, W (s + p) a ≤ ρ → W (s + p) b ≤ ρ → W s (N.co e b - N.co e a - N.dco e a (b - a)) ≤ C * W (s + p) (b - a) ^ 2 := by
  induction N with
  | coef q => exact ⟨0, le_rfl, fun a b _ _ => by simp [NL.co, NL.dco, W_zero]⟩
  | d j => exact ⟨0, le_rfl, fun a b _ _ => by simp [NL.co, NL.dco, W_zero]⟩
  | add A B hA hB =>
    obtain ⟨C, hC, h1⟩ := hA hN.1
    obtain ⟨D, hD, h2⟩ := hB hN.2
    refine ⟨C + D, by positivity, fun a b ha hb => ?_⟩
    simp only [NL.co, NL.dco, LinearMap.add_apply]
    rw [add_mul, add_sub_add_comm, add_sub_add_comm]
    exact (W_add _ _ _).trans (add_le_add (h1 a b ha hb) (h2 a b ha hb))
  | mul A B hA hB =>
    obtain ⟨C, hC, h1⟩ := hA hN.1
    obtain ⟨D, hD, h2⟩ := hB hN.2
    obtain ⟨C', hC', h3⟩ := co_bound e he A p s hN.1 ρ
    obtain ⟨D', hD', h4⟩ := co_bound e he B p s hN.2 ρ
    obtain ⟨F, hF, h6⟩ := co_lip e he B p s hN.2 ρ
    obtain ⟨G, hG, h7⟩ := dco_bound e he A p s hN.1 ρ
    refine ⟨D' * C + C' * D + F * G, by positivity, fun a b ha hb => ?_⟩
    set δ := W (s + p) (b - a) with hδ
    have h9 : (NL.mul A B).co e b - (NL.mul A B).co e a - (NL.mul A B).dco e a (b - a)
        = (FourierStab.mul (B.co e b) (A.co e b - A.co e a - A.dco e a (b - a)) + FourierStab.mul (A.co e a) (B.co e b - B.co e a - B.dco e a (b - a)))
          + FourierStab.mul (B.co e b - B.co e a) (A.dco e a (b - a)) := by
      apply ev_inj
      intro y
      simp only [NL.co, NL.dco, LinearMap.add_apply, LinearMap.comp_apply, map_sub, map_add, ev_mul, Pi.add_apply, Pi.sub_apply]
      ring
    rw [h9]
    have k1 := mul_le _ _ _ _ _ (h4 b hb) (h1 a b ha hb)
    have k2 := mul_le _ _ _ _ _ (h3 a ha) (h2 a b ha hb)
    have k3 := mul_le _ _ _ _ _ (h6 a b ha hb) (h7 a ha (b - a))
    refine (W_add _ _ _).trans ((add_le_add ((W_add _ _ _).trans (add_le_add k1 k2)) k3).trans (le_of_eq ?_))
    ring

lemma FNl.Below.mono {N : NL} {r : ℕ} (h : N.Below r) (r' : ℕ) (hr : r ≤ r') : N.Below r' := by
  induction N with
  | coef q => trivial
  | d j => exact lt_of_lt_of_le h hr
  | add A B hA hB => exact ⟨hA h.1, hB h.2⟩
  | mul A B hA hB => exact ⟨hA h.1, hB h.2⟩

/-- `dval` is the directional derivative -/
lemma FNl.dval_hasDeriv (e : Ends) (N : NL) (r : ℕ) (hN : N.Below r) (u w : ℝ → ℂ) (hu : ContDiff ℝ r u) (hw : ContDiff ℝ r w) (x : ℝ) :
    HasDerivAt (fun t : ℝ => N.val e (fun y => u y + t * w y) x) (N.dval e u w x) 0 := by
  have hz : (fun y => u y + ((0 : ℝ) : ℂ) * w y) = u := by funext y; simp
  induction N with
  | coef q => exact hasDerivAt_const _ _
  | d j =>
    have hj : j ≤ r := le_of_lt hN
    have h1 : ∀ t : ℝ, iteratedDeriv j (fun y => u y + t * w y) x = iteratedDeriv j u x + t * iteratedDeriv j w x := by
      intro t
      have h2 : (fun y => u y + t * w y) = u + (t : ℂ) • w := rfl
      have h3 : ContDiffAt ℝ j ((t : ℂ) • w) x := contDiffAt_const.mul (hw.contDiffAt.of_le (by exact_mod_cast hj))
      rw [h2, iteratedDeriv_add (hu.contDiffAt.of_le (by exact_mod_cast hj)) h3, iteratedDeriv_const_smul_field]
      rfl
    simp only [NL.val, NL.dval, h1]
    have h3 : HasDerivAt (fun t : ℝ => iteratedDeriv j u x + (t : ℂ) * iteratedDeriv j w x) (1 * iteratedDeriv j w x) 0 :=
      (((hasDerivAt_id (0 : ℝ)).ofReal_comp).mul_const _).const_add _
    rwa [one_mul] at h3
  | add A B hA hB => exact (hA hN.1).add (hB hN.2)
  | mul A B hA hB =>
    have := (hA hN.1).mul (hB hN.2)
    rw [hz] at this
    refine this.congr_deriv ?_
    simp only [NL.dval]
    ring

lemma FNl.val_tendsto (e : Ends) (N : NL) (r : ℕ) (hN : N.Below r) (f : ℕ → ℝ → ℂ) (u : ℝ → ℂ)
    (h : ∀ j ≤ r, TendstoUniformly (fun m => iteratedDeriv j (f m)) (iteratedDeriv j u) atTop) (x : ℝ) :
    Tendsto (fun m => N.val e (f m) x) atTop (𝓝 (N.val e u x)) := by
  induction N with
  | coef q => exact tendsto_const_nhds
  | d j => exact (h j (le_of_lt hN)).tendsto_at x
  | add A B hA hB => exact (hA hN.1).add (hB hN.2)
  | mul A B hA hB => exact (hA hN.1).mul (hB hN.2)

lemma FNl.dval_tendsto (e : Ends) (N : NL) (r : ℕ) (hN : N.Below r) (f g : ℕ → ℝ → ℂ) (u w : ℝ → ℂ)
    (h : ∀ j ≤ r, TendstoUniformly (fun m => iteratedDeriv j (f m)) (iteratedDeriv j u) atTop)
    (h' : ∀ j ≤ r, TendstoUniformly (fun m => iteratedDeriv j (g m)) (iteratedDeriv j w) atTop) (x : ℝ) :
    Tendsto (fun m => N.dval e (f m) (g m) x) atTop (𝓝 (N.dval e u w x)) := by
  induction N with
  | coef q => exact tendsto_const_nhds
  | d j => exact (h' j (le_of_lt hN)).tendsto_at x
  | add A B hA hB => exact (hA hN.1).add (hB hN.2)
  | mul A B hA hB =>
    exact ((val_tendsto e A r hN.1 f u h x).mul (hB hN.2)).add ((val_tendsto e B r hN.2 f u h x).mul (hA hN.1))

end Funpy.Props
