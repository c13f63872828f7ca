import Verif.Lemmas.OdeStabC
import Verif.Lemmas.SpectralEig
import Verif.Props.OdeProblem
import Verif.Props.Eigs
import Mathlib.Analysis.Complex.AbsMax
import Mathlib.Analysis.Complex.RealDeriv

/-!
# C131: the eigenvalues returned by `eigs` converge to the eigenvalues of the boundary value problem
-/

namespace Funpy.Props
namespace EigC
end EigC
open Spec Cheb UltraS OpDisc Matrix Finset Sect WPos CoefNorm Cvg OdeP Eigs EigC
open scoped ContDiff

variable {n : ℕ}

/-! ### Specification -/

/-- `l` is an eigenvalue of the boundary value problem: there is a function `u + i v`, not zero on the interval, which satisfies the
homogeneous conditions and `L (u + i v) = l (u + i v)` on the interval. -/
def EigC.IsEig (e : Ends) (s : Source) (r : ℕ) (bcs : List BC) (l : ℂ) : Prop :=
  ∃ u v : ℝ → ℝ, ContDiff ℝ r u ∧ ContDiff ℝ r v ∧ HomBC bcs u ∧ HomBC bcs v ∧ (∃ y ∈ Set.Icc e.e0 e.e1, u y ≠ 0 ∨ v y ≠ 0) ∧
    ∀ y ∈ Set.Icc e.e0 e.e1, applyLin e s u y = l.re * u y - l.im * v y ∧ applyLin e s v y = l.im * u y + l.re * v y

/-- What is assumed of scipy's `ordqz`. -/
def EigC.QZ (ordqz : Matrix (Fin n) (Fin n) ℂ → Matrix (Fin n) (Fin n) ℂ → Option ((Fin n → ℂ) × (Fin n → ℂ))) : Prop :=
  ∀ A B α β, ordqz A B = some (α, β) → IsQZ A B α β

/-! ### complex functions -/

/-- `u + i v` -/
noncomputable def EigC.cw (u v : ℝ → ℝ) (y : ℝ) : ℂ := u y + v y * Complex.I

lemma EigC.cw_contDiff {r : ℕ} (u v : ℝ → ℝ) (hu : ContDiff ℝ r u) (hv : ContDiff ℝ r v) : ContDiff ℝ r (cw u v) :=
  (Complex.ofRealCLM.contDiff.comp hu).add ((Complex.ofRealCLM.contDiff.comp hv).mul contDiff_const)

lemma EigC.iter_real {r : ℕ} (u : ℝ → ℝ) (hu : ContDiff ℝ r u) (j : ℕ) (hj : j ≤ r) :
    iteratedDeriv j (fun y => (u y : ℂ)) = fun y => ((iteratedDeriv j u y : ℝ) : ℂ) := by
  induction j with
  | zero => simp
  | succ j ih =>
    rw [iteratedDeriv_succ, ih (by omega)]
    funext y
    exact (OdeStab.deriv_iter u hu j (by omega) y).ofReal_comp.deriv

lemma EigC.iter_cw {r : ℕ} (u v : ℝ → ℝ) (hu : ContDiff ℝ r u) (hv : ContDiff ℝ r v) (j : ℕ) (hj : j ≤ r) (y : ℝ) :
    iteratedDeriv j (cw u v) y = cw (iteratedDeriv j u) (iteratedDeriv j v) y := by
  have hu' : ContDiff ℝ r fun y => (u y : ℂ) := Complex.ofRealCLM.contDiff.comp hu
  have hv' : ContDiff ℝ r fun y => (v y : ℂ) := Complex.ofRealCLM.contDiff.comp hv
  have h1 : cw u v = fun y => (u y : ℂ) - (-Complex.I) * (v y : ℂ) := by funext y; simp only [cw]; ring
  rw [h1, OdeStabC.iter_sub _ _ hu' (contDiff_const.mul hv') j hj, OdeStabC.iter_smul _ hv' _ j hj, iter_real u hu j hj, iter_real v hv j hj]
  simp only [cw]
  ring

lemma EigC.cw_eta (w : ℝ → ℂ) : cw (fun y => (w y).re) (fun y => (w y).im) = w := by
  funext y
  exact Complex.re_add_im (w y)

lemma EigC.re_contDiff {r : ℕ} (w : ℝ → ℂ) (hw : ContDiff ℝ r w) : ContDiff ℝ r (fun y => (w y).re) ∧ ContDiff ℝ r (fun y => (w y).im) :=
  ⟨Complex.reCLM.contDiff.comp hw, Complex.imCLM.contDiff.comp hw⟩

lemma EigC.cw_zero (u v : ℝ → ℝ) (y : ℝ) : cw u v y = 0 ↔ u y = 0 ∧ v y = 0 := by
  rw [Complex.ext_iff]
  simp [cw]

/-- the homogeneous part of a condition -/
def EigC.jetC (J : ℕ → ℝ → ℂ) : BC → ℂ
  | .ev f y => J (feOrd f) y
  | .const _ => 0
  | .add a b => jetC J a + jetC J b
  | .sub a b => jetC J a - jetC J b
  | .neg a => -jetC J a
  | .smul c a => c * jetC J a

lemma EigC.jetC_functional (e : Ends) (r : ℕ) (b : BC) (hp : BC.PointsIn e b) (ho : OrdLt r b) :
    OdeStabC.IsFunctional r e.e0 e.e1 fun J => jetC J b := by
  induction b with
  | ev f y => exact ⟨fun J J' => rfl, fun J t => rfl, fun J J' h => h _ ho _ hp⟩
  | const c => exact ⟨fun J J' => by simp [jetC], fun J t => by simp [jetC], fun J J' h => tendsto_const_nhds⟩
  | add a b iha ihb =>
    have ha := iha hp.1 ho.1
    have hb := ihb hp.2 ho.2
    exact ⟨fun J J' => by have := ha.add J J'; have := hb.add J J'; simp only [jetC] at *; simp only [*]; ring,
      fun J t => by have := ha.smul J t; have := hb.smul J t; simp only [jetC] at *; simp only [*]; ring,
      fun J J' h => (ha.tendsto J J' h).add (hb.tendsto J J' h)⟩
  | sub a b iha ihb =>
    have ha := iha hp.1 ho.1
    have hb := ihb hp.2 ho.2
    exact ⟨fun J J' => by have := ha.add J J'; have := hb.add J J'; simp only [jetC] at *; simp only [*]; ring,
      fun J t => by have := ha.smul J t; have := hb.smul J t; simp only [jetC] at *; simp only [*]; ring,
      fun J J' h => (ha.tendsto J J' h).sub (hb.tendsto J J' h)⟩
  | neg a iha =>
    have ha := iha hp ho
    exact ⟨fun J J' => by have := ha.add J J'; simp only [jetC] at *; simp only [*]; ring,
      fun J t => by have := ha.smul J t; simp only [jetC] at *; simp only [*]; ring, fun J J' h => (ha.tendsto J J' h).neg⟩
  | smul c a iha =>
    have ha := iha hp ho
    exact ⟨fun J J' => by have := ha.add J J'; simp only [jetC] at *; simp only [*]; ring,
      fun J t => by have := ha.smul J t; simp only [jetC] at *; simp only [*]; ring, fun J J' h => (ha.tendsto J J' h).const_mul _⟩

lemma EigC.jetC_real (J K : ℕ → ℝ → ℝ) (b : BC) : jetC (fun j => cw (J j) (K j)) b = jetF J b + jetF K b * Complex.I := by
  induction b with
  | ev f y => rfl
  | const c => simp [jetC, jetF]
  | add a b iha ihb => simp only [jetC, jetF, iha, ihb]; push_cast; ring
  | sub a b iha ihb => simp only [jetC, jetF, iha, ihb]; push_cast; ring
  | neg a iha => simp only [jetC, jetF, iha]; push_cast; ring
  | smul c a iha => simp only [jetC, jetF, iha]; push_cast; ring

/-- the value of a condition at a complex function -/
noncomputable def EigC.bcv (w : ℝ → ℂ) (b : BC) : ℂ := jetC (fun j => iteratedDeriv j w) b

lemma EigC.bcv_cw {r : ℕ} (e : Ends) (b : BC) (hp : BC.PointsIn e b) (ho : OrdLt r b) (u v : ℝ → ℝ) (hu : ContDiff ℝ r u) (hv : ContDiff ℝ r v) :
    bcv (cw u v) b = ((BC.sem u b - BC.sem (fun _ => 0) b : ℝ) : ℂ) + ((BC.sem v b - BC.sem (fun _ => 0) b : ℝ) : ℂ) * Complex.I := by
  rw [bc_sem, bc_sem, ← jetC_real]
  exact (jetC_functional e r b hp ho).congr _ _ fun j hj y _ => iter_cw u v hu hv j hj.le y

/-- the coefficients of `L - l` -/
noncomputable def EigC.alC (e : Ends) (s : Source) (l : ℂ) (j : ℕ) (y : ℝ) : ℂ := (cf e s j y : ℂ) - if j = 0 then l else 0

lemma EigC.alC_cont (e : Ends) (s : Source) (l : ℂ) (j : ℕ) : Continuous (alC e s l j) :=
  (Complex.continuous_ofReal.comp (cf_cont e s j)).sub continuous_const

/-- `L - l` at a complex function -/
noncomputable def EigC.lin (e : Ends) (s : Source) (r : ℕ) (c : ℝ) (l : ℂ) (w : ℝ → ℂ) (y : ℝ) : ℂ := OdeStabC.Lin r (c : ℂ) (alC e s l) w y

lemma EigC.lin_shift (e : Ends) (s : Source) (r : ℕ) (c : ℝ) (hr : 1 ≤ r) (l l' : ℂ) (w : ℝ → ℂ) (y : ℝ) :
    lin e s r c l w y = lin e s r c l' w y + (l' - l) * w y := by
  obtain ⟨r, rfl⟩ : ∃ r', r = r' + 1 := ⟨r - 1, by omega⟩
  unfold lin OdeStabC.Lin
  rw [sum_range_succ', sum_range_succ']
  simp [alC]
  ring

lemma EigC.lin_cw (e : Ends) (s : Source) (r : ℕ) (c : ℝ) (hs : IsODE s r c) (l : ℂ) (u v : ℝ → ℝ) (hu : ContDiff ℝ r u) (hv : ContDiff ℝ r v) (y : ℝ) :
    lin e s r c l (cw u v) y = ((applyLin e s u y - (l.re * u y - l.im * v y) : ℝ) : ℂ)
      + ((applyLin e s v y - (l.im * u y + l.re * v y) : ℝ) : ℂ) * Complex.I := by
  have h0 : lin e s r c 0 (cw u v) y = ((applyLin e s u y : ℝ) : ℂ) + ((applyLin e s v y : ℝ) : ℂ) * Complex.I := by
    rw [applyLin_eq e s r c hs, applyLin_eq e s r c hs]
    unfold lin OdeStabC.Lin OdeStab.Lin
    rw [iter_cw u v hu hv r le_rfl, sum_congr rfl fun j hj => by rw [iter_cw u v hu hv j (Finset.mem_range.mp hj).le]]
    simp only [alC, cw, ite_self, sub_zero]
    push_cast
    rw [add_mul, sum_mul]
    have : ∀ a b c d : ℂ, a + b + (c + d) = (a + c) + (b + d) := fun a b c d => by ring
    rw [this, ← sum_add_distrib]
    congr 1
    · ring
    · exact sum_congr rfl fun j _ => by ring
  rw [lin_shift e s r c hs.1 l 0, h0, Complex.ext_iff]
  simp [cw]
  constructor <;> ring

/-- the problem for `L - l` is stable with the constant `S` -/
def EigC.Stab (e : Ends) (s : Source) (r : ℕ) (c : ℝ) (bcs : List BC) (l : ℂ) (S : ℝ) : Prop :=
  ∀ w : ℝ → ℂ, ContDiff ℝ r w → (∀ b ∈ bcs, bcv w b = 0) → ∀ M, (∀ y ∈ Set.Icc e.e0 e.e1, ‖lin e s r c l w y‖ ≤ M) →
    ∀ y ∈ Set.Icc e.e0 e.e1, ‖w y‖ ≤ S * M

lemma EigC.jet_of_not_eig (e : Ends) (he : e.e0 < e.e1) (s : Source) (r : ℕ) (c : ℝ) (hs : IsODE s r c) (bcs : List BC)
    (hb : ∀ b ∈ bcs, BC.PointsIn e b ∧ OrdLt r b) (l : ℂ) (hl : ¬ IsEig e s r bcs l) : ∃ S, 0 ≤ S ∧
    ∀ w : ℝ → ℂ, ContDiff ℝ r w → (∀ b ∈ bcs, bcv w b = 0) → ∀ M, (∀ y ∈ Set.Icc e.e0 e.e1, ‖lin e s r c l w y‖ ≤ M) →
      ∀ j ≤ r, ∀ y ∈ Set.Icc e.e0 e.e1, ‖iteratedDeriv j w y‖ ≤ S * M := by
  obtain ⟨S, hS, h⟩ := OdeStabC.stable_jet (a := e.e0) (b := e.e1) (ι := {b // b ∈ bcs}) (c := (c : ℂ)) (al := alC e s l)
    (by exact_mod_cast hs.2.1) he (fun j _ => (alC_cont e s l j).continuousOn) (fun i J => jetC J i.1)
    (fun i => jetC_functional e r i.1 (hb _ i.2).1 (hb _ i.2).2)
    (fun w hw hbw hL y hy => by
      by_contra hne
      apply hl
      obtain ⟨hu, hv⟩ := re_contDiff w hw
      have hbc : ∀ b ∈ bcs, (BC.sem (fun y => (w y).re) b - BC.sem (fun _ => 0) b = 0) ∧ (BC.sem (fun y => (w y).im) b - BC.sem (fun _ => 0) b = 0) := by
        intro b hbm
        have h1 := bcv_cw e b (hb b hbm).1 (hb b hbm).2 _ _ hu hv
        rw [cw_eta, show bcv w b = 0 from hbw ⟨b, hbm⟩, Complex.ext_iff] at h1
        simp only [Complex.zero_re, Complex.zero_im, Complex.add_re, Complex.add_im, Complex.mul_re, Complex.mul_im, Complex.ofReal_re,
          Complex.ofReal_im, Complex.I_re, Complex.I_im] at h1
        constructor <;> linarith
      refine ⟨fun y => (w y).re, fun y => (w y).im, hu, hv, fun b hbm => (hbc b hbm).1, fun b hbm => (hbc b hbm).2, ⟨y, hy, ?_⟩, fun t ht => ?_⟩
      · by_contra hc
        push Not at hc
        exact hne (Complex.ext hc.1 hc.2)
      · have h1 := lin_cw e s r c hs l _ _ hu hv t
        rw [cw_eta, show lin e s r c l w t = 0 from hL t ht, Complex.ext_iff] at h1
        simp only [Complex.zero_re, Complex.zero_im, Complex.add_re, Complex.add_im, Complex.mul_re, Complex.mul_im, Complex.ofReal_re,
          Complex.ofReal_im, Complex.I_re, Complex.I_im] at h1
        constructor <;> linarith)
  exact ⟨S, hS, fun w hw hbw M hM j hj y hy => h w hw (fun i => hbw i.1 i.2) M hM j hj y hy⟩

lemma EigC.stab_of_not_eig (e : Ends) (he : e.e0 < e.e1) (s : Source) (r : ℕ) (c : ℝ) (hs : IsODE s r c) (bcs : List BC)
    (hb : ∀ b ∈ bcs, BC.PointsIn e b ∧ OrdLt r b) (l : ℂ) (hl : ¬ IsEig e s r bcs l) : ∃ S, 0 ≤ S ∧ Stab e s r c bcs l S := by
  obtain ⟨S, hS, h⟩ := jet_of_not_eig e he s r c hs bcs hb l hl
  exact ⟨S, hS, fun w hw hbw M hM y hy => by simpa using h w hw hbw M hM 0 (by omega) y hy⟩

lemma EigC.not_eig_of_stab (e : Ends) (s : Source) (r : ℕ) (c : ℝ) (hs : IsODE s r c) (bcs : List BC)
    (hb : ∀ b ∈ bcs, BC.PointsIn e b ∧ OrdLt r b) (l : ℂ) (S : ℝ) (hS : Stab e s r c bcs l S) : ¬ IsEig e s r bcs l := by
  rintro ⟨u, v, hu, hv, hbu, hbv, ⟨y, hy, hne⟩, hL⟩
  have h := hS (cw u v) (cw_contDiff u v hu hv) (fun b hbm => by
    rw [bcv_cw e b (hb b hbm).1 (hb b hbm).2 u v hu hv, hbu b hbm, hbv b hbm]; simp) 0 (fun t ht => by
    rw [lin_cw e s r c hs l u v hu hv, (hL t ht).1, (hL t ht).2]; simp) y hy
  rw [mul_zero, norm_le_zero_iff, cw_zero] at h
  rcases hne with h' | h'
  · exact h' h.1
  · exact h' h.2

lemma EigC.max_exists (e : Ends) (he : e.e0 < e.e1) (w : ℝ → ℂ) (hw : Continuous w) :
    ∃ y0 ∈ Set.Icc e.e0 e.e1, ∀ y ∈ Set.Icc e.e0 e.e1, ‖w y‖ ≤ ‖w y0‖ := by
  obtain ⟨y0, h0, h1⟩ := isCompact_Icc.exists_isMaxOn (Set.nonempty_Icc.mpr he.le) (hw.norm.continuousOn (s := Set.Icc e.e0 e.e1))
  exact ⟨y0, h0, fun y hy => h1 hy⟩

lemma EigC.stab_pert (e : Ends) (he : e.e0 < e.e1) (s : Source) (r : ℕ) (c : ℝ) (hs : IsODE s r c) (bcs : List BC) (l l' : ℂ) (S : ℝ) (hS0 : 0 ≤ S)
    (hS : Stab e s r c bcs l S) (hl : S * ‖l' - l‖ ≤ 1 / 2) : Stab e s r c bcs l' (2 * S) := by
  intro w hw hbw M hM y hy
  obtain ⟨y0, h0, h1⟩ := max_exists e he w hw.continuous
  have h2 := hS w hw hbw (M + ‖l' - l‖ * ‖w y0‖) (fun t ht => by
    rw [lin_shift e s r c hs.1 l l']
    refine (norm_add_le _ _).trans (add_le_add (hM t ht) ?_)
    rw [norm_mul]
    gcongr
    exact h1 t ht) y0 h0
  have h3 : S * ‖l' - l‖ * ‖w y0‖ ≤ 1 / 2 * ‖w y0‖ := by gcongr
  have h4 := h1 y hy
  nlinarith

lemma EigC.stab_compact (e : Ends) (he : e.e0 < e.e1) (s : Source) (r : ℕ) (c : ℝ) (hs : IsODE s r c) (bcs : List BC)
    (hb : ∀ b ∈ bcs, BC.PointsIn e b ∧ OrdLt r b) (K : Set ℂ) (hK : IsCompact K) (hne : ∀ l ∈ K, ¬ IsEig e s r bcs l) :
    ∃ S, 0 ≤ S ∧ ∀ l ∈ K, Stab e s r c bcs l S := by
  have mono : ∀ l S S', S ≤ S' → Stab e s r c bcs l S → Stab e s r c bcs l S' := by
    intro l S S' hSS h w hw hbw M hM y hy
    have hM0 : 0 ≤ M := (norm_nonneg _).trans (hM y hy)
    exact (h w hw hbw M hM y hy).trans (by gcongr)
  have := hK.induction_on (p := fun T => ∃ S, 0 ≤ S ∧ ∀ l ∈ T, l ∈ K → Stab e s r c bcs l S) ⟨0, le_rfl, by simp⟩
    (fun T T' hTT ⟨S, hS, h⟩ => ⟨S, hS, fun l hl => h l (hTT hl)⟩)
    (fun T T' ⟨S, hS, h⟩ ⟨S', hS', h'⟩ => ⟨max S S', hS.trans (le_max_left _ _), fun l hl hlK => by
      rcases hl with hl | hl
      · exact mono l _ _ (le_max_left _ _) (h l hl hlK)
      · exact mono l _ _ (le_max_right _ _) (h' l hl hlK)⟩)
    (fun l hl => by
      obtain ⟨S, hS, h⟩ := stab_of_not_eig e he s r c hs bcs hb l (hne l hl)
      refine ⟨Metric.ball l (1 / (2 * (S + 1))), mem_nhdsWithin_of_mem_nhds (Metric.ball_mem_nhds l (by positivity)), 2 * S, by positivity,
        fun l' hl' _ => stab_pert e he s r c hs bcs l l' S hS h ?_⟩
      rw [Metric.mem_ball, dist_eq_norm] at hl'
      calc S * ‖l' - l‖ ≤ (S + 1) * (1 / (2 * (S + 1))) := by
            apply mul_le_mul (by linarith) hl'.le (norm_nonneg _) (by positivity)
        _ = 1 / 2 := by field_simp)
  obtain ⟨S, hS, h⟩ := this
  exact ⟨S, hS, fun l hl => h l hl hl⟩

/-! ### the discretised problem -/

/-- the rows of the discretised eigenvalue equation, with boundary values `g` -/
def EigC.Rows (d : Disc n) (M : List (Fin n → ℝ)) (l : ℂ) (g : List ℝ) (a b : Fin n → ℝ) : Prop :=
  M.map (· ⬝ᵥ a) = projectVector d g (l.re • a + (-l.im) • b) ∧
  M.map (· ⬝ᵥ b) = projectVector d (List.replicate d.r 0) (l.im • a + l.re • b)

lemma EigC.toCo_comb (p q : ℝ) (a b : Fin n → ℝ) : toCo (p • a + q • b) = p • toCo a + q • toCo b := by
  ext k
  rw [Finsupp.add_apply, Finsupp.smul_apply, Finsupp.smul_apply, toCo_apply, toCo_apply, toCo_apply]
  split_ifs <;> simp

/-- the function with the complex coefficients `a + i b` -/
noncomputable def EigC.cf2 (e : Ends) (a b : Fin n → ℝ) : ℝ → ℂ := cw (funOf e a) (funOf e b)

lemma EigC.funOf_cd {r : ℕ} (e : Ends) (x : Fin n → ℝ) : ContDiff ℝ r (funOf e x) := (funOf_contDiff e x).of_le (by exact_mod_cast le_top)

lemma EigC.cf2_cd {r : ℕ} (e : Ends) (a b : Fin n → ℝ) : ContDiff ℝ r (cf2 e a b) := cw_contDiff _ _ (funOf_cd e a) (funOf_cd e b)

lemma EigC.norm_cw (u v : ℝ → ℝ) (y : ℝ) : |u y| ≤ ‖cw u v y‖ ∧ |v y| ≤ ‖cw u v y‖ ∧ ‖cw u v y‖ ≤ |u y| + |v y| := by
  refine ⟨?_, ?_, ?_⟩
  · have := Complex.abs_re_le_norm (cw u v y)
    simpa [cw] using this
  · have := Complex.abs_im_le_norm (cw u v y)
    simpa [cw] using this
  · have := Complex.norm_le_abs_re_add_abs_im (cw u v y)
    simpa [cw] using this

lemma EigC.coef_le (e : Ends) (he : e.e0 < e.e1) (x : Fin n → ℝ) (Q : ℝ) (h : ∀ y ∈ Set.Icc e.e0 e.e1, |funOf e x y| ≤ Q) (k : ℕ) :
    |toCo x k| ≤ 2 * Q := by
  apply coeff_bound
  intro X hX
  have := h (Mapping.fwd e X) (fwd_mem e he X hX)
  rw [← fn_toCo, fn, (C01_inverse e he).1] at this
  exact this

lemma EigC.rows_eqs (d : Disc n) (hn : 2 ≤ n) (he : d.e.e0 < d.e.e1) (hb : ∀ b ∈ d.bcs, BC.PointsIn d.e b ∧ BC.Mentions b)
    (c : ℝ) (hs : IsODE d.src d.r c) (hfit : SecFits n n d.src) (hsq : d.bcs.length = d.r) (M : List (Fin n → ℝ))
    (hM : OpDisc.matrix d = some M) (g : List ℝ) (hg : g.length = d.r) (l : ℂ) (a b : Fin n → ℝ) (h : Rows d M l g a b) :
    (op d.e d.src d.r c).Eqs n (toCo a) (toCo b) l.re l.im where
  F0 := toCo_ge a
  G0 := toCo_ge b
  eF := by
    have := solves d hn he hb c hs hfit M hM g (by rw [hg, hsq]) _ a h.1
    rw [toCo_comb, neg_smul, ← sub_eq_add_neg] at this
    exact this
  eG := by
    have := solves d hn he hb c hs hfit M hM _ (by simp [hsq]) _ b h.2
    rw [toCo_comb] at this
    exact this

/-- residuals and derivatives of the solutions of the discretised equation -/
lemma EigC.disc_res (e : Ends) (he : e.e0 < e.e1) (s : Source) (r : ℕ) (c eps : ℝ) (hs : IsODE s r c) (bcs : List BC) (hsq : bcs.length = r)
    (hb : ∀ b ∈ bcs, BC.PointsIn e b ∧ BC.Mentions b) (R : ℝ) (hR : 0 ≤ R) :
    ∃ C N, 0 ≤ C ∧ ∀ n, N ≤ n → SecFits n n s → ∀ M, OpDisc.matrix (⟨e, r, eps, s, bcs⟩ : Disc n) = some M → ∀ l : ℂ, ‖l‖ ≤ R →
      ∀ g : List ℝ, g.length = r → ∀ a b : Fin n → ℝ, Rows ⟨e, r, eps, s, bcs⟩ M l g a b →
      ∀ Q, (∀ y ∈ Set.Icc e.e0 e.e1, ‖cf2 e a b y‖ ≤ Q) →
        (∀ y ∈ Set.Icc e.e0 e.e1, (((n - r : ℕ) : ℝ) + 1) * ‖lin e s r c l (cf2 e a b) y‖ ≤ C * Q) ∧
        ‖OdeStabC.jet r (cf2 e a b) e.e0‖ ≤ C * Q := by
  have hal : (op e s r c).al ≠ 0 :=
    mul_ne_zero hs.2.1 (pow_ne_zero _ (div_ne_zero (by norm_num) (by simp only [Mapping.diff]; linarith)))
  obtain ⟨C, N, hC, h⟩ := Op.eig_residual (op e s r c) hs.1 hal R hR
  set D : ℝ := ∑ j ∈ range r, |(2 / Mapping.diff e) ^ j| with hD
  have hD0 : 0 ≤ D := by positivity
  refine ⟨(D + 1) * (4 * C), N + 2, by positivity, fun n hn hfit M hM l hl g hg a b hrows Q hQ => ?_⟩
  have hQ0 : 0 ≤ Q := (norm_nonneg _).trans (hQ e.e0 (Set.left_mem_Icc.mpr he.le))
  have hEq := rows_eqs ⟨e, r, eps, s, bcs⟩ (by omega) he hb c hs hfit hsq M hM g hg l a b hrows
  have h1 := h n (by omega) (toCo a) (toCo b) l.re l.im ((Complex.abs_re_le_norm l).trans hl) ((Complex.abs_im_le_norm l).trans hl) hEq (2 * Q)
    (coef_le e he a Q fun y hy => (norm_cw _ _ y).1.trans (hQ y hy)) (coef_le e he b Q fun y hy => (norm_cw _ _ y).2.1.trans (hQ y hy))
  have hser : ∀ x : Fin n → ℝ, ∀ y, ser 0 (toCo x) (Mapping.bwd e y) = funOf e x y := fun x y => by rw [← fn_toCo]; rfl
  constructor
  · intro y hy
    obtain ⟨h2, h3, -⟩ := h1 (Mapping.bwd e y) (bwd_abs e he y hy)
    rw [show (op e s r c).r = r from rfl, ← applyLin_fn e s r c hs, fn_toCo, hser, hser] at h2 h3
    have h4 := lin_cw e s r c hs l _ _ (funOf_cd e a) (funOf_cd e b) y
    rw [cf2, h4]
    have h5 : ∀ p q : ℝ, ‖((p : ℝ) : ℂ) + ((q : ℝ) : ℂ) * Complex.I‖ ≤ |p| + |q| := fun p q => (norm_cw (fun _ => p) (fun _ => q) 0).2.2
    have hn0 : (0 : ℝ) ≤ ((n - r : ℕ) : ℝ) + 1 := by positivity
    calc _ ≤ (((n - r : ℕ) : ℝ) + 1) * (|applyLin e s (funOf e a) y - (l.re * funOf e a y - l.im * funOf e b y)|
          + |applyLin e s (funOf e b) y - (l.im * funOf e a y + l.re * funOf e b y)|) := by gcongr; exact h5 _ _
      _ ≤ C * (2 * Q) + C * (2 * Q) := by rw [_root_.mul_add]; exact add_le_add h2 h3
      _ = 1 * (4 * C) * Q := by ring
      _ ≤ (D + 1) * (4 * C) * Q := by gcongr; linarith
  · rw [pi_norm_le_iff_of_nonneg (by positivity)]
    intro j
    have hj := j.2
    have hy : e.e0 ∈ Set.Icc e.e0 e.e1 := Set.left_mem_Icc.mpr he.le
    obtain ⟨-, -, h3⟩ := h1 (Mapping.bwd e e.e0) (bwd_abs e he _ hy)
    obtain ⟨h4, h5⟩ := h3 j hj
    show ‖iteratedDeriv j (cf2 e a b) e.e0‖ ≤ _
    rw [cf2, iter_cw _ _ (funOf_cd e a) (funOf_cd e b) j hj.le]
    refine (norm_cw _ _ _).2.2.trans ?_
    rw [← fn_toCo, ← fn_toCo, fn_deriv, fn_deriv, abs_mul, abs_mul]
    have h6 : |(2 / Mapping.diff e) ^ (j : ℕ)| ≤ D :=
      single_le_sum (f := fun j => |(2 / Mapping.diff e) ^ j|) (fun _ _ => abs_nonneg _) (Finset.mem_range.mpr hj)
    calc _ ≤ D * (C * (2 * Q)) + D * (C * (2 * Q)) := by gcongr
      _ = D * (4 * C) * Q := by ring
      _ ≤ (D + 1) * (4 * C) * Q := by gcongr; linarith

lemma EigC.rows_bcv (d : Disc n) (hn : 2 ≤ n) (he : d.e.e0 < d.e.e1) (hb : ∀ b ∈ d.bcs, BC.PointsIn d.e b ∧ BC.Mentions b)
    (ho : ∀ b ∈ d.bcs, OrdLt d.r b) (hsq : d.bcs.length = d.r) (M : List (Fin n → ℝ))
    (hM : OpDisc.matrix d = some M) (g : List ℝ) (hg : g.length = d.r) (l : ℂ) (a b : Fin n → ℝ) (h : Rows d M l g a b) (k : ℕ) (hk : k < d.bcs.length) :
    bcv (cf2 d.e a b) d.bcs[k] = ((g.getD k 0 : ℝ) : ℂ) := by
  have h1 := (C98_rows d hn he hb M hM g (by rw [hg, hsq]) _ a h.1).1 k hk
  have h2 := (C98_rows d hn he hb M hM _ (by simp [hsq]) _ b h.2).1 k hk
  rw [cf2, bcv_cw d.e _ (hb _ (List.getElem_mem hk)).1 (ho _ (List.getElem_mem hk)) _ _ (funOf_cd d.e a) (funOf_cd d.e b), h1, h2, getD_replicate']
  simp

/-- for many coefficients the discretised equation has only the zero solution, uniformly on compact sets without eigenvalues -/
lemma EigC.no_kernel (e : Ends) (he : e.e0 < e.e1) (s : Source) (r : ℕ) (c eps : ℝ) (hs : IsODE s r c) (bcs : List BC) (hsq : bcs.length = r)
    (hb : ∀ b ∈ bcs, BC.PointsIn e b ∧ BC.Mentions b) (ho : ∀ b ∈ bcs, OrdLt r b) (K : Set ℂ) (hK : IsCompact K)
    (hne : ∀ l ∈ K, ¬ IsEig e s r bcs l) :
    ∃ N, ∀ n, N ≤ n → SecFits n n s → ∀ M, OpDisc.matrix (⟨e, r, eps, s, bcs⟩ : Disc n) = some M → ∀ l ∈ K,
      ∀ a b : Fin n → ℝ, Rows ⟨e, r, eps, s, bcs⟩ M l (List.replicate r 0) a b → a = 0 ∧ b = 0 := by
  obtain ⟨S, hS, hst⟩ := stab_compact e he s r c hs bcs (fun b hbm => ⟨(hb b hbm).1, ho b hbm⟩) K hK hne
  obtain ⟨R, hR⟩ := hK.isBounded.exists_norm_le
  obtain ⟨C, N, hC, h⟩ := disc_res e he s r c eps hs bcs hsq hb (max R 0) (le_max_right _ _)
  obtain ⟨m, hm⟩ := exists_nat_ge (S * C)
  refine ⟨N + r + m + 2, fun n hn hfit M hM l hl a b hrows => ?_⟩
  obtain ⟨y0, hy0, hmax⟩ := max_exists e he (cf2 e a b) (cf2_cd (r := 0) e a b).continuous
  obtain ⟨h1, -⟩ := h n (by omega) hfit M hM l ((hR l hl).trans (le_max_left _ _)) _ (by simp) a b hrows _ hmax
  set T : ℝ := ((n - r : ℕ) : ℝ) + 1 with hT
  have hT0 : 0 < T := by positivity
  have hmT : (m : ℝ) < T := by
    have : (m : ℝ) ≤ ((n - r : ℕ) : ℝ) := by exact_mod_cast (by omega : m ≤ n - r)
    linarith
  have h2 := hst l hl (cf2 e a b) (cf2_cd e a b) (fun b' hbm => by
    obtain ⟨k, hk, rfl⟩ := List.getElem_of_mem hbm
    rw [rows_bcv ⟨e, r, eps, s, bcs⟩ (by omega) he hb ho hsq M hM _ (by simp) l a b hrows k hk, getD_replicate']
    simp) (C * ‖cf2 e a b y0‖ / T) (fun y hy => by
      rw [le_div_iff₀ hT0, mul_comm]
      exact h1 y hy) y0 hy0
  have h3 : ‖cf2 e a b y0‖ = 0 := by
    have h4 : T * ‖cf2 e a b y0‖ ≤ S * C * ‖cf2 e a b y0‖ := by
      calc T * ‖cf2 e a b y0‖ ≤ T * (S * (C * ‖cf2 e a b y0‖ / T)) := by gcongr
        _ = _ := by field_simp
    have h5 := norm_nonneg (cf2 e a b y0)
    nlinarith
  rw [h3] at hmax
  have hzero : ∀ x : Fin n → ℝ, (∀ y ∈ Set.Icc e.e0 e.e1, |funOf e x y| ≤ 0) → x = 0 := by
    intro x hx
    funext i
    have := coef_le e he x 0 hx i
    rw [mul_zero, toCo_apply, dif_pos i.2] at this
    exact abs_nonpos_iff.mp this
  exact ⟨hzero a fun y hy => (norm_cw _ _ y).1.trans (hmax y hy), hzero b fun y hy => (norm_cw _ _ y).2.1.trans (hmax y hy)⟩

/-- **C131, no spurious eigenvalues.**  Let `K` be a compact set of complex numbers which contains no eigenvalue of the boundary value problem.
Then there is an `N` such that for every number `n ≥ N` of coefficients no value returned by `eigs` is in `K`. -/
theorem C131_no_spurious (e : Ends) (he : e.e0 < e.e1) (s : Source) (r : ℕ) (c eps : ℝ) (hs : IsODE s r c) (bcs : List BC)
    (hb : ∀ b ∈ bcs, BC.PointsIn e b ∧ BC.Mentions b) (ho : ∀ b ∈ bcs, OrdLt r b) (K : Set ℂ) (hK : IsCompact K)
    (hne : ∀ l ∈ K, ¬ IsEig e s r bcs l) :
    ∃ N, ∀ n, N ≤ n → SecFits n n s → ∀ ordqz, QZ (n := n) ordqz → ∀ tol, 0 ≤ tol → ∀ ls,
      eigs ordqz (⟨e, r, eps, s, bcs⟩ : Disc n) tol = some (true, ls) → ∀ l ∈ ls, l ∉ K := by
  by_cases hsq : bcs.length = r
  · obtain ⟨N, hN⟩ := no_kernel e he s r c eps hs bcs hsq hb ho K hK hne
    refine ⟨N + r + 2, fun n hn hfit ordqz hqz tol ht ls hls l hl hlK => ?_⟩
    obtain ⟨M, a, b, hM, -, hab, h1, h2⟩ := eigs_rows ordqz hqz (⟨e, r, eps, s, bcs⟩ : Disc n) tol ht (by omega) he (by show r ≤ n; omega) hb ls hls l hl
    obtain ⟨ha, hb'⟩ := hN n (by omega) hfit M hM l hlK a b ⟨h1, h2⟩
    rcases hab with h | h
    · exact h ha
    · exact h hb'
  · refine ⟨r + 2, fun n hn hfit ordqz hqz tol ht ls hls => ?_⟩
    rw [C101_nonsquare ordqz (⟨e, r, eps, s, bcs⟩ : Disc n) tol (by omega) he (by show r ≤ n; omega) hb hsq] at hls
    simp at hls

/-- **C131, limits are eigenvalues.**  If values returned by `eigs` for numbers of coefficients which tend to infinity converge, then the limit is an
eigenvalue of the boundary value problem. -/
theorem C131_limit (e : Ends) (he : e.e0 < e.e1) (s : Source) (r : ℕ) (c eps : ℝ) (hs : IsODE s r c) (bcs : List BC)
    (hb : ∀ b ∈ bcs, BC.PointsIn e b ∧ BC.Mentions b) (ho : ∀ b ∈ bcs, OrdLt r b) (hfit : ∀ᶠ n in Filter.atTop, SecFits n n s)
    (ns : ℕ → ℕ) (hns : Filter.Tendsto ns Filter.atTop Filter.atTop) (lk : ℕ → ℂ) (l : ℂ) (hlk : Filter.Tendsto lk Filter.atTop (nhds l))
    (hret : ∀ k, ∃ ordqz, QZ (n := ns k) ordqz ∧ ∃ tol, 0 ≤ tol ∧ ∃ ls,
      eigs ordqz (⟨e, r, eps, s, bcs⟩ : Disc (ns k)) tol = some (true, ls) ∧ lk k ∈ ls) : IsEig e s r bcs l := by
  by_contra hl
  have hb' : ∀ b ∈ bcs, BC.PointsIn e b ∧ OrdLt r b := fun b hbm => ⟨(hb b hbm).1, ho b hbm⟩
  obtain ⟨S, hS, hst⟩ := stab_of_not_eig e he s r c hs bcs hb' l hl
  obtain ⟨N, hN⟩ := C131_no_spurious e he s r c eps hs bcs hb ho (Metric.closedBall l (1 / (2 * (S + 1)))) (isCompact_closedBall _ _) (fun l' hl' =>
    not_eig_of_stab e s r c hs bcs hb' l' (2 * S) (stab_pert e he s r c hs bcs l l' S hS hst (by
      rw [Metric.mem_closedBall, dist_eq_norm] at hl'
      calc S * ‖l' - l‖ ≤ (S + 1) * (1 / (2 * (S + 1))) := by
            apply mul_le_mul (by linarith) hl' (norm_nonneg _) (by positivity)
        _ = 1 / 2 := by field_simp)))
  have h1 : ∀ᶠ k in Filter.atTop, lk k ∈ Metric.closedBall l (1 / (2 * (S + 1))) :=
    hlk.eventually_mem (Metric.closedBall_mem_nhds l (by positivity))
  obtain ⟨k, h1, h2, h3⟩ := (h1.and ((hns.eventually hfit).and (hns.eventually_ge_atTop N))).exists
  obtain ⟨ordqz, hqz, tol, ht, ls, hls, hmem⟩ := hret k
  exact hN (ns k) h3 h2 ordqz hqz tol ht ls hls (lk k) hmem h1

end Funpy.Props
