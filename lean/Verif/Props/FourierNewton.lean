import Verif.Lemmas.NewtonCo
import Verif.Props.FourierTrunc

/-!
# C143: nonlinear periodic problems and Newton's method
-/

namespace Funpy.Props
open Spec Trig TrigSpec Matrix Finset Complex FourierStab FCv FUn FSy FTr FNl FNw Filter Topology
open scoped ContDiff

/-! ### Specification -/

/-- The left hand side of the equation `L u + N(u) = f`. -/
noncomputable def FNw.resid (e : Ends) (s : Source) (N : NL) (u : ℝ → ℂ) (x : ℝ) : ℂ := applyOp e s u x + N.val e u x

/-- `u` is a nondegenerate solution: the only periodic function in whose direction the derivative of the equation vanishes is zero. -/
def FNw.Nondeg (e : Ends) (s : Source) (N : NL) (r : ℕ) (u : ℝ → ℂ) : Prop :=
  ∀ w : ℝ → ℂ, ContDiff ℝ r w → Function.Periodic w (Mapping.diff e) →
    (∀ x, HasDerivAt (fun t : ℝ => resid e s N (fun y => u y + t * w y) x) 0 0) → ∀ x, w x = 0

/-- The source `s'` is the linearisation of the equation at `u`. -/
def FNw.IsLin (e : Ends) (s : Source) (N : NL) (u : ℝ → ℂ) (s' : Source) : Prop :=
  ∀ w : ℝ → ℂ, ContDiff ℝ ∞ w → Function.Periodic w (Mapping.diff e) →
    ∀ x, HasDerivAt (fun t : ℝ => resid e s N (fun y => u y + t * w y) x) (applyOp e s' w x) 0

/-- The norm `∑ (1 + |k|)^q |v_k|` of the Fourier coefficients. -/
noncomputable def FNw.wnorm {n : ℕ} (q : ℕ) (v : Fin n → ℂ) : ℝ := ∑ i : Fin n, (1 + |((wave n i : ℤ) : ℝ)|) ^ q * ‖v i‖

/-- The first `n` Fourier coefficients of `u`. -/
noncomputable def FNw.modes (n : ℕ) (e : Ends) (u : ℝ → ℂ) : Fin n → ℂ := fun i => fourier (fun y => u (Mapping.fwd e y)) (wave n i)

/-- What is missing in the discretised equation: the first `n` Fourier coefficients of `f - L u - N(u)` for the function with the coefficients `v`. -/
noncomputable def FNw.defect {n : ℕ} (e : Ends) (s : Source) (N : NL) (f : List ℂ) (v : Fin n → ℂ) : Fin n → ℂ := fun i =>
  fourier (trigEval f) (wave n i) - fourier (fun y => resid e s N (fourierFun e v) (Mapping.fwd e y)) (wave n i)

/-! ### Proofs -/

lemma FNw.wt_eq (k : ℤ) : wt k = 1 + |(k : ℝ)| := by
  unfold wt
  rw [Nat.cast_natAbs, Int.cast_abs, add_comm]

lemma FNw.wnorm_eq {n : ℕ} (q : ℕ) (v : Fin n → ℂ) : wnorm q v = W q (toCo v) := by
  rw [W_toCo]
  unfold wnorm
  simp only [wt_eq]

lemma FNw.fwd_bwd (e : Ends) (he : e.e0 < e.e1) (x : ℝ) : Mapping.fwd e (Mapping.bwd e x) = x := by
  have : e.e1 - e.e0 ≠ 0 := by linarith
  simp only [Mapping.bwd, Mapping.fwd, Mapping.diff]
  field_simp; ring

lemma FNw.smooth_fwd (e : Ends) (u : ℝ → ℂ) (hu : ContDiff ℝ ∞ u) : ContDiff ℝ ∞ fun y => u (Mapping.fwd e y) := by
  refine hu.comp ?_
  unfold Mapping.fwd
  fun_prop

lemma FNw.periodic_fwd (e : Ends) (u : ℝ → ℂ) (hp : Function.Periodic u (Mapping.diff e)) : Function.Periodic (fun y => u (Mapping.fwd e y)) 2 := by
  intro y
  show u (Mapping.fwd e (y + 2)) = _
  rw [show Mapping.fwd e (y + 2) = Mapping.fwd e y + Mapping.diff e by simp only [Mapping.fwd, Mapping.diff]; ring, hp]

lemma FNw.toCo_modes {n : ℕ} (hn : n % 2 = 1) (e : Ends) (u : ℝ → ℂ) : toCo (modes n e u) = trunc (fun y => u (Mapping.fwd e y)) (n / 2) := by
  ext k
  rw [trunc_apply]
  split_ifs with h
  · obtain ⟨i, rfl⟩ := exists_wave hn k h
    rw [toCo_wave]
    rfl
  · rw [toCo_out hn _ k (by omega)]

lemma FNw.applyOp_smul (e : Ends) (s : Source) (w : ℝ → ℂ) (t : ℂ) (x : ℝ) : applyOp e s (fun y => t * w y) x = t * applyOp e s w x := by
  have h0 : (fun y => t * w y) = t • w := rfl
  have h1 : aggregate (t • w) = t • aggregate w := by
    funext z
    rw [Pi.smul_apply]
    unfold aggregate
    simp only [Pi.smul_apply, smul_eq_mul, ← mul_sub]
    rw [intervalIntegral.integral_const_mul]
    ring
  have h2 : ∀ (f : ℝ → ℂ) j, iteratedDeriv j (t • f) x = t * iteratedDeriv j f x := fun f j => by
    rw [iteratedDeriv_const_smul_field]
    rfl
  have h3 : ∀ d : List ℂ, (∫ y in e.e0..e.e1, trigEval d (Mapping.bwd e y) * (t • w) y) = t * ∫ y in e.e0..e.e1, trigEval d (Mapping.bwd e y) * w y := by
    intro d
    rw [← intervalIntegral.integral_const_mul]
    congr 1
    funext y
    rw [Pi.smul_apply, smul_eq_mul]
    ring
  rw [h0]
  unfold applyOp
  rw [h1]
  simp only [h2, h3]
  rw [mul_add, mul_add, mul_sum, mul_sum, ← List.sum_map_mul_left]
  congr 1
  · congr 1
    · exact sum_congr rfl fun _ _ => by ring
    · congr 1
      exact List.map_congr_left fun p _ => by ring
  · exact sum_congr rfl fun _ _ => by ring

/-- the derivative of the equation -/
lemma FNw.resid_deriv (e : Ends) (s : Source) (r : ℕ) (c : ℂ) (hs : IsOp s r c) (N : NL) (hN : N.Below r) (u w : ℝ → ℂ) (hu : ContDiff ℝ r u)
    (hw : ContDiff ℝ r w) (x : ℝ) :
    HasDerivAt (fun t : ℝ => resid e s N (fun y => u y + t * w y) x) (applyOp e s w x + N.dval e u w x) 0 := by
  refine HasDerivAt.add ?_ (dval_hasDeriv e N r hN u w hu hw x)
  have h1 : ∀ t : ℝ, applyOp e s (fun y => u y + t * w y) x = applyOp e s u x + t * applyOp e s w x := by
    intro t
    have h2 : (fun y => u y + t * w y) = u - fun y => (-t : ℂ) * w y := by
      funext y
      rw [Pi.sub_apply]
      ring
    rw [h2, FUn.applyOp_sub e s r c hs _ _ hu (contDiff_const.mul hw), applyOp_smul]
    ring
  simp only [h1]
  have h3 : HasDerivAt (fun t : ℝ => applyOp e s u x + (t : ℂ) * applyOp e s w x) (1 * applyOp e s w x) 0 :=
    (((hasDerivAt_id (0 : ℝ)).ofReal_comp).mul_const _).const_add _
  rwa [one_mul] at h3

lemma FNw.fn_smooth (e : Ends) (a : Co) (r : ℕ) : ContDiff ℝ r (fn e a) := (fn_contDiff e a).of_le (by exact_mod_cast le_top)

lemma FNw.ev_G (e : Ends) (he : e.e0 < e.e1) (s : Source) (r : ℕ) (c : ℂ) (hs : IsOp s r c) (N : NL) (f : List ℂ) (a : Co) (y : ℝ) :
    ev (G e (op e he s r c hs) N (coOf f) a) y = resid e s N (fn e a) (Mapping.fwd e y) - trigEval f y := by
  unfold G resid
  rw [applyOp_fn e he s r c hs, val_fn, bwd_fwd e he, map_sub, map_add, Pi.sub_apply, Pi.add_apply, ev_coOf]

lemma FNw.defect_eq {n : ℕ} (hn : n % 2 = 1) (e : Ends) (he : e.e0 < e.e1) (s : Source) (r : ℕ) (c : ℂ) (hs : IsOp s r c) (N : NL) (f : List ℂ) (v : Fin n → ℂ) (i : Fin n) :
    defect e s N f v i = - G e (op e he s r c hs) N (coOf f) (toCo v) (wave n i) := by
  have h1 : (fun y => resid e s N (fourierFun e v) (Mapping.fwd e y)) = ev (G e (op e he s r c hs) N (coOf f) (toCo v) + coOf f) := by
    funext y
    rw [map_add, Pi.add_apply, ev_G, ev_coOf, fn_toCo hn]
    ring
  unfold defect
  rw [h1, show trigEval f = ev (coOf f) from funext fun y => (ev_coOf f y).symm, fourier_ev, fourier_ev, Finsupp.add_apply]
  ring

lemma FNw.lo_ext {n : ℕ} (hn : n % 2 = 1) (a b : Co) (h : ∀ i : Fin n, a (wave n i) = b (wave n i)) : lo (n / 2) a = lo (n / 2) b := by
  ext k
  rw [lo_apply, lo_apply]
  split_ifs with hk
  · obtain ⟨i, rfl⟩ := exists_wave hn k hk
    exact h i
  · rfl

lemma FNw.of_lo {n : ℕ} (hn : n % 2 = 1) (a b : Co) (h : lo (n / 2) a = lo (n / 2) b) (i : Fin n) : a (wave n i) = b (wave n i) := by
  have h1 := DFunLike.congr_fun h (wave n i)
  have h2 : (wave n i).natAbs ≤ n / 2 := by
    have := i.2
    unfold wave
    omega
  rwa [lo_apply, lo_apply, if_pos h2, if_pos h2] at h1

lemma FNw.defect_iff {n : ℕ} (hn : n % 2 = 1) (e : Ends) (he : e.e0 < e.e1) (s : Source) (r : ℕ) (c : ℂ) (hs : IsOp s r c) (N : NL) (f : List ℂ) (v : Fin n → ℂ) :
    defect e s N f v = 0 ↔ lo (n / 2) (G e (op e he s r c hs) N (coOf f) (toCo v)) = 0 := by
  constructor
  · intro h
    have := lo_ext hn (G e (op e he s r c hs) N (coOf f) (toCo v)) 0 fun i => by
      have h1 := congrFun h i
      rw [defect_eq hn e he s r c hs, Pi.zero_apply, neg_eq_zero] at h1
      exact h1
    rw [this]
    ext k
    simp [lo_apply]
  · intro h
    funext i
    rw [defect_eq hn e he s r c hs, of_lo hn _ 0 (by rw [h]; ext k; simp [lo_apply]) i]
    simp

section
variable (e : Ends) (he : e.e0 < e.e1) (s : Source) (r : ℕ) (c : ℂ) (hs : IsOp s r c) (N : NL) (hN : N.Below r) (f : List ℂ)
  (u : ℝ → ℂ) (hu : ContDiff ℝ ∞ u) (hper : Function.Periodic u (Mapping.diff e))
include he hs hN hu hper

/-- the truncations converge to the solution with all derivatives -/
lemma FNw.trunc_unif (q : ℕ) : ∀ j ≤ q, TendstoUniformly (fun m => iteratedDeriv j (fn e (trunc (fun y => u (Mapping.fwd e y)) m))) (iteratedDeriv j u) atTop := by
  have hg := smooth_fwd e u hu
  have hp := periodic_fwd e u hper
  refine (limit_fn e he _ u (fun x => ?_) q (trunc_cauchy _ hg hp q)).2
  have := trunc_tendsto _ hg hp (Mapping.bwd e x)
  rwa [fwd_bwd e he] at this

/-- the linearisations at the truncations are uniformly stable -/
lemma FNw.stable (hnd : Nondeg e s N r u) : ∃ S M0, 0 ≤ S ∧ ∀ m, M0 ≤ m →
    (op e he s r c hs).CSt (N.dco e (trunc (fun y => u (Mapping.fwd e y)) m)) S := by
  have hg := smooth_fwd e u hu
  have hp := periodic_fwd e u hper
  set L := op e he s r c hs with hL
  have hr : L.p + 1 = r := by
    show r - 1 + 1 = r
    have := hs.1
    omega
  have hN' : N.Below (L.p + 1) := by rwa [hr]
  set P := trunc fun y => u (Mapping.fwd e y) with hP
  obtain ⟨B, hB, hPB⟩ := trunc_W _ hg hp L.p
  obtain ⟨C1, hC1, hb1⟩ := dco_bound e he N L.p 0 hN' B
  obtain ⟨D, hD, hl⟩ := dco_lip e he N L.p 0 hN' B
  simp only [zero_add] at hb1 hl
  have hcr : ContDiff ℝ r u := hu.of_le (by exact_mod_cast le_top)
  refine L.stable_fam_of_unique (fun m => N.dco e (P m)) C1 hC1 (fun m => hb1 _ (hPB m)) (fun ε hε => ?_) fun ι a hι hc hres => ?_
  · obtain ⟨M, hM⟩ := trunc_cauchy _ hg hp L.p (ε / (D + 1)) (by positivity)
    refine ⟨M, fun m hm l hl' b => (hl _ _ (hPB l) (hPB m) b).trans ?_⟩
    have h1 := hM m hm l hl'
    have h2 := W_nonneg L.p b
    have h3 : D * (ε / (D + 1)) ≤ ε := by
      rw [mul_div_assoc', div_le_iff₀ (by positivity)]
      nlinarith
    calc D * W L.p (P m - P l) * W L.p b ≤ D * (ε / (D + 1)) * W L.p b := by gcongr
      _ ≤ _ := by gcongr
  · rw [hr] at hc
    obtain ⟨w, hlim, hwp⟩ := exists_limit e he a (fun ε hε => by
      obtain ⟨M, hM⟩ := hc ε hε
      exact ⟨M, fun m hm l hl => (W_mono _ _ (Nat.zero_le r) _).trans (hM m hm l hl)⟩)
    obtain ⟨hcd, hun⟩ := limit_fn e he a w hlim r hc
    have huni := FNw.trunc_unif e he s r c hs N hN u hu hper r
    have hz := hnd w hcd hwp fun x => by
      have h1 := applyOp_tendsto e s r c hs (fun m => fn e (a m)) w (fun m => fn_smooth e _ r) hcd hun x
      have h2 := dval_tendsto e N r hN (fun m => fn e (P (ι m))) (fun m => fn e (a m)) u w
        (fun j hj U hU => hι.eventually (huni j hj U hU)) hun x
      have h3 : Tendsto (fun m => applyOp e s (fn e (a m)) x + N.dval e (fn e (P (ι m))) (fn e (a m)) x) atTop (𝓝 0) := by
        refine squeeze_zero_norm (fun m => ?_) hres
        rw [applyOp_fn e he s r c hs, dval_fn, ← Pi.add_apply, ← map_add]
        exact ev_bound _ _
      have h4 := resid_deriv e s r c hs N hN u w hcr hcd x
      rwa [tendsto_nhds_unique (h1.add h2) h3] at h4
    intro ε hε
    have h3 := hun 0 (Nat.zero_le _)
    rw [Metric.tendstoUniformly_iff] at h3
    obtain ⟨M, hM⟩ := eventually_atTop.mp (h3 ε hε)
    refine ⟨M, fun m hm k => coeff_bound (a m) ε (fun y => ?_) k⟩
    have h4 := hM m hm (Mapping.fwd e y)
    simp only [iteratedDeriv_zero] at h4
    rw [hz, dist_zero_left] at h4
    unfold fn at h4
    rw [bwd_fwd e he] at h4
    exact h4.le

lemma FNw.Lam_bound : ∃ C, 0 ≤ C ∧ ∀ h, W 0 ((op e he s r c hs).Lam h) ≤ C * W ((op e he s r c hs).p + 1) h := by
  set L := op e he s r c hs with hL
  have hr : L.p + 1 = r := by
    show r - 1 + 1 = r
    have := hs.1
    omega
  obtain ⟨C, hC, hK⟩ := L.hK 0
  have h1 := om1_pos e he
  refine ⟨‖c‖ * (2 * Real.pi / Mapping.diff e + 1) ^ r + C, by positivity, fun h => ?_⟩
  rw [Op.Lam_apply, add_mul]
  refine (W_add _ _ _).trans (add_le_add ?_ ?_)
  · have h2 := W_diag L.lead 0 r (‖c‖ * (2 * Real.pi / Mapping.diff e + 1) ^ r) (fun k => by
      show ‖c * dmul e k ^ r‖ ≤ _
      rw [norm_mul, mul_assoc]
      exact mul_le_mul_of_nonneg_left (dmul_le e he r r le_rfl k) (norm_nonneg _)) h
    rw [zero_add] at h2
    rwa [hr]
  · have h2 := hK h
    rw [zero_add] at h2
    exact h2.trans (mul_le_mul_of_nonneg_left (W_mono _ _ (Nat.le_succ _) _) hC)

/-- the truncations satisfy the truncated equation up to a small residual -/
lemma FNw.trunc_resid (heq : ∀ x, resid e s N u x = trigEval f (Mapping.bwd e x)) (t : ℕ) : ∃ R, 0 ≤ R ∧ ∀ m : ℕ,
    ((m : ℝ) + 1) ^ t * W 0 (lo m (G e (op e he s r c hs) N (coOf f) (trunc (fun y => u (Mapping.fwd e y)) m))) ≤ R := by
  have hg := smooth_fwd e u hu
  have hp := periodic_fwd e u hper
  set L := op e he s r c hs with hL
  have hr : L.p + 1 = r := by
    show r - 1 + 1 = r
    have := hs.1
    omega
  have hN' : N.Below (L.p + 1) := by rwa [hr]
  set P := trunc fun y => u (Mapping.fwd e y) with hP
  obtain ⟨B, hB, hPB⟩ := trunc_W _ hg hp L.p
  obtain ⟨D, hD, hl⟩ := co_lip e he N L.p 0 hN' B
  simp only [zero_add] at hl
  obtain ⟨CL, hCL, hLam⟩ := FNw.Lam_bound e he s r c hs N hN u hu hper
  obtain ⟨F, hF, hfast⟩ := trunc_fast _ hg hp (L.p + 1) (t + 1)
  have hcr : ContDiff ℝ r u := hu.of_le (by exact_mod_cast le_top)
  have huni := FNw.trunc_unif e he s r c hs N hN u hu hper r
  have hdiff : ∀ m l, m ≤ l → W 0 (G e L N (coOf f) (P m) - G e L N (coOf f) (P l)) ≤ (CL + D) * F / ((m : ℝ) + 1) ^ (t + 1) := by
    intro m l hml
    have h1 : G e L N (coOf f) (P m) - G e L N (coOf f) (P l) = - (L.Lam (P l - P m) + (N.co e (P l) - N.co e (P m))) := by
      unfold G
      rw [map_sub]
      abel
    rw [h1, W_neg, le_div_iff₀ (by positivity)]
    have h2 := hl (P m) (P l) (hPB m) (hPB l)
    have h3 := W_mono L.p (L.p + 1) (Nat.le_succ _) (P l - P m)
    have h4 : W 0 (L.Lam (P l - P m) + (N.co e (P l) - N.co e (P m))) ≤ (CL + D) * W (L.p + 1) (P l - P m) := by
      rw [add_mul]
      exact (W_add _ _ _).trans (add_le_add (hLam _) (h2.trans (by gcongr)))
    calc W 0 (L.Lam (P l - P m) + (N.co e (P l) - N.co e (P m))) * ((m : ℝ) + 1) ^ (t + 1)
        ≤ ((CL + D) * W (L.p + 1) (P l - P m)) * ((m : ℝ) + 1) ^ (t + 1) := by gcongr
      _ = (CL + D) * (((m : ℝ) + 1) ^ (t + 1) * W (L.p + 1) (P l - P m)) := by ring
      _ ≤ _ := by gcongr; exact hfast m l hml
  have hlim : ∀ y, Tendsto (fun l => ev (G e L N (coOf f) (P l)) y) atTop (𝓝 0) := by
    intro y
    have h1 := applyOp_tendsto e s r c hs (fun m => fn e (P m)) u (fun m => fn_smooth e _ r) hcr huni (Mapping.fwd e y)
    have h2 := val_tendsto e N r hN (fun m => fn e (P m)) u huni (Mapping.fwd e y)
    have h3 := (h1.add h2).sub_const (trigEval f y)
    have h4 : applyOp e s u (Mapping.fwd e y) + N.val e u (Mapping.fwd e y) - trigEval f y = 0 := by
      have := heq (Mapping.fwd e y)
      unfold resid at this
      rw [this, bwd_fwd e he, sub_self]
    rw [h4] at h3
    refine h3.congr fun m => ?_
    rw [hL, ev_G]
    rfl
  have hsup : ∀ m y, ‖ev (G e L N (coOf f) (P m)) y‖ ≤ (CL + D) * F / ((m : ℝ) + 1) ^ (t + 1) := by
    intro m y
    have h1 : Tendsto (fun l => ‖ev (G e L N (coOf f) (P m)) y - ev (G e L N (coOf f) (P l)) y‖) atTop (𝓝 ‖ev (G e L N (coOf f) (P m)) y - 0‖) :=
      (tendsto_const_nhds.sub (hlim y)).norm
    rw [sub_zero] at h1
    refine le_of_tendsto h1 ?_
    filter_upwards [eventually_ge_atTop m] with l hl
    rw [← Pi.sub_apply, ← map_sub]
    exact (ev_bound _ _).trans (hdiff m l hl)
  refine ⟨2 * ((CL + D) * F), by positivity, fun m => ?_⟩
  have h1 := W_lo_bound 0 m _ _ (coeff_bound _ _ (hsup m))
  rw [pow_zero, one_mul] at h1
  calc _ ≤ ((m : ℝ) + 1) ^ t * ((2 * m + 1) * ((CL + D) * F / ((m : ℝ) + 1) ^ (t + 1))) := by gcongr
    _ = (2 * m + 1) / (m + 1) * ((CL + D) * F) := by
      rw [pow_succ]
      field_simp
    _ ≤ _ := by
      gcongr
      rw [div_le_iff₀ (by positivity)]
      linarith

/-- the constants for the discretised problems -/
lemma FNw.setup (hnd : Nondeg e s N r u) (heq : ∀ x, resid e s N u x = trigEval f (Mapping.bwd e x)) : ∃ ρ C K D N0,
    Good e (op e he s r c hs) N (trunc fun y => u (Mapping.fwd e y)) ρ C K D N0 ∧ ∃ N1, ∀ m, N1 ≤ m →
      C * W 0 (lo m (G e (op e he s r c hs) N (coOf f) (trunc (fun y => u (Mapping.fwd e y)) m))) ≤ ρ / 4 := by
  have hr : (op e he s r c hs).p + 1 = r := by
    show r - 1 + 1 = r
    have := hs.1
    omega
  obtain ⟨S, M0, hS, hst⟩ := FNw.stable e he s r c hs N hN u hu hper hnd
  obtain ⟨B, hB, hPB⟩ := trunc_W _ (smooth_fwd e u hu) (periodic_fwd e u hper) ((op e he s r c hs).p + 1)
  obtain ⟨ρ, C, K, D, N0, hgood⟩ := good e he (op e he s r c hs) N (by rwa [hr]) _ B hPB S M0 hS hst
  refine ⟨ρ, C, K, D, N0, hgood, ?_⟩
  obtain ⟨R, hR, hres⟩ := FNw.trunc_resid e he s r c hs N hN f u hu hper heq 1
  have hρ := hgood.hρ
  have hC := hgood.hC
  obtain ⟨N1, hN1⟩ := exists_nat_ge (C * R / (ρ / 4))
  refine ⟨N1, fun m hm => ?_⟩
  have h1 := hres m
  rw [pow_one] at h1
  rw [div_le_iff₀ (by positivity)] at hN1
  have h2 : (N1 : ℝ) ≤ m := by exact_mod_cast hm
  have h3 : ((m : ℝ) + 1) * (C * W 0 (lo m (G e (op e he s r c hs) N (coOf f) (trunc (fun y => u (Mapping.fwd e y)) m)))) ≤ ((m : ℝ) + 1) * (ρ / 4) := by
    calc _ = C * (((m : ℝ) + 1) * W 0 (lo m (G e (op e he s r c hs) N (coOf f) (trunc (fun y => u (Mapping.fwd e y)) m)))) := by ring
      _ ≤ C * R := by gcongr
      _ ≤ _ := by nlinarith
  exact le_of_mul_le_mul_left h3 (by positivity)

lemma FNw.solves_core (heq : ∀ x, resid e s N u x = trigEval f (Mapping.bwd e x)) (ρ C K D : ℝ) (N0 N1 : ℕ)
    (hgood : Good e (op e he s r c hs) N (trunc fun y => u (Mapping.fwd e y)) ρ C K D N0)
    (hN1 : ∀ m, N1 ≤ m → C * W 0 (lo m (G e (op e he s r c hs) N (coOf f) (trunc (fun y => u (Mapping.fwd e y)) m))) ≤ ρ / 4) :
    (∀ n, 2 * (N0 + N1) ≤ n → n % 2 = 1 → ∃! v : Fin n → ℂ, wnorm (r - 1) (v - modes n e u) ≤ ρ ∧ defect e s N f v = 0) ∧
      ∀ t j : ℕ, ∃ C, ∀ n, 2 * (N0 + N1) ≤ n → n % 2 = 1 → ∀ v : Fin n → ℂ, wnorm (r - 1) (v - modes n e u) ≤ ρ → defect e s N f v = 0 →
        ∀ x, ‖iteratedDeriv j (fourierFun e v) x - iteratedDeriv j u x‖ ≤ C / (n : ℝ) ^ t := by
  have hg := smooth_fwd e u hu
  have hp := periodic_fwd e u hper
  set L := op e he s r c hs with hL
  set P := trunc fun y => u (Mapping.fwd e y) with hP
  have hPout : ∀ m, Out m (P m) := fun m k hk => trunc_out _ m k hk
  have hnear : ∀ n, n % 2 = 1 → ∀ v : Fin n → ℂ, wnorm (r - 1) (v - modes n e u) = W L.p (toCo v - P (n / 2)) := by
    intro n hodd v
    rw [wnorm_eq, toCo_sub, toCo_modes hodd]
    rfl
  have hρ := hgood.hρ
  have hC := hgood.hC
  refine ⟨fun n hn hodd => ?_, fun t j => ?_⟩
  · obtain ⟨a, ⟨ha1, ha2, ha3⟩, hau⟩ := hgood.exists_unique hPout (coOf f) N1 (fun m hm => (hN1 m hm).trans (by linarith)) (n / 2) (by omega) (by omega)
    have ha := toCo_surj hodd a ha1
    refine ⟨fun i => a (wave n i), ⟨?_, ?_⟩, fun v hv => ?_⟩
    · rw [hnear n hodd, ha]
      exact ha2
    · rw [defect_iff hodd e he s r c hs, ha]
      exact ha3
    · have h1 := hau (toCo v) ⟨fun k hk => toCo_out hodd v k hk, by rw [← hnear n hodd]; exact hv.1, (defect_iff hodd e he s r c hs N f v).mp hv.2⟩
      funext i
      rw [← h1, toCo_wave]
  · obtain ⟨R, hR, hres⟩ := FNw.trunc_resid e he s r c hs N hN f u hu hper heq (t + j)
    obtain ⟨F, hF, hfast⟩ := trunc_fast _ hg hp j t
    have huni := FNw.trunc_unif e he s r c hs N hN u hu hper j
    have hω := om_pos e he
    refine ⟨om e ^ j * (2 * C * R + F) * 2 ^ t, fun n hn hodd v hv hd x => ?_⟩
    set m := n / 2 with hm
    have hout : Out m (toCo v) := fun k hk => toCo_out hodd v k hk
    rw [hnear n hodd] at hv
    rw [defect_iff hodd e he s r c hs] at hd
    have h1 := hgood.dist (coOf f) m (by omega) (P m) (toCo v) (hPout m) hout (hgood.center m) hv
    rw [hd, W_zero, zero_add] at h1
    have h2 : ((m : ℝ) + 1) ^ t * W j (toCo v - P m) ≤ 2 * C * R := by
      have h3 := W_inv m 0 j (toCo v - P m) (hout.sub (hPout m))
      rw [zero_add] at h3
      have h4 := (W_mono 0 (L.p + 1) (Nat.zero_le _) (toCo v - P m)).trans h1
      calc ((m : ℝ) + 1) ^ t * W j (toCo v - P m) ≤ ((m : ℝ) + 1) ^ t * (((m : ℝ) + 1) ^ j * (2 * C * W 0 (lo m (G e L N (coOf f) (P m))))) := by
            gcongr
            refine h3.trans ?_
            gcongr
        _ = 2 * C * (((m : ℝ) + 1) ^ (t + j) * W 0 (lo m (G e L N (coOf f) (P m)))) := by rw [pow_add]; ring
        _ ≤ _ := by gcongr; exact hres m
    have hconv : Tendsto (fun l => ‖iteratedDeriv j (fn e (toCo v)) x - iteratedDeriv j (fn e (P l)) x‖) atTop
        (𝓝 ‖iteratedDeriv j (fn e (toCo v)) x - iteratedDeriv j u x‖) :=
      (tendsto_const_nhds.sub ((huni j le_rfl).tendsto_at x)).norm
    rw [← fn_toCo hodd]
    by_cases hn0' : n = 0
    · omega
    have hn0 : (0 : ℝ) < (n : ℝ) ^ t := by
      have : 0 < n := by omega
      positivity
    have hnm : (n : ℝ) ^ t ≤ 2 ^ t * ((m : ℝ) + 1) ^ t := by
      rw [← mul_pow]
      gcongr
      exact_mod_cast (by omega : n ≤ 2 * (m + 1))
    refine le_of_tendsto hconv ?_
    filter_upwards [eventually_ge_atTop m] with l hl
    rw [← fn_sub, le_div_iff₀ hn0]
    have h5 := iter_bound e he j (toCo v - P l) x
    have h6 : W j (toCo v - P l) ≤ W j (toCo v - P m) + W j (P l - P m) := by
      rw [show toCo v - P l = (toCo v - P m) - (P l - P m) by abel]
      exact W_sub _ _ _
    have h7 := hfast m l hl
    have h8 : ((m : ℝ) + 1) ^ t * W j (toCo v - P l) ≤ 2 * C * R + F := by
      calc _ ≤ ((m : ℝ) + 1) ^ t * (W j (toCo v - P m) + W j (P l - P m)) := by gcongr
        _ = ((m : ℝ) + 1) ^ t * W j (toCo v - P m) + ((m : ℝ) + 1) ^ t * W j (P l - P m) := by ring
        _ ≤ _ := add_le_add h2 h7
    have h9 := W_nonneg j (toCo v - P l)
    calc _ ≤ (om e ^ j * W j (toCo v - P l)) * (2 ^ t * ((m : ℝ) + 1) ^ t) := by gcongr
      _ = om e ^ j * (((m : ℝ) + 1) ^ t * W j (toCo v - P l)) * 2 ^ t := by ring
      _ ≤ _ := by gcongr

lemma FNw.newton_core (eps : ℝ) (heq : ∀ x, resid e s N u x = trigEval f (Mapping.bwd e x)) (ρ C K D : ℝ) (N0 N1 : ℕ)
    (hgood : Good e (op e he s r c hs) N (trunc fun y => u (Mapping.fwd e y)) ρ C K D N0)
    (hN1 : ∀ m, N1 ≤ m → C * W 0 (lo m (G e (op e he s r c hs) N (coOf f) (trunc (fun y => u (Mapping.fwd e y)) m))) ≤ ρ / 4) :
    ∃ κ σ, 0 ≤ κ ∧ 0 ≤ σ ∧ ∀ n, 2 * (N0 + N1) ≤ n → n % 2 = 1 →
      ∃ vs : Fin n → ℂ, wnorm r (vs - modes n e u) ≤ 1 / 2 * ρ ∧ (∀ v : Fin n → ℂ, wnorm (r - 1) (v - modes n e u) ≤ ρ ∧ defect e s N f v = 0 ↔ v = vs) ∧
        ∀ v : Fin n → ℂ, wnorm (r - 1) (v - modes n e u) ≤ ρ →
          ∀ s', IsOp s' r c → IsLin e s N (fourierFun e v) s' → NoDrop n (Mapping.diff e) eps s' →
            (∀ b : Fin n → ℂ, ∃! δ, quasi2diffmat n (Mapping.diff e) eps s' *ᵥ δ = b) ∧
            (∀ δ : Fin n → ℂ, wnorm r δ ≤ σ * wnorm 0 (quasi2diffmat n (Mapping.diff e) eps s' *ᵥ δ)) ∧
            ∀ δ : Fin n → ℂ, quasi2diffmat n (Mapping.diff e) eps s' *ᵥ δ = defect e s N f v →
              wnorm (r - 1) (v + δ - modes n e u) ≤ 7 / 8 * ρ ∧
              wnorm (r - 1) (v + δ - vs) ≤ κ * wnorm (r - 1) (v - vs) ^ 2 ∧
              wnorm r (v + δ - vs) ≤ 1 / 4 * wnorm (r - 1) (v - vs) := by
  set L := op e he s r c hs with hL
  set P := trunc fun y => u (Mapping.fwd e y) with hP
  have hPout : ∀ m, Out m (P m) := fun m k hk => trunc_out _ m k hk
  have hnear : ∀ n, n % 2 = 1 → ∀ v : Fin n → ℂ, wnorm (r - 1) (v - modes n e u) = W L.p (toCo v - P (n / 2)) := by
    intro n hodd v
    rw [wnorm_eq, toCo_sub, toCo_modes hodd]
    rfl
  have hρ := hgood.hρ
  have hC := hgood.hC
  have hK := hgood.hK
  refine ⟨C * K, C, by positivity, hC, fun n hn hodd => ?_⟩
  set m := n / 2 with hm
  obtain ⟨a, ⟨ha1, ha2, ha3⟩, hau⟩ := hgood.exists_unique hPout (coOf f) N1 (fun m hm => (hN1 m hm).trans (by linarith)) m (by omega) (by omega)
  have ha := toCo_surj hodd a ha1
  have hiff : ∀ v : Fin n → ℂ, wnorm (r - 1) (v - modes n e u) ≤ ρ ∧ defect e s N f v = 0 ↔ v = fun i : Fin n => a (wave n i) := by
    intro v
    constructor
    · intro hv
      have h1 := hau (toCo v) ⟨fun k hk => toCo_out hodd v k hk, by rw [← hnear n hodd]; exact hv.1, (defect_iff hodd e he s r c hs N f v).mp hv.2⟩
      funext i
      rw [← h1, toCo_wave]
    · rintro rfl
      rw [hnear n hodd, defect_iff hodd e he s r c hs, ha]
      exact ⟨ha2, ha3⟩
  have hrp : L.p + 1 = r := by
    show r - 1 + 1 = r
    have := hs.1
    omega
  have hdist : W (L.p + 1) (a - P m) ≤ ρ / 2 := by
    have h6 := hgood.dist (coOf f) m (by omega) (P m) a (hPout m) ha1 (hgood.center m) ha2
    rw [ha3, W_zero, zero_add] at h6
    have := hN1 m (by omega)
    exact h6.trans (by linarith)
  refine ⟨fun i : Fin n => a (wave n i), ?_, hiff, fun v hv s' hs' hlin hnodrop => ?_⟩
  · rw [wnorm_eq, toCo_sub, ha, toCo_modes hodd, ← hrp]
    exact hdist.trans (by linarith)
  rw [nodrop hnodrop]
  rw [hnear n hodd] at hv
  have hout : ∀ w : Fin n → ℂ, Out m (toCo w) := fun w k hk => toCo_out hodd w k hk
  have hLam : ∀ b, (op e he s' r c hs').Lam b = L.Lam b + N.dco e (toCo v) b := by
    intro b
    apply ev_inj
    intro y
    have h1 := hlin (fn e b) (fn_contDiff e b) (fn_periodic e he b) (Mapping.fwd e y)
    rw [← fn_toCo hodd] at h1
    have h2 := h1.unique (resid_deriv e s r c hs N hN (fn e (toCo v)) (fn e b) (fn_smooth e _ r) (fn_smooth e _ r) (Mapping.fwd e y))
    rwa [applyOp_fn e he s' r c hs', applyOp_fn e he s r c hs, dval_fn, bwd_fwd e he, ← Pi.add_apply, ← map_add] at h2
  refine ⟨fun b => ?_, fun δ => ?_, fun δ hδ => ?_⟩
  · have hinj : Function.Injective (assemble n (Mapping.diff e) s').mulVecLin := by
      rw [← LinearMap.ker_eq_bot, LinearMap.ker_eq_bot']
      intro x hx
      have h1 := hgood.stab m (by omega) (toCo v) hv (toCo x) (hout x)
      have h2 : lo m (L.Lam (toCo x) + N.dco e (toCo v) (toCo x)) = lo m 0 := by
        rw [← hLam]
        exact lo_ext hodd _ _ fun i => by
          rw [← matrix_co e he s' r c hs' hodd]
          exact congrFun hx i
      rw [h2, show lo m (0 : Co) = 0 by ext k; simp [lo_apply], W_zero, mul_zero] at h1
      funext i
      have h3 := (coeff_le_W (toCo x) (wave n i)).trans ((W_mono 0 _ (Nat.zero_le _) _).trans h1)
      rw [toCo_wave] at h3
      exact norm_le_zero_iff.mp h3
    obtain ⟨x, hx⟩ := LinearMap.injective_iff_surjective.1 hinj b
    exact ⟨x, hx, fun y hy => hinj (by rw [hx]; exact hy)⟩
  · have h1 := hgood.stab m (by omega) (toCo v) hv (toCo δ) (hout δ)
    have h2 : lo m (L.Lam (toCo δ) + N.dco e (toCo v) (toCo δ)) = lo m (toCo (assemble n (Mapping.diff e) s' *ᵥ δ)) := by
      rw [← hLam]
      exact lo_ext hodd _ _ fun i => by
        rw [toCo_wave, matrix_co e he s' r c hs' hodd]
    have hr : L.p + 1 = r := by
      show r - 1 + 1 = r
      have := hs.1
      omega
    rw [wnorm_eq, wnorm_eq]
    rw [h2, hr] at h1
    exact h1.trans (mul_le_mul_of_nonneg_left (W_lo _ _ _) hC)
  · have hstep : lo m (L.Lam (toCo δ) + N.dco e (toCo v) (toCo δ)) = -lo m (G e L N (coOf f) (toCo v)) := by
      have h1 : lo m (L.Lam (toCo δ) + N.dco e (toCo v) (toCo δ)) = lo m (-G e L N (coOf f) (toCo v)) := by
        rw [← hLam]
        exact lo_ext hodd _ _ fun i => by
          rw [← matrix_co e he s' r c hs' hodd, hδ, defect_eq hodd e he s r c hs]
          rfl
      rw [h1]
      ext k
      simp only [lo_apply, Finsupp.neg_apply]
      split_ifs <;> simp
    obtain ⟨h1, h2⟩ := hgood.newton (coOf f) m (by omega) a (toCo v) (toCo δ) ha1 (hout v) (hout δ) ha2 hv ha3 hstep
    have h3 : toCo (v + δ) = toCo v + toCo δ := by simp [toCo, sum_add_distrib]
    have h4 : wnorm (r - 1) (v - fun i : Fin n => a (wave n i)) = W L.p (a - toCo v) := by
      rw [wnorm_eq, toCo_sub, ha, ← W_neg, neg_sub]
      rfl
    have h5 : wnorm (r - 1) (v + δ - fun i : Fin n => a (wave n i)) ≤ W (L.p + 1) (toCo v + toCo δ - a) := by
      rw [wnorm_eq, toCo_sub, ha, h3]
      exact W_mono _ _ (Nat.le_succ _) _
    have h5' : wnorm r (v + δ - fun i : Fin n => a (wave n i)) = W (L.p + 1) (toCo v + toCo δ - a) := by
      rw [wnorm_eq, toCo_sub, ha, h3, hrp]
    rw [h4]
    refine ⟨?_, h5.trans h1, h5'.le.trans h2⟩
    rw [hnear n hodd, h3]
    have h6 := hgood.dist (coOf f) m (by omega) (P m) a (hPout m) ha1 (hgood.center m) ha2
    rw [ha3, W_zero, zero_add] at h6
    have h7 : W L.p (a - P m) ≤ ρ / 2 := by
      have := hN1 m (by omega)
      exact (W_mono _ _ (Nat.le_succ _) _).trans (h6.trans (by linarith))
    have h8 : W L.p (a - toCo v) ≤ 3 / 2 * ρ := by
      rw [show a - toCo v = (a - P m) - (toCo v - P m) by abel]
      exact (W_sub _ _ _).trans (by linarith)
    rw [show toCo v + toCo δ - P m = (toCo v + toCo δ - a) + (a - P m) by abel]
    refine (W_add _ _ _).trans ?_
    have h9 := (W_mono L.p (L.p + 1) (Nat.le_succ _) (toCo v + toCo δ - a)).trans h2
    linarith

/-- **C143, the discretised nonlinear problem.**  Let `u` be a smooth periodic nondegenerate solution of `L u + N(u) = f`.  Then there are a radius `ρ > 0` and an
`N₀` such that for every odd number `n ≥ N₀` of modes the discretised equation has exactly one solution whose distance from (the first `n` modes of) `u` is at
most `ρ`, and these solutions converge to `u` with all derivatives, uniformly and faster than every power of `1 / n`. -/
theorem C143_solves (hnd : Nondeg e s N r u) (heq : ∀ x, resid e s N u x = trigEval f (Mapping.bwd e x)) :
    ∃ ρ N0, 0 < ρ ∧ (∀ n, N0 ≤ n → n % 2 = 1 → ∃! v : Fin n → ℂ, wnorm (r - 1) (v - modes n e u) ≤ ρ ∧ defect e s N f v = 0) ∧
      ∀ t j : ℕ, ∃ C, ∀ n, N0 ≤ n → n % 2 = 1 → ∀ v : Fin n → ℂ, wnorm (r - 1) (v - modes n e u) ≤ ρ → defect e s N f v = 0 →
        ∀ x, ‖iteratedDeriv j (fourierFun e v) x - iteratedDeriv j u x‖ ≤ C / (n : ℝ) ^ t := by
  obtain ⟨ρ, C, K, D, N0, hgood, N1, hN1⟩ := FNw.setup e he s r c hs N hN f u hu hper hnd heq
  exact ⟨ρ, _, hgood.hρ, FNw.solves_core e he s r c hs N hN f u hu hper heq ρ C K D N0 N1 hgood hN1⟩

/-- **C143, Newton's method.**  With the radius, the solutions `vs` and the numbers of modes of `C143_solves`: for every `v` in the ball and every source `s'` of
the linearised operator at `v`, the Newton matrix assembled from `s'` is nonsingular with an inverse bounded independently of `n`, the step stays in the ball, and the distance to the solution is squared up
to a constant that does not depend on `n`, and reduced to a quarter at least. -/
theorem C143_newton (eps : ℝ) (hnd : Nondeg e s N r u) (heq : ∀ x, resid e s N u x = trigEval f (Mapping.bwd e x)) :
    ∃ ρ κ σ N0, 0 < ρ ∧ 0 ≤ κ ∧ 0 ≤ σ ∧ ∀ n, N0 ≤ n → n % 2 = 1 →
      ∃ vs : Fin n → ℂ, (∀ v : Fin n → ℂ, wnorm (r - 1) (v - modes n e u) ≤ ρ ∧ defect e s N f v = 0 ↔ v = vs) ∧
        ∀ v : Fin n → ℂ, wnorm (r - 1) (v - modes n e u) ≤ ρ →
          ∀ s', IsOp s' r c → IsLin e s N (fourierFun e v) s' → NoDrop n (Mapping.diff e) eps s' →
            (∀ b : Fin n → ℂ, ∃! δ, quasi2diffmat n (Mapping.diff e) eps s' *ᵥ δ = b) ∧
            (∀ δ : Fin n → ℂ, wnorm r δ ≤ σ * wnorm 0 (quasi2diffmat n (Mapping.diff e) eps s' *ᵥ δ)) ∧
            ∀ δ : Fin n → ℂ, quasi2diffmat n (Mapping.diff e) eps s' *ᵥ δ = defect e s N f v →
              wnorm (r - 1) (v + δ - modes n e u) ≤ 7 / 8 * ρ ∧
              wnorm (r - 1) (v + δ - vs) ≤ κ * wnorm (r - 1) (v - vs) ^ 2 ∧
              wnorm (r - 1) (v + δ - vs) ≤ 1 / 4 * wnorm (r - 1) (v - vs) := by
  obtain ⟨ρ, C, K, D, N0, hgood, N1, hN1⟩ := FNw.setup e he s r c hs N hN f u hu hper hnd heq
  obtain ⟨κ, σ, hκ, hσ, h⟩ := FNw.newton_core e he s r c hs N hN f u hu hper eps heq ρ C K D N0 N1 hgood hN1
  refine ⟨ρ, κ, σ, 2 * (N0 + N1), hgood.hρ, hκ, hσ, fun n hn hodd => ?_⟩
  obtain ⟨vs, _, h1, h2⟩ := h n hn hodd
  refine ⟨vs, h1, fun v hv s' hs' hlin hnodrop => ?_⟩
  obtain ⟨g1, g2, g3⟩ := h2 v hv s' hs' hlin hnodrop
  refine ⟨g1, g2, fun δ hδ => ?_⟩
  obtain ⟨g4, g5, g6⟩ := g3 δ hδ
  refine ⟨g4, g5, le_trans ?_ g6⟩
  rw [wnorm_eq, wnorm_eq]
  exact W_mono _ _ (Nat.sub_le _ _) _

end

end Funpy.Props
