import Verif.Props.EigConv

/-!
# C131: every eigenvalue of the boundary value problem is approximated
-/

namespace Funpy.Props
open Spec Cheb UltraS OpDisc Matrix Finset Sect WPos CoefNorm Cvg OdeP Eigs EigC
open scoped ContDiff

variable {n : ℕ}

/-! ### linear combinations of solutions -/

lemma EigC.iter_lin {r m : ℕ} (W : Fin m → ℝ → ℂ) (hW : ∀ i, ContDiff ℝ r (W i)) (k : Fin m → ℂ) (j : ℕ) (hj : j ≤ r) (y : ℝ) :
    iteratedDeriv j (fun y => ∑ i, k i * W i y) y = ∑ i, k i * iteratedDeriv j (W i) y := by
  rw [iteratedDeriv_fun_sum fun i _ => ((contDiff_const.mul (hW i)).of_le (by exact_mod_cast hj)).contDiffAt]
  exact sum_congr rfl fun i _ => OdeStabC.iter_smul (W i) (hW i) (k i) j hj y

lemma EigC.lin_lin {r m : ℕ} (e : Ends) (s : Source) (c : ℝ) (l : ℂ) (W : Fin m → ℝ → ℂ) (hW : ∀ i, ContDiff ℝ r (W i)) (k : Fin m → ℂ) (y : ℝ) :
    lin e s r c l (fun y => ∑ i, k i * W i y) y = ∑ i, k i * lin e s r c l (W i) y := by
  unfold lin OdeStabC.Lin
  have h1 : ∑ j ∈ range r, alC e s l j y * iteratedDeriv j (fun y => ∑ i, k i * W i y) y
      = ∑ j ∈ range r, alC e s l j y * ∑ i, k i * iteratedDeriv j (W i) y :=
    sum_congr rfl fun j hj => by rw [iter_lin W hW k j (Finset.mem_range.mp hj).le]
  rw [iter_lin W hW k r le_rfl, h1]
  simp only [mul_sum, _root_.mul_add, sum_add_distrib]
  rw [sum_comm (s := range r)]
  congr 1
  · exact sum_congr rfl fun i _ => by ring
  · exact sum_congr rfl fun i _ => sum_congr rfl fun j _ => by ring

lemma EigC.jetC_sum {m : ℕ} (J : Fin m → ℕ → ℝ → ℂ) (k : Fin m → ℂ) (b : BC) :
    jetC (fun j y => ∑ i, k i * J i j y) b = ∑ i, k i * jetC (J i) b := by
  induction b with
  | ev f y => rfl
  | const c => simp [jetC]
  | add a b iha ihb => simp only [jetC, iha, ihb, _root_.mul_add, sum_add_distrib]
  | sub a b iha ihb => simp only [jetC, iha, ihb, mul_sub, sum_sub_distrib]
  | neg a iha => simp only [jetC, iha, mul_neg, sum_neg_distrib]
  | smul c a iha =>
    simp only [jetC, iha, mul_sum]
    exact sum_congr rfl fun i _ => by ring

/-- if the equation for `L - l` can be solved for all boundary values then `l` is not an eigenvalue -/
lemma EigC.not_eig_of_solvable (e : Ends) (he : e.e0 < e.e1) (s : Source) (r : ℕ) (c : ℝ) (hs : IsODE s r c) (bcs : List BC) (hsq : bcs.length = r)
    (hb : ∀ b ∈ bcs, BC.PointsIn e b ∧ OrdLt r b) (l : ℂ)
    (hsol : ∀ g : List ℝ, g.length = r → ∃ w : ℝ → ℂ, ContDiff ℝ r w ∧ (∀ y ∈ Set.Icc e.e0 e.e1, lin e s r c l w y = 0) ∧
      ∀ k (hk : k < bcs.length), bcv w bcs[k] = ((g.getD k 0 : ℝ) : ℂ)) : ¬ IsEig e s r bcs l := by
  have hcc : (c : ℂ) ≠ 0 := by exact_mod_cast hs.2.1
  have hsol' : ∀ i : Fin r, ∃ w : ℝ → ℂ, ContDiff ℝ r w ∧ (∀ y ∈ Set.Icc e.e0 e.e1, lin e s r c l w y = 0) ∧
      ∀ k (hk : k < bcs.length), bcv w bcs[k] = if k = i then 1 else 0 := by
    intro i
    obtain ⟨w, h1, h2, h3⟩ := hsol (List.ofFn fun k : Fin r => if k = i then 1 else 0) (by simp)
    refine ⟨w, h1, h2, fun k hk => ?_⟩
    rw [h3 k hk, getD_lt' _ _ _ (by simpa [hsq] using hk), List.getElem_ofFn]
    by_cases h : k = i
    · rw [if_pos h, if_pos (Fin.ext h)]; simp
    · rw [if_neg h, if_neg fun h' => h (by rw [← h'])]; simp
  choose W hW hWl hWb using hsol'
  have hbl : ∀ k' : Fin r → ℂ, ∀ k (hk : k < bcs.length), bcv (fun y => ∑ i, k' i * W i y) bcs[k] = k' ⟨k, by omega⟩ := by
    intro k' k hk
    have hmem := hb _ (List.getElem_mem hk)
    unfold bcv
    rw [(jetC_functional e r bcs[k] hmem.1 hmem.2).congr _ (fun j y => ∑ i, k' i * iteratedDeriv j (W i) y)
      (fun j hj y _ => iter_lin W hW k' j hj.le y), jetC_sum]
    rw [sum_congr rfl fun i _ => by rw [show jetC (fun j => iteratedDeriv j (W i)) bcs[k] = _ from hWb i k hk]]
    rw [sum_eq_single (⟨k, by omega⟩ : Fin r)]
    · simp
    · intro i _ hi
      rw [if_neg fun h => hi (Fin.ext h.symm), mul_zero]
    · simp
  have hcd : ∀ k' : Fin r → ℂ, ContDiff ℝ r (fun y => ∑ i, k' i * W i y) := fun k' => ContDiff.sum fun i _ => contDiff_const.mul (hW i)
  have hjet : ∀ k' : Fin r → ℂ, OdeStabC.jet r (fun y => ∑ i, k' i * W i y) e.e0 = ∑ i, k' i • OdeStabC.jet r (W i) e.e0 := by
    intro k'
    funext j
    rw [Finset.sum_apply]
    exact iter_lin W hW k' j j.2.le e.e0
  -- solutions are determined by their initial values
  have hzero : ∀ w : ℝ → ℂ, ContDiff ℝ r w → (∀ y ∈ Set.Icc e.e0 e.e1, lin e s r c l w y = 0) → OdeStabC.jet r w e.e0 = 0 →
      ∀ j < r, ∀ y ∈ Set.Icc e.e0 e.e1, iteratedDeriv j w y = 0 := fun w hw hl h0 =>
    OdeStabC.jet_zero hcc (fun j _ => (alC_cont e s l j).continuousOn) w hw hl h0
  have hbz : ∀ w : ℝ → ℂ, (∀ j < r, ∀ y ∈ Set.Icc e.e0 e.e1, iteratedDeriv j w y = 0) → ∀ b ∈ bcs, bcv w b = 0 := by
    intro w hw b hbm
    have h1 := (jetC_functional e r b (hb b hbm).1 (hb b hbm).2).congr (fun j => iteratedDeriv j w) (fun j y => 0 * iteratedDeriv j w y)
      (fun j hj y hy => by rw [hw j hj y hy, mul_zero])
    have h2 := (jetC_functional e r b (hb b hbm).1 (hb b hbm).2).smul (fun j => iteratedDeriv j w) 0
    rw [zero_mul] at h2
    exact h1.trans h2
  let T : (Fin r → ℂ) →ₗ[ℂ] (Fin r → ℂ) :=
    { toFun := fun k' => ∑ i, k' i • OdeStabC.jet r (W i) e.e0
      map_add' := fun a b => by simp only [Pi.add_apply, add_smul, sum_add_distrib]
      map_smul' := fun t a => by simp only [Pi.smul_apply, smul_eq_mul, RingHom.id_apply, smul_sum, mul_smul] }
  have hinj : Function.Injective T := by
    rw [← LinearMap.ker_eq_bot, LinearMap.ker_eq_bot']
    intro k' hk'
    have h1 := hzero _ (hcd k') (fun y hy => by
      rw [lin_lin e s c l W hW k' y]
      exact sum_eq_zero fun i _ => by rw [hWl i y hy, mul_zero]) ((hjet k').trans hk')
    funext k
    have hk : (k : ℕ) < bcs.length := by rw [hsq]; exact k.2
    have h2 := hbl k' k hk
    rw [hbz _ h1 _ (List.getElem_mem hk)] at h2
    exact h2.symm
  have hsurj : Function.Surjective T := LinearMap.injective_iff_surjective.1 hinj
  rintro ⟨u, v, hu, hv, hbu, hbv, ⟨y, hy, hne⟩, hL⟩
  have hw := cw_contDiff u v hu hv
  obtain ⟨k', hk'⟩ := hsurj (OdeStabC.jet r (cw u v) e.e0)
  have h1 := hzero (fun y => cw u v y - ∑ i, k' i * W i y) (hw.sub (hcd k')) (fun t ht => by
    have h3 := OdeStabC.Lin_sub (r := r) (c := (c : ℂ)) (al := alC e s l) (cw u v) (fun y => ∑ i, k' i * W i y) hw (hcd k') t
    have h4 := lin_cw e s r c hs l u v hu hv t
    have h5 := lin_lin e s c l W hW k' t
    unfold lin at h4 h5 ⊢
    rw [h3, h4, h5, (hL t ht).1, (hL t ht).2, sum_eq_zero fun i _ => by rw [show OdeStabC.Lin r (c : ℂ) (alC e s l) (W i) t = 0 from hWl i t ht, mul_zero]]
    simp) (by
    rw [OdeStabC.jet_sub _ _ hw (hcd k'), hjet k']
    exact sub_eq_zero.mpr hk'.symm)
  have h2 : ∀ j < r, ∀ t ∈ Set.Icc e.e0 e.e1, iteratedDeriv j (cw u v) t = iteratedDeriv j (fun y => ∑ i, k' i * W i y) t := by
    intro j hj t ht
    have := h1 j hj t ht
    rw [OdeStabC.iter_sub _ _ hw (hcd k') j hj.le] at this
    exact sub_eq_zero.mp this
  have h3 : k' = 0 := by
    funext k
    have hk : (k : ℕ) < bcs.length := by rw [hsq]; exact k.2
    have hm := List.getElem_mem hk
    have h4 := hbl k' k hk
    have h5 := (jetC_functional e r _ (hb _ hm).1 (hb _ hm).2).congr _ _ h2
    unfold bcv at h4
    rw [← h5] at h4
    have h6 := bcv_cw e _ (hb _ hm).1 (hb _ hm).2 u v hu hv
    unfold bcv at h6
    rw [h6, hbu _ hm, hbv _ hm] at h4
    simpa using h4.symm
  have h4 := h2 0 hs.1 y hy
  rw [iteratedDeriv_zero, iteratedDeriv_zero, h3] at h4
  simp only [Pi.zero_apply, zero_mul, sum_const_zero] at h4
  rw [cw_zero] at h4
  rcases hne with h | h
  · exact h h4.1
  · exact h h4.2

/-! ### the discretised problem as a function of `l` -/

lemma EigC.det_diff {m : ℕ} (X : ℂ → Matrix (Fin m) (Fin m) ℂ) (hX : ∀ i j, Differentiable ℂ fun l => X l i j) : Differentiable ℂ fun l => (X l).det := by
  simp only [det_apply]
  refine Differentiable.fun_sum fun σ _ => ?_
  have : Differentiable ℂ fun l => ∏ i, X l (σ i) i := by
    have := fun (S : Finset (Fin m)) => Differentiable.fun_finset_prod (𝕜 := ℂ) (u := S) (f := fun i l => X l (σ i) i) (fun i _ => hX _ _)
    exact this univ
  exact this.const_smul _

lemma EigC.inv_diff {m : ℕ} (X : ℂ → Matrix (Fin m) (Fin m) ℂ) (hX : ∀ i j, Differentiable ℂ fun l => X l i j) (g : Fin m → ℂ) (i : Fin m) (l : ℂ)
    (hl : (X l).det ≠ 0) : DifferentiableAt ℂ (fun l => ((X l)⁻¹ *ᵥ g) i) l := by
  simp only [Matrix.inv_def, mulVec, dotProduct, Matrix.smul_apply, smul_eq_mul, adjugate_apply, Ring.inverse_eq_inv']
  refine DifferentiableAt.fun_sum fun j _ => DifferentiableAt.mul_const (DifferentiableAt.fun_mul ((det_diff X hX l).fun_inv hl) ?_) _
  refine det_diff (fun l => (X l).updateRow j (Pi.single i 1)) (fun i' j' => ?_) l
  simp only [updateRow_apply]
  split_ifs
  · exact differentiable_const _
  · exact hX _ _

lemma EigC.rows_of_eq (d : Disc n) (hr : d.r ≤ n) (M : List (Fin n → ℝ)) (hM : M.length = n) (g : List ℝ) (hg : g.length = d.r) (l : ℂ) (v : Fin n → ℂ)
    (h : dense M *ᵥ v = l • (rhsDense d *ᵥ v) + fun i : Fin n => ((g.getD i 0 : ℝ) : ℂ)) : Rows d M l g (fun k => (v k).re) (fun k => (v k).im) := by
  have hpv : ∀ (g : List ℝ), g.length = d.r → ∀ (f : Fin n → ℝ) (i : Fin n), (projectVector d g f).getD i 0 = (geMatvec d f).getD i 0 + g.getD i 0 := by
    intro g hg f i
    rw [geMatvec_getD d hr, projectVector, getD_append', hg]
    split_ifs with h1 h2 h2
    · omega
    · rw [zero_add]
    · rw [keepRows_getD _ _ _ (by omega), getD_ge' g _ _ (by omega), add_zero]
    · omega
  have hlen : ∀ (g : List ℝ), g.length = d.r → ∀ (f : Fin n → ℝ), (projectVector d g f).length = n := by
    intro g hg f
    simp only [projectVector, keepRows, List.length_append, List.length_map, List.length_take, List.length_finRange]
    omega
  have hrow : ∀ (g : List ℝ), g.length = d.r → ∀ a f : Fin n → ℝ, (∀ i : Fin n, M.getD i 0 ⬝ᵥ a = (geMatvec d f).getD i 0 + g.getD i 0) →
      M.map (· ⬝ᵥ a) = projectVector d g f := by
    intro g hg a f h
    apply List.ext_getElem
    · rw [List.length_map, hM, hlen g hg]
    · intro i h1 h2
      rw [List.length_map, hM] at h1
      have := h ⟨i, h1⟩
      rw [← hpv g hg, getD_lt' _ _ _ (by simpa [hM] using h1)] at this
      simp only at this
      rw [getD_lt' _ _ _ h2] at this
      rw [List.getElem_map, this]
  have key : ∀ i : Fin n, (M.getD i 0 ⬝ᵥ fun k => (v k).re) = (geMatvec d (l.re • (fun k => (v k).re) + (-l.im) • fun k => (v k).im)).getD i 0 + g.getD i 0 ∧
      (M.getD i 0 ⬝ᵥ fun k => (v k).im) = (geMatvec d (l.im • (fun k => (v k).re) + l.re • fun k => (v k).im)).getD i 0 := by
    intro i
    have := congrFun h i
    rw [Pi.add_apply, Pi.smul_apply, smul_eq_mul, dense_mulVec, rhsDense_mulVec d hr, Complex.ext_iff] at this
    rw [geMatvec_lin d hr, geMatvec_lin d hr]
    simp only [Complex.add_re, Complex.add_im, Complex.mul_re, Complex.mul_im, Complex.ofReal_re, Complex.ofReal_im,
      Complex.I_re, Complex.I_im] at this
    constructor <;> linarith
  exact ⟨hrow g hg _ _ fun i => (key i).1, hrow _ (by simp) _ _ fun i => by rw [getD_replicate', add_zero]; exact (key i).2⟩

/-- the function with the coefficients `v` -/
lemma EigC.cf2_sum (e : Ends) (v : Fin n → ℂ) (y : ℝ) :
    cf2 e (fun k => (v k).re) (fun k => (v k).im) y = ∑ k, v k * ((ultraBasis 0 k (Mapping.bwd e y) : ℝ) : ℂ) := by
  have h : ∀ x : Fin n → ℝ, funOf e x y = ∑ k, x k * ultraBasis 0 k (Mapping.bwd e y) := by
    intro x
    rw [funOf, ← ultraSeries_zero_eq]
    rfl
  rw [cf2, cw, h, h]
  push_cast
  rw [sum_mul, ← sum_add_distrib]
  refine sum_congr rfl fun k _ => ?_
  conv_rhs => rw [← Complex.re_add_im (v k)]
  ring

/-- the solution of the discretised equation with boundary values `g` -/
noncomputable def EigC.dsol (d : Disc n) (M : List (Fin n → ℝ)) (g : List ℝ) (l : ℂ) : Fin n → ℂ :=
  (dense M - l • rhsDense d)⁻¹ *ᵥ fun i : Fin n => ((g.getD i 0 : ℝ) : ℂ)

/-- its function -/
noncomputable def EigC.dfun (d : Disc n) (M : List (Fin n → ℝ)) (g : List ℝ) (l : ℂ) : ℝ → ℂ :=
  cf2 d.e (fun k => (dsol d M g l k).re) (fun k => (dsol d M g l k).im)

lemma EigC.dsol_rows (d : Disc n) (hr : d.r ≤ n) (M : List (Fin n → ℝ)) (hM : M.length = n) (g : List ℝ) (hg : g.length = d.r) (l : ℂ)
    (hdet : (dense M - l • rhsDense d).det ≠ 0) : Rows d M l g (fun k => (dsol d M g l k).re) (fun k => (dsol d M g l k).im) := by
  apply rows_of_eq d hr M hM g hg
  have h : (dense M - l • rhsDense d) *ᵥ dsol d M g l = fun i : Fin n => ((g.getD i 0 : ℝ) : ℂ) := by
    rw [dsol, mulVec_mulVec, Matrix.mul_nonsing_inv _ (isUnit_iff_ne_zero.mpr hdet), one_mulVec]
  rw [← h, sub_mulVec, smul_mulVec]
  abel

lemma EigC.dfun_diff (d : Disc n) (M : List (Fin n → ℝ)) (g : List ℝ) (l : ℂ) (hdet : (dense M - l • rhsDense d).det ≠ 0) (y : ℝ) :
    DifferentiableAt ℂ (fun l => dfun d M g l y) l := by
  have h : (fun l => dfun d M g l y) = fun l => ∑ k, dsol d M g l k * ((ultraBasis 0 k (Mapping.bwd d.e y) : ℝ) : ℂ) := by
    funext l
    exact cf2_sum d.e (dsol d M g l) y
  rw [h]
  refine DifferentiableAt.fun_sum fun k _ => DifferentiableAt.mul_const ?_ _
  refine inv_diff (fun l => dense M - l • rhsDense d) (fun i j => ?_) _ k l hdet
  simp only [Matrix.sub_apply, Matrix.smul_apply, smul_eq_mul]
  fun_prop

lemma EigC.bcv_sub {r : ℕ} (e : Ends) (b : BC) (hp : BC.PointsIn e b) (ho : OrdLt r b) (w z : ℝ → ℂ) (hw : ContDiff ℝ r w) (hz : ContDiff ℝ r z) :
    bcv (fun y => w y - z y) b = bcv w b - bcv z b := by
  have hf := jetC_functional e r b hp ho
  unfold bcv
  have h1 := hf.congr (fun j => iteratedDeriv j (fun y => w y - z y)) (fun j y => iteratedDeriv j w y + (-1) * iteratedDeriv j z y)
    (fun j hj y _ => by rw [OdeStabC.iter_sub w z hw hz j hj.le]; ring)
  have h2 := hf.add (fun j => iteratedDeriv j w) (fun j y => (-1) * iteratedDeriv j z y)
  have h3 := hf.smul (fun j => iteratedDeriv j z) (-1)
  rw [h1, h2, h3]
  ring

/-- the set of pencils which are regular on a closed disc: bounds on the circle carry over to the centre -/
lemma EigC.center_bound (d : Disc n) (M : List (Fin n → ℝ)) (g : List ℝ) (l0 : ℂ) (ε : ℝ) (hε : 0 < ε)
    (hdet : ∀ l ∈ Metric.closedBall l0 ε, (dense M - l • rhsDense d).det ≠ 0) (y Q : ℝ)
    (hQ : ∀ l ∈ Metric.sphere l0 ε, ‖dfun d M g l y‖ ≤ Q) : ‖dfun d M g l0 y‖ ≤ Q := by
  apply Complex.norm_le_of_forall_mem_frontier_norm_le (U := Metric.ball l0 ε) (f := fun l => dfun d M g l y) Metric.isBounded_ball
  · apply DifferentiableOn.diffContOnCl
    rw [closure_ball l0 hε.ne']
    exact fun l hl => (dfun_diff d M g l (hdet l hl) y).differentiableWithinAt
  · rw [frontier_ball l0 hε.ne']
    exact hQ
  · exact subset_closure (Metric.mem_ball_self hε)

/-- for many coefficients the discretised problem has an eigenvalue in every disc around an eigenvalue whose circle is free of eigenvalues -/
lemma EigC.found (e : Ends) (he : e.e0 < e.e1) (s : Source) (r : ℕ) (c eps : ℝ) (hs : IsODE s r c) (bcs : List BC) (hsq : bcs.length = r)
    (hb : ∀ b ∈ bcs, BC.PointsIn e b ∧ BC.Mentions b) (ho : ∀ b ∈ bcs, OrdLt r b) (l0 : ℂ) (hl0 : IsEig e s r bcs l0)
    (ε : ℝ) (hε : 0 < ε) (hne : ∀ l ∈ Metric.sphere l0 ε, ¬ IsEig e s r bcs l) :
    ∃ N, ∀ n, N ≤ n → SecFits n n s → ∀ M, OpDisc.matrix (⟨e, r, eps, s, bcs⟩ : Disc n) = some M →
      ∃ l, ‖l - l0‖ < ε ∧ (dense M - l • rhsDense (⟨e, r, eps, s, bcs⟩ : Disc n)).det = 0 := by
  have hb' : ∀ b ∈ bcs, BC.PointsIn e b ∧ OrdLt r b := fun b hbm => ⟨(hb b hbm).1, ho b hbm⟩
  by_contra hcon
  push Not at hcon
  refine not_eig_of_solvable e he s r c hs bcs hsq hb' l0 (fun g hg => ?_) hl0
  have hKc := isCompact_sphere l0 ε
  obtain ⟨S, hS, hst⟩ := stab_compact e he s r c hs bcs hb' _ hKc hne
  obtain ⟨N1, hker⟩ := no_kernel e he s r c eps hs bcs hsq hb ho _ hKc hne
  set R : ℝ := ‖l0‖ + ε with hR
  obtain ⟨C, N2, hC, hres⟩ := disc_res e he s r c eps hs bcs hsq hb R (by positivity)
  have hRb : ∀ l ∈ Metric.closedBall l0 ε, ‖l‖ ≤ R := by
    intro l hl
    rw [Metric.mem_closedBall, dist_eq_norm] at hl
    calc ‖l‖ = ‖l0 + (l - l0)‖ := by congr 1; ring
      _ ≤ _ := (norm_add_le _ _).trans (by rw [hR]; gcongr)
  obtain ⟨m, hm⟩ := exists_nat_ge (2 * (S * C))
  -- numbers of coefficients without eigenvalues in the disc
  have hseq : ∀ k : ℕ, ∃ n, N1 + N2 + r + m + k + 2 ≤ n ∧ SecFits n n s ∧ ∃ M : List (Fin n → ℝ),
      OpDisc.matrix (⟨e, r, eps, s, bcs⟩ : Disc n) = some M ∧ M.length = n ∧
      ∀ l ∈ Metric.closedBall l0 ε, (dense M - l • rhsDense (⟨e, r, eps, s, bcs⟩ : Disc n)).det ≠ 0 := by
    intro k
    obtain ⟨n, hn, hfit, M, hM, h⟩ := hcon (N1 + N2 + r + m + k + 2)
    obtain ⟨M', hM', -, hlen⟩ := C98_shape (⟨e, r, eps, s, bcs⟩ : Disc n) (by omega) he (by show r ≤ n; omega) hb
    obtain rfl : M = M' := Option.some.inj (hM.symm.trans hM')
    have hMn := hlen.2 hsq
    refine ⟨n, hn, hfit, M, hM, hMn, fun l hl hdet => ?_⟩
    rw [Metric.mem_closedBall, dist_eq_norm] at hl
    rcases hl.lt_or_eq with hl | hl
    · exact h l hl hdet
    · obtain ⟨v, hv, hv0⟩ := exists_mulVec_eq_zero_iff.mpr hdet
      rw [sub_mulVec, smul_mulVec, sub_eq_zero] at hv0
      have hrows := rows_of_eq (⟨e, r, eps, s, bcs⟩ : Disc n) (by show r ≤ n; omega) M hMn (List.replicate r 0) (by simp) l v (by
        rw [hv0]
        funext i
        rw [Pi.add_apply, getD_replicate']
        simp)
      obtain ⟨h1, h2⟩ := hker n (by omega) hfit M hM l (by rw [mem_sphere_iff_norm]; exact hl) _ _ hrows
      exact hv (funext fun k => Complex.ext (congrFun h1 k) (congrFun h2 k))
  choose ns hns hfit M hM hMn hdet using hseq
  set d : ∀ k, Disc (ns k) := fun k => ⟨e, r, eps, s, bcs⟩ with hd
  have hrows : ∀ k, ∀ l ∈ Metric.closedBall l0 ε, Rows (d k) (M k) l g (fun i => (dsol (d k) (M k) g l i).re) (fun i => (dsol (d k) (M k) g l i).im) :=
    fun k l hl => dsol_rows (d k) (by show r ≤ ns k; have := hns k; omega) (M k) (hMn k) g hg l (hdet k l hl)
  have hcd : ∀ k l, ContDiff ℝ r (dfun (d k) (M k) g l) := fun k l => cf2_cd e _ _
  have hbv : ∀ k, ∀ l ∈ Metric.closedBall l0 ε, ∀ j (hj : j < bcs.length), bcv (dfun (d k) (M k) g l) bcs[j] = ((g.getD j 0 : ℝ) : ℂ) :=
    fun k l hl j hj => rows_bcv (d k) (by have := hns k; omega) he hb ho hsq (M k) (hM k) g hg l _ _ (hrows k l hl) j hj
  have hrs : ∀ k, ∀ l ∈ Metric.closedBall l0 ε, ∀ Q, (∀ y ∈ Set.Icc e.e0 e.e1, ‖dfun (d k) (M k) g l y‖ ≤ Q) →
      (∀ y ∈ Set.Icc e.e0 e.e1, (((ns k - r : ℕ) : ℝ) + 1) * ‖lin e s r c l (dfun (d k) (M k) g l) y‖ ≤ C * Q) ∧
        ‖OdeStabC.jet r (dfun (d k) (M k) g l) e.e0‖ ≤ C * Q :=
    fun k l hl Q hQ => hres (ns k) (by have := hns k; omega) (hfit k) (M k) (hM k) l (hRb l hl) g hg _ _ (hrows k l hl) Q hQ
  -- a fixed function with the boundary values
  set ls : ℂ := l0 + ε with hls
  have hlsS : ls ∈ Metric.sphere l0 ε := by
    rw [mem_sphere_iff_norm, hls, add_sub_cancel_left, Complex.norm_real, Real.norm_eq_abs, abs_of_pos hε]
  have hlsB := Metric.sphere_subset_closedBall hlsS
  set p := dfun (d 0) (M 0) g ls with hp
  obtain ⟨yp, hyp, hpmax⟩ := max_exists e he p (hcd 0 ls).continuous
  set P := ‖p yp‖ with hP
  have hP0 : 0 ≤ P := norm_nonneg _
  have hpl : ∀ l ∈ Metric.sphere l0 ε, ∀ y ∈ Set.Icc e.e0 e.e1, ‖lin e s r c l p y‖ ≤ C * P + 2 * R * P := by
    intro l hl y hy
    have h1 := (hrs 0 ls hlsB P hpmax).1 y hy
    have h2 : ‖lin e s r c ls p y‖ ≤ C * P := by
      refine le_trans ?_ h1
      have : (0 : ℝ) ≤ ((ns 0 - r : ℕ) : ℝ) := by positivity
      nlinarith [norm_nonneg (lin e s r c ls p y)]
    rw [lin_shift e s r c hs.1 l ls]
    refine (norm_add_le _ _).trans (add_le_add h2 ?_)
    rw [norm_mul]
    apply mul_le_mul _ (hpmax y hy) (norm_nonneg _) (by positivity)
    refine (norm_sub_le _ _).trans ?_
    have := hRb ls hlsB
    have := hRb l (Metric.sphere_subset_closedBall hl)
    linarith
  set Q0 : ℝ := 2 * (P + S * (C * P + 2 * R * P)) with hQ0
  -- bounds on the circle
  have hcirc : ∀ k, ∀ l ∈ Metric.sphere l0 ε, ∀ y ∈ Set.Icc e.e0 e.e1, ‖dfun (d k) (M k) g l y‖ ≤ Q0 := by
    intro k l hl y hy
    have hlB := Metric.sphere_subset_closedBall hl
    set w := dfun (d k) (M k) g l with hw
    obtain ⟨y0, hy0, hmax⟩ := max_exists e he w (hcd k l).continuous
    refine (hmax y hy).trans ?_
    set q := ‖w y0‖ with hq
    have hq0 : 0 ≤ q := norm_nonneg _
    set T : ℝ := ((ns k - r : ℕ) : ℝ) + 1 with hT
    have hT0 : 0 < T := by positivity
    have hmT : (m : ℝ) ≤ T := by
      have : (m : ℝ) ≤ ((ns k - r : ℕ) : ℝ) := by exact_mod_cast (by have := hns k; omega : m ≤ ns k - r)
      linarith
    have h1 := (hrs k l hlB q hmax).1
    have h2 := hst l hl (fun y => w y - p y) ((hcd k l).sub (hcd 0 ls)) (fun b hbm => by
      obtain ⟨j, hj, rfl⟩ := List.getElem_of_mem hbm
      rw [bcv_sub e _ (hb' _ hbm).1 (hb' _ hbm).2 w p (hcd k l) (hcd 0 ls), hbv k l hlB j hj, hbv 0 ls hlsB j hj, sub_self])
      (C * q / T + (C * P + 2 * R * P)) (fun t ht => by
        have h3 := OdeStabC.Lin_sub (r := r) (c := (c : ℂ)) (al := alC e s l) w p (hcd k l) (hcd 0 ls) t
        unfold lin
        rw [h3]
        refine (norm_sub_le _ _).trans (add_le_add ?_ (hpl l hl t ht))
        rw [le_div_iff₀ hT0, mul_comm]
        exact h1 t ht) y0 hy0
    have h3 : q ≤ P + ‖w y0 - p y0‖ := by
      calc q = ‖p y0 + (w y0 - p y0)‖ := by rw [hq]; congr 1; ring
        _ ≤ _ := (norm_add_le _ _).trans (by gcongr; exact hpmax y0 hy0)
    have h4 : S * (C * q / T) ≤ q / 2 := by
      rw [mul_div_assoc', div_le_iff₀ hT0]
      calc S * (C * q) = (2 * (S * C)) * q / 2 := by ring
        _ ≤ T * q / 2 := by gcongr; linarith
        _ = q / 2 * T := by ring
    rw [_root_.mul_add] at h2
    rw [hQ0]
    linarith
  -- hence at the centre
  have hcen : ∀ k, ∀ y ∈ Set.Icc e.e0 e.e1, ‖dfun (d k) (M k) g l0 y‖ ≤ Q0 := fun k y hy =>
    center_bound (d k) (M k) g l0 ε hε (hdet k) y Q0 fun l hl => hcirc k l hl y hy
  have hl0B : l0 ∈ Metric.closedBall l0 ε := Metric.mem_closedBall_self hε.le
  have hQ00 : 0 ≤ Q0 := (norm_nonneg _).trans (hcen 0 e.e0 (Set.left_mem_Icc.mpr he.le))
  obtain ⟨φ, w, hφ, hw, htw, hwl⟩ := OdeStabC.limit_of_bounded (r := r) (c := (c : ℂ)) (al := alC e s l0) (by exact_mod_cast hs.2.1) he
    (fun j _ => (alC_cont e s l0 j).continuousOn) (fun k => dfun (d k) (M k) g l0) (fun k => hcd k l0) (C * Q0)
    (fun k => (hrs k l0 hl0B Q0 (hcen k)).2) (fun k => C * Q0 * (1 / ((k : ℝ) + 1))) (by
      have := (tendsto_one_div_add_atTop_nhds_zero_nat (𝕜 := ℝ)).const_mul (C * Q0)
      rwa [mul_zero] at this) (fun k y hy => by
      have h1 := (hrs k l0 hl0B Q0 (hcen k)).1 y hy
      have h2 : (k : ℝ) + 1 ≤ ((ns k - r : ℕ) : ℝ) + 1 := by
        have : (k : ℝ) ≤ ((ns k - r : ℕ) : ℝ) := by exact_mod_cast (by have := hns k; omega : k ≤ ns k - r)
        linarith
      rw [mul_one_div, le_div_iff₀ (by positivity), mul_comm]
      exact le_trans (by gcongr; exact le_rfl) h1)
  refine ⟨w, hw, hwl, fun j hj => ?_⟩
  have hm := List.getElem_mem hj
  have h1 := (jetC_functional e r _ (hb' _ hm).1 (hb' _ hm).2).tendsto (fun k j => iteratedDeriv j (dfun (d (φ k)) (M (φ k)) g l0))
    (fun j => iteratedDeriv j w) fun j hj y hy => htw j hj.le y hy
  have h2 : (fun k => jetC (fun j => iteratedDeriv j (dfun (d (φ k)) (M (φ k)) g l0)) bcs[j]) = fun _ => ((g.getD j 0 : ℝ) : ℂ) := by
    funext k
    exact hbv (φ k) l0 hl0B j hj
  rw [h2] at h1
  exact tendsto_nhds_unique h1 tendsto_const_nhds

/-- **C131, eigenvalues are found.**  Let `l0` be an eigenvalue of the boundary value problem and let the circle of radius `ε` around it contain no
eigenvalue.  Then there is an `N` such that for every number `n ≥ N` of coefficients a successful `eigs` returns a value within
the distance `ε` of `l0`, unless a diagonal entry `β` of the QZ decomposition belonging to such a value is at most the tolerance. -/
theorem C131_found_partial (e : Ends) (he : e.e0 < e.e1) (s : Source) (r : ℕ) (c eps : ℝ) (hs : IsODE s r c) (bcs : List BC) (hsq : bcs.length = r)
    (hb : ∀ b ∈ bcs, BC.PointsIn e b ∧ BC.Mentions b) (ho : ∀ b ∈ bcs, OrdLt r b) (l0 : ℂ) (hl0 : IsEig e s r bcs l0)
    (ε : ℝ) (hε : 0 < ε) (hne : ∀ l ∈ Metric.sphere l0 ε, ¬ IsEig e s r bcs l) :
    ∃ N, ∀ n, N ≤ n → SecFits n n s → ∀ ordqz, QZ (n := n) ordqz → ∀ tol, 0 ≤ tol → ∀ ls,
      eigs ordqz (⟨e, r, eps, s, bcs⟩ : Disc n) tol = some (true, ls) →
      (∃ l ∈ ls, ‖l - l0‖ < ε) ∨ ∃ M α β, OpDisc.matrix (⟨e, r, eps, s, bcs⟩ : Disc n) = some M ∧
        ordqz (dense M) (rhsDense (⟨e, r, eps, s, bcs⟩ : Disc n)) = some (α, β) ∧ ∃ i l, ‖l - l0‖ < ε ∧ α i = l * β i ∧ ‖β i‖ ≤ tol := by
  obtain ⟨N, hN⟩ := found e he s r c eps hs bcs hsq hb ho l0 hl0 ε hε hne
  refine ⟨N, fun n hn hfit ordqz hqz tol ht ls hls => ?_⟩
  unfold eigs at hls
  obtain ⟨M, hM, hls⟩ := Option.map_eq_some_iff.1 hls
  obtain ⟨l, hl, hdet⟩ := hN n hn hfit M hM
  split_ifs at hls with hMn
  · rcases hq : ordqz (dense M) (rhsDense (⟨e, r, eps, s, bcs⟩ : Disc n)) with _ | ⟨α, β⟩
    · rw [hq] at hls; simp at hls
    · rw [hq] at hls
      simp only [Prod.mk.injEq, true_and] at hls
      subst hls
      obtain ⟨v, hv, hv0⟩ := exists_mulVec_eq_zero_iff.mpr hdet
      rw [sub_mulVec, smul_mulVec, sub_eq_zero] at hv0
      obtain ⟨i, hi⟩ := (eigs_pencil_det (hqz _ _ _ _ hq) l).1 ⟨v, hv, hv0⟩
      by_cases hβ : tol < ‖β i‖
      · left
        refine ⟨l, ?_, hl⟩
        simp only [List.mem_map, List.mem_filter, List.mem_finRange, true_and, decide_eq_true_eq]
        refine ⟨i, hβ, ?_⟩
        have : β i ≠ 0 := fun h0 => by rw [h0, norm_zero] at hβ; linarith
        rw [hi]; field_simp
      · exact Or.inr ⟨M, α, β, hM, hq, i, l, hl, hi, not_lt.1 hβ⟩
  · simp at hls

end Funpy.Props
