import Verif.Props.FourierNewton

/-!
# C143: the linearisations and the sequence of Newton iterates
-/

namespace Funpy.Props
open Spec Trig TrigSpec Matrix Finset Complex FourierStab FCv FUn FSy FTr FNl FNw Filter Topology
open scoped ContDiff

/-- partial derivative of the expression with respect to `u^(j)`, on coefficients -/
noncomputable def FNl.NL.pd (e : Ends) (j : ℕ) : NL → Co → Co
  | .coef _, _ => 0
  | .d i, _ => if i = j then Finsupp.single 0 1 else 0
  | .add A B, a => A.pd e j a + B.pd e j a
  | .mul A B, a => FourierStab.mul (A.co e a) (B.pd e j a) + FourierStab.mul (B.co e a) (A.pd e j a)

lemma FNl.dval_pd (e : Ends) (N : NL) (r : ℕ) (hN : N.Below r) (a : Co) (w : ℝ → ℂ) (x : ℝ) :
    N.dval e (fn e a) w x = ∑ j ∈ range r, ev (N.pd e j a) (Mapping.bwd e x) * iteratedDeriv j w x := by
  induction N with
  | coef q => simp [NL.dval, NL.pd]
  | d i =>
    simp only [NL.dval, NL.pd]
    rw [sum_eq_single i (fun j _ hj => by rw [if_neg (Ne.symm hj)]; simp) (fun h => absurd (Finset.mem_range.mpr hN) h), if_pos rfl, ev_single]
    simp
  | add A B hA hB =>
    simp only [NL.dval, NL.pd, hA hN.1, hB hN.2, map_add, Pi.add_apply, add_mul, sum_add_distrib]
  | mul A B hA hB =>
    simp only [NL.dval, NL.pd, hA hN.1, hB hN.2, map_add, Pi.add_apply, add_mul, sum_add_distrib, ev_mul, val_fn, mul_sum, mul_assoc]

/-- every finite Fourier series is given by a list -/
lemma FNl.exists_list (a : Co) : ∃ l : List ℂ, l.length ≠ 0 ∧ ∀ y, trigEval l y = ev a y := by
  obtain ⟨m, hm⟩ := exists_bound a
  refine ⟨List.ofFn fun i : Fin (2 * m + 1) => a (wave (2 * m + 1) i), by simp, fun y => ?_⟩
  have h1 := congrFun (fn_toCo (n := 2 * m + 1) (by omega) ⟨-1, 1⟩ fun i => a (wave (2 * m + 1) i)) y
  have h2 : Mapping.bwd ⟨-1, 1⟩ y = y := by
    simp only [Mapping.bwd, Mapping.diff]
    ring
  rw [toCo_surj (by omega) a fun k hk => hm k (by omega)] at h1
  simp only [fourierFun, fn, h2] at h1
  exact h1.symm

lemma FNl.lin_exists (e : Ends) (s : Source) (r : ℕ) (c : ℂ) (hs : IsOp s r c) (N : NL) (hN : N.Below r) (a : Co) :
    ∃ s' : Source, IsOp s' r c ∧ s'.integral = s.integral ∧ s'.nl = s.nl ∧ IsLin e s N (fn e a) s' := by
  choose l hl0 hl using fun j => FNl.exists_list (qc (s.coeff.getD j (false, [])) + N.pd e j a)
  set s' : Source := ⟨List.ofFn (fun j : Fin (r + 1) => if (j : ℕ) < r then (true, l j) else (true, [c])), s.integral, s.nl⟩ with hs'
  have hget : ∀ j, j < r → s'.coeff.getD j (false, []) = (true, l j) := fun j hj => by
    rw [getD_lt' _ _ _ (by simp [s']; omega)]
    simp only [s', List.getElem_ofFn]
    rw [if_pos hj]
  have hlast : s'.coeff.getD r (false, []) = (true, [c]) := by
    rw [getD_lt' _ _ _ (by simp [s'])]
    simp only [s', List.getElem_ofFn]
    rw [if_neg (by omega)]
  obtain ⟨h1, h2, h3, h4, h5, h6, h7, h8⟩ := hs
  refine ⟨s', ⟨h1, h2, by simp [s'], hlast, ?_, h6, h7, h8⟩, rfl, rfl, fun w hw hper x => ?_⟩
  · intro p hp
    simp only [s', List.mem_ofFn] at hp
    obtain ⟨j, rfl⟩ := hp
    split_ifs
    · exact hl0 _
    · simp
  · have h9 := resid_deriv e s r c ⟨h1, h2, h3, h4, h5, h6, h7, h8⟩ N hN (fn e a) w (fn_smooth e _ r) (hw.of_le (by exact_mod_cast le_top)) x
    convert h9 using 1
    rw [dval_pd e N r hN]
    unfold applyOp
    rw [h3, show s'.coeff.length = r + 1 by simp [s'], sum_range_succ, sum_range_succ, hlast, h4]
    have h10 : ∑ j ∈ range r, coefFun e (s'.coeff.getD j (false, [])) x * iteratedDeriv j w x
        = ∑ j ∈ range r, coefFun e (s.coeff.getD j (false, [])) x * iteratedDeriv j w x + ∑ j ∈ range r, ev (N.pd e j a) (Mapping.bwd e x) * iteratedDeriv j w x := by
      rw [← sum_add_distrib]
      apply sum_congr rfl
      intro j hj
      rw [hget j (Finset.mem_range.mp hj), ← add_mul, ← ev_qc e (s.coeff.getD j (false, []))]
      congr 1
      rw [show coefFun e (true, l j) x = trigEval (l j) (Mapping.bwd e x) from if_pos rfl, hl j, map_add, Pi.add_apply]
    rw [h10]
    simp only [s']
    ring

/-- **C143, the linearisations.**  At every function with finitely many Fourier coefficients the derivative of the equation is again an operator which
`quasi2diffmat` can discretise, with the same leading coefficient and the same integral and nonlocal terms. -/
theorem C143_linearisation (e : Ends) (s : Source) (r : ℕ) (c : ℂ) (hs : IsOp s r c) (N : NL) (hN : N.Below r) (n : ℕ) (hn : n % 2 = 1) (v : Fin n → ℂ) :
    ∃ s' : Source, IsOp s' r c ∧ s'.integral = s.integral ∧ s'.nl = s.nl ∧ IsLin e s N (fourierFun e v) s' := by
  rw [← fn_toCo hn]
  exact FNl.lin_exists e s r c hs N hN (toCo v)

variable (e : Ends) (he : e.e0 < e.e1) (s : Source) (r : ℕ) (c : ℂ) (hs : IsOp s r c) (N : NL) (hN : N.Below r) (f : List ℂ)
  (u : ℝ → ℂ) (hu : ContDiff ℝ ∞ u) (hper : Function.Periodic u (Mapping.diff e))
include he hs hN hu hper

/-- **C143, the sequence of Newton iterates.**  Started within the distance `ρ` of a smooth periodic nondegenerate solution `u`, Newton's method with the
matrices of `quasi2diffmat` never leaves this ball, and converges to the only solution `vs` of the discretised equation in the ball: the error is at least
divided by four in every step, and eventually squared. -/
theorem C143_iterates (eps : ℝ) (hnd : Nondeg e s N r u) (heq : ∀ x, resid e s N u x = trigEval f (Mapping.bwd e x)) :
    ∃ ρ κ N0, 0 < ρ ∧ 0 ≤ κ ∧ ∀ n, N0 ≤ n → n % 2 = 1 →
      ∃ vs : Fin n → ℂ, wnorm (r - 1) (vs - modes n e u) ≤ ρ ∧ defect e s N f vs = 0 ∧
        ∀ v : ℕ → Fin n → ℂ, wnorm (r - 1) (v 0 - modes n e u) ≤ ρ →
          (∀ k, ∃ s', IsOp s' r c ∧ IsLin e s N (fourierFun e (v k)) s' ∧ NoDrop n (Mapping.diff e) eps s' ∧
            quasi2diffmat n (Mapping.diff e) eps s' *ᵥ (v (k + 1) - v k) = defect e s N f (v k)) →
          ∀ k, wnorm (r - 1) (v k - modes n e u) ≤ ρ ∧
            wnorm (r - 1) (v k - vs) ≤ (1 / 4) ^ k * wnorm (r - 1) (v 0 - vs) ∧
            wnorm (r - 1) (v (k + 1) - vs) ≤ κ * wnorm (r - 1) (v k - vs) ^ 2 := by
  obtain ⟨ρ, κ, σ, N0, hρ, hκ, _, h⟩ := C143_newton e he s r c hs N hN f u hu hper eps hnd heq
  refine ⟨ρ, κ, N0, hρ, hκ, fun n hn hodd => ?_⟩
  obtain ⟨vs, h1, h2⟩ := h n hn hodd
  obtain ⟨h3, h4⟩ := (h1 vs).mpr rfl
  refine ⟨vs, h3, h4, fun v hv0 hv => ?_⟩
  have step : ∀ k, wnorm (r - 1) (v k - modes n e u) ≤ ρ → wnorm (r - 1) (v (k + 1) - modes n e u) ≤ ρ ∧
      wnorm (r - 1) (v (k + 1) - vs) ≤ κ * wnorm (r - 1) (v k - vs) ^ 2 ∧
      wnorm (r - 1) (v (k + 1) - vs) ≤ 1 / 4 * wnorm (r - 1) (v k - vs) := by
    intro k hk
    obtain ⟨s', hs', hlin, hnodrop, hstep⟩ := hv k
    have h5 := (h2 (v k) hk s' hs' hlin hnodrop).2.2 _ hstep
    rw [add_sub_cancel] at h5
    exact ⟨h5.1.trans (by linarith), h5.2⟩
  have hall : ∀ k, wnorm (r - 1) (v k - modes n e u) ≤ ρ ∧ wnorm (r - 1) (v k - vs) ≤ (1 / 4) ^ k * wnorm (r - 1) (v 0 - vs) := by
    intro k
    induction k with
    | zero => exact ⟨hv0, by rw [pow_zero, one_mul]⟩
    | succ k ih =>
      obtain ⟨h5, _, h7⟩ := step k ih.1
      refine ⟨h5, h7.trans ?_⟩
      rw [pow_succ]
      have := ih.2
      linarith
  exact fun k => ⟨(hall k).1, (hall k).2, (step k (hall k).1).2.1⟩

/-- **C143, inexact residuals.**  If every residual is only known up to an error of size `η`, small enough, the iterates still never leave the ball, and the error
is divided by four in every step up to a multiple of `η`, so that it ends up below a constant times `η`. -/
theorem C143_inexact (eps : ℝ) (hnd : Nondeg e s N r u) (heq : ∀ x, resid e s N u x = trigEval f (Mapping.bwd e x)) :
    ∃ ρ σ N0, 0 < ρ ∧ 0 ≤ σ ∧ ∀ n, N0 ≤ n → n % 2 = 1 →
      ∃ vs : Fin n → ℂ, wnorm (r - 1) (vs - modes n e u) ≤ ρ ∧ defect e s N f vs = 0 ∧
        ∀ (v : ℕ → Fin n → ℂ) (η : ℝ), 8 * σ * η ≤ ρ → wnorm (r - 1) (v 0 - modes n e u) ≤ ρ →
          (∀ k, ∃ s', IsOp s' r c ∧ IsLin e s N (fourierFun e (v k)) s' ∧ NoDrop n (Mapping.diff e) eps s' ∧
            wnorm 0 (quasi2diffmat n (Mapping.diff e) eps s' *ᵥ (v (k + 1) - v k) - defect e s N f (v k)) ≤ η) →
          ∀ k, wnorm (r - 1) (v k - modes n e u) ≤ ρ ∧
            wnorm (r - 1) (v (k + 1) - vs) ≤ 1 / 4 * wnorm (r - 1) (v k - vs) + σ * η ∧
            wnorm (r - 1) (v k - vs) ≤ (1 / 4) ^ k * wnorm (r - 1) (v 0 - vs) + 4 / 3 * σ * η := by
  obtain ⟨ρ, κ, σ, N0, hρ, hκ, hσ, h⟩ := C143_newton e he s r c hs N hN f u hu hper eps hnd heq
  refine ⟨ρ, σ, N0, hρ, hσ, fun n hn hodd => ?_⟩
  obtain ⟨vs, h1, h2⟩ := h n hn hodd
  obtain ⟨h3, h4⟩ := (h1 vs).mpr rfl
  refine ⟨vs, h3, h4, fun v η hη hv0 hv => ?_⟩
  have hadd : ∀ q (a b : Fin n → ℂ), wnorm q (a + b) ≤ wnorm q a + wnorm q b := by
    intro q a b
    unfold wnorm
    rw [← sum_add_distrib]
    apply sum_le_sum
    intro i _
    rw [Pi.add_apply, ← mul_add]
    gcongr
    exact norm_add_le _ _
  have hmono : ∀ a : Fin n → ℂ, wnorm (r - 1) a ≤ wnorm r a := by
    intro a
    rw [wnorm_eq, wnorm_eq]
    exact W_mono _ _ (Nat.sub_le _ _) _
  have step : ∀ k, wnorm (r - 1) (v k - modes n e u) ≤ ρ → wnorm (r - 1) (v (k + 1) - modes n e u) ≤ ρ ∧
      wnorm (r - 1) (v (k + 1) - vs) ≤ 1 / 4 * wnorm (r - 1) (v k - vs) + σ * η := by
    intro k hk
    obtain ⟨s', hs', hlin, hnodrop, hstep⟩ := hv k
    obtain ⟨g1, g2, g3⟩ := h2 (v k) hk s' hs' hlin hnodrop
    obtain ⟨δ, hδ, _⟩ := g1 (defect e s N f (v k))
    obtain ⟨g4, _, g6⟩ := g3 δ hδ
    have g7 := g2 (v (k + 1) - v k - δ)
    rw [mulVec_sub, hδ] at g7
    have g8 : wnorm (r - 1) (v (k + 1) - v k - δ) ≤ σ * η := (hmono _).trans (g7.trans (mul_le_mul_of_nonneg_left hstep hσ))
    constructor
    · have := hadd (r - 1) (v k + δ - modes n e u) (v (k + 1) - v k - δ)
      rw [show v k + δ - modes n e u + (v (k + 1) - v k - δ) = v (k + 1) - modes n e u by abel] at this
      linarith
    · have := hadd (r - 1) (v k + δ - vs) (v (k + 1) - v k - δ)
      rw [show v k + δ - vs + (v (k + 1) - v k - δ) = v (k + 1) - vs by abel] at this
      linarith
  have hη0 : 0 ≤ σ * η := by
    obtain ⟨s', _, _, _, hstep⟩ := hv 0
    refine mul_nonneg hσ (le_trans ?_ hstep)
    unfold wnorm
    positivity
  have hall : ∀ k, wnorm (r - 1) (v k - modes n e u) ≤ ρ ∧ wnorm (r - 1) (v k - vs) ≤ (1 / 4) ^ k * wnorm (r - 1) (v 0 - vs) + 4 / 3 * σ * η := by
    intro k
    induction k with
    | zero => exact ⟨hv0, by rw [pow_zero, one_mul]; linarith⟩
    | succ k ih =>
      obtain ⟨h5, h7⟩ := step k ih.1
      refine ⟨h5, h7.trans ?_⟩
      rw [pow_succ]
      have := ih.2
      linarith
  exact fun k => ⟨(hall k).1, (step k (hall k).1).2, (hall k).2⟩

/-- **C143, Newton's method can be carried out.**  If no entry is dropped from the matrices (`eps ≤ 0`) then from every starting vector within the distance `ρ`
there is exactly one sequence as in the previous theorem; its steps are the unique solutions of the linear systems. -/
theorem C143_run (eps : ℝ) (heps : eps ≤ 0) (hnd : Nondeg e s N r u) (heq : ∀ x, resid e s N u x = trigEval f (Mapping.bwd e x)) :
    ∃ ρ N0, 0 < ρ ∧ ∀ n, N0 ≤ n → n % 2 = 1 → ∀ v0 : Fin n → ℂ, wnorm (r - 1) (v0 - modes n e u) ≤ ρ →
      ∃! v : ℕ → Fin n → ℂ, v 0 = v0 ∧ ∀ k, ∃ s', IsOp s' r c ∧ IsLin e s N (fourierFun e (v k)) s' ∧ NoDrop n (Mapping.diff e) eps s' ∧
        quasi2diffmat n (Mapping.diff e) eps s' *ᵥ (v (k + 1) - v k) = defect e s N f (v k) := by
  obtain ⟨ρ, κ, σ, N0, hρ, hκ, _, h⟩ := C143_newton e he s r c hs N hN f u hu hper eps hnd heq
  refine ⟨ρ, N0, hρ, fun n hn hodd v0 hv0 => ?_⟩
  obtain ⟨vs, h1, h2⟩ := h n hn hodd
  have hnodrop : ∀ s', NoDrop n (Mapping.diff e) eps s' := fun s' i j => Or.inr (heps.trans (norm_nonneg _))
  have hstep : ∀ v : Fin n → ℂ, ∃ v' : Fin n → ℂ, wnorm (r - 1) (v - modes n e u) ≤ ρ → wnorm (r - 1) (v' - modes n e u) ≤ ρ ∧
      ∃ s', IsOp s' r c ∧ IsLin e s N (fourierFun e v) s' ∧ NoDrop n (Mapping.diff e) eps s' ∧
        quasi2diffmat n (Mapping.diff e) eps s' *ᵥ (v' - v) = defect e s N f v := by
    intro v
    by_cases hv : wnorm (r - 1) (v - modes n e u) ≤ ρ
    · obtain ⟨s', hs', _, _, hlin⟩ := C143_linearisation e s r c hs N hN n hodd v
      obtain ⟨h3, _, h4⟩ := h2 v hv s' hs' hlin (hnodrop s')
      obtain ⟨δ, hδ, _⟩ := h3 (defect e s N f v)
      exact ⟨v + δ, fun _ => ⟨(h4 δ hδ).1.trans (by linarith), s', hs', hlin, hnodrop s', by rwa [add_sub_cancel_left]⟩⟩
    · exact ⟨v, fun h => absurd h hv⟩
  choose g hg using hstep
  have hin : ∀ k, wnorm (r - 1) (g^[k] v0 - modes n e u) ≤ ρ := by
    intro k
    induction k with
    | zero => exact hv0
    | succ k ih =>
      rw [Function.iterate_succ_apply']
      exact (hg _ ih).1
  refine ⟨fun k => g^[k] v0, ⟨rfl, fun k => ?_⟩, ?_⟩
  · have h3 := (hg _ (hin k)).2
    rw [← Function.iterate_succ_apply' g k v0] at h3
    exact h3
  · rintro v ⟨hv0', hv⟩
    funext k
    induction k with
    | zero => exact hv0'
    | succ k ih =>
      obtain ⟨s1, hs1, hlin1, hnd1, hst1⟩ := hv k
      obtain ⟨s2, hs2, hlin2, hnd2, hst2⟩ := (hg _ (hin k)).2
      rw [ih] at hlin1 hst1
      have h3 : quasi2diffmat n (Mapping.diff e) eps s1 = quasi2diffmat n (Mapping.diff e) eps s2 := by
        rw [nodrop hnd1, nodrop hnd2]
        apply Matrix.ext_of_mulVec_single
        intro i
        funext j
        rw [matrix_co e he s1 r c hs1 hodd, matrix_co e he s2 r c hs2 hodd]
        congr 1
        apply ev_inj
        intro y
        have h4 := hlin1 (fn e (toCo (Pi.single i 1))) (fn_contDiff e _) (fn_periodic e he _) (Mapping.fwd e y)
        have h5 := hlin2 (fn e (toCo (Pi.single i 1))) (fn_contDiff e _) (fn_periodic e he _) (Mapping.fwd e y)
        have h6 := h4.unique h5
        rwa [applyOp_fn e he s1 r c hs1, applyOp_fn e he s2 r c hs2, bwd_fwd e he] at h6
      obtain ⟨δ, _, hδ⟩ := (h2 _ (hin k) s2 hs2 hlin2 hnd2).1 (defect e s N f (g^[k] v0))
      have h7 := hδ _ (by rw [← h3]; exact hst1)
      have h8 := hδ _ hst2
      show v (k + 1) = g^[k + 1] v0
      rw [Function.iterate_succ_apply']
      exact sub_left_injective (h7.trans h8.symm)

omit he hs hN hu hper in
/-- the hypotheses hold for `-u'' + u + u³ = 2` on `[-1, 1]` and its solution `1` -/
theorem FNw.cubic : let N : NL := .mul (.d 0) (.mul (.d 0) (.d 0))
    IsOp helm 2 (-(1 : ℝ)) ∧ N.Below 2 ∧ ContDiff ℝ ∞ (fun _ : ℝ => (1 : ℂ)) ∧ Function.Periodic (fun _ : ℝ => (1 : ℂ)) (Mapping.diff ⟨-1, 1⟩) ∧
      Nondeg ⟨-1, 1⟩ helm N 2 (fun _ => 1) ∧ ∀ x, resid ⟨-1, 1⟩ helm N (fun _ => 1) x = trigEval [2] (Mapping.bwd ⟨-1, 1⟩ x) := by
  intro N
  have hh := (C129_elliptic ⟨-1, 1⟩ (by norm_num) 1 1 0 one_pos [0] [1] [0] [0] (by simp) (fun y => by simp [trigEval])
    (fun y => by simp [trigEval, trigMode, wave]) (fun y => by simp [trigEval]) one_pos).1
  have h4 := (C129_elliptic ⟨-1, 1⟩ (by norm_num) 1 4 0 one_pos [0] [4] [0] [0] (by simp) (fun y => by simp [trigEval])
    (fun y => by simp [trigEval, trigMode, wave]) (fun y => by simp [trigEval]) (by norm_num)).2
  have hN : N.Below 2 := by simp [N, NL.Below]
  have hu : ContDiff ℝ ∞ (fun _ : ℝ => (1 : ℂ)) := contDiff_const
  refine ⟨hh, hN, hu, fun x => rfl, fun w hw hper h0 => h4 w hw hper fun x => ?_, fun x => ?_⟩
  · have h1 := (h0 x).unique (resid_deriv ⟨-1, 1⟩ helm 2 _ hh N hN (fun _ => 1) w contDiff_const hw x)
    simp only [N, NL.dval, NL.val, iteratedDeriv_zero, one_mul] at h1
    refine Eq.trans ?_ h1.symm
    simp [applyOp, helm, coefFun, sum_range_succ, trigEval, trigMode, wave]
    ring
  · simp [resid, N, NL.val, applyOp, helm, coefFun, sum_range_succ, trigEval, trigMode, wave, aggregate, iteratedDeriv_succ]
    norm_num

end Funpy.Props
