import Verif.Props.IntegroDiff
import Verif.Props.EndToEnd
import Mathlib.Analysis.SpecialFunctions.Integrals.Basic

/-!
# C142: boundary value problems with integral terms, the solver, the criterion, instances
-/

namespace Funpy.Props
open Spec Cheb UltraS OpDisc Matrix Finset Sect WPos CoefNorm Cvg OdeP Ide Adaptive Newton E2E
open scoped ContDiff

/-- **C142, the adaptive solver** solves uniquely solvable problems with integral terms, as in C133. -/
theorem C142_adaptive (e : Ends) (he : e.e0 < e.e1) (s : UltraS.Source) (r : ℕ) (c eps : ℝ) (hs : IsIDE s r c) (bcs : List BC) (hsq : bcs.length = r)
    (hb : ∀ b ∈ bcs, BC.PointsIn e b ∧ BC.Mentions b ∧ OrdLt r b) (hu : UniqueSol e s r bcs) (N0 : ℕ) (hfit : ∀ n, N0 ≤ n → Ide.Fits n s)
    (f g : List ℝ) (hg : g.length = r) :
    ∃ u : ℝ → ℝ, ContDiff ℝ r u ∧ (∀ y ∈ Set.Icc e.e0 e.e1, applyLin e s u y = chebEval f (Mapping.bwd e y)) ∧
      (∀ k (hk : k < bcs.length), BC.sem u bcs[k] - BC.sem (fun _ => 0) bcs[k] = g.getD k 0) ∧
      ∀ δ > 0, ∃ N, ∀ (cc : SolveArgs) (method : String), Allowed cc method → ∀ E, IsBvpEnv e s r eps bcs f g cc method E →
        ∀ (nMin nMax : ℕ) (tol : ℝ) (up maxFail : ℕ) (st : List ℝ), N ≤ st.length → min 7 nMin ≤ nMax →
          ∃ w it, Adaptive.solve E nMin nMax tol up maxFail false st.length st = some (w, true, it) ∧ it ≤ 2 ∧
            ∀ j ≤ r, ∀ y ∈ Set.Icc e.e0 e.e1, |iteratedDeriv j (asFun e w) y - iteratedDeriv j u y| ≤ δ := by
  obtain ⟨u, h1, h2, h3, h4⟩ := C142_solves e he s r c eps hs bcs hsq hb hu N0 hfit f g hg
  exact ⟨u, h1, h2, h3, fun δ hδ => adaptive_of_conv e s r eps bcs f g hg u h4 δ hδ⟩

lemma Ide.applyLin_one (e : Ends) (s : UltraS.Source) (p q : List ℝ) (hi : s.integral = [(p, q)]) (w : ℝ → ℝ) (y : ℝ) :
    applyLin e s w y = applyLin e (ode s) w y + chebEval p (Mapping.bwd e y) * ∫ t in e.e0..e.e1, chebEval q (Mapping.bwd e t) * w t := by
  rw [applyLin_split, hi]
  simp

lemma Ide.applyLin_smul (e : Ends) (s : UltraS.Source) (r : ℕ) (c : ℝ) (hs : IsODE s r c) (w : ℝ → ℝ) (t : ℝ) (y : ℝ) :
    applyLin e s (fun y => t * w y) y = t * applyLin e s w y := by
  rw [applyLin_eq e s r c hs, applyLin_eq e s r c hs]
  unfold OdeStab.Lin
  rw [_root_.mul_add, mul_sum]
  have h : ∀ j, iteratedDeriv j (fun y => t * w y) y = t * iteratedDeriv j w y := fun j =>
    iteratedDeriv_const_mul_field t w
  congr 1
  · rw [h]; ring
  · exact sum_congr rfl fun j _ => by rw [h]; ring

lemma Ide.jetF_smul (w : ℝ → ℝ) (t : ℝ) (b : BC) : jetF (fun j => iteratedDeriv j (fun y => t * w y)) b = t * jetF (fun j => iteratedDeriv j w) b := by
  induction b with
  | ev f y => exact iteratedDeriv_const_mul_field t w
  | const c => simp only [jetF]; ring
  | add a b iha ihb => simp only [jetF]; rw [iha, ihb]; ring
  | sub a b iha ihb => simp only [jetF]; rw [iha, ihb]; ring
  | neg a iha => simp only [jetF]; rw [iha]; ring
  | smul c a iha => simp only [jetF]; rw [iha]; ring

/-- **C142, one integral term.**  If the problem without the integral term is uniquely solvable, and `w0` solves it with the right-hand side `p` and
homogeneous conditions, then the problem with the term `p ∫ q u` is uniquely solvable exactly if `1 + ∫ q w0 ≠ 0`. -/
theorem C142_rank_one (e : Ends) (he : e.e0 < e.e1) (s : UltraS.Source) (r : ℕ) (c : ℝ) (hs : IsIDE s r c) (p q : List ℝ) (hi : s.integral = [(p, q)])
    (bcs : List BC) (ho : ∀ b ∈ bcs, OrdLt r b) (hu : UniqueSol e (ode s) r bcs) (w0 : ℝ → ℝ) (hw : ContDiff ℝ r w0) (hb : HomBC bcs w0)
    (h0 : ∀ y ∈ Set.Icc e.e0 e.e1, applyLin e (ode s) w0 y = chebEval p (Mapping.bwd e y)) :
    UniqueSol e s r bcs ↔ 1 + ∫ t in e.e0..e.e1, chebEval q (Mapping.bwd e t) * w0 t ≠ 0 := by
  constructor
  · intro h h1
    have hz := h w0 hw hb fun y hy => by
      rw [applyLin_one e s p q hi, h0 y hy, ← mul_one_add, h1, mul_zero]
    have : ∫ t in e.e0..e.e1, chebEval q (Mapping.bwd e t) * w0 t = 0 := by
      rw [intervalIntegral.integral_congr (g := fun _ => (0:ℝ)) fun t ht => by
        rw [Set.uIcc_of_le he.le] at ht
        simp only
        rw [hz t ht, mul_zero]]
      simp
    rw [this] at h1
    norm_num at h1
  · intro h1 w hw' hb' hL y hy
    set τ := ∫ t in e.e0..e.e1, chebEval q (Mapping.bwd e t) * w t with hτ
    have hsw : ContDiff ℝ r (fun y => -τ * w0 y) := contDiff_const.mul hw
    have key : ∀ y ∈ Set.Icc e.e0 e.e1, w y = -τ * w0 y := by
      intro y hy
      have := hu (fun y => w y - -τ * w0 y) (hw'.sub hsw) (fun b hbm => by
        have e1 := hb b hbm
        have e2 := hb' b hbm
        rw [bc_sem] at e1 e2 ⊢
        rw [jetF_sub r w _ hw' hsw b (ho b hbm), jetF_smul, e1, e2]
        ring) (fun y hy => by
        rw [applyLin_sub e (ode s) r c hs.ode w _ hw' hsw, applyLin_smul e (ode s) r c hs.ode, h0 y hy]
        have := hL y hy
        rw [applyLin_one e s p q hi, ← hτ] at this
        linarith) y hy
      linarith
    have h2 : τ = -τ * ∫ t in e.e0..e.e1, chebEval q (Mapping.bwd e t) * w0 t := by
      rw [← intervalIntegral.integral_const_mul]
      conv_lhs => rw [hτ]
      exact intervalIntegral.integral_congr fun t ht => by
        rw [Set.uIcc_of_le he.le] at ht
        rw [key t ht]
        ring
    have h3 : τ = 0 := by
      have : τ * (1 + ∫ t in e.e0..e.e1, chebEval q (Mapping.bwd e t) * w0 t) = 0 := by linarith
      exact (mul_eq_zero.mp this).resolve_right h1
    rw [key y hy, h3]
    ring

/-! ### Instances -/

/-- `u' + k ∫ u`. -/
noncomputable def Ide.meanOp (k : ℝ) : UltraS.Source := ⟨[(false, []), (true, [1])], [([k], [1])]⟩

lemma Ide.meanOp_ide (k : ℝ) : IsIDE (meanOp k) 1 1 := ⟨le_rfl, one_ne_zero, rfl, rfl⟩

lemma Ide.meanOp_fits (k : ℝ) (n : ℕ) (hn : 2 ≤ n) : Ide.Fits n (meanOp k) := by
  refine ⟨fun j hj hf => ?_, fun p hp => ?_⟩
  · simp only [meanOp, List.length_cons, List.length_nil] at hj
    interval_cases j
    · simp [meanOp] at hf
    · exact ⟨Or.inl (by simp [meanOp]), by simp [meanOp]; omega⟩
  · simp only [meanOp, List.mem_singleton] at hp
    subst hp
    exact ⟨Or.inl (by simp), by simp; omega, Or.inl (by simp), by simp; omega⟩

lemma Ide.one_eval (k y : ℝ) : chebEval [k] y = k := by simp [chebEval]

/-- **C142, an example of the criterion**: the initial value problem `u' + k ∫ u = f`, `u(a) = α` on `[a, b]` is uniquely solvable if and only if
`1 + k (b - a)² / 2 ≠ 0`. -/
theorem C142_mean (e : Ends) (he : e.e0 < e.e1) (k : ℝ) (α : ℕ → ℝ) :
    UniqueSol e (meanOp k) 1 (initial e 1 α) ↔ 1 + k * (e.e1 - e.e0) ^ 2 / 2 ≠ 0 := by
  have hd : deriv (fun y : ℝ => k * (y - e.e0)) = fun _ => k := by
    funext y
    rw [deriv_const_mul _ (by fun_prop), deriv_sub_const, deriv_id'', mul_one]
  rw [C142_rank_one e he (meanOp k) 1 1 (meanOp_ide k) [k] [1] rfl (initial e 1 α) (fun b h => (initial_ok e he 1 α b h).2.2)
    (C127_initial e he (ode (meanOp k)) 1 1 (meanOp_ide k).ode α).1 (fun y => k * (y - e.e0)) (by fun_prop)
    (fun b h => by
      simp only [initial, List.range_one, List.map_cons, List.map_nil, List.mem_singleton] at h
      subst h
      simp [BC.sem, dpow, FE.sem])
    (fun y _ => by
      simp [applyLin, ode, meanOp, one_eval, iteratedDeriv_one])]
  have : ∫ t in e.e0..e.e1, chebEval [1] (Mapping.bwd e t) * (k * (t - e.e0)) = k * (e.e1 - e.e0) ^ 2 / 2 := by
    simp only [one_eval, one_mul]
    rw [intervalIntegral.integral_const_mul, intervalIntegral.integral_comp_sub_right (fun t => t), integral_id]
    ring
  rw [this]

/-- The hypotheses of `C142_solves` hold for `u' + ∫ u = f`, `u(0) = α` on `[0, 1]`. -/
example (α : ℕ → ℝ) (f : List ℝ) (g0 : ℝ) : ∃ u : ℝ → ℝ, ContDiff ℝ 1 u ∧
    (∀ y ∈ Set.Icc (0:ℝ) 1, deriv u y + ∫ t in (0:ℝ)..1, u t = chebEval f (Mapping.bwd ⟨0, 1⟩ y)) ∧
    ∀ t : ℕ, ∃ C N, ∀ (n : ℕ), N ≤ n → ∃ M, OpDisc.matrix (⟨⟨0, 1⟩, 1, 0, meanOp 1, initial ⟨0, 1⟩ 1 α⟩ : Disc n) = some M ∧
      ∃! x : Fin n → ℝ, M.map (· ⬝ᵥ x) = projectVector (⟨⟨0, 1⟩, 1, 0, meanOp 1, initial ⟨0, 1⟩ 1 α⟩ : Disc n) [g0] (fun i => f.getD i 0) ∧
        ∀ y ∈ Set.Icc (0:ℝ) 1, |funOf ⟨0, 1⟩ x y - u y| ≤ C / (n : ℝ) ^ t := by
  have he : (⟨0, 1⟩ : Ends).e0 < (⟨0, 1⟩ : Ends).e1 := by norm_num
  obtain ⟨u, h1, h2, h3, h4⟩ := C142_solves ⟨0, 1⟩ he (meanOp 1) 1 1 0 (meanOp_ide 1) (initial ⟨0, 1⟩ 1 α) (by simp [initial]) (initial_ok ⟨0, 1⟩ he 1 α)
    ((C142_mean ⟨0, 1⟩ he 1 α).2 (by norm_num)) 2 (meanOp_fits 1) f [g0] rfl
  refine ⟨u, by exact_mod_cast h1, fun y hy => ?_, fun t => ?_⟩
  · rw [← h2 y hy]
    simp [applyLin, meanOp, one_eval, iteratedDeriv_one]
  obtain ⟨C, N, h⟩ := h4 t
  refine ⟨C, N, fun n hn => ?_⟩
  obtain ⟨M, hM, -, ⟨x, hx, hx2⟩, hcv⟩ := h n hn
  refine ⟨M, hM, x, ⟨hx, fun y hy => ?_⟩, fun z hz => hx2 z hz.1⟩
  have := hcv x hx 0 (by norm_num) y hy
  rwa [iteratedDeriv_zero, iteratedDeriv_zero] at this

/-- **C142, initial value problems with integral terms need not be solvable**, in contrast to those without (C127): for `u' - 2 ∫ u`, `u(0) = 0` on
`[0, 1]` the homogeneous problem has the solution `y`, and the matrices of all sizes annihilate its coefficients. -/
theorem C142_initial_singular (n : ℕ) (hn : 2 ≤ n) :
    ¬ UniqueSol ⟨0, 1⟩ (meanOp (-2)) 1 (initial ⟨0, 1⟩ 1 0) ∧
    ∃ M, OpDisc.matrix (⟨⟨0, 1⟩, 1, 0, meanOp (-2), initial ⟨0, 1⟩ 1 0⟩ : Disc n) = some M ∧
      ∃ x : Fin n → ℝ, x ≠ 0 ∧ ∀ row ∈ M, row ⬝ᵥ x = 0 := by
  have he : (⟨0, 1⟩ : Ends).e0 < (⟨0, 1⟩ : Ends).e1 := by norm_num
  refine ⟨fun h => (C142_mean ⟨0, 1⟩ he (-2) 0).1 h (by norm_num), ?_⟩
  let x : Fin n → ℝ := fun i => if (i : ℕ) < 2 then 1 / 2 else 0
  have hfun : funOf ⟨0, 1⟩ x = fun y => y := by
    funext y
    have : chebEval (List.ofFn x) (Mapping.bwd ⟨0, 1⟩ y) = chebEval [1 / 2, 1 / 2] (Mapping.bwd ⟨0, 1⟩ y) := by
      apply chebEval_congr_getD
      intro k
      by_cases hk : k < n
      · rw [getD_lt' _ _ _ (by simpa using hk), List.getElem_ofFn]
        by_cases h2 : k < 2
        · interval_cases k <;> simp [x]
        · rw [List.getD_eq_default _ _ (by simp; omega)]
          simp [x]; omega
      · rw [List.getD_eq_default _ _ (by simpa using hk), List.getD_eq_default _ _ (by simp; omega)]
    rw [funOf, this]
    simp [chebEval, sum_range_succ, Mapping.bwd, Mapping.diff]
    ring
  obtain ⟨M, hM, hsol⟩ := C98_consistent_partial (⟨⟨0, 1⟩, 1, 0, meanOp (-2), initial ⟨0, 1⟩ 1 0⟩ : Disc n) hn he
    (fun b h => ⟨(initial_ok _ he 1 0 b h).1, (initial_ok _ he 1 0 b h).2.1⟩)
    (by simp [meanOp]) [0] (by simp [initial]) 0 x 2 (fun i hi => by simp [x]; omega) (by
      refine ⟨fun j hj hf => ?_, fun p hp => ?_⟩
      · simp only [meanOp, List.length_cons, List.length_nil] at hj
        interval_cases j
        · simp [meanOp] at hf
        · exact ⟨Or.inl (by simp [meanOp]), by simp [meanOp]; omega⟩
      · simp only [meanOp, List.mem_singleton] at hp
        subst hp
        exact ⟨Or.inl (by simp), by simp; omega, Or.inl (by simp), by simp; omega⟩) (fun k hk => by
      simp only [initial, List.length_map, List.length_range] at hk
      interval_cases k
      rw [hfun]
      simp [initial, BC.sem, dpow, FE.sem]) (fun y => by
      simp only [hfun]
      simp [applyLin, meanOp, one_eval, iteratedDeriv_one]
      rw [funOf]
      have : ∀ z, chebEval (List.ofFn (0 : Fin n → ℝ)) z = chebEval [] z := fun z => by
        apply chebEval_congr_getD
        intro k
        by_cases hk : k < n
        · rw [getD_lt' _ _ _ (by simpa using hk), List.getElem_ofFn]
          simp
        · rw [List.getD_eq_default _ _ (by simpa using hk), List.getD_eq_default _ _ (by simp)]
      rw [this]
      norm_num [chebEval])
  refine ⟨M, hM, x, fun h => ?_, fun row hrow => ?_⟩
  · have := congrFun h ⟨0, by omega⟩
    simp [x] at this
  · have h1 : row ⬝ᵥ x ∈ M.map (· ⬝ᵥ x) := List.mem_map_of_mem hrow
    rw [hsol] at h1
    simp only [projectVector, keepRows, Matrix.mulVec_zero, List.mem_append, List.mem_singleton, List.mem_map] at h1
    rcases h1 with h1 | ⟨i, -, h1⟩
    · exact h1
    · exact h1.symm

end Funpy.Props
