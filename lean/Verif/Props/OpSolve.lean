import Verif.Model.OpSolve
import Verif.Props.OpObj
import Verif.Props.EndToEnd

/-!
# C139: `ChebOp.solve`
-/

namespace Funpy.Props
open Funpy.OpEval Funpy.Cheb Spec Finset Mapping

/-! ### Specification -/

/-- `h` is `f` with every column cut off after `k` coefficients (the same `k` for all columns), where no coefficient that was cut off is larger
than `δ`. -/
def CutTo (δ : ℝ) (f h : ChebFun) : Prop :=
  h.dom = f.dom ∧ h.onefun.coeffs.cols.length = f.onefun.coeffs.cols.length ∧
  ∃ k : ℕ, 1 ≤ k ∧ ∀ j (hj : j < f.onefun.coeffs.cols.length), ∃ d, h.onefun.coeffs.cols[j]? = some d ∧
    (∀ i < k, d.getD i 0 = f.onefun.coeffs.cols[j].getD i 0) ∧ (∀ i, k ≤ i → d.getD i 0 = 0) ∧ ∀ i, k ≤ i → |f.onefun.coeffs.cols[j].getD i 0| ≤ δ

/-! ### Proofs -/

lemma tidy_cut (meps : ℝ) (h0 : 0 < meps) (h1 : meps < 1) (f : ChebFun) (hf : f.onefun.Proper) : CutTo (meps ^ ((1 : ℝ) / 3)) f (tidy meps f) := by
  unfold tidy NewtonMat.simplifyFun
  split_ifs with h
  · obtain ⟨k, k1, -, -, kl, hk⟩ := C22_prefix f.onefun.coeffs hf.wf meps h0 h1
    refine ⟨rfl, kl, k, k1, fun j hj => ?_⟩
    obtain ⟨d, hd, hl, hsame, hdrop⟩ := hk j hj
    exact ⟨d, hd, hsame, fun i hi => List.getD_eq_default _ _ (by omega), hdrop⟩
  · refine ⟨rfl, rfl, max 1 f.onefun.coeffs.n, le_max_left _ _, fun j hj => ⟨_, List.getElem?_eq_getElem hj, fun _ _ => rfl, fun i hi => ?_, fun i hi => ?_⟩⟩
    · have := hf.wf _ (List.getElem_mem hj)
      exact List.getD_eq_default _ _ (by omega)
    · have := hf.wf _ (List.getElem_mem hj)
      rw [List.getD_eq_default _ _ (by omega), abs_zero]
      positivity

lemma tidy_flag (meps : ℝ) (f : ChebFun) : (tidy meps f).onefun.ishappy = f.onefun.happy.1 ∧
    (f.onefun.happy.1 = false → (tidy meps f).onefun.coeffs = f.onefun.coeffs) ∧
    (f.onefun.happy.1 = true → (tidy meps f).onefun.coeffs = simplifyCoeffs f.onefun.coeffs meps) := by
  unfold tidy NewtonMat.simplifyFun
  split_ifs with h
  · exact ⟨rfl, fun h' => by simp only [] at h; rw [h] at h'; exact absurd h' (by simp), fun _ => rfl⟩
  · exact ⟨rfl, fun _ => rfl, fun h' => absurd h' h⟩

/-- C139: what `op.solve` returns.  If the solver ends in a state whose function is `f`, the returned flag is that of the solver, the returned residual is
`op.residual(f)`, and the returned function is `f` without negligible trailing coefficients: none that was dropped is larger than `meps^(1/3)`.  Whether anything is
dropped is decided by a fresh happiness check of `f`, not by the flag stored in it, and the result of that check is stored in the returned function.  With
`state=True` the returned state holds the same function, and everything else of it is as the solver left it. -/
theorem C139_returns (eig : List ℝ → List ℂ) (fuel : ℕ) (eps meps : ℝ) (h0 : 0 < meps) (h1 : meps < 1)
    (run : Op → VS.State ChebFun ℝ → Option (VS.State ChebFun ℝ × Bool × Op)) (op op1 op2 : Op) (g : Guess) (p : ℤ) (s0 s : VS.State ChebFun ℝ) (ok : Bool)
    (f : ChebFun) (res : ℝ) (hs : op.initState eps g = some s0)
    (hrun : run { op with linSys := op.linSys.map fun L => L.setParameters (VS.items s0) } s0 = some (s, ok, op1)) (hf : s.funcs[0]? = some f)
    (hp : f.onefun.Proper) (hres : op1.residual eig fuel eps (.fn f) = some (res, op2)) :
    ∃ r, op.solve eig fuel eps meps run g ⟨.fin p, false⟩ = some r ∧ r.success = ok ∧ r.res = res ∧ r.op = op2 ∧
      CutTo (meps ^ ((1 : ℝ) / 3)) f r.soln ∧ r.soln.onefun.ishappy = f.onefun.happy.1 ∧
      (f.onefun.happy.1 = false → r.soln.onefun.coeffs = f.onefun.coeffs) ∧
      (f.onefun.happy.1 = true → r.soln.onefun.coeffs = simplifyCoeffs f.onefun.coeffs meps) ∧ r.state.funcs[0]? = some r.soln ∧ (∀ i, i ≠ 0 → r.state.funcs[i]? = s.funcs[i]?) ∧
      r.state.reals = s.reals ∧ r.state.weights = s.weights ∧ r.state.ns = s.ns := by
  refine ⟨⟨tidy meps f, { s with funcs := s.funcs.set 0 (tidy meps f) }, ok, res, op2⟩, ?_, rfl, rfl, rfl, tidy_cut meps h0 h1 f hp, (tidy_flag meps f).1,
    (tidy_flag meps f).2.1, (tidy_flag meps f).2.2, ?_, ?_, rfl, rfl, rfl⟩
  · simp only [Op.solve, Bool.false_eq_true, if_false, hs, Option.bind_eq_bind, Option.bind_some, Arg.items, hrun, hf, hres]
  · rw [List.getElem?_set]
    have : 0 < s.funcs.length := by
      by_contra hc
      rw [List.getElem?_eq_none (by omega)] at hf
      exact absurd hf (by simp)
    simp [this]
  · intro i hi
    show (s.funcs.set 0 _)[i]? = _
    rw [List.getElem?_set_ne (Ne.symm hi)]

/-- C139: the initial state: nothing given: as many zero functions as equations on the domain of the operator; a function: that function; both with
the parameters of the operator; a state: that state. -/
theorem C139_guess (eps : ℝ) (op : Op) (h : op.eqn ≠ []) :
    (∃ s f, op.initState eps .zero = some s ∧ s.funcs = [f] ∧ f.dom = op.dom ∧ (∀ x, vals f x = List.replicate op.eqn.length 0) ∧ s.ns = op.params ∧ s.reals = []) ∧
    (∀ f, ∃ s, op.initState eps (.fn f) = some s ∧ s.funcs = [f] ∧ s.ns = op.params ∧ s.reals = []) ∧
    ∀ s, op.initState eps (.st s) = some s := by
  refine ⟨?_, fun f => ⟨_, rfl, rfl, rfl, rfl⟩, fun s => rfl⟩
  have hz : (⟨1, List.replicate op.eqn.length [0]⟩ : Arr ℝ).n * (⟨1, List.replicate op.eqn.length [0]⟩ : Arr ℝ).m ≠ 0 := by
    simpa [Arr.m] using h
  obtain ⟨t, ht, -, -, -, -, hc⟩ := mk'_some (⟨1, List.replicate op.eqn.length [0]⟩ : Arr ℝ) hz eps false false (ChebFun.hscale op.dom) (1 + 2 ^ 14)
  simp only [Bool.false_and, Bool.false_eq_true, if_false] at hc
  refine ⟨_, ⟨op.dom, t⟩, by simp only [Op.initState, zerosFun, ht, Option.bind_eq_bind, Option.bind_some]; rfl, rfl, rfl, fun x => ?_, rfl, rfl⟩
  simp [vals, hc, chebEval]

/-- C139: the change made to the function that was found is at most `meps^(1/3)` per dropped coefficient, uniformly on the domain. -/
theorem C139_error {δ : ℝ} {f h : ChebFun} (hc : CutTo δ f h) (hf : f.onefun.Proper) (hd : f.dom.e0 < f.dom.e1) (hδ : 0 ≤ δ) (y : ℝ)
    (hy : y ∈ Set.Icc f.dom.e0 f.dom.e1) (j : ℕ) (hj : j < f.onefun.coeffs.m) :
    |(vals h y).getD j 0 - (vals f y).getD j 0| ≤ f.onefun.coeffs.n * δ := by
  obtain ⟨hdom, hlen, k, -, hk⟩ := hc
  obtain ⟨d, hd', hsame, hz, hdrop⟩ := hk j hj
  set x := bwd f.dom y with hx
  have hx1 : |x| ≤ 1 := Cvg.bwd_abs f.dom hd y hy
  have e1 : (vals h y).getD j 0 = chebEval d x := by
    simp only [vals, List.getD_eq_getElem?_getD, List.getElem?_map, hd', hdom]
    rfl
  have e2 : (vals f y).getD j 0 = chebEval f.onefun.coeffs.cols[j] x := by
    simp only [vals, List.getD_eq_getElem?_getD, List.getElem?_map, List.getElem?_eq_getElem hj]
    rfl
  set c := f.onefun.coeffs.cols[j] with hcdef
  have hcl : c.length = f.onefun.coeffs.n := hf.wf _ (List.getElem_mem hj)
  have hzero : ∀ i, f.onefun.coeffs.n ≤ i → d.getD i 0 = 0 := by
    intro i hi
    by_cases h : i < k
    · rw [hsame i h]; exact List.getD_eq_default _ _ (by omega)
    · exact hz i (by omega)
  have hle : d.length ≤ max d.length f.onefun.coeffs.n := le_max_left _ _
  rw [e1, e2, chebEval_eq_of_getD d (max d.length f.onefun.coeffs.n) hle, chebEval_eq_of_getD c (max d.length f.onefun.coeffs.n) (by omega), ← sum_sub_distrib]
  have hcut : ∑ i ∈ range (max d.length f.onefun.coeffs.n), (d.getD i 0 * (Polynomial.Chebyshev.T ℝ (i : ℤ)).eval x - c.getD i 0 * (Polynomial.Chebyshev.T ℝ (i : ℤ)).eval x)
      = ∑ i ∈ range f.onefun.coeffs.n, (d.getD i 0 * (Polynomial.Chebyshev.T ℝ (i : ℤ)).eval x - c.getD i 0 * (Polynomial.Chebyshev.T ℝ (i : ℤ)).eval x) := by
    symm
    apply sum_subset (by intro i; simp only [mem_range]; omega)
    intro i _ hi
    rw [mem_range, not_lt] at hi
    rw [hzero i hi, List.getD_eq_default _ _ (by omega)]
    simp
  rw [hcut]
  refine (abs_sum_le_sum_abs _ _).trans ((sum_le_card_nsmul _ _ δ fun i _ => ?_).trans ?_)
  · rw [← sub_mul, abs_mul]
    have hT : |(Polynomial.Chebyshev.T ℝ (i : ℤ)).eval x| ≤ 1 := Polynomial.Chebyshev.abs_eval_T_real_le_one i hx1
    by_cases h : i < k
    · rw [hsame i h, sub_self, abs_zero, zero_mul]; exact hδ
    · rw [hz i (by omega), zero_sub, abs_neg]
      calc _ ≤ δ * 1 := mul_le_mul (hdrop i (by omega)) hT (abs_nonneg _) hδ
        _ = δ := mul_one _
  · rw [card_range, nsmul_eq_mul]

/-- C139 fails: the argument `p` has no effect, except that `p=np.inf` raises after everything was computed, and so does passing a tolerance. -/
theorem C139_arguments_fails (eig : List ℝ → List ℂ) (fuel : ℕ) (eps meps : ℝ) (run : Op → VS.State ChebFun ℝ → Option (VS.State ChebFun ℝ × Bool × Op)) (op : Op)
    (g : Guess) : (∀ p q t, op.solve eig fuel eps meps run g ⟨.fin p, t⟩ = op.solve eig fuel eps meps run g ⟨.fin q, t⟩) ∧
    (∀ t, op.solve eig fuel eps meps run g ⟨.inf, t⟩ = none) ∧ ∀ p, op.solve eig fuel eps meps run g ⟨p, true⟩ = none := by
  refine ⟨fun p q t => rfl, fun t => ?_, fun p => by simp [Op.solve]⟩
  simp only [Op.solve]
  split_ifs
  · rfl
  · cases op.initState eps g with
    | none => rfl
    | some s0 =>
      simp only [Option.bind_eq_bind, Option.bind_some]
      cases run { op with linSys := op.linSys.map fun L => L.setParameters (Arg.st s0).items } s0 with
      | none => rfl
      | some r =>
        obtain ⟨s, ok, op1⟩ := r
        simp only [Option.bind_some]
        cases s.funcs[0]? with
        | none => rfl
        | some f =>
          simp only [Option.bind_some]
          cases op1.residual eig fuel eps (.fn f) with
          | none => rfl
          | some r => rfl

/-- C139 fails: the residual that is reported does not see the part of the equation beyond the current number of coefficients: if the values of all equations
only have coefficients beyond that number, the function whose norm is reported is zero. -/
theorem C139_residual_fails (eps : ℝ) {op : Op} {L : LinSys} {f : ChebFun} {cols gs : List ChebFun} {br : List ℝ}
    (S : Setting op L (.fn f) f cols gs br) (hL : L.rhs.nDisc = L.nDisc) (hn : 0 < L.nDisc) (hz : ∀ g ∈ gs, ∀ i < L.nDisc, (coef g).getD i 0 = 0) :
    ∃ v op', op.residualFun eps (.fn f) = some (v, op') ∧ ∀ y, vals v y = List.replicate gs.length 0 := by
  obtain ⟨v, op', h1, hd, hc⟩ := residualFun_eq eps S hL hn
  refine ⟨v, op', h1, fun y => ?_⟩
  have hp : ∀ g ∈ gs, prolongCol (coef g) L.nDisc = List.replicate L.nDisc 0 := by
    intro g hg
    apply List.ext_getElem
    · rw [prolongCol_length]; simp
    · intro i hi1 hi2
      rw [← getD_lt' _ (0:ℝ) _ hi1, prolongCol_getD, List.getElem_replicate]
      split_ifs with h
      · exact hz g hg i (by simpa using hi2)
      · rfl
  have hm : (gs.map fun g => prolongCol (coef g) L.nDisc) = List.replicate gs.length (List.replicate L.nDisc 0) := by
    rw [List.map_congr_left hp]; simp
  have hzero : ∀ (n : ℕ) (x : ℝ), chebEval (List.replicate n 0) x = 0 := by
    intro n x
    apply sum_eq_zero
    intro i hi
    rw [getD_lt' _ _ _ (by simpa using hi), List.getElem_replicate, zero_mul]
  rw [hm] at hc
  rcases hc with hc | hc
  · simp [vals, hc, hzero]
  · have hcols : v.onefun.coeffs.cols = List.replicate gs.length (prolongCol (List.replicate L.nDisc 0) (v.onefun.coeffs.n : ℤ)) := by
      rw [hc, simplify_eq_prolong]
      simp [prolong, Arr.mapCols]
    have : ∀ n : ℕ, prolongCol (List.replicate L.nDisc (0:ℝ)) (n : ℤ) = List.replicate n 0 := by
      intro n
      apply List.ext_getElem
      · rw [prolongCol_length]; simp
      · intro i hi1 hi2
        rw [← getD_lt' _ (0:ℝ) _ hi1, prolongCol_getD, List.getElem_replicate]
        split_ifs with h
        · by_cases hi : i < L.nDisc
          · rw [getD_lt' _ _ _ (by simpa using hi), List.getElem_replicate]
          · rw [List.getD_eq_default _ _ (by simp; omega)]
        · rfl
    rw [this] at hcols
    simp [vals, hcols, hzero]

/-- the hypotheses hold for the equation `u'' = T_2` at the function zero with two coefficients: the residual is zero, the equation is not solved -/
example (eps : ℝ) : ∃ v op', (plainOp [fun _ _ => some (colFun eps [0, 0, 1])] 2).residualFun eps (.fn (colFun eps [0])) = some (v, op') ∧ ∀ y, vals v y = [0] := by
  obtain ⟨cols, hc, hl⟩ := columns_exist (colFun eps [0]) (colFun_proper eps _ (by simp))
  have hl1 : cols.length = 1 := hl
  have S : Setting (plainOp [fun _ _ => some (colFun eps [0, 0, 1])] 2) ⟨assign (fun _ => none) [], 2, ⟨2, [fun _ _ => some (colFun eps [0, 0, 1])], none⟩, none, [], []⟩
      (.fn (colFun eps [0])) (colFun eps [0]) cols [colFun eps [0, 0, 1]] [] :=
    ⟨rfl, rfl, rfl, colFun_proper eps _ (by simp), hc, by simp [Evaluates], by simp [hl1], rfl⟩
  exact C139_residual_fails eps S rfl (by norm_num) (by
    intro g hg i hi
    rw [List.mem_singleton] at hg
    subst hg
    have hi' : i < 2 := hi
    simp only [coef, colFun, List.getD_cons_zero]
    interval_cases i <;> rfl)

open E2E Newton Adaptive UltraS OpDisc Sect WPos Cvg OdeP in
/-- **C139, end to end**: `op.solve` on a uniquely solvable linear boundary value problem with the adaptive solver (C133), started with sufficiently many
coefficients: if the norm of the residual can be computed, success is reported with a function which differs from the solution by at most `δ` plus
`meps^(1/3)` per coefficient. -/
theorem C139_bvp_partial (e : Ends) (he : e.e0 < e.e1) (s : UltraS.Source) (r : ℕ) (c eps : ℝ) (hs : IsODE s r c) (bcs : List BC) (hsq : bcs.length = r)
    (hb : ∀ b ∈ bcs, BC.PointsIn e b ∧ BC.Mentions b ∧ OrdLt r b) (hu : UniqueSol e s r bcs) (N0 : ℕ) (hfit : ∀ n, N0 ≤ n → SecFits n n s)
    (f g : List ℝ) (hg : g.length = r) :
    ∃ u : ℝ → ℝ, ContDiff ℝ r u ∧ (∀ y ∈ Set.Icc e.e0 e.e1, applyLin e s u y = chebEval f (Mapping.bwd e y)) ∧
      (∀ k (hk : k < bcs.length), BC.sem u bcs[k] - BC.sem (fun _ => 0) bcs[k] = g.getD k 0) ∧
      ∀ δ > 0, ∃ N, ∀ (cc : SolveArgs) (method : String), Allowed cc method → ∀ E, IsBvpEnv e s r eps bcs f g cc method E →
        ∀ (nMin nMax : ℕ) (tol : ℝ) (up maxFail : ℕ) (st w : List ℝ) (ok : Bool) (it : ℕ), N ≤ st.length → min 7 nMin ≤ nMax →
          Adaptive.solve E nMin nMax tol up maxFail false st.length st = some (w, ok, it) →
          ∀ (eig : List ℝ → List ℂ) (fuel : ℕ) (eps' meps : ℝ) (run : Op → VS.State ChebFun ℝ → Option (VS.State ChebFun ℝ × Bool × Op))
            (op op1 op2 : Op) (guess : Guess) (p : ℤ) (s0 s1 : VS.State ChebFun ℝ) (h : ChebFun) (res : ℝ), 0 < meps → meps < 1 →
            op.initState eps' guess = some s0 →
            run { op with linSys := op.linSys.map fun L => L.setParameters (VS.items s0) } s0 = some (s1, ok, op1) →
            s1.funcs = [h] → h.dom = e → h.onefun.coeffs = ⟨w.length, [w]⟩ → w ≠ [] → op1.residual eig fuel eps' (.fn h) = some (res, op2) →
            ∃ q, op.solve eig fuel eps' meps run guess ⟨.fin p, false⟩ = some q ∧ q.success = true ∧ q.res = res ∧
              ∀ y ∈ Set.Icc e.e0 e.e1, |(vals q.soln y).getD 0 0 - u y| ≤ δ + w.length * meps ^ ((1 : ℝ) / 3) := by
  obtain ⟨u, a1, a2, a3, a4⟩ := C133_adaptive e he s r c eps hs bcs hsq hb hu N0 hfit f g hg
  refine ⟨u, a1, a2, a3, fun δ hδ => ?_⟩
  obtain ⟨N, hN⟩ := a4 δ hδ
  refine ⟨N, fun cc method hm E hE nMin nMax tol up maxFail st w ok it hst hmin hsol eig fuel eps' meps run op op1 op2 guess p s0 s1 h res m0 m1 hi hrun hf hd hco hw
    hres => ?_⟩
  obtain ⟨w', it', b1, -, b2⟩ := hN cc method hm E hE nMin nMax tol up maxFail st hst hmin
  rw [hsol] at b1
  simp only [Option.some.injEq, Prod.mk.injEq] at b1
  obtain ⟨rfl, rfl, rfl⟩ := b1
  have hp : h.onefun.Proper := ⟨by rw [hco]; intro c hc; simp at hc; rw [hc], by rw [hco]; simpa [Arr.m] using hw⟩
  obtain ⟨q, q1, q2, q3, -, q4, -⟩ := C139_returns eig fuel eps' meps m0 m1 run op op1 op2 guess p s0 s1 true h res hi hrun (by rw [hf]; rfl) hp hres
  refine ⟨q, q1, q2, q3, fun y hy => ?_⟩
  have e1 := C139_error q4 hp (by rw [hd]; exact he) (by positivity) y (by rw [hd]; exact hy) 0 (by rw [hco]; simp [Arr.m])
  have e2 : (vals h y).getD 0 0 = asFun e w y := by simp [vals, hco, hd, asFun]
  have e3 := b2 0 (Nat.zero_le _) y hy
  simp only [iteratedDeriv_zero] at e3
  rw [e2, hco] at e1
  calc _ = |((vals q.soln y).getD 0 0 - asFun e w y) + (asFun e w y - u y)| := by congr 1; ring
    _ ≤ _ := abs_add_le _ _
    _ ≤ w.length * meps ^ ((1 : ℝ) / 3) + δ := add_le_add e1 e3
    _ = _ := add_comm _ _

end Funpy.Props
