import Verif.Props.FourierSystems

/-!
# C141: periodic systems, which systems are uniquely solvable, and the adaptive solver
-/

namespace Funpy.Props
open Spec Trig TrigSpec Matrix Finset Complex FourierStab FCv FUn FSy FEv FSs Filter Topology Newton Adaptive E2E E2P SysDisc
open scoped ContDiff

variable {d : ℕ}

/-! ### Specification -/

/-- The blocks of the system `-D_i u_i'' + p_i u_i' + q_i u_i + b0_i A u_i + b1_i (A u_i)' + ∑_{j ≠ i} k_ij u_j`. -/
def FSs.weak (D : Fin d → ℝ) (p q b0 b1 : Fin d → List ℂ) (k : Fin d → Fin d → List ℂ) (i j : Fin d) : Source :=
  if i = j then ⟨[(true, q i), (true, p i), (true, [(-D i : ℂ)])], [], [(true, b0 i), (true, b1 i)]⟩ else ⟨[(true, k i j)], [], []⟩

/-- The columns of a state whose rows are the coefficients of the `d` functions. -/
def FSs.col (l : List (Fin d → ℂ)) (i : Fin d) : List ℂ := l.map fun row => row i

/-- The rows of the state with the coefficients `x`. -/
def FSs.rows {n : ℕ} (x : Fin d → Fin n → ℂ) : List (Fin d → ℂ) := List.ofFn fun k i => x i k

/-- The environment of the adaptive solver is `Newton.solve` with the method `method` on the Fourier discretisations of the linear periodic system
`L u = f`; compare `E2P.IsPerEnv`. -/
structure FSs.IsSysEnv (e : Ends) (s : Fin d → Fin d → Source) (eps : ℝ) (f : Fin d → List ℂ) (c : SolveArgs) (method : String) (E : Env (List (Fin d → ℂ))) : Prop where
  prolong : ∀ n l i, col (E.prolong n l) i = Trig.prolongCol (col l i) n
  newton : ∀ k n st, ∃ (P : Problem (Fin d → Fin n → ℂ) (Fin d → Fin n → ℂ)) (I : InexactProblem (Fin d → Fin n → ℂ) (Fin d → Fin n → ℂ))
      (ip : (Fin d → Fin n → ℂ) → (Fin d → Fin n → ℂ) → ℝ) (fuel : ℕ),
    IsSquareForm ip ∧
    (∀ x y, matvec (trigMatrix n (Mapping.diff e) eps s) (flat x) = flat y → P.F x = y - fun i => E2P.rhsAt (f i) n) ∧
    ((∀ g : Fin d → Fin n → ℂ, ∃! v : Fin d → Fin n → ℂ, matvec (trigMatrix n (Mapping.diff e) eps s) (flat v) = flat g) →
      ∀ x y, matvec (trigMatrix n (Mapping.diff e) eps s) (flat (P.solve x y).1) = flat y ∧ (P.solve x y).2 = true) ∧
    ∀ q, newtonSolve P I ip c (fuel + 2) method (fun i k => (col st i).getD k 0) = .ok q →
      (E.newton k n st).out = rows q.x ∧ (E.newton k n st).ok = q.success ∧ (E.newton k n st).it = q.k ∧
      ((E.newton k n st).arg = st ∨ (E.newton k n st).arg = rows q.x)

/-! ### Weakly coupled systems -/

/-- **C141, weakly coupled systems.**  The system `-D_i u_i'' + p_i u_i' + q_i u_i + b0_i A u_i + b1_i (A u_i)' + ∑_{j ≠ i} k_ij u_j = f_i` with real `p_i` and
`q_i ≥ q0_i` satisfies the hypotheses of `C141_solves` if `‖b0_i‖ + 2 ‖b1_i‖ ≤ β_i` and `∑_{j ≠ i} ‖k_ij‖ ≤ κ_i` with `β_i + κ_i < q0_i`. -/
theorem C141_dominant (e : Ends) (he : e.e0 < e.e1) (D q0 β κ : Fin d → ℝ) (p q b0 b1 : Fin d → List ℂ) (k : Fin d → Fin d → List ℂ)
    (hne : ∀ i, p i ≠ [] ∧ q i ≠ [] ∧ b0 i ≠ [] ∧ b1 i ≠ [] ∧ ∀ j, k i j ≠ []) (hD : ∀ i, 0 < D i)
    (hp : ∀ i y, (trigEval (p i) y).im = 0) (hq : ∀ i y, (trigEval (q i) y).im = 0 ∧ q0 i ≤ (trigEval (q i) y).re)
    (hb : ∀ i y, ‖trigEval (b0 i) y‖ + 2 * ‖trigEval (b1 i) y‖ ≤ β i)
    (hk : ∀ i y, ∑ j ∈ univ.erase i, ‖trigEval (k i j) y‖ ≤ κ i) (hdom : ∀ i, β i + κ i < q0 i) :
    IsSys e (FSs.weak D p q b0 b1 k) 2 (diagonal fun i => (-D i : ℂ)) ∧ UniqueSys e (FSs.weak D p q b0 b1 k) 2 := by
  constructor
  · refine ⟨by norm_num, fun i j => ?_, ?_⟩
    · obtain ⟨h1, h2, h3, h4, h5⟩ := hne i
      by_cases hij : i = j
      · subst hij
        rw [diagonal_apply_eq, FSs.weak, if_pos rfl]
        refine ⟨by simp, fun x => by simp [coefFun, trigEval_one], ?_, by simp, ?_, Or.inl rfl⟩
        · intro t ht
          simp only [List.mem_cons, List.not_mem_nil, or_false] at ht
          rcases ht with rfl | rfl | rfl <;> simp [h1, h2]
        · intro t ht
          simp only [List.mem_cons, List.not_mem_nil, or_false] at ht
          rcases ht with rfl | rfl <;> simp [h3, h4]
      · rw [diagonal_apply_ne _ hij, FSs.weak, if_neg hij]
        refine ⟨by simp, fun x => by simp [coefFun], ?_, by simp, by simp, Or.inl rfl⟩
        intro t ht
        simp only [List.mem_cons, List.not_mem_nil, or_false] at ht
        subst ht
        simp [h5]
    · rw [det_diagonal, isUnit_iff_ne_zero, Finset.prod_ne_zero_iff]
      intro i _
      exact neg_ne_zero.2 (by exact_mod_cast (hD i).ne')
  · intro w hw hper h0
    rcases isEmpty_or_nonempty (Fin d) with hd | hd
    · funext i
      exact hd.elim i
    have hpos : 0 < Mapping.diff e := by unfold Mapping.diff; linarith
    have hmax : ∀ i, ∃ M, (∃ x, ‖w i x‖ = M) ∧ ∀ x, ‖w i x‖ ≤ M := by
      intro i
      obtain ⟨x0, -, hx0⟩ := isCompact_Icc.exists_isMaxOn (Set.nonempty_Icc.mpr hpos.le) ((hw i).continuous.norm.continuousOn (s := Set.Icc 0 (Mapping.diff e)))
      refine ⟨_, ⟨x0, rfl⟩, fun y => ?_⟩
      obtain ⟨z, hz, hzy⟩ := (hper i).exists_mem_Ico₀ hpos y
      rw [hzy]
      exact hx0 ⟨hz.1, hz.2.le⟩
    choose M hM1 hM2 using hmax
    obtain ⟨i0, hi0⟩ := Finite.exists_max M
    have hM0 : 0 ≤ M i0 := by obtain ⟨x, hx⟩ := hM1 i0; rw [← hx]; exact norm_nonneg _
    have hcpl : ∀ i x, ‖applyOp e ⟨[(true, q i), (true, p i), (true, [(-D i : ℂ)])], [], [(true, b0 i), (true, b1 i)]⟩ (w i) x‖ ≤ κ i * M i0 := by
      intro i x
      have h1 := h0 i x
      rw [applySys, ← Finset.add_sum_erase _ _ (mem_univ i), FSs.weak, if_pos rfl] at h1
      rw [eq_neg_of_add_eq_zero_left h1, norm_neg]
      refine (norm_sum_le _ _).trans ?_
      have h2 : ∀ j ∈ univ.erase i, ‖applyOp e (FSs.weak D p q b0 b1 k i j) (w j) x‖ ≤ ‖trigEval (k i j) (Mapping.bwd e x)‖ * M i0 := by
        intro j hj
        rw [FSs.weak, if_neg (Finset.ne_of_mem_erase hj).symm]
        have h3 : applyOp e ⟨[(true, k i j)], [], []⟩ (w j) x = trigEval (k i j) (Mapping.bwd e x) * w j x := by simp [applyOp, coefFun]
        rw [h3, norm_mul]
        exact mul_le_mul_of_nonneg_left ((hM2 j x).trans (hi0 j)) (norm_nonneg _)
      refine (sum_le_sum h2).trans ?_
      rw [← sum_mul]
      exact mul_le_mul_of_nonneg_right (hk i _) hM0
    have hκ : 0 ≤ κ i0 := (sum_nonneg fun j _ => norm_nonneg _).trans (hk i0 0)
    have hest := fun x => elliptic_est e he (D i0) (q0 i0) (β i0) (hD i0) (p i0) (q i0) (b0 i0) (b1 i0) (hp i0) (hq i0) (hb i0) (by have := hdom i0; linarith) (w i0) (hw i0)
      (hper i0) (κ i0 * M i0) (hcpl i0) x
    obtain ⟨x0, hx0⟩ := hM1 i0
    have h4 := hest x0
    have h5 : 0 < q0 i0 - β i0 := by have := hdom i0; linarith
    rw [hx0, div_mul_eq_mul_div, one_mul, le_div_iff₀ h5] at h4
    have h6 : M i0 = 0 := by
      by_contra hne
      have : 0 < M i0 := lt_of_le_of_ne hM0 (Ne.symm hne)
      have := hdom i0
      nlinarith
    funext i x
    exact norm_le_zero_iff.1 ((hM2 i x).trans ((hi0 i).trans h6.le))

/-! ### Constant coefficients -/

/-- the Fourier integrals of the system -/
lemma FSs.op_cont (e : Ends) (s : Source) (hs : IsConst s) (r : ℕ) (h1 : s.coeff.length ≤ r + 1) (h2 : s.nl.length ≤ r + 1)
    (w : ℝ → ℂ) (hw : ContDiff ℝ r w) : Continuous (applyOp e s w) := by
  have hit : ∀ j ≤ r, Continuous (iteratedDeriv j w) := fun j hj => hw.continuous_iteratedDeriv j (by exact_mod_cast hj)
  have hform : applyOp e s w = fun x => ((∑ j ∈ range s.coeff.length, cst (s.coeff.getD j (false, [])) * iteratedDeriv j w x)
      + (s.integral.map fun p => p.1.getD 0 0).sum * ∫ y in e.e0..e.e1, w y)
      + ∑ j ∈ range s.nl.length, cst (s.nl.getD j (false, [])) * aggregate (iteratedDeriv j w) x := by
    funext x
    unfold applyOp
    congr 1
    · congr 1
      · exact sum_congr rfl fun j hj => by rw [coef_const e _ hs.1 j (Finset.mem_range.mp hj)]
      · rcases hs.2.2 with h | ⟨t, h⟩
        · rw [h]; simp
        · rw [h]
          simp only [List.map_cons, List.map_nil, List.sum_cons, List.sum_nil, add_zero, trigEval_one [t] rfl, trigEval_one [1] rfl]
          simp only [List.getD_cons_zero, one_mul]
    · refine sum_congr rfl fun j hj => ?_
      rw [coef_const e _ hs.2.1 j (Finset.mem_range.mp hj), FUn.agg_iter r w hw j (by have := Finset.mem_range.mp hj; omega)]
  rw [hform]
  refine ((continuous_finsetSum _ fun j hj => continuous_const.mul (hit j ?_)).add continuous_const).add
    (continuous_finsetSum _ fun j hj => continuous_const.mul (agg_cont _ (hit j ?_)))
  · have := Finset.mem_range.mp hj; omega
  · have := Finset.mem_range.mp hj; omega

/-- **C141, constant coefficients.**  A system with constant coefficients has only the zero solution for the right-hand side zero exactly when the matrix of the
symbols of its blocks is regular for every wave number. -/
theorem C141_symbol (e : Ends) (he : e.e0 < e.e1) (s : Fin d → Fin d → Source) (hs : ∀ i j, IsConst (s i j)) (r : ℕ) (h1 : ∀ i j, (s i j).coeff.length ≤ r + 1)
    (h2 : ∀ i j, (s i j).nl.length ≤ r + 1) :
    UniqueSys e s r ↔ ∀ k : ℤ, (Matrix.of fun i j => symbol (Mapping.diff e) (s i j) k).det ≠ 0 := by
  constructor
  · intro h k h0
    obtain ⟨v, hv, hv0⟩ := Matrix.exists_mulVec_eq_zero_iff.2 h0
    have hm : ∀ j, (fun x => v j * mode e k x) = fn e (Finsupp.single k (v j)) := by intro j; funext x; rw [fn_mode]
    have := h (fun j x => v j * mode e k x) (fun j => by rw [hm]; exact (fn_contDiff e _).of_le (by exact_mod_cast le_top))
      (fun j => by rw [hm]; exact fn_periodic e he _) (fun i x => by
        unfold applySys
        have h3 : ∀ j, applyOp e (s i j) (fun x => v j * mode e k x) x = symbol (Mapping.diff e) (s i j) k * v j * mode e k x := by
          intro j
          rw [hm, applyOp_sym e he (s i j) (hs i j)]
          have : FourierStab.diag (symbol (Mapping.diff e) (s i j)) (Finsupp.single k (v j)) = Finsupp.single k (symbol (Mapping.diff e) (s i j) k * v j) := by
            ext l
            rw [FourierStab.diag_apply, Finsupp.single_apply, Finsupp.single_apply]
            by_cases hkl : k = l
            · subst hkl; simp
            · simp [hkl]
          rw [this, fn_mode]
        simp only [h3]
        rw [← sum_mul]
        have h4 := congrFun hv0 i
        rw [show ∑ j, symbol (Mapping.diff e) (s i j) k * v j = 0 from h4, zero_mul])
    apply hv
    funext j
    have h5 := congrFun (congrFun this j) 0
    exact (mul_eq_zero.1 h5).resolve_right (Complex.exp_ne_zero _)
  · intro h w hw hp h0
    have key : ∀ k, (fun j => fc e (w j) k) = 0 := by
      intro k
      by_contra hne
      refine h k (Matrix.exists_mulVec_eq_zero_iff.1 ⟨_, hne, ?_⟩)
      funext i
      have h3 : fc e (fun x => ∑ j, applyOp e (s i j) (w j) x) k = 0 := by
        rw [show (fun x => ∑ j, applyOp e (s i j) (w j) x) = fun _ => 0 from funext (h0 i)]
        unfold fc
        simp
      rw [fc_sum e _ _ fun j _ => FSs.op_cont e (s i j) (hs i j) r (h1 i j) (h2 i j) (w j) (hw j)] at h3
      show ∑ j, symbol (Mapping.diff e) (s i j) k * fc e (w j) k = 0
      rw [← h3]
      exact sum_congr rfl fun j _ => (fc_op e he (s i j) (hs i j) r (h1 i j) (h2 i j) (w j) (hw j) (hp j) k).symm
    funext j x
    exact fc_zero e he (w j) (hw j).continuous (hp j) (fun k => congrFun (key k) j) x

/-! ### The adaptive solver -/

lemma FSs.col_rows {n : ℕ} (x : Fin d → Fin n → ℂ) (i : Fin d) : col (rows x) i = List.ofFn (x i) := by
  unfold col rows
  rw [List.map_ofFn]
  rfl

/-- one step of the loop -/
lemma FSs.step {e : Ends} {s : Fin d → Fin d → Source} {eps : ℝ} (f : Fin d → List ℂ) {c : SolveArgs} {method : String}
    (hm : Allowed c method) (E : Env (List (Fin d → ℂ))) (hE : IsSysEnv e s eps f c method E) (k n : ℕ) (h2 : 2 ≤ n) (st : List (Fin d → ℂ))
    (hnd : ∀ i j, NoDrop n (Mapping.diff e) eps (s i j))
    (hex : ∀ g : Fin d → Fin n → ℂ, ∃! v : Fin d → Fin n → ℂ, matvec (trigMatrix n (Mapping.diff e) eps s) (flat v) = flat g) :
    ∃ x : Fin d → Fin n → ℂ, matvec (trigMatrix n (Mapping.diff e) eps s) (flat x) = flat (fun i => E2P.rhsAt (f i) n) ∧
      (E.newton k n st).out = rows x ∧ (E.newton k n st).ok = true ∧ (E.newton k n st).it ≤ 2 ∧
      ((E.newton k n st).arg = st ∨ (E.newton k n st).arg = rows x) := by
  obtain ⟨P, I, ip, fuel, hip, hP, hsol, hN⟩ := hE.newton k n st
  let A : (Fin d → Fin n → ℂ) →ₗ[ℝ] (Fin d → Fin n → ℂ) :=
    { toFun := fun v i => ∑ j, assemble n (Mapping.diff e) (s i j) *ᵥ v j
      map_add' := fun u v => by
        funext i
        simp only [Pi.add_apply, mulVec_add, sum_add_distrib]
      map_smul' := fun t u => by
        funext i
        simp only [Pi.smul_apply, mulVec_smul, ← smul_sum, RingHom.id_apply] }
  have hA : ∀ v, matvec (trigMatrix n (Mapping.diff e) eps s) (flat v) = flat (A v) := fun v => matvec_eq h2 eps hnd v
  have hinj : Function.Injective A := by
    intro u v huv
    obtain ⟨w, -, hw⟩ := hex (A u)
    exact (hw u (hA u)).trans (hw v (by rw [huv]; exact hA v)).symm
  have hlin : IsLinearProblem P A (fun i => E2P.rhsAt (f i) n) := by
    refine ⟨fun x => hP x (A x) (hA x), hinj, fun x y => ?_⟩
    obtain ⟨a, b⟩ := hsol hex x y
    rw [hA] at a
    exact ⟨flat_inj _ _ a, b⟩
  obtain ⟨q, hq, hs, hb, -, hk⟩ := C123_linear P I A _ hlin ip hip c fuel method (fun i k => (col st i).getD k 0) hm
  obtain ⟨a1, a2, a3, a4⟩ := hN q hq
  exact ⟨q.x, by rw [hA, hb], a1, a2.trans hs, a3 ▸ hk, a4⟩

/-- **C141, the adaptive solver.**  For uniquely solvable systems of even order `SolverAdaptive.solve`, started from any state with sufficiently many coefficients,
reports success after at most two iterations on its last grid, with functions within `δ` of the solution together with their derivatives up to the order `J`. -/
theorem C141_adaptive (e : Ends) (he : e.e0 < e.e1) (s : Fin d → Fin d → Source) (r : ℕ) (A : Matrix (Fin d) (Fin d) ℂ) (eps : ℝ) (hs : IsSys e s r A)
    (hr : r % 2 = 0) (huni : UniqueSys e s r) (N0 : ℕ) (hdrop : ∀ n, N0 ≤ n → ∀ i j, NoDrop n (Mapping.diff e) eps (s i j)) (f : Fin d → List ℂ) :
    ∃ u : Fin d → ℝ → ℂ, (∀ i, ContDiff ℝ ∞ (u i)) ∧ (∀ i, Function.Periodic (u i) (Mapping.diff e)) ∧
      (∀ i x, applySys e s u i x = trigEval (f i) (Mapping.bwd e x)) ∧
      (∀ w : Fin d → ℝ → ℂ, (∀ i, ContDiff ℝ r (w i)) → (∀ i, Function.Periodic (w i) (Mapping.diff e)) →
        (∀ i x, applySys e s w i x = trigEval (f i) (Mapping.bwd e x)) → w = u) ∧
      ∀ (J : ℕ) (δ : ℝ), 0 < δ → ∃ N, ∀ (cc : SolveArgs) (method : String), Allowed cc method → ∀ E, IsSysEnv e s eps f cc method E →
        ∀ (nMin nMax : ℕ) (tol : ℝ) (up maxFail : ℕ) (st : List (Fin d → ℂ)), N ≤ st.length → min 7 nMin ≤ nMax →
          ∃ w it, Adaptive.solve E nMin nMax tol up maxFail false st.length st = some (w, true, it) ∧ it ≤ 2 ∧
            ∀ i, ∀ j ≤ J, ∀ x, ‖iteratedDeriv j (asPer e (col w i)) x - iteratedDeriv j (u i) x‖ ≤ δ := by
  obtain ⟨u, h1, h2, h3, h4, h5⟩ := C141_solves e he s r A eps hs huni f
  refine ⟨u, h1, h2, h3, h4, fun J δ hδ => ?_⟩
  choose C N hN using fun j => h5 1 j
  obtain ⟨m, hm⟩ := exists_nat_ge (∑ j ∈ Finset.range (J + 1), |C j| / δ)
  refine ⟨N0 + (∑ j ∈ Finset.range (J + 1), N j) + m + 3, fun cc method hmt E hE nMin nMax tol up maxFail st hst hmin => ?_⟩
  obtain ⟨s0, s1, s3⟩ := E2E.sizes nMin nMax st.length up hmin
  have hNle : ∀ j ≤ J, N j ≤ ∑ j ∈ Finset.range (J + 1), N j := fun j hj =>
    Finset.single_le_sum (f := N) (fun i _ => Nat.zero_le _) (Finset.mem_range.2 (by omega))
  obtain ⟨w, it, hw, hgood, hit⟩ := loop_good E tol maxFail (fun n => st.length ≤ n)
    (fun w => ∀ i, col w i ≠ [] ∧ ∀ j ≤ J, ∀ x, ‖iteratedDeriv j (asPer e (col w i)) x - iteratedDeriv j (u i) x‖ ≤ δ)
    (fun n l hl h i => by
      have hl' : (col l i).length ≤ n := by unfold FSs.col; rw [List.length_map]; exact hl
      rw [hE.prolong, asPer_prolong e (col l i) n (h i).1 hl']
      refine ⟨fun h0 => ?_, (h i).2⟩
      have hlen := (C32_column (col l i) (h i).1 n hl').1
      rw [h0] at hlen
      have := List.length_pos_iff.2 (h i).1
      simp at hlen
      omega)
    (fun k n st' hn => by
      have hnd := hdrop n (by omega)
      have hex := (hN 0 n (by have := hNle 0 (Nat.zero_le _); omega) (Or.inr hr) hnd).1
      obtain ⟨x, hx, a1, a2, a3, a4⟩ := FSs.step f hmt E hE k n (by omega) st' hnd hex
      refine ⟨rows x, by simp [rows], fun i => ⟨fun h0 => ?_, fun j hj y => ?_⟩, a1, a2, a3, a4⟩
      · rw [col_rows] at h0
        have := congrArg List.length h0
        simp at this
        omega
      · rw [col_rows]
        refine ((hN j n (by have := hNle j hj; omega) (Or.inr hr) hnd).2 x hx i y).trans ?_
        have hn0 : (0 : ℝ) < n := by exact_mod_cast (by omega : 0 < n)
        have hmn : (m : ℝ) ≤ n := by exact_mod_cast (by omega : m ≤ n)
        rw [pow_one, div_le_iff₀ hn0]
        have h6 : |C j| / δ ≤ m := (Finset.single_le_sum (f := fun j => |C j| / δ) (fun i _ => by positivity)
          (Finset.mem_range.2 (by omega : j < J + 1))).trans hm
        have h7 : |C j| ≤ m * δ := (div_le_iff₀ hδ).1 h6
        calc C j ≤ |C j| := le_abs_self _
          _ ≤ m * δ := h7
          _ ≤ δ * n := by rw [mul_comm]; gcongr)
    _ s0 s1 (fun n hn => (s3 n hn).1) 0 st false
    (fun h => absurd h (lt_irrefl 0)) (fun n hn => (s3 n hn).1)
  exact ⟨w, it, hw, hit, fun i => (hgood i).2⟩

/-- The hypotheses of `C141_solves` and `C141_adaptive` hold for `-u'' + 2 u + v = f`, `-v'' + 2 v - u = g` on `[-1, 1]`. -/
example : IsSys ⟨-1, 1⟩ (FSs.weak (d := 2) (fun _ => 1) (fun _ => [0]) (fun _ => [2]) (fun _ => [0]) (fun _ => [0]) (fun i _ => if i = 0 then [1] else [-1])) 2
      (diagonal fun _ => (-(1 : ℝ) : ℂ)) ∧
    UniqueSys ⟨-1, 1⟩ (FSs.weak (d := 2) (fun _ => 1) (fun _ => [0]) (fun _ => [2]) (fun _ => [0]) (fun _ => [0]) (fun i _ => if i = 0 then [1] else [-1])) 2 ∧
    ∀ n i j, NoDrop n 2 0 (FSs.weak (d := 2) (fun _ => 1) (fun _ => [0]) (fun _ => [2]) (fun _ => [0]) (fun _ => [0]) (fun i _ => if i = 0 then [1] else [-1]) i j) := by
  obtain ⟨h1, h2⟩ := C141_dominant (d := 2) ⟨-1, 1⟩ (by norm_num) (fun _ => 1) (fun _ => 2) (fun _ => 0) (fun _ => 1) (fun _ => [0]) (fun _ => [2]) (fun _ => [0])
    (fun _ => [0]) (fun i _ => if i = 0 then [1] else [-1]) (fun i => by refine ⟨by simp, by simp, by simp, by simp, fun j => ?_⟩; split_ifs <;> simp)
    (fun _ => one_pos) (fun _ y => by simp [trigEval]) (fun _ y => by simp [trigEval, trigMode, wave]) (fun _ y => by simp [trigEval])
    (fun i y => by
      rw [Finset.sum_congr rfl (g := fun _ => (1 : ℝ)) fun j _ => by fin_cases i <;> simp [trigEval, trigMode, wave]]
      simp) (fun _ => by norm_num)
  exact ⟨h1, h2, fun _ _ _ _ _ => Or.inr (norm_nonneg _)⟩

/-- and those of `C141_symbol` for `-u'' + v`, `-v'' - u` -/
example : ∀ i j : Fin 2, IsConst (FSs.weak (fun _ => 1) (fun _ => [0]) (fun _ => [0]) (fun _ => [0]) (fun _ => [0]) (fun i _ => if i = 0 then [1] else [-1]) i j) := by
  intro i j
  fin_cases i <;> fin_cases j <;> simp [FSs.weak, IsConst]

end Funpy.Props
