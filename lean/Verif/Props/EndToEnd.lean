import Verif.Props.NewtonAffine
import Verif.Props.OdeProblem
import Verif.Props.Adaptive
import Verif.Props.WellPosed

/-!
# C133: the adaptive solver on linear boundary value problems
-/

namespace Funpy.Props
namespace E2E
end E2E
open Spec Cheb UltraS OpDisc Matrix Finset Sect WPos CoefNorm Cvg OdeP Newton Adaptive E2E
open scoped ContDiff

/-! ### Specification -/

/-- The right-hand side of the discretised problem with `n` coefficients. -/
noncomputable def E2E.rhsAt (e : Ends) (s : UltraS.Source) (r : ℕ) (eps : ℝ) (bcs : List BC) (f g : List ℝ) (n : ℕ) : Fin n → ℝ :=
  fun i => (projectVector (⟨e, r, eps, s, bcs⟩ : Disc n) g (fun i => f.getD i 0)).getD i 0

/-- The environment of the adaptive solver is `Newton.solve` with the method `method` on the discretisations of the linear boundary value problem
`L u = f` with the boundary values `g`: `prolong` is that of Chebyshev functions; the residual is that of the discretised problem; the linear solver solves
whenever the matrix is regular; the argument is not changed, or updated in place. -/
structure E2E.IsBvpEnv (e : Ends) (s : UltraS.Source) (r : ℕ) (eps : ℝ) (bcs : List BC) (f g : List ℝ) (c : SolveArgs) (method : String)
    (E : Env (List ℝ)) : Prop where
  prolong : ∀ n l, E.prolong n l = prolongCol l n
  newton : ∀ k n st, ∃ (P : Problem (Fin n → ℝ) (Fin n → ℝ)) (I : InexactProblem (Fin n → ℝ) (Fin n → ℝ)) (ip : (Fin n → ℝ) → (Fin n → ℝ) → ℝ) (fuel : ℕ),
    IsSquareForm ip ∧
    (∀ M, OpDisc.matrix (⟨e, r, eps, s, bcs⟩ : Disc n) = some M → ∀ A : (Fin n → ℝ) →ₗ[ℝ] (Fin n → ℝ), (∀ x i, A x i = M.getD i 0 ⬝ᵥ x) →
      (∀ x, P.F x = A x - rhsAt e s r eps bcs f g n) ∧
      (Function.Injective A → ∀ x y, A (P.solve x y).1 = y ∧ (P.solve x y).2 = true)) ∧
    ∀ q, newtonSolve P I ip c (fuel + 2) method (fun i => st.getD i 0) = .ok q →
      (E.newton k n st).out = List.ofFn q.x ∧ (E.newton k n st).ok = q.success ∧ (E.newton k n st).it = q.k ∧
      ((E.newton k n st).arg = st ∨ (E.newton k n st).arg = List.ofFn q.x)

/-- The options of the nonlinear solver: a method which solves linear problems (C123), with at least two iterations. -/
def E2E.Allowed (c : SolveArgs) (method : String) : Prop :=
  (method.toLower = "lu" ∧ 0 ≤ c.tol ∧ 2 ≤ c.miter) ∨ (method.toLower = "qnerr" ∧ 0 ≤ c.thetaMax ∧ 1 ≤ c.miter) ∨
    ((method.toLower = "nleq" ∨ method.toLower = "nleq-err") ∧ 0 ≤ c.nleq.tol ∧ 2 ≤ c.nleq.miter ∧ 0 ≤ c.nleq.lamMin ∧ c.nleq.lamMin < c.lam ∧ c.lam ≤ 1)

/-- The function with the Chebyshev coefficients `l` on the interval. -/
noncomputable def E2E.asFun (e : Ends) (l : List ℝ) (y : ℝ) : ℝ := chebEval l (Mapping.bwd e y)

/-! ### Proofs -/

lemma E2E.asFun_prolong (e : Ends) (l : List ℝ) (n : ℕ) (h : l.length ≤ n) : asFun e (prolongCol l n) = asFun e l := by
  funext y
  have := C05_pad_preserves (⟨l.length, [l]⟩ : Arr ℝ) (by intro c hc; simp at hc; rw [hc]) (n : ℤ) (by exact_mod_cast h) (Mapping.bwd e y)
  simpa [prolong, Arr.mapCols, asFun] using this

/-- one step of the loop -/
lemma E2E.step (e : Ends) (s : UltraS.Source) (r : ℕ) (eps : ℝ) (bcs : List BC) (f g : List ℝ) (c : SolveArgs) (method : String)
    (hm : Allowed c method) (E : Env (List ℝ)) (hE : IsBvpEnv e s r eps bcs f g c method E) (k n : ℕ) (st : List ℝ) (M : List (Fin n → ℝ))
    (hM : OpDisc.matrix (⟨e, r, eps, s, bcs⟩ : Disc n) = some M) (hMn : M.length = n) (hrn : r ≤ n) (hg : g.length = r)
    (hex : ∃! x : Fin n → ℝ, M.map (· ⬝ᵥ x) = projectVector (⟨e, r, eps, s, bcs⟩ : Disc n) g (fun i => f.getD i 0)) :
    ∃ x : Fin n → ℝ, M.map (· ⬝ᵥ x) = projectVector (⟨e, r, eps, s, bcs⟩ : Disc n) g (fun i => f.getD i 0) ∧
      (E.newton k n st).out = List.ofFn x ∧ (E.newton k n st).ok = true ∧ (E.newton k n st).it ≤ 2 ∧
      ((E.newton k n st).arg = st ∨ (E.newton k n st).arg = List.ofFn x) := by
  obtain ⟨P, I, ip, fuel, hip, hP, hN⟩ := hE.newton k n st
  let A : (Fin n → ℝ) →ₗ[ℝ] (Fin n → ℝ) := Matrix.toLin' (Matrix.of fun i => M.getD i 0)
  have hA : ∀ x i, A x i = M.getD i 0 ⬝ᵥ x := fun x i => by
    rw [show A x = _ from Matrix.toLin'_apply _ _]
    rfl
  have hpl : (projectVector (⟨e, r, eps, s, bcs⟩ : Disc n) g (fun i => f.getD i 0)).length = n := by
    simp only [projectVector, keepRows, List.length_append, List.length_map, List.length_take, List.length_finRange]
    omega
  have hiff : ∀ x, M.map (· ⬝ᵥ x) = projectVector (⟨e, r, eps, s, bcs⟩ : Disc n) g (fun i => f.getD i 0) ↔ A x = rhsAt e s r eps bcs f g n := by
    intro x
    constructor
    · intro h
      funext i
      rw [hA, rhsAt, ← h, getD_lt' _ _ _ (by rw [hMn]; exact i.2), getD_lt' _ _ _ (by rw [List.length_map, hMn]; exact i.2), List.getElem_map]
    · intro h
      apply List.ext_getElem (by rw [List.length_map, hMn, hpl])
      intro i hi1 hi2
      rw [List.getElem_map]
      have := congrFun h ⟨i, by rw [← hpl]; exact hi2⟩
      rw [hA, rhsAt] at this
      simp only at this
      rw [getD_lt' _ _ _ (by rw [hMn, ← hpl]; exact hi2), getD_lt' _ _ _ hi2] at this
      exact this
  obtain ⟨x0, hx0, hu⟩ := hex
  simp only [hiff] at hx0 hu
  have hinj : Function.Injective A := by
    rw [← LinearMap.ker_eq_bot, LinearMap.ker_eq_bot']
    intro z hz
    have h1 := hu (x0 + z) (by rw [map_add, hz, add_zero, hx0])
    exact left_eq_add.mp h1.symm
  obtain ⟨h1, h2⟩ := hP M hM A hA
  obtain ⟨q, hq, hs, hb, -, hk⟩ := C123_linear P I A (rhsAt e s r eps bcs f g n) ⟨h1, hinj, h2 hinj⟩ ip hip c fuel method (fun i => st.getD i 0) hm
  obtain ⟨a1, a2, a3, a4⟩ := hN q hq
  exact ⟨q.x, (hiff q.x).2 hb, a1, a2.trans hs, a3 ▸ hk, a4⟩

/-- the loop -/
lemma E2E.loop_good {α : Type} (E : Env (List α)) (tol : ℝ) (maxFail : ℕ) (Q : ℕ → Prop) (Good : List α → Prop)
    (hpro : ∀ n l, l.length ≤ n → Good l → Good (E.prolong n l))
    (hstep : ∀ k n st, Q n → ∃ s, s.length = n ∧ Good s ∧ (E.newton k n st).out = s ∧ (E.newton k n st).ok = true ∧ (E.newton k n st).it ≤ 2 ∧
      ((E.newton k n st).arg = st ∨ (E.newton k n st).arg = s)) :
    ∀ (l : List ℕ), l ≠ [] → l.Pairwise (· < ·) → (∀ n ∈ l, Q n) → ∀ k st anyOk, (0 < k → Good st) → (∀ n ∈ l, st.length ≤ n) →
      ∃ s it, loop E tol maxFail k st anyOk l = some (s, true, it) ∧ Good s ∧ it ≤ 2 := by
  intro l
  induction l with
  | nil => intro h; exact absurd rfl h
  | cons n rest ih =>
    intro _ hp hN k st anyOk hst hlen
    rw [List.pairwise_cons] at hp
    obtain ⟨s, hsl, hs, ho, hok, hit, harg⟩ := hstep k n (E.prolong n st) (hN n List.mem_cons_self)
    rw [loop]
    simp only [hok, if_true]
    by_cases hc : E.dist (E.newton k n (E.prolong n st)).arg (E.newton k n (E.prolong n st)).out < tol ∧ k > 0
    · rw [if_pos hc]
      refine ⟨_, _, rfl, ?_, hit⟩
      rcases harg with h | h
      · rw [h]
        exact hpro n st (hlen n List.mem_cons_self) (hst hc.2)
      · rw [h]
        exact hs
    · rw [if_neg hc]
      by_cases hr : rest = []
      · rw [if_pos hr]
        exact ⟨_, _, rfl, by rw [ho]; exact hs, hit⟩
      · rw [if_neg hr, ho]
        exact ih hr hp.2 (fun m hm => hN m (List.mem_cons_of_mem _ hm)) (k + 1) s true (fun _ => hs) fun m hm => by
          rw [hsl]
          exact (hp.1 m hm).le

/-- convergence of the discrete solutions gives convergence of the adaptive solver -/
lemma E2E.adaptive_of_conv (e : Ends) (s : UltraS.Source) (r : ℕ) (eps : ℝ) (bcs : List BC)
    (f g : List ℝ) (hg : g.length = r) (u : ℝ → ℝ)
    (h4 : ∀ t : ℕ, ∃ C N, ∀ n, N ≤ n → ∃ M, OpDisc.matrix (⟨e, r, eps, s, bcs⟩ : Disc n) = some M ∧ M.length = n ∧
        (∃! x : Fin n → ℝ, M.map (· ⬝ᵥ x) = projectVector (⟨e, r, eps, s, bcs⟩ : Disc n) g (fun i => f.getD i 0)) ∧
        ∀ x : Fin n → ℝ, M.map (· ⬝ᵥ x) = projectVector (⟨e, r, eps, s, bcs⟩ : Disc n) g (fun i => f.getD i 0) →
          ∀ j ≤ r, ∀ y ∈ Set.Icc e.e0 e.e1, |iteratedDeriv j (funOf e x) y - iteratedDeriv j u y| ≤ C / (n : ℝ) ^ t) (δ : ℝ) (hδ : 0 < δ) :
    ∃ N, ∀ (cc : SolveArgs) (method : String), Allowed cc method → ∀ E, IsBvpEnv e s r eps bcs f g cc method E →
        ∀ (nMin nMax : ℕ) (tol : ℝ) (up maxFail : ℕ) (st : List ℝ), N ≤ st.length → min 7 nMin ≤ nMax →
          ∃ w it, Adaptive.solve E nMin nMax tol up maxFail false st.length st = some (w, true, it) ∧ it ≤ 2 ∧
            ∀ j ≤ r, ∀ y ∈ Set.Icc e.e0 e.e1, |iteratedDeriv j (asFun e w) y - iteratedDeriv j u y| ≤ δ := by
  obtain ⟨C, N, hN⟩ := h4 1
  obtain ⟨m, hm⟩ := exists_nat_ge (|C| / δ)
  refine ⟨N + m + r + 1, fun cc method hmt E hE nMin nMax tol up maxFail st hst hmin => ?_⟩
  obtain ⟨s1, s2, s3⟩ := C100_sizes (ctorMin nMin) nMax st.length (upperBd st.length up)
  have hne : nDisc (ctorMin nMin) nMax st.length (upperBd st.length up) false ≠ [] := by
    intro h0
    have := (s2 (max st.length (min (upperBd st.length up) (1 + 2 ^ nMax)))).2 ⟨nMax, hmin, le_rfl, rfl⟩
    rw [h0] at this
    exact absurd this List.not_mem_nil
  obtain ⟨w, it, hw, hgood, hit⟩ := loop_good E tol maxFail (fun n => N + m + r + 1 ≤ n)
    (fun w => ∀ j ≤ r, ∀ y ∈ Set.Icc e.e0 e.e1, |iteratedDeriv j (asFun e w) y - iteratedDeriv j u y| ≤ δ)
    (fun n l hl h => by rw [hE.prolong, asFun_prolong e l n hl]; exact h)
    (fun k n st' hn => by
      obtain ⟨M, hM, hMn, hex, herr⟩ := hN n (by omega)
      obtain ⟨x, hx, a1, a2, a3, a4⟩ := step e s r eps bcs f g cc method hmt E hE k n st' M hM hMn (by omega) hg hex
      refine ⟨List.ofFn x, by simp, fun j hj y hy => ?_, a1, a2, a3, a4⟩
      refine (herr x hx j hj y hy).trans ?_
      have hn0 : (0 : ℝ) < n := by exact_mod_cast (by omega : 0 < n)
      have hmn : (m : ℝ) ≤ n := by exact_mod_cast (by omega : m ≤ n)
      rw [pow_one, div_le_iff₀ hn0]
      have h5 : |C| ≤ m * δ := (div_le_iff₀ hδ).1 hm
      calc C ≤ |C| := le_abs_self C
        _ ≤ m * δ := h5
        _ ≤ δ * n := by rw [mul_comm]; gcongr)
    (nDisc (ctorMin nMin) nMax st.length (upperBd st.length up) false) hne s1 (fun n hn => by have := (s3 n hn).1; omega) 0 st false
    (fun h => absurd h (lt_irrefl 0)) (fun n hn => (s3 n hn).1)
  exact ⟨w, it, hw, hit, hgood⟩

/-- **C133, linear boundary value problems are solved by the adaptive solver.**  Let `L` be an operator of order `r` whose leading coefficient is a
constant, with `r` conditions on derivatives of order less than `r` such that the homogeneous problem has only the zero solution, and assume that the
coefficient functions are multiplied exactly by all large discretisations.  Then for every right-hand side with finitely many Chebyshev coefficients and all
boundary values the problem has a solution `u`, and for every `δ > 0` there is an `N` such that from every state with at least `N` coefficients
`SolverAdaptive.solve` (with any of the methods of C123, any bounds and tolerances) reports success, after at most two iterations on its last grid, with a
function which agrees with `u`, with all derivatives up to the order `r`, to within `δ` on the whole interval. -/
theorem C133_adaptive (e : Ends) (he : e.e0 < e.e1) (s : UltraS.Source) (r : ℕ) (c eps : ℝ) (hs : IsODE s r c) (bcs : List BC) (hsq : bcs.length = r)
    (hb : ∀ b ∈ bcs, BC.PointsIn e b ∧ BC.Mentions b ∧ OrdLt r b) (hu : UniqueSol e s r bcs) (N0 : ℕ) (hfit : ∀ n, N0 ≤ n → SecFits n n s)
    (f g : List ℝ) (hg : g.length = r) :
    ∃ u : ℝ → ℝ, ContDiff ℝ r u ∧ (∀ y ∈ Set.Icc e.e0 e.e1, applyLin e s u y = chebEval f (Mapping.bwd e y)) ∧
      (∀ k (hk : k < bcs.length), BC.sem u bcs[k] - BC.sem (fun _ => 0) bcs[k] = g.getD k 0) ∧
      ∀ δ > 0, ∃ N, ∀ (cc : SolveArgs) (method : String), Allowed cc method → ∀ E, IsBvpEnv e s r eps bcs f g cc method E →
        ∀ (nMin nMax : ℕ) (tol : ℝ) (up maxFail : ℕ) (st : List ℝ), N ≤ st.length → min 7 nMin ≤ nMax →
          ∃ w it, Adaptive.solve E nMin nMax tol up maxFail false st.length st = some (w, true, it) ∧ it ≤ 2 ∧
            ∀ j ≤ r, ∀ y ∈ Set.Icc e.e0 e.e1, |iteratedDeriv j (asFun e w) y - iteratedDeriv j u y| ≤ δ := by
  obtain ⟨u, h1, h2, h3, h4⟩ := C127_solves e he s r c eps hs bcs hsq hb hu N0 hfit f g hg
  exact ⟨u, h1, h2, h3, fun δ hδ => adaptive_of_conv e s r eps bcs f g hg u h4 δ hδ⟩

/-- the sizes tried -/
lemma E2E.sizes (nMin nMax len up : ℕ) (hmin : min 7 nMin ≤ nMax) :
    nDisc (ctorMin nMin) nMax len (upperBd len up) false ≠ [] ∧ (nDisc (ctorMin nMin) nMax len (upperBd len up) false).Pairwise (· < ·) ∧
    ∀ n ∈ nDisc (ctorMin nMin) nMax len (upperBd len up) false, len ≤ n ∧ n ≤ max len (upperBd len up) := by
  obtain ⟨s1, s2, s3⟩ := C100_sizes (ctorMin nMin) nMax len (upperBd len up)
  refine ⟨fun h0 => ?_, s1, s3⟩
  have := (s2 (max len (min (upperBd len up) (1 + 2 ^ nMax)))).2 ⟨nMax, hmin, le_rfl, rfl⟩
  rw [h0] at this
  exact absurd this List.not_mem_nil

/-- **C133, exactness.**  The problem `a u^(r) = f`, `a ≠ 0`, with `r` conditions that determine the polynomials of degree `< r`: from every state with at
least `r` coefficients more than `f` (and at least two) `SolverAdaptive.solve` reports success, and the result satisfies the equation and the conditions exactly. -/
theorem C133_exact (e : Ends) (he : e.e0 < e.e1) (r : ℕ) (a eps : ℝ) (ha : a ≠ 0) (bcs : List BC) (hsq : bcs.length = r)
    (hb : ∀ b ∈ bcs, BC.PointsIn e b ∧ BC.Mentions b) (hu : Unisolvent r bcs) (f g : List ℝ) (hg : g.length = r)
    (cc : SolveArgs) (method : String) (hm : Allowed cc method) (E : Env (List ℝ)) (hE : IsBvpEnv e (powOp r a) r eps bcs f g cc method E)
    (nMin nMax : ℕ) (tol : ℝ) (up maxFail : ℕ) (st : List ℝ) (hst : f.length + r ≤ st.length) (hst2 : 2 ≤ st.length) (hmin : min 7 nMin ≤ nMax) :
    ∃ w it, Adaptive.solve E nMin nMax tol up maxFail false st.length st = some (w, true, it) ∧ it ≤ 2 ∧
      (∀ y, a * iteratedDeriv r (asFun e w) y = chebEval f (Mapping.bwd e y)) ∧
      ∀ k (hk : k < bcs.length), BC.sem (asFun e w) bcs[k] - BC.sem (fun _ => 0) bcs[k] = g.getD k 0 := by
  obtain ⟨s0, s1, s3⟩ := E2E.sizes nMin nMax st.length up hmin
  obtain ⟨w, it, hw, hgood, hit⟩ := loop_good E tol maxFail (fun n => st.length ≤ n)
    (fun w => (∀ y, a * iteratedDeriv r (asFun e w) y = chebEval f (Mapping.bwd e y)) ∧
      ∀ k (hk : k < bcs.length), BC.sem (asFun e w) bcs[k] - BC.sem (fun _ => 0) bcs[k] = g.getD k 0)
    (fun n l hl h => by rw [hE.prolong, asFun_prolong e l n hl]; exact h)
    (fun k n st' hn => by
      obtain ⟨M, hM, hex, hsol⟩ := C124_solution (⟨e, r, eps, powOp r a, bcs⟩ : Disc n) (by omega) he (by show r ≤ n; omega) a ha rfl hsq hb hu g
        (by rw [hg]; exact hsq.symm) (fun i => f.getD i 0)
      have hMn : M.length = n := by
        obtain ⟨M', hM', -, hl⟩ := C98_shape (⟨e, r, eps, powOp r a, bcs⟩ : Disc n) (by omega) he (by show r ≤ n; omega) hb
        rw [hM] at hM'
        obtain rfl := Option.some.inj hM'
        exact hl.2 hsq
      obtain ⟨x, hx, a1, a2, a3, a4⟩ := step e (powOp r a) r eps bcs f g cc method hm E hE k n st' M hM hMn (by omega) hg hex
      obtain ⟨b1, b2⟩ := hsol x hx
      refine ⟨List.ofFn x, by simp, ⟨fun y => ?_, b1⟩, a1, a2, a3, a4⟩
      have h1 := b2 (fun i hi => by
        have hi' : n - r ≤ (i : ℕ) := hi
        exact List.getD_eq_default _ _ (by omega)) y
      refine h1.trans ?_
      rw [funOf]
      apply chebEval_congr_getD
      intro k
      by_cases hk : k < n
      · rw [getD_lt' _ _ _ (by simpa using hk), List.getElem_ofFn]
      · rw [List.getD_eq_default _ _ (by simpa using hk), List.getD_eq_default _ _ (by omega)])
    _ s0 s1 (fun n hn => (s3 n hn).1) 0 st false (fun h => absurd h (lt_irrefl 0)) (fun n hn => (s3 n hn).1)
  exact ⟨w, it, hw, hit, hgood.1, hgood.2⟩

/-- **C133, success does not mean solved.**  For every `m` the Dirichlet problem `u'' = T_m`, `u(a) = u(b) = 0`: if all grids which the adaptive solver may
try have at most `m` coefficients then it reports success with the zero function, from every state, although zero is not a solution: all discretisations drop the
coefficients of the right-hand side beyond their size, and two of them agree. -/
theorem C133_unresolved_fails (e : Ends) (he : e.e0 < e.e1) (eps : ℝ) (m : ℕ)
    (cc : SolveArgs) (method : String) (hm : Allowed cc method) (E : Env (List ℝ))
    (hE : IsBvpEnv e (powOp 2 1) 2 eps (dirichlet e 0 0) (List.replicate m 0 ++ [1]) [0, 0] cc method E)
    (nMin nMax : ℕ) (tol : ℝ) (up maxFail : ℕ) (st : List ℝ) (hst : 2 ≤ st.length) (hmin : min 7 nMin ≤ nMax)
    (hup : max st.length (upperBd st.length up) ≤ m) :
    (∃ w it, Adaptive.solve E nMin nMax tol up maxFail false st.length st = some (w, true, it) ∧ ∀ y, asFun e w y = 0) ∧
    iteratedDeriv 2 (fun _ : ℝ => (0 : ℝ)) e.e1 ≠ chebEval (List.replicate m 0 ++ [1]) (Mapping.bwd e e.e1) := by
  constructor
  · obtain ⟨s0, s1, s3⟩ := E2E.sizes nMin nMax st.length up hmin
    obtain ⟨w, it, hw, hgood, hit⟩ := loop_good E tol maxFail (fun n => st.length ≤ n ∧ n ≤ m)
      (fun w => ∀ y, asFun e w y = 0)
      (fun n l hl h => by rw [hE.prolong, asFun_prolong e l n hl]; exact h)
      (fun k n st' hn => by
        have hb : ∀ b ∈ dirichlet e 0 0, BC.PointsIn e b ∧ BC.Mentions b := by
          intro b hb
          simp only [dirichlet, List.mem_cons, List.not_mem_nil, or_false] at hb
          rcases hb with rfl | rfl <;> simp [BC.PointsIn, BC.Mentions, he.le]
        obtain ⟨M, hM, hex, -⟩ := C124_solution (⟨e, 2, eps, powOp 2 1, dirichlet e 0 0⟩ : Disc n) (by omega) he (by show 2 ≤ n; omega) 1 one_ne_zero rfl rfl hb
          (C124_dirichlet e he 0 0) [0, 0] rfl (fun i => (List.replicate m (0:ℝ) ++ [1]).getD i 0)
        have hMn : M.length = n := by
          obtain ⟨M', hM', -, hl⟩ := C98_shape (⟨e, 2, eps, powOp 2 1, dirichlet e 0 0⟩ : Disc n) (by omega) he (by show 2 ≤ n; omega) hb
          rw [hM] at hM'
          obtain rfl := Option.some.inj hM'
          exact hl.2 rfl
        obtain ⟨x, hx, a1, a2, a3, a4⟩ := step e (powOp 2 1) 2 eps _ _ _ cc method hm E hE k n st' M hM hMn (by omega) rfl hex
        have hx0 : x = 0 := hex.unique hx (by
          have hf : (fun i : Fin n => (List.replicate m (0:ℝ) ++ [1]).getD i 0) = 0 := by
            funext i
            have : (i : ℕ) < m := by omega
            rw [getD_lt' _ _ _ (by simp; omega), List.getElem_append_left (by simpa using this), List.getElem_replicate]
            rfl
          rw [hf]
          apply List.ext_getElem
          · simp only [projectVector, keepRows, List.length_append, List.length_map, List.length_take, List.length_finRange, hMn, List.length_cons, List.length_nil]
            omega
          · intro i h1 h2
            rw [List.getElem_map, dotProduct_zero]
            simp only [projectVector, keepRows, mulVec_zero, List.getElem_append]
            split_ifs with h3
            · simp only [List.length_cons, List.length_nil] at h3
              interval_cases i <;> rfl
            · simp)
        refine ⟨List.ofFn x, by simp, fun y => ?_, a1, a2, a3, a4⟩
        rw [hx0, asFun, chebEval_congr_getD _ [] (fun k => by
          by_cases hk : k < n
          · rw [getD_lt' _ _ _ (by simpa using hk), List.getElem_ofFn]; rfl
          · rw [List.getD_eq_default _ _ (by simpa using hk)]; rfl)]
        simp [chebEval])
      _ s0 s1 (fun n hn => ⟨(s3 n hn).1, (s3 n hn).2.trans hup⟩) 0 st false (fun h => absurd h (lt_irrefl 0)) (fun n hn => (s3 n hn).1)
    exact ⟨w, it, hw, hgood⟩
  · have h1 : Mapping.bwd e e.e1 = 1 := by
      have : e.e1 - e.e0 ≠ 0 := by linarith [he]
      simp only [Mapping.bwd, Mapping.diff]
      field_simp
      ring
    rw [h1, iteratedDeriv_const, chebEval, List.length_append, List.length_replicate, List.length_singleton, sum_range_succ, sum_eq_zero fun k hk => by
      have hk' : k < m := Finset.mem_range.mp hk
      rw [getD_lt' _ _ _ (by simp; omega), List.getElem_append_left (by simpa using hk'), List.getElem_replicate, zero_mul],
      getD_lt' _ _ _ (by simp), List.getElem_append_right (by simp)]
    simp

/-- **C133** for the initial value problem `u'' + y u = f`, `u(0) = α_0`, `u'(0) = α_1` on `[0, 1]`, with Newton's method `lu`: the hypotheses of `C133_adaptive`
hold, and environments exist (see `mkEnv_ok` below). -/
example (α : ℕ → ℝ) (f g : List ℝ) (hg : g.length = 2) : ∃ u : ℝ → ℝ, ContDiff ℝ 2 u ∧
    (∀ y ∈ Set.Icc (0:ℝ) 1, applyLin ⟨0, 1⟩ (airy 1) u y = chebEval f (Mapping.bwd ⟨0, 1⟩ y)) ∧
    ∀ δ > 0, ∃ N, ∀ (cc : SolveArgs) (method : String), method.toLower = "lu" → 0 ≤ cc.tol → 2 ≤ cc.miter → ∀ E,
      IsBvpEnv ⟨0, 1⟩ (airy 1) 2 0 (initial ⟨0, 1⟩ 2 α) f g cc method E → ∀ st : List ℝ,
      N ≤ st.length → ∃ w it, Adaptive.solve E 2 14 (1 / 10 ^ 8) 12 3 false st.length st = some (w, true, it) ∧
        ∀ y ∈ Set.Icc (0:ℝ) 1, |asFun ⟨0, 1⟩ w y - u y| ≤ δ := by
  have he : (⟨0, 1⟩ : Ends).e0 < (⟨0, 1⟩ : Ends).e1 := by norm_num
  obtain ⟨u, h1, h2, h3, h4⟩ := C133_adaptive ⟨0, 1⟩ he (airy 1) 2 1 0 (airy_ode 1) (initial ⟨0, 1⟩ 2 α) (by simp [initial]) (initial_ok ⟨0, 1⟩ he 2 α)
    (C127_initial ⟨0, 1⟩ he (airy 1) 2 1 (airy_ode 1) α).1 2 (airy_fits 1 one_ne_zero) f g hg
  refine ⟨u, by exact_mod_cast h1, h2, fun δ hδ => ?_⟩
  obtain ⟨N, hN⟩ := h4 δ hδ
  refine ⟨N, fun cc method hl ht hm E hE st hst => ?_⟩
  obtain ⟨w, it, hw, -, h⟩ := hN cc method (Or.inl ⟨hl, ht, hm⟩) E hE 2 14 (1 / 10 ^ 8) 12 3 st hst (by norm_num)
  exact ⟨w, it, hw, fun y hy => by simpa using h 0 (by norm_num) y hy⟩

/-! ### The hypotheses are met -/

open Classical in
/-- Newton's method with the inverse matrix. -/
noncomputable def E2E.mkEnv (e : Ends) (s : UltraS.Source) (r : ℕ) (eps : ℝ) (bcs : List BC) (f g : List ℝ) (c : SolveArgs) (method : String)
    (inplace : Bool) : Env (List ℝ) where
  prolong n l := prolongCol l n
  newton _ n st :=
    let A : Matrix (Fin n) (Fin n) ℝ := Matrix.of fun i => ((OpDisc.matrix (⟨e, r, eps, s, bcs⟩ : Disc n)).getD []).getD i 0
    match newtonSolve (⟨fun x => A *ᵥ x - rhsAt e s r eps bcs f g n, fun _ y => (A⁻¹ *ᵥ y, true)⟩ : Problem (Fin n → ℝ) (Fin n → ℝ))
      ⟨fun x => A *ᵥ x - rhsAt e s r eps bcs f g n, fun _ _ x _ _ => (x, true)⟩ (fun x y => x ⬝ᵥ y) c 2 method (fun i => st.getD i 0) with
    | .ok q => ⟨List.ofFn q.x, if inplace then List.ofFn q.x else st, q.success, q.k⟩
    | _ => ⟨st, st, false, 0⟩
  dist _ _ := 0

/-- There are such environments, for every problem. -/
lemma E2E.mkEnv_ok (e : Ends) (s : UltraS.Source) (r : ℕ) (eps : ℝ) (bcs : List BC) (f g : List ℝ) (c : SolveArgs) (method : String) (inplace : Bool) :
    IsBvpEnv e s r eps bcs f g c method (mkEnv e s r eps bcs f g c method inplace) := by
  refine ⟨fun n l => rfl, fun k n st => ?_⟩
  let A : Matrix (Fin n) (Fin n) ℝ := Matrix.of fun i => ((OpDisc.matrix (⟨e, r, eps, s, bcs⟩ : Disc n)).getD []).getD i 0
  refine ⟨⟨fun x => A *ᵥ x - rhsAt e s r eps bcs f g n, fun _ y => (A⁻¹ *ᵥ y, true)⟩,
    ⟨fun x => A *ᵥ x - rhsAt e s r eps bcs f g n, fun _ _ x _ _ => (x, true)⟩, (fun x y => x ⬝ᵥ y), 0, ⟨fun a x => ?_, fun x => ?_⟩, fun M hM B hB => ?_, fun q hq => ?_⟩
  · rw [smul_dotProduct, dotProduct_smul]; simp only [smul_eq_mul]; ring
  · exact Finset.sum_nonneg fun i _ => mul_self_nonneg _
  · have hBA : ∀ x, B x = A *ᵥ x := fun x => by
      funext i
      rw [hB]
      simp only [A, hM, Option.getD_some]
      rfl
    refine ⟨fun x => by rw [hBA], fun hinj x y => ⟨?_, rfl⟩⟩
    have hu : IsUnit A := Matrix.mulVec_injective_iff_isUnit.1 fun x y hxy => hinj (by rw [hBA, hBA]; exact hxy)
    rw [hBA]
    simp only
    rw [mulVec_mulVec, Matrix.mul_nonsing_inv _ ((Matrix.isUnit_iff_isUnit_det A).1 hu), one_mulVec]
  · have hred : (mkEnv e s r eps bcs f g c method inplace).newton k n st = ⟨List.ofFn q.x, if inplace then List.ofFn q.x else st, q.success, q.k⟩ := by
      unfold mkEnv
      simp only
      rw [show newtonSolve _ _ _ c 2 method (fun i : Fin n => st.getD i 0) = _ from hq]
    rw [hred]
    refine ⟨rfl, rfl, rfl, ?_⟩
    cases inplace
    · exact Or.inl rfl
    · exact Or.inr rfl

end Funpy.Props
