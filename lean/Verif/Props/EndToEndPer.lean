import Verif.Props.EndToEnd
import Verif.Props.FourierUnique
import Verif.Props.TrigBasic

/-!
# C134: the adaptive solver on linear periodic problems
-/

namespace Funpy.Props
namespace E2P
end E2P
open Spec Trig TrigSpec Matrix Finset Complex FCv FUn Newton Adaptive E2E E2P
open scoped ContDiff

/-! ### Specification -/

/-- The right-hand side of the discretised problem with `n` modes: the Fourier coefficients of `f`. -/
noncomputable def E2P.rhsAt (f : List ℂ) (n : ℕ) : Fin n → ℂ := fun i => fourier (trigEval f) (wave n i)

/-- The environment of the adaptive solver is `Newton.solve` with the method `method` on the Fourier discretisations of the linear periodic problem
`L u = f`: `prolong` is that of periodic functions; the residual is that of the discretised problem; the linear solver solves whenever the matrix is regular;
the argument is not changed, or updated in place. -/
structure E2P.IsPerEnv (e : Ends) (s : TrigSpec.Source) (eps : ℝ) (f : List ℂ) (c : SolveArgs) (method : String) (E : Env (List ℂ)) : Prop where
  prolong : ∀ n l, E.prolong n l = Trig.prolongCol l n
  newton : ∀ k n st, ∃ (P : Problem (Fin n → ℂ) (Fin n → ℂ)) (I : InexactProblem (Fin n → ℂ) (Fin n → ℂ)) (ip : (Fin n → ℂ) → (Fin n → ℂ) → ℝ) (fuel : ℕ),
    IsSquareForm ip ∧
    (∀ x, P.F x = quasi2diffmat n (Mapping.diff e) eps s *ᵥ x - E2P.rhsAt f n) ∧
    (Function.Injective (quasi2diffmat n (Mapping.diff e) eps s).mulVec →
      ∀ x y, quasi2diffmat n (Mapping.diff e) eps s *ᵥ (P.solve x y).1 = y ∧ (P.solve x y).2 = true) ∧
    ∀ q, newtonSolve P I ip c (fuel + 2) method (fun i => st.getD i 0) = .ok q →
      (E.newton k n st).out = List.ofFn q.x ∧ (E.newton k n st).ok = q.success ∧ (E.newton k n st).it = q.k ∧
      ((E.newton k n st).arg = st ∨ (E.newton k n st).arg = List.ofFn q.x)

/-- The periodic function with the Fourier coefficients `l` on the interval. -/
noncomputable def E2P.asPer (e : Ends) (l : List ℂ) (y : ℝ) : ℂ := trigEval l (Mapping.bwd e y)

/-! ### Proofs -/

/-- one step of the loop -/
lemma E2P.step (e : Ends) (s : TrigSpec.Source) (eps : ℝ) (f : List ℂ) (c : SolveArgs) (method : String)
    (hm : Allowed c method) (E : Env (List ℂ)) (hE : IsPerEnv e s eps f c method E) (k n : ℕ) (st : List ℂ)
    (hex : ∃! x : Fin n → ℂ, quasi2diffmat n (Mapping.diff e) eps s *ᵥ x = E2P.rhsAt f n) :
    ∃ x : Fin n → ℂ, quasi2diffmat n (Mapping.diff e) eps s *ᵥ x = E2P.rhsAt f n ∧
      (E.newton k n st).out = List.ofFn x ∧ (E.newton k n st).ok = true ∧ (E.newton k n st).it ≤ 2 ∧
      ((E.newton k n st).arg = st ∨ (E.newton k n st).arg = List.ofFn x) := by
  obtain ⟨P, I, ip, fuel, hip, hP, hsol, hN⟩ := hE.newton k n st
  set M := quasi2diffmat n (Mapping.diff e) eps s with hM
  let A : (Fin n → ℂ) →ₗ[ℝ] (Fin n → ℂ) := (Matrix.toLin' M).restrictScalars ℝ
  have hA : ∀ x, A x = M *ᵥ x := fun x => rfl
  obtain ⟨x0, hx0, hu⟩ := hex
  have hinj : Function.Injective A := by
    rw [← LinearMap.ker_eq_bot, LinearMap.ker_eq_bot']
    intro z hz
    rw [hA] at hz
    have h1 := hu (x0 + z) (by show M *ᵥ (x0 + z) = _; rw [mulVec_add, hz, add_zero]; exact hx0)
    exact left_eq_add.mp h1.symm
  obtain ⟨q, hq, hs, hb, -, hk⟩ := C123_linear P I A (E2P.rhsAt f n) ⟨fun x => hP x, hinj, fun x y => hsol hinj x y⟩ ip hip c fuel method
    (fun i => st.getD i 0) hm
  obtain ⟨a1, a2, a3, a4⟩ := hN q hq
  exact ⟨q.x, hb, a1, a2.trans hs, a3 ▸ hk, a4⟩

lemma E2P.asPer_prolong (e : Ends) (l : List ℂ) (n : ℕ) (h0 : l ≠ []) (h : l.length ≤ n) : asPer e (Trig.prolongCol l n) = asPer e l := by
  funext y
  exact (C32_column l h0 n h).2 _

/-- the sizes tried -/
lemma E2P.sizes (nMin nMax len up : ℕ) (hodd : len % 2 = 1) (h3 : 3 ≤ len) (hup : 2 ^ nMax < upperBd len up) :
    ∀ n ∈ nDisc (ctorMin nMin) nMax len (upperBd len up) false, n % 2 = 1 := by
  intro n hn
  obtain ⟨-, s2, -⟩ := C100_sizes (ctorMin nMin) nMax len (upperBd len up)
  obtain ⟨k, -, hk, rfl⟩ := (s2 n).1 hn
  have h1 : 2 ^ k ≤ 2 ^ nMax := Nat.pow_le_pow_right (by norm_num) hk
  rw [min_eq_right (by omega)]
  rcases Nat.eq_zero_or_pos k with rfl | h0
  · rw [max_eq_left (by omega)]; exact hodd
  · have h2 : 2 ^ k % 2 = 0 := by
      obtain ⟨j, rfl⟩ : ∃ j, k = j + 1 := ⟨k - 1, by omega⟩
      rw [pow_succ]; omega
    rcases max_choice len (1 + 2 ^ k) with h | h <;> rw [h]
    · exact hodd
    · omega

/-- **C134, linear periodic problems are solved by the adaptive solver.**  Let `L` be an operator of order `r` with a constant leading coefficient such that the
homogeneous periodic problem has only the zero solution, and assume that no entries are dropped by large discretisations.  Then for every right-hand side
with finitely many Fourier coefficients the problem has exactly one periodic solution `u`, and for all `J` and `δ > 0` there is an `N` such that from every state
with an odd number of at least `N` coefficients, if the largest size `1 + 2^n_max` is not clipped, `SolverAdaptive.solve` (with any of the methods of C123 and any
tolerances) reports success, after at most two iterations on its last grid, with a function which agrees with `u`, with all derivatives up to
the order `J`, to within `δ` everywhere. -/
theorem C134_adaptive (e : Ends) (he : e.e0 < e.e1) (s : TrigSpec.Source) (r : ℕ) (c : ℂ) (eps : ℝ) (hs : IsOp s r c) (huni : UniquePer e s r)
    (N0 : ℕ) (hdrop : ∀ n, N0 ≤ n → NoDrop n (Mapping.diff e) eps s) (f : List ℂ) :
    ∃ u : ℝ → ℂ, ContDiff ℝ ∞ u ∧ Function.Periodic u (Mapping.diff e) ∧ (∀ x, applyOp e s u x = trigEval f (Mapping.bwd e x)) ∧
      (∀ w : ℝ → ℂ, ContDiff ℝ r w → Function.Periodic w (Mapping.diff e) → (∀ x, applyOp e s w x = trigEval f (Mapping.bwd e x)) → w = u) ∧
      ∀ (J : ℕ) (δ : ℝ), 0 < δ → ∃ N, ∀ (cc : SolveArgs) (method : String), Allowed cc method → ∀ E, IsPerEnv e s eps f cc method E →
        ∀ (nMin nMax : ℕ) (tol : ℝ) (up maxFail : ℕ) (st : List ℂ), N ≤ st.length → st.length % 2 = 1 → min 7 nMin ≤ nMax →
          2 ^ nMax < upperBd st.length up →
          ∃ w it, Adaptive.solve E nMin nMax tol up maxFail false st.length st = some (w, true, it) ∧ it ≤ 2 ∧
            ∀ j ≤ J, ∀ x, ‖iteratedDeriv j (asPer e w) x - iteratedDeriv j u x‖ ≤ δ := by
  obtain ⟨u, h1, h2, h3, h4, h5⟩ := C129_solves e he s r c eps hs huni f
  refine ⟨u, h1, h2, h3, h4, fun J δ hδ => ?_⟩
  choose C N hN using fun j => h5 1 j
  obtain ⟨m, hm⟩ := exists_nat_ge (∑ j ∈ Finset.range (J + 1), |C j| / δ)
  refine ⟨N0 + (∑ j ∈ Finset.range (J + 1), N j) + m + 3, fun cc method hmt E hE nMin nMax tol up maxFail st hst hodd hmin hup => ?_⟩
  obtain ⟨s0, s1, s3⟩ := E2E.sizes nMin nMax st.length up hmin
  have hNle : ∀ j ≤ J, N j ≤ ∑ j ∈ Finset.range (J + 1), N j := fun j hj =>
    Finset.single_le_sum (f := N) (fun i _ => Nat.zero_le _) (Finset.mem_range.2 (by omega))
  obtain ⟨w, it, hw, hgood, hit⟩ := loop_good E tol maxFail (fun n => st.length ≤ n ∧ n % 2 = 1)
    (fun w => w ≠ [] ∧ ∀ j ≤ J, ∀ x, ‖iteratedDeriv j (asPer e w) x - iteratedDeriv j u x‖ ≤ δ)
    (fun n l hl h => by
      rw [hE.prolong, asPer_prolong e l n h.1 hl]
      refine ⟨fun h0 => ?_, h.2⟩
      have hlen := (C32_column l h.1 n hl).1
      rw [h0] at hlen
      have := List.length_pos_iff.2 h.1
      simp at hlen
      omega)
    (fun k n st' hn => by
      have hnd := hdrop n (by omega)
      have hex := (hN 0 n (by have := hNle 0 (Nat.zero_le _); omega) hn.2 hnd).1
      obtain ⟨x, hx, a1, a2, a3, a4⟩ := step e s eps f cc method hmt E hE k n st' hex
      refine ⟨List.ofFn x, by simp, ⟨fun h0 => ?_, fun j hj y => ?_⟩, a1, a2, a3, a4⟩
      · have := congrArg List.length h0
        simp at this
        omega
      · refine ((hN j n (by have := hNle j hj; omega) hn.2 hnd).2 x hx y).trans ?_
        have hn0 : (0 : ℝ) < n := by exact_mod_cast (by omega : 0 < n)
        have hmn : (m : ℝ) ≤ n := by exact_mod_cast (by omega : m ≤ n)
        rw [pow_one, div_le_iff₀ hn0]
        have h6 : |C j| / δ ≤ m := (Finset.single_le_sum (f := fun j => |C j| / δ) (fun i _ => by positivity)
          (Finset.mem_range.2 (by omega : j < J + 1))).trans hm
        have h7 : |C j| ≤ m * δ := (div_le_iff₀ hδ).1 h6
        calc C j ≤ |C j| := le_abs_self _
          _ ≤ m * δ := h7
          _ ≤ δ * n := by rw [mul_comm]; gcongr)
    _ s0 s1 (fun n hn => ⟨(s3 n hn).1, E2P.sizes nMin nMax st.length up hodd (by omega) hup n hn⟩) 0 st false
    (fun h => absurd h (lt_irrefl 0)) (fun n hn => (s3 n hn).1)
  exact ⟨w, it, hw, hit, hgood.2⟩

/-- **C134, the last grid can be even.**  If the largest size is clipped then the last grid tried has an even number of modes (a power of two), for which
C94 fails. -/
theorem C134_clipped_grid_even (nMin nMax len up : ℕ) (hmin : min 7 nMin ≤ nMax) (hup : upperBd len up ≤ 2 ^ nMax) (h2 : 2 ≤ up) (hlen : len ≤ upperBd len up) :
    upperBd len up ∈ nDisc (ctorMin nMin) nMax len (upperBd len up) false ∧
    (∀ n ∈ nDisc (ctorMin nMin) nMax len (upperBd len up) false, n ≤ upperBd len up) ∧ upperBd len up % 2 = 0 := by
  obtain ⟨-, s2, s3⟩ := C100_sizes (ctorMin nMin) nMax len (upperBd len up)
  refine ⟨(s2 _).2 ⟨nMax, hmin, le_rfl, ?_⟩, fun n hn => by have := (s3 n hn).2; rwa [max_eq_right hlen] at this, ?_⟩
  · rw [min_eq_left (by omega), max_eq_right hlen]
  · unfold upperBd
    obtain ⟨j, hj⟩ : ∃ j, Nat.log2 (Tools.findNextPowerOf2 len).toNat + (up - 1) = j + 1 := ⟨Nat.log2 (Tools.findNextPowerOf2 len).toNat + (up - 2), by omega⟩
    rw [hj, pow_succ]
    omega

/-! ### The hypotheses are met -/

/-- Newton's method with the inverse matrix. -/
noncomputable def E2P.mkEnv (e : Ends) (s : TrigSpec.Source) (eps : ℝ) (f : List ℂ) (c : SolveArgs) (method : String) (inplace : Bool) : Env (List ℂ) where
  prolong n l := Trig.prolongCol l n
  newton _ n st :=
    let A := quasi2diffmat n (Mapping.diff e) eps s
    match newtonSolve (⟨fun x => A *ᵥ x - E2P.rhsAt f n, fun _ y => (A⁻¹ *ᵥ y, true)⟩ : Problem (Fin n → ℂ) (Fin n → ℂ))
      ⟨fun x => A *ᵥ x - E2P.rhsAt f n, fun _ _ x _ _ => (x, true)⟩ (fun x y => (star x ⬝ᵥ y).re) c 2 method (fun i => st.getD i 0) with
    | .ok q => ⟨List.ofFn q.x, if inplace then List.ofFn q.x else st, q.success, q.k⟩
    | _ => ⟨st, st, false, 0⟩
  dist _ _ := 0

/-- There are such environments, for every problem. -/
lemma E2P.mkEnv_ok (e : Ends) (s : TrigSpec.Source) (eps : ℝ) (f : List ℂ) (c : SolveArgs) (method : String) (inplace : Bool) :
    IsPerEnv e s eps f c method (E2P.mkEnv e s eps f c method inplace) := by
  refine ⟨fun n l => rfl, fun k n st => ?_⟩
  set A := quasi2diffmat n (Mapping.diff e) eps s with hA
  refine ⟨⟨fun x => A *ᵥ x - E2P.rhsAt f n, fun _ y => (A⁻¹ *ᵥ y, true)⟩,
    ⟨fun x => A *ᵥ x - E2P.rhsAt f n, fun _ _ x _ _ => (x, true)⟩, (fun x y => (star x ⬝ᵥ y).re), 0, ⟨fun a x => ?_, fun x => ?_⟩, fun x => rfl,
      fun hinj x y => ⟨?_, rfl⟩, fun q hq => ?_⟩
  · simp only [dotProduct, Complex.re_sum, mul_sum]
    refine sum_congr rfl fun i _ => ?_
    simp [Complex.mul_re]
    ring
  · simp only [dotProduct, Complex.re_sum]
    refine sum_nonneg fun i _ => ?_
    simp only [Pi.star_apply, Complex.star_def, Complex.mul_re, Complex.conj_re, Complex.conj_im]
    nlinarith [mul_self_nonneg (x i).re, mul_self_nonneg (x i).im]
  · have hu : IsUnit A := Matrix.mulVec_injective_iff_isUnit.1 hinj
    simp only
    rw [mulVec_mulVec, Matrix.mul_nonsing_inv _ ((Matrix.isUnit_iff_isUnit_det A).1 hu), one_mulVec]
  · have hred : (E2P.mkEnv e s eps f c method inplace).newton k n st = ⟨List.ofFn q.x, if inplace then List.ofFn q.x else st, q.success, q.k⟩ := by
      unfold E2P.mkEnv
      simp only
      rw [show newtonSolve _ _ _ c 2 method (fun i : Fin n => st.getD i 0) = _ from hq]
    rw [hred]
    refine ⟨rfl, rfl, rfl, ?_⟩
    cases inplace
    · exact Or.inl rfl
    · exact Or.inr rfl

/-- C134 for the problem `-u'' + u = f` on `[-1, 1]` with Newton's method `lu` and the default bounds (`n_max = 14`, `up_steps = 12`). -/
example (f : List ℂ) : ∃ u : ℝ → ℂ, ContDiff ℝ ∞ u ∧ (∀ x, applyOp ⟨-1, 1⟩ helm u x = trigEval f (Mapping.bwd ⟨-1, 1⟩ x)) ∧
    ∀ δ > 0, ∃ N, ∀ (cc : SolveArgs) (method : String), method.toLower = "lu" → 0 ≤ cc.tol → 2 ≤ cc.miter → ∀ E,
      IsPerEnv ⟨-1, 1⟩ helm 0 f cc method E → ∀ st : List ℂ, N ≤ st.length → st.length % 2 = 1 → 2 ^ 14 < upperBd st.length 12 →
      ∃ w it, Adaptive.solve E 2 14 (1 / 10 ^ 8) 12 3 false st.length st = some (w, true, it) ∧ ∀ x, ‖asPer ⟨-1, 1⟩ w x - u x‖ ≤ δ := by
  obtain ⟨u, h1, -, h3, -, h5⟩ := C134_adaptive ⟨-1, 1⟩ (by norm_num) helm 2 (-(1 : ℝ) : ℂ) 0
    (C129_elliptic ⟨-1, 1⟩ (by norm_num) 1 1 0 one_pos [0] [1] [0] [0] (by simp) (fun y => by simp [trigEval])
      (fun y => by simp [trigEval, trigMode, wave]) (fun y => by simp [trigEval]) one_pos).1
    (C129_elliptic ⟨-1, 1⟩ (by norm_num) 1 1 0 one_pos [0] [1] [0] [0] (by simp) (fun y => by simp [trigEval])
      (fun y => by simp [trigEval, trigMode, wave]) (fun y => by simp [trigEval]) one_pos).2 0 (fun n _ i j => Or.inr (norm_nonneg _)) f
  refine ⟨u, h1, h3, fun δ hδ => ?_⟩
  obtain ⟨N, hN⟩ := h5 0 δ hδ
  refine ⟨N, fun cc method hl ht hm E hE st hst hodd hup => ?_⟩
  obtain ⟨w, it, hw, -, h⟩ := hN cc method (Or.inl ⟨hl, ht, hm⟩) E hE 2 14 (1 / 10 ^ 8) 12 3 st hst hodd (by norm_num) hup
  exact ⟨w, it, hw, fun x => by simpa using h 0 le_rfl x⟩

/-- the bound on the sizes holds for the default options and 17 coefficients -/
example : 2 ^ 14 < upperBd 17 12 := by decide

/-- it does not hold for `up_steps = 3`: the last of the four grids is even -/
example : upperBd 17 3 ≤ 2 ^ 14 ∧ nDisc (ctorMin 2) 14 17 (upperBd 17 3) false = [17, 33, 65, 128] := by decide

end Funpy.Props
