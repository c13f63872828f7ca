import Verif.Model.NewtonSolve
import Verif.Props.UltraSection
import Mathlib.Algebra.Module.LinearMap.Basic
import Mathlib.LinearAlgebra.Matrix.ToLin

/-!
# C123: Newton's methods on linear problems
-/

namespace Funpy.Props
open Funpy Funpy.Newton

section Affine
variable {X R : Type} [AddCommGroup X] [Module ℝ X] [AddCommGroup R] [Module ℝ R]

/-! ### Specification -/

/-- The problem is the regular linear system `A x = b`, and the linear solver solves with the matrix `A` (the linearisation of the residual at
every point). -/
structure IsLinearProblem (P : Problem X R) (A : X →ₗ[ℝ] R) (b : R) : Prop where
  res : ∀ x, P.F x = A x - b
  inj : Function.Injective A
  solves : ∀ x y, A (P.solve x y).1 = y ∧ (P.solve x y).2 = true

/-- What is needed of the inner product. -/
structure IsSquareForm (ip : X → X → ℝ) : Prop where
  smul : ∀ (a : ℝ) x, ip (a • x) (a • x) = a ^ 2 * ip x x
  nonneg : ∀ x, 0 ≤ ip x x

/-! ### Proofs -/

private lemma nrm_smul {ip : X → X → ℝ} (h : IsSquareForm ip) (a : ℝ) (ha : 0 ≤ a) (x : X) : nrm ip (a • x) = a * nrm ip x := by
  rw [nrm, h.smul, Real.sqrt_mul (sq_nonneg a), Real.sqrt_sq ha, nrm]

private lemma ip_zero {ip : X → X → ℝ} (h : IsSquareForm ip) : ip 0 0 = 0 := by
  have := h.smul 0 0
  simpa using this

private lemma nrm_zero {ip : X → X → ℝ} (h : IsSquareForm ip) : nrm ip 0 = 0 := by
  rw [nrm, ip_zero h, Real.sqrt_zero]

variable {P : Problem X R} {A : X →ₗ[ℝ] R} {b : R}

/-- The correction at any point leads to the solution -/
private lemma newton_dir (h : IsLinearProblem P A b) (x : X) : A (x + (P.solve x (-P.F x)).1) = b := by
  rw [map_add, (h.solves x _).1, h.res]; abel

/-- The simplified correction at `x + t dx` -/
private lemma simplified (h : IsLinearProblem P A b) (x y : X) (t : ℝ) (dx : X) (hd : A (x + dx) = b) :
    (P.solve y (-P.F (x + t • dx))).1 = (1 - t) • dx := by
  apply h.inj
  rw [(h.solves y _).1, h.res, map_add, map_smul, map_smul, ← hd, map_add, sub_smul, one_smul]
  abel

private lemma standard_affine (h : IsLinearProblem P A b) {ip : X → X → ℝ} (hi : IsSquareForm ip) (tol : ℝ) (ht : 0 ≤ tol) (debug : Bool)
    (miter : ℕ) (hm : 2 ≤ miter) (x : X) : ∃ q, newtonStandard P ip (fun _ _ _ _ => true) tol debug miter x = .ok q ∧ q.success = true ∧
      A q.x = b ∧ q.k ≤ 2 := by
  have hd := newton_dir h x
  rw [newtonStandard, standardLoop, dif_neg (by omega)]
  simp only [(h.solves x _).2, Bool.true_eq_false, if_false]
  by_cases h1 : nrm ip (P.solve x (-P.F x)).1 ≤ tol
  · exact ⟨_, if_pos h1, rfl, hd, by simp⟩
  · rw [if_neg h1, standardLoop, dif_neg (by omega)]
    simp only [(h.solves _ _).2, Bool.true_eq_false, if_false]
    have hz : (P.solve (x + (P.solve x (-P.F x)).1) (-P.F (x + (P.solve x (-P.F x)).1))).1 = 0 := by
      have := simplified h x (x + (P.solve x (-P.F x)).1) 1 (P.solve x (-P.F x)).1 hd
      simpa using this
    rw [hz, nrm_zero hi, if_pos ht]
    exact ⟨_, rfl, rfl, by simpa using hd, by simp⟩

private lemma qnerr_affine (h : IsLinearProblem P A b) {ip : X → X → ℝ} (hi : IsSquareForm ip) (tol thetaMax : ℝ) (hth : 0 ≤ thetaMax)
    (miter : ℕ) (hm : 1 ≤ miter) (x : X) : ∃ q, qnerrAlone P ip (fun _ _ _ _ => true) tol thetaMax 0 miter x = .ok q ∧ q.success = true ∧
      A q.x = b ∧ q.k ≤ 2 := by
  have hd := newton_dir h x
  rw [qnerrAlone]
  simp only [(h.solves x _).2, Bool.true_eq_false, if_false]
  refine ⟨_, rfl, ?_⟩
  set s := (P.solve x (-P.F x)).1 with hs
  rw [qnerrLoop, dif_neg (by omega)]
  simp only [List.getD_cons_zero, Bool.false_eq_true, if_false, true_and]
  by_cases h1 : nrm ip s ≤ tol * tol
  · rw [if_pos h1]
    exact ⟨rfl, hd, by simp⟩
  · rw [if_neg h1]
    simp only [(h.solves x _).2, Bool.true_eq_false, if_false]
    have hz : (P.solve x (-P.F (x + s))).1 = 0 := by
      have := simplified h x x 1 s hd
      simpa using this
    rw [hz]
    simp only [qnUpdate, List.length_cons, List.length_nil, Nat.zero_add, Nat.sub_self, List.range_zero, List.foldl_nil, smul_zero, ip_zero hi,
      zero_div, Real.sqrt_zero, or_false]
    rw [if_neg (by linarith), qnerrLoop, dif_neg (by omega)]
    simp only [Bool.false_eq_true, if_false, true_and, List.cons_append, List.nil_append, List.getD_cons_succ, List.getD_cons_zero]
    rw [if_pos (mul_self_nonneg tol)]
    exact ⟨rfl, by simpa using hd, by simp⟩

private lemma damp_one (h : IsLinearProblem P A b) {ip : X → X → ℝ} (hi : IsSquareForm ip) (c : NleqCfg) (ht : 0 ≤ c.tol) (hm : c.lamMin < 1)
    (x dx : X) (hd : A (x + dx) = b) (fuel : ℕ) (red qn : Bool) :
    damp P ip c x dx (fuel + 1) 1 red qn = .ok (.converged (x + dx) (P.F (x + dx)) 0 0 1) := by
  have hz : (P.solve x (-P.F (x + dx))).1 = 0 := by
    have := simplified h x x 1 dx hd
    simpa using this
  rw [damp, if_neg (by linarith)]
  simp only [one_smul, hz, (h.solves _ _).2, Bool.true_eq_false, if_false, sub_self, zero_smul, nrm_zero hi, zero_div, minQuot, lt_irrefl,
    true_and, if_true]
  rw [if_neg (by rintro (⟨-, h⟩ | ⟨-, h⟩) <;> linarith), if_pos ht]

private lemma damp_lt (h : IsLinearProblem P A b) {ip : X → X → ℝ} (hi : IsSquareForm ip) (c : NleqCfg) (ht : 0 ≤ c.tol) (hm0 : 0 ≤ c.lamMin)
    (x dx : X) (hd : A (x + dx) = b) (hn : 0 < nrm ip dx) (lam : ℝ) (hl : c.lamMin < lam) (hl1 : lam < 1) (fuel : ℕ) (qn : Bool) :
    damp P ip c x dx (fuel + 2) lam false qn = .ok (.converged (x + dx) (P.F (x + dx)) 0 0 1) ∨
    ∃ th, damp P ip c x dx (fuel + 2) lam false qn = .ok (.accept (x + lam • dx) (P.F (x + lam • dx)) ((1 - lam) • dx) th lam qn) := by
  rw [damp, if_neg (by linarith)]
  simp only [simplified h x x lam dx hd, (h.solves _ _).2, Bool.true_eq_false, if_false, sub_self, nrm_zero hi, minQuot, lt_irrefl,
    nrm_smul hi (1 - lam) (by linarith), mul_div_assoc, div_self hn.ne', mul_one]
  rw [if_neg (by rintro (⟨-, h⟩ | ⟨-, h⟩) <;> linarith), if_neg (by rintro ⟨h, -⟩; linarith)]
  by_cases h4 : 4 * lam ≤ 1
  · left
    rw [if_pos (by simpa using h4)]
    exact damp_one h hi c ht (by linarith) x dx hd fuel false qn
  · right
    rw [if_neg (by simpa using h4)]
    exact ⟨_, rfl⟩

private lemma nleq_affine (h : IsLinearProblem P A b) {ip : X → X → ℝ} (hi : IsSquareForm ip) (c : NleqCfg) (ht : 0 ≤ c.tol)
    (hm0 : 0 ≤ c.lamMin) (hm : 2 ≤ c.miter) (lam : ℝ) (hl : c.lamMin < lam) (hl1 : lam ≤ 1) (fuel : ℕ) (x : X) :
    ∃ q, nleqErr P ip (fun _ _ _ _ => true) c (fuel + 2) lam x = .ok q ∧ q.success = true ∧ A q.x = b ∧ q.k ≤ 2 := by
  have hd := newton_dir h x
  rw [nleqErr, nleqLoop, dif_neg (by omega)]
  simp only [curRes, (h.solves _ _).2, Bool.true_eq_false, if_false, lamStart]
  set dx := (P.solve x (-P.F x)).1 with hdx
  by_cases h1 : nrm ip dx ≤ c.tol
  · exact ⟨_, if_pos h1, rfl, hd, by simp⟩
  rw [if_neg h1]
  have hn : 0 < nrm ip dx := lt_of_le_of_lt ht (not_le.1 h1)
  rcases hl1.lt_or_eq with hlt | rfl
  · rcases damp_lt h hi c ht hm0 x dx hd hn lam hl hlt fuel false with h2 | ⟨th, h2⟩
    · rw [h2]
      exact ⟨_, rfl, rfl, by simpa using hd, by simp⟩
    · rw [h2]
      simp only [Bool.false_eq_true, false_and, if_false]
      rw [nleqLoop, dif_neg (by omega)]
      have e1 : (P.solve (x + lam • dx) (-P.F (x + lam • dx))).1 = (1 - lam) • dx := simplified h x _ lam dx hd
      have hd2 : A (x + lam • dx + (1 - lam) • dx) = b := by rw [← e1]; exact newton_dir h _
      simp only [curRes, (h.solves _ _).2, Bool.true_eq_false, if_false, lamStart, e1, sub_self, nrm_zero hi, zero_mul, minQuot, lt_irrefl]
      by_cases h3 : nrm ip ((1 - lam) • dx) ≤ c.tol
      · exact ⟨_, if_pos h3, rfl, hd2, by simp⟩
      · rw [if_neg h3, damp_one h hi c ht (by linarith) _ _ hd2]
        exact ⟨_, rfl, rfl, by simpa using hd2, by simp⟩
  · rw [damp_one h hi c ht (by linarith) x dx hd]
    exact ⟨_, rfl, rfl, by simpa using hd, by simp⟩

/-- **C123.**  On a regular linear problem `A x = b`, from every starting point, `Newton.solve` reports success with the exact solution after at most
two iterations: for `lu`, `qnerr` and the damped method `nleq` (restricted or not, with or without quasi-Newton steps, from every admissible
damping factor).  Two iterations and two passes of the damping loop must be allowed. -/
theorem C123_linear (P : Problem X R) (I : InexactProblem X R) (A : X →ₗ[ℝ] R) (b : R) (h : IsLinearProblem P A b) (ip : X → X → ℝ)
    (hi : IsSquareForm ip) (c : SolveArgs) (fuel : ℕ) (method : String) (x : X)
    (hm : (method.toLower = "lu" ∧ 0 ≤ c.tol ∧ 2 ≤ c.miter) ∨ (method.toLower = "qnerr" ∧ 0 ≤ c.thetaMax ∧ 1 ≤ c.miter) ∨
      ((method.toLower = "nleq" ∨ method.toLower = "nleq-err") ∧ 0 ≤ c.nleq.tol ∧ 2 ≤ c.nleq.miter ∧ 0 ≤ c.nleq.lamMin ∧
        c.nleq.lamMin < c.lam ∧ c.lam ≤ 1)) :
    ∃ q, newtonSolve P I ip c (fuel + 2) method x = .ok q ∧ q.success = true ∧ A q.x = b ∧ (∀ y, A y = b → y = q.x) ∧ q.k ≤ 2 := by
  have key : ∃ q, newtonSolve P I ip c (fuel + 2) method x = .ok q ∧ q.success = true ∧ A q.x = b ∧ q.k ≤ 2 := by
    rcases hm with ⟨hl, h1, h2⟩ | ⟨hl, h1, h2⟩ | ⟨hl, h1, h2, h3, h4, h5⟩
    · obtain ⟨q, e, hq⟩ := standard_affine h hi c.tol h1 c.debug c.miter h2 x
      refine ⟨q, ?_, hq⟩
      have ha : algo method.toLower = .standard := by rw [hl]; decide
      have hs : setup method.toLower = .ok () := by rw [hl]; rfl
      rw [newtonSolve]
      simp only [ha, hs, e]
      split_ifs <;> rfl
    · obtain ⟨q, e, hq⟩ := qnerr_affine h hi c.tol c.thetaMax h1 c.miter h2 x
      refine ⟨q, ?_, hq⟩
      have ha : algo method.toLower = .qnerr := by rw [hl]; decide
      have hs : setup method.toLower = .ok () := by rw [hl]; rfl
      rw [newtonSolve]
      simp only [ha, hs, e]
      split_ifs <;> rfl
    · obtain ⟨q, e, hq⟩ := nleq_affine h hi c.nleq h1 h3 h2 c.lam h4 h5 fuel x
      refine ⟨q, ?_, hq⟩
      have ha : algo method.toLower = .nleq := by rcases hl with h | h <;> rw [h] <;> decide
      have hs : setup method.toLower = .ok () := by rcases hl with h | h <;> rw [h] <;> rfl
      rw [newtonSolve]
      simp only [ha, hs, e]
      split_ifs <;> rfl
  obtain ⟨q, e, h1, h2, h3⟩ := key
  exact ⟨q, e, h1, h2, fun y hy => h.inj (hy.trans h2.symm), h3⟩

/-- **C123, the limit on the iterations.**  One iteration is not enough for `lu`, whatever the problem: if the first correction is longer than the tolerance,
the result is the exact solution, but reported as a failure. -/
theorem C123_one_iteration (P : Problem X R) (I : InexactProblem X R) (A : X →ₗ[ℝ] R) (b : R) (h : IsLinearProblem P A b) (ip : X → X → ℝ)
    (c : SolveArgs) (fuel : ℕ) (method : String) (x : X) (hl : method.toLower = "lu") (hm : c.miter = 1) (hd : c.debug = false)
    (hx : ∀ y, A y = b → c.tol < nrm ip (y - x)) :
    ∃ q, newtonSolve P I ip c fuel method x = .ok q ∧ q.success = false ∧ A q.x = b := by
  have hdir := newton_dir h x
  have h1 := hx _ hdir
  rw [add_sub_cancel_left] at h1
  have e : newtonStandard P ip (fun _ _ _ _ => true) c.tol c.debug c.miter x =
      .ok ⟨x + (P.solve x (-P.F x)).1, false, 1, nrm ip (P.solve x (-P.F x)).1, 1, some x⟩ := by
    rw [newtonStandard, standardLoop, dif_neg (by omega)]
    simp only [(h.solves x _).2, Bool.true_eq_false, if_false]
    rw [if_neg (not_le.2 h1), standardLoop, dif_pos (by omega), hd]
    rfl
  refine ⟨⟨x + (P.solve x (-P.F x)).1, false, 1, nrm ip (P.solve x (-P.F x)).1, 1, some x⟩, ?_, rfl, hdir⟩
  have ha : algo method.toLower = .standard := by rw [hl]; decide
  have hs : setup method.toLower = .ok () := by rw [hl]; rfl
  rw [newtonSolve]
  simp only [ha, hs, e]
  split_ifs <;> rfl

end Affine

/-! ### Linear boundary value problems -/

section BVP
open OpDisc Sect Matrix
variable {n : ℕ}

/-- **C123, boundary value problems.**  Newton's methods on the ultraspherical discretisation of a linear boundary value problem `L u = f` (as many conditions
as the projection order, a regular matrix): from every starting point the result satisfies the boundary conditions exactly, and its residual
`L u - f` is a combination of the `C^{(r)}_k` with `k ≥ n - 2 r`. -/
theorem C123_bvp (d : Disc n) (hn : 2 ≤ n) (he : d.e.e0 < d.e.e1) (hr : d.r ≤ n) (hsq : d.bcs.length = d.r)
    (hb : ∀ b ∈ d.bcs, BC.PointsIn d.e b ∧ BC.Mentions b) (hout : d.src.coeff.length ≤ d.r + 1) (hfit : SecFits n n d.src)
    (g : List ℝ) (hg : g.length = d.bcs.length) (f : Fin n → ℝ) (M : List (Fin n → ℝ)) (hM : OpDisc.matrix d = some M)
    (P : Problem (Fin n → ℝ) (Fin n → ℝ)) (I : InexactProblem (Fin n → ℝ) (Fin n → ℝ)) (A : (Fin n → ℝ) →ₗ[ℝ] (Fin n → ℝ))
    (hA : ∀ x i, A x i = M.getD i 0 ⬝ᵥ x) (h : IsLinearProblem P A fun i => (projectVector d g f).getD i 0)
    (ip : (Fin n → ℝ) → (Fin n → ℝ) → ℝ) (hi : IsSquareForm ip) (c : SolveArgs) (fuel : ℕ) (method : String) (x : Fin n → ℝ)
    (hm : (method.toLower = "lu" ∧ 0 ≤ c.tol ∧ 2 ≤ c.miter) ∨ (method.toLower = "qnerr" ∧ 0 ≤ c.thetaMax ∧ 1 ≤ c.miter) ∨
      ((method.toLower = "nleq" ∨ method.toLower = "nleq-err") ∧ 0 ≤ c.nleq.tol ∧ 2 ≤ c.nleq.miter ∧ 0 ≤ c.nleq.lamMin ∧
        c.nleq.lamMin < c.lam ∧ c.lam ≤ 1)) :
    ∃ q, newtonSolve P I ip c (fuel + 2) method x = .ok q ∧ q.success = true ∧ q.k ≤ 2 ∧
      (∀ k (hk : k < d.bcs.length), BC.sem (funOf d.e q.x) d.bcs[k] - BC.sem (fun _ => 0) d.bcs[k] = g.getD k 0) ∧
      IsTail d.e n d.r fun y => applyLin d.e d.src (funOf d.e q.x) y - funOf d.e f y := by
  obtain ⟨q, e, h1, h2, -, h3⟩ := C123_linear P I A _ h ip hi c fuel method x hm
  obtain ⟨M', hM', -, hl⟩ := C98_shape d hn he hr hb
  rw [hM] at hM'
  obtain rfl := Option.some.inj hM'
  have hlen := hl.2 hsq
  have hpl : (projectVector d g f).length = n := by
    simp only [projectVector, keepRows, List.length_append, List.length_map, List.length_take, List.length_finRange]
    omega
  have hsol : M.map (· ⬝ᵥ q.x) = projectVector d g f := by
    apply List.ext_getElem (by rw [List.length_map, hlen, hpl])
    intro i hi1 hi2
    rw [List.getElem_map]
    have := congrFun h2 ⟨i, by rw [← hpl]; exact hi2⟩
    rw [hA] at this
    simp only at this
    rw [getD_lt' _ _ _ (by rw [hlen, ← hpl]; exact hi2), getD_lt' _ _ _ hi2] at this
    exact this
  obtain ⟨b1, b2⟩ := C121_residual d hn he hb hout M hM g hg f q.x hsol n (fun i hi => by omega) hfit
  exact ⟨q, e, h1, h3, b1, b2⟩

end BVP

/-! ### The hypotheses are met -/

/-- The system `2 x = 6` and the plain product. -/
private noncomputable def exP : Problem ℝ ℝ := ⟨fun x => 2 * x - 6, fun _ y => (y / 2, true)⟩

/-- The hypotheses are met: the linear system `2 x = 6` and the plain product. -/
example : IsLinearProblem exP (LinearMap.lsmul ℝ ℝ 2) 6 ∧ IsSquareForm fun x y : ℝ => x * y := by
  refine ⟨⟨fun x => by simp [exP], fun x y h => by simpa using h, fun x y => ⟨by simp [exP]; ring, rfl⟩⟩,
    ⟨fun a x => by simp only [smul_eq_mul]; ring, fun x => mul_self_nonneg x⟩⟩

end Funpy.Props
