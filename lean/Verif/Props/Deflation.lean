import Verif.Model.Deflation
import Mathlib.Analysis.InnerProductSpace.Calculus
import Mathlib.Analysis.SpecialFunctions.Pow.Deriv

/-!
# C53, C54: deflation
-/

namespace Funpy.Props
open Funpy Funpy.Deflation

variable {X : Type} [NormedAddCommGroup X] [InnerProductSpace ℝ X]

theorem deflation_eq_prod (u : X) (ks : List X) (shift power : ℝ) :
    deflation u ks shift power = (ks.map fun s => shift + 1 / ‖u - s‖ ^ power).prod := by
  unfold deflation; split
  · rename_i h; subst h; rfl
  · rfl

theorem defl_factor_ge (u s : X) (shift power : ℝ) : shift ≤ shift + 1 / ‖u - s‖ ^ power := by
  have : (0:ℝ) ≤ ‖u - s‖ ^ power := Real.rpow_nonneg (norm_nonneg _) _
  have : 0 ≤ 1 / ‖u - s‖ ^ power := by positivity
  linarith

/-- C53: the deflation factor is at least `shift ^ (number of known solutions)`. -/
theorem C53_lower (u : X) (ks : List X) (shift power : ℝ) (hs : 0 ≤ shift) :
    shift ^ ks.length ≤ deflation u ks shift power := by
  rw [deflation_eq_prod]
  induction ks with
  | nil => simp
  | cons s ks ih =>
    rw [List.map_cons, List.prod_cons, List.length_cons, pow_succ, mul_comm]
    exact mul_le_mul (defl_factor_ge u s shift power) ih (by positivity) (hs.trans (defl_factor_ge u s shift power))

/-- C53: the deflation factor is positive away from the known solutions (also with `shift = 0`). -/
theorem C53_pos (u : X) (ks : List X) (shift power : ℝ) (hs : 0 ≤ shift) (hu : ∀ s ∈ ks, u ≠ s) :
    0 < deflation u ks shift power := by
  rw [deflation_eq_prod]
  induction ks with
  | nil => simp
  | cons s ks ih =>
    rw [List.map_cons, List.prod_cons]
    refine mul_pos ?_ (ih fun t ht => hu t (List.mem_cons_of_mem _ ht))
    have h0 : 0 < ‖u - s‖ := norm_pos_iff.mpr (sub_ne_zero.mpr (hu s List.mem_cons_self))
    have : 0 < ‖u - s‖ ^ power := Real.rpow_pos_of_pos h0 _
    positivity

/-- C53: away from the known solutions the deflated residual vanishes exactly where the residual does. -/
theorem C53_zeros {R : Type} [AddCommGroup R] [Module ℝ R] (res : X → R) (ks : List X) (u : X)
    (hu : ∀ s ∈ ks, u ≠ s) : systemRhs res ks u = 0 ↔ res u = 0 := by
  unfold systemRhs
  split
  · exact Iff.rfl
  · rw [smul_eq_zero]
    have := (C53_pos u ks 1 2 (by norm_num) hu).ne'
    simp [this]

/-- C53: near a known solution the deflation factor exceeds any bound. -/
theorem C53_blowup (ks : List X) (s : X) (hmem : s ∈ ks) (shift power : ℝ) (hs : 0 < shift) (hp : 0 < power) (C : ℝ) :
    ∃ δ > 0, ∀ u, u ≠ s → ‖u - s‖ < δ → C < deflation u ks shift power := by
  obtain ⟨l1, l2, rfl⟩ := List.append_of_mem hmem
  set D := |C| / shift ^ (l1.length + l2.length) + 1 with hD
  have hDpos : 0 < D := by positivity
  refine ⟨(1 / D) ^ (1 / power), by positivity, fun u hus hu => ?_⟩
  have h0 : 0 < ‖u - s‖ := norm_pos_iff.mpr (sub_ne_zero.mpr hus)
  have h1 : ‖u - s‖ ^ power < 1 / D := by
    have := Real.rpow_lt_rpow h0.le hu hp
    rwa [← Real.rpow_mul (by positivity), one_div_mul_cancel hp.ne', Real.rpow_one] at this
  have h2 : D < 1 / ‖u - s‖ ^ power := by
    have hpos : 0 < ‖u - s‖ ^ power := Real.rpow_pos_of_pos h0 _
    rw [lt_div_iff₀ hpos]
    rw [lt_div_iff₀ hDpos] at h1
    linarith
  have hL1 := C53_lower u l1 shift power hs.le
  have hL2 := C53_lower u l2 shift power hs.le
  rw [deflation_eq_prod] at hL1 hL2 ⊢
  rw [List.map_append, List.map_cons, List.prod_append, List.prod_cons]
  set a := (List.map (fun s => shift + 1 / ‖u - s‖ ^ power) l1).prod
  set b := (List.map (fun s => shift + 1 / ‖u - s‖ ^ power) l2).prod
  have hab : shift ^ (l1.length + l2.length) ≤ a * b := by
    rw [pow_add]; exact mul_le_mul hL1 hL2 (by positivity) ((by positivity : (0:ℝ) ≤ shift ^ l1.length).trans hL1)
  have hpos : 0 < shift ^ (l1.length + l2.length) := by positivity
  have e : a * ((shift + 1 / ‖u - s‖ ^ power) * b) = (shift + 1 / ‖u - s‖ ^ power) * (a * b) := by ring
  rw [e]
  calc C ≤ |C| := le_abs_self C
    _ < D * shift ^ (l1.length + l2.length) := by
        rw [hD, add_mul, div_mul_cancel₀ _ hpos.ne']; linarith
    _ ≤ (shift + 1 / ‖u - s‖ ^ power) * (a * b) := by
        apply mul_le_mul _ hab hpos.le
        · linarith
        · linarith

/-- Non-vacuity of C53: two known solutions on the line. -/
example : deflation (0 : ℝ) [1, -2] 1 2 = 5 / 2 ∧ ∀ s ∈ ([1, -2] : List ℝ), (0:ℝ) ≠ s := by
  constructor
  · rw [deflation_eq_prod]; norm_num
  · intro s hs; simp at hs; rcases hs with rfl | rfl <;> norm_num

/-! ### The derivative of the deflation factor -/

theorem linLoop_eta (u : X) (shift power : ℝ) (ks : List X) (eta : ℝ) (f : X) :
    (linLoop u shift power ks eta f).1 = eta * (ks.map fun s => shift + 1 / ‖u - s‖ ^ power).prod := by
  induction ks generalizing eta f with
  | nil => simp [linLoop]
  | cons s ks ih => rw [linLoop, ih, List.map_cons, List.prod_cons, mul_assoc]

theorem linLoop_fun (u : X) (shift power : ℝ) (ks : List X) (eta : ℝ) (f : X) :
    (linLoop u shift power ks eta f).2 = f + (ks.map fun s =>
      (1 / ((shift + 1 / ‖u - s‖ ^ power) * ‖u - s‖ ^ (2 + power))) • (u - s)).sum := by
  induction ks generalizing eta f with
  | nil => simp [linLoop]
  | cons s ks ih => rw [linLoop, ih, List.map_cons, List.sum_cons, add_assoc]

theorem hasFDerivAt_factor (u s : X) (hus : u ≠ s) (shift power : ℝ) :
    HasFDerivAt (fun u : X => shift + 1 / ‖u - s‖ ^ power)
      ((-power * ‖u - s‖ ^ (-(2 + power))) • (innerSL ℝ (u - s))) u := by
  have h0 : 0 < ‖u - s‖ := norm_pos_iff.mpr (sub_ne_zero.mpr hus)
  have hsq : HasFDerivAt (fun u : X => ‖u - s‖ ^ 2) (2 • (innerSL ℝ (u - s))) u := by
    have h1 := (hasStrictFDerivAt_norm_sq (u - s)).hasFDerivAt
    have h2 : HasFDerivAt (fun u : X => u - s) (ContinuousLinearMap.id ℝ X) u := (hasFDerivAt_id u).sub_const s
    exact h1.comp u h2
  have hr := (Real.hasDerivAt_rpow_const (x := ‖u - s‖ ^ 2) (p := -power / 2) (Or.inl (by positivity)))
  have hc := hr.comp_hasFDerivAt u hsq
  have hfun : (fun u : X => shift + 1 / ‖u - s‖ ^ power) = fun u => shift + (‖u - s‖ ^ 2) ^ (-power / 2) := by
    funext v
    rw [← Real.rpow_natCast_mul (norm_nonneg _)]
    rw [show ((2:ℕ):ℝ) * (-power / 2) = -power by push_cast; ring, Real.rpow_neg (norm_nonneg _), one_div]
  rw [hfun]
  have := (hc.const_add shift)
  refine this.congr_fderiv ?_
  rw [← Real.rpow_natCast_mul (norm_nonneg _), ← Nat.cast_smul_eq_nsmul ℝ, smul_smul]
  congr 1
  rw [show ((2:ℕ):ℝ) * (-power / 2 - 1) = -(2 + power) by push_cast; ring]
  push_cast; ring

theorem hasFDerivAt_prod (u : X) (ks : List X) (shift power : ℝ) (hs : 0 ≤ shift) (hu : ∀ s ∈ ks, u ≠ s) :
    HasFDerivAt (fun u : X => (ks.map fun s => shift + 1 / ‖u - s‖ ^ power).prod)
      (innerSL ℝ ((-power * (ks.map fun s => shift + 1 / ‖u - s‖ ^ power).prod) • (ks.map fun s =>
        (1 / ((shift + 1 / ‖u - s‖ ^ power) * ‖u - s‖ ^ (2 + power))) • (u - s)).sum)) u := by
  induction ks with
  | nil => simpa using hasFDerivAt_const (1:ℝ) u
  | cons s ks ih =>
    have hus := hu s List.mem_cons_self
    have h1 := hasFDerivAt_factor u s hus shift power
    have h2 := ih fun t ht => hu t (List.mem_cons_of_mem _ ht)
    have h3 := h1.mul h2
    simp only [List.map_cons, List.prod_cons, List.sum_cons]
    refine h3.congr_fderiv ?_
    have h0 : 0 < ‖u - s‖ := norm_pos_iff.mpr (sub_ne_zero.mpr hus)
    have hd : 0 < shift + 1 / ‖u - s‖ ^ power := by
      have : 0 < ‖u - s‖ ^ power := Real.rpow_pos_of_pos h0 _
      positivity
    have hr : ‖u - s‖ ^ (-(2 + power)) = 1 / ‖u - s‖ ^ (2 + power) := by
      rw [Real.rpow_neg h0.le, one_div]
    rw [hr]
    have hq : ‖u - s‖ ^ (2 + power) ≠ 0 := (Real.rpow_pos_of_pos h0 _).ne'
    generalize ‖u - s‖ ^ (2 + power) = q at *
    generalize shift + 1 / ‖u - s‖ ^ power = e at *
    generalize (List.map (fun s => shift + 1 / ‖u - s‖ ^ power) ks).prod = p
    generalize (List.map (fun s => (1 / ((shift + 1 / ‖u - s‖ ^ power) * ‖u - s‖ ^ (2 + power))) • (u - s)) ks).sum = w
    ext h
    simp only [map_smul, map_add, add_apply, smul_apply, innerSL_apply_apply,
      smul_eq_mul]
    field_simp
    ring

/-- C53: the function computed by `deflation_linearization` represents the derivative of the deflation factor in the
inner product of the norm used for deflation, and the factor itself is returned with it. -/
theorem C53_derivative (u : X) (ks : List X) (shift power : ℝ) (hs : 0 ≤ shift) (hne : ks ≠ [])
    (hu : ∀ s ∈ ks, u ≠ s) :
    ∃ f, deflationLinearization u ks shift power = (deflation u ks shift power, some f) ∧
      HasFDerivAt (fun v => deflation v ks shift power) (innerSL ℝ f) u := by
  refine ⟨(-power * (linLoop u shift power ks 1 0).1) • (linLoop u shift power ks 1 0).2, ?_, ?_⟩
  · rw [deflationLinearization, if_neg hne, deflation_eq_prod]
    simp only [linLoop_eta, one_mul]
  · rw [linLoop_eta, linLoop_fun, one_mul, zero_add]
    simp only [deflation_eq_prod]
    exact hasFDerivAt_prod u ks shift power hs hu

/-- Without known solutions the factor is one and there is no derivative term. -/
theorem C53_none (u : X) (shift power : ℝ) :
    deflationLinearization u [] shift power = (1, none) ∧ deflation u [] shift power = 1 := by
  simp [deflationLinearization, deflation]

/-! ### C54: the deflated operator -/

section operator
variable {V R : Type} [AddCommGroup V] [Module ℝ V] [AddCommGroup R] [Module ℝ R]

/-- C54: for a linear base operator and a callable linear functional, the deflated operator is linear. -/
theorem C54_linear (M : V →ₗ[ℝ] R) (eta : ℝ) (b : R) (f : V →ₗ[ℝ] ℝ) (x y : V) (a : ℝ) :
    ∃ rx ry, frechetMatvec M eta b (some fun v => .ok (f v)) x = .ok rx ∧
      frechetMatvec M eta b (some fun v => .ok (f v)) y = .ok ry ∧
      frechetMatvec M eta b (some fun v => .ok (f v)) (a • x + y) = .ok (a • rx + ry) := by
  refine ⟨eta • M x + f x • b, eta • M y + f y • b, rfl, rfl, ?_⟩
  simp only [frechetMatvec, Except.map, Except.ok.injEq, map_add, map_smul, smul_add, add_smul, smul_smul, smul_eq_mul]
  rw [mul_comm a eta]
  abel

end operator

/-- C54: with `b = F(u)` and a functional that evaluates the derivative of the deflation factor, the deflated operator
is the derivative of the deflated residual `u ↦ eta(u) F(u)`. -/
theorem C54_derivative {R : Type} [NormedAddCommGroup R] [NormedSpace ℝ R] (F : X → R) (M : X →L[ℝ] R) (u : X)
    (ks : List X) (hne : ks ≠ []) (hu : ∀ s ∈ ks, u ≠ s) (hF : HasFDerivAt F M u) :
    ∃ f, deflationLinearization u ks 1 2 = (deflation u ks 1 2, some f) ∧
      ∃ D : X →L[ℝ] R, HasFDerivAt (systemRhs F ks) D u ∧
        ∀ x, frechetMatvec M (deflation u ks 1 2) (F u) (some fun v => .ok (inner ℝ f v)) x = .ok (D x) := by
  obtain ⟨f, h1, h2⟩ := C53_derivative u ks 1 2 (by norm_num) hne hu
  refine ⟨f, h1, deflation u ks 1 2 • M + (innerSL ℝ f).smulRight (F u), ?_, ?_⟩
  · have h3 := h2.smul hF
    have e : systemRhs F ks = fun v => deflation v ks 1 2 • F v := by
      funext v; rw [systemRhs, if_neg hne]
    rw [e]
    exact h3
  · intro x
    simp [frechetMatvec, Except.map]

/-- C54: the variant in `DeflatedResidual` stores `b = eta(u) F(u)` (`deflated_residual.py:76-78`), so that its operator
is not the derivative of the deflated residual unless `eta(u) = 1` or the extra term vanishes. -/
theorem C54_residual_fails : ∃ (F M f b : ℝ) (eta : ℝ), b = eta * F ∧
    frechetMatvec (V := ℝ) (fun x => M * x) eta b (some fun v => .ok (f * v)) 1 ≠ .ok (eta * M * 1 + (f * 1) * F) := by
  refine ⟨1, 1, 1, 2, 2, by norm_num, ?_⟩
  norm_num [frechetMatvec, Except.map]

/-- C54 fails for the operators that `NewtonSystem` builds: with known solutions every product raises `TypeError`,
because the functional returned by `deflation_linearization` cannot be called. -/
theorem C54_matvec_fails {V R : Type} [AddCommGroup R] [Module ℝ R] (M : V → R) (eta : ℝ) (b : R) (x : V) :
    frechetMatvec M eta b (some functionalCall) x = .error .typeError := rfl

section precond
variable {V : Type} [AddCommGroup V] [Module ℝ V]

/-- C54: without known solutions the preconditioner is the inverse of the base operator. -/
theorem C54_precond_none (Pinv : V → V) (eta : ℝ) (b : V) (f : V → ℝ) (x : V) :
    precondMatvec Pinv eta b 0 f x = Pinv x := by
  simp [precondMatvec]

/-- C54, exact characterisation: given an exact inverse `P⁻¹` of the base operator, the preconditioner inverts the
rank-one update `eta P + b ⊗ f` if and only if `b` is an eigenvector of `P` with eigenvalue `eta`. -/
theorem C54_precond_iff_partial (P : V ≃ₗ[ℝ] V) (eta : ℝ) (b : V) (n : ℕ) (hn : n ≠ 0) (f : V →ₗ[ℝ] ℝ) (hf : f ≠ 0)
    (heta : eta ≠ 0) (hden : eta ^ 2 + f b ≠ 0) :
    (∀ x, eta • P (precondMatvec P.symm eta b n f x) + f (precondMatvec P.symm eta b n f x) • b = x) ↔
      P b = eta • b := by
  have key : ∀ x, eta • P (precondMatvec P.symm eta b n f x) + f (precondMatvec P.symm eta b n f x) • b =
      x + (f (P.symm x) * (1 / (eta ^ 2 + f b))) • (eta • b - P b) := by
    intro x
    rw [precondMatvec, if_neg hn]
    simp only [map_smul, map_sub, LinearEquiv.apply_symm_apply, smul_sub, smul_smul, smul_eq_mul, sub_smul]
    rw [mul_one_div_cancel heta, one_smul]
    have e1 : eta * (1 / eta * (f (P.symm x) / (eta ^ 2 + f b))) = f (P.symm x) * (1 / (eta ^ 2 + f b)) := by
      field_simp
    have e2 : (f (P.symm x) * (1 / (eta ^ 2 + f b)) * eta) • b =
      (1 / eta * f (P.symm x)) • b - (1 / eta * (f (P.symm x) / (eta ^ 2 + f b)) * f b) • b := by
      rw [← sub_smul]; congr 1; field_simp; ring
    rw [e1, e2]
    abel
  constructor
  · intro h
    obtain ⟨y, hy⟩ : ∃ y, f y ≠ 0 := by
      by_contra hcon
      push Not at hcon
      exact hf (LinearMap.ext hcon)
    have h1 := key (P y)
    rw [h (P y), LinearEquiv.symm_apply_apply] at h1
    have h2 := left_eq_add.mp h1
    rcases smul_eq_zero.mp h2 with h3 | h3
    · rcases mul_eq_zero.mp h3 with h4 | h4
      · exact absurd h4 hy
      · exact absurd h4 (one_div_ne_zero hden)
    · exact (sub_eq_zero.mp h3).symm
  · intro h x
    rw [key x, h, sub_self, smul_zero, add_zero]

/-- Non-vacuity: the identity, `eta = 1`. -/
example : (LinearEquiv.refl ℝ ℝ) (2:ℝ) = (1:ℝ) • (2:ℝ) ∧ (1:ℝ) ^ 2 + (LinearMap.id : ℝ →ₗ[ℝ] ℝ) 2 ≠ 0 := by
  norm_num

/-- C54 fails: on the line with the identity as base operator, `eta = 2`, `b = 1` and `f = id` the deflated operator is
`x ↦ 3 x`, the preconditioner returns `2/5 x`. -/
theorem C54_precond_fails : ∀ x : ℝ, precondMatvec (fun y : ℝ => y) 2 1 1 (fun y => y) x = 2 / 5 * x ∧
    frechetMatvec (fun y : ℝ => y) 2 1 (some fun y => .ok y) x = .ok (3 * x) := by
  intro x
  constructor
  · norm_num [precondMatvec]; ring
  · simp only [frechetMatvec, Except.map, smul_eq_mul]
    congr 1; ring

end precond

end Funpy.Props
