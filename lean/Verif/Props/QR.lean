import Verif.Lemmas.QR
import Verif.Spec.Bem
import Verif.Props.LinHelpers
import Verif.Props.Bem

/-!
# C72, C73: QR based solvers

`IsQR A f` (Spec/QR) is LAPACK's promise about the factorisation of `A`; `C73` uses `IsPinvSolution`.
-/

namespace Funpy.Props

open Matrix Equiv Funpy.QR

/-! ## C72: class QR -/

section square

variable {n : ℕ} {A : Matrix (Fin n) (Fin n) ℝ} {f : Fact n n}

/-- C72: `solve(b)` solves `A x = b` for nonsingular `A`. -/
theorem C72_solve (h : IsQR A f) (hA : A.det ≠ 0) (b : Fin n → ℝ) : A *ᵥ f.solve b = b := by
  have hR : f.R.det ≠ 0 := by
    intro e; apply hA; rw [det_eq h, ← det_R h, e]; ring
  rw [Fact.solve, h.mulVec_permP, mul_inv_mulVec hR, h.QQt]

/-- C72: `solve_adj(b)` solves `Aᵀ x = b` for nonsingular `A`. -/
theorem C72_solve_adj (h : IsQR A f) (hA : A.det ≠ 0) (b : Fin n → ℝ) : Aᵀ *ᵥ f.solveAdj b = b := by
  have hR : f.Rᵀ.det ≠ 0 := by
    intro e; apply hA; rw [Matrix.det_transpose] at e; rw [det_eq h, ← det_R h, e]; ring
  apply h.transpose_ext
  intro j
  rw [Fact.solveAdj, h.QtQ, mul_inv_mulVec hR]

theorem sign_P (f : Fact n n) : (-1 : ℝ) ^ LinHelpers.minimumSwaps f.P = ((Perm.sign f.C : ℤ) : ℝ) := by
  rw [Fact.P, sign_real, Perm.sign_symm]

theorem signs_exp {k : ℕ} (g : Fin k → ℝ) :
    ((List.ofFn g).map fun x => (SignType.sign x : ℝ)).prod * Real.exp ((List.ofFn g).map fun x => Real.log |x|).sum
      = ∏ i, g i := by
  rw [sign_list_prod]
  by_cases h0 : ∏ i, g i = 0
  · rw [h0]; simp
  · have : (List.ofFn g).map (fun x => Real.log |x|) = (List.ofFn g).map Real.log := by simp
    rw [this, log_list_sum g h0]
    rcases lt_or_gt_of_ne h0 with h | h
    · rw [sign_neg h, Real.exp_log_of_neg h]; simp
    · rw [sign_pos h, Real.exp_log h]; simp

/-- C72: `det()` is the determinant (also for singular matrices). -/
theorem C72_det (h : IsQR A f) : f.det le_rfl = A.det := by
  rw [det_eq h, Fact.det, Fact.detSign, Fact.swaps, if_neg (lt_irrefl n), pow_add, sign_P, mul_assoc, Fact.diagR, signs_exp]
  simp only [Fin.castLE_rfl]
  ring_nf
  rfl

/-- C72: `det_sign()` is the sign of the determinant. -/
theorem C72_det_sign (h : IsQR A f) : f.detSign le_rfl = (SignType.sign A.det : ℝ) := by
  rw [det_eq h, Fact.detSign, Fact.swaps, if_neg (lt_irrefl n), pow_add, sign_P, Fact.diagR, sign_list_prod]
  simp only [Fin.castLE_rfl, sign_mul, SignType.coe_mul, perm_sign_cast]
  have : (SignType.sign ((-1 : ℝ) ^ f.k) : ℝ) = (-1) ^ f.k := by
    rcases neg_one_pow_eq_or ℝ f.k with e | e <;> rw [e] <;> simp
  rw [this]
  ring_nf
  rfl

end square

/-- C72: for an `n × (n+1)` matrix `det()` is the determinant of `A` without its last pivot column. -/
theorem C72_det_wide {n : ℕ} {A : Matrix (Fin n) (Fin (n + 1)) ℝ} {f : Fact n (n + 1)} (h : IsQR A f) :
    f.det (Nat.le_succ n) = (A.submatrix id (f.C (Fin.last n)).succAbove).det := by
  have hmax : argmax f.P = (f.C (Fin.last n)).val := by
    have h1 : f.P.foldr max 0 = n := foldr_max_ofFn _ n (fun i => by omega) (f.C (Fin.last n)) (by simp)
    have h2 := idxOf_ofFn (fun i => (f.C.symm i).val) (fun i j e => f.C.symm.injective (Fin.ext e)) (f.C (Fin.last n))
    rw [argmax, h1]
    simpa [Fact.P] using h2
  have hlist : f.P.eraseIdx (argmax f.P) = List.ofFn fun i => (reduce f.C.symm (f.C (Fin.last n)) i).val := by
    rw [hmax, Fact.P, eraseIdx_ofFn]
    congr 1
    funext i
    rw [← reduce_spec, Equiv.symm_apply_apply, Fin.succAbove_last]
    rfl
  rw [det_delete h, Equiv.symm_apply_apply, Fin.succAbove_last]
  have hdet : (f.R.submatrix id Fin.castSucc).det = ∏ i, f.R i i.castSucc :=
    Matrix.det_of_upperTriangular (M := f.R.submatrix id Fin.castSucc) (fun i j hij => h.upper i j.castSucc hij)
  rw [hdet, Fact.det, Fact.detSign, Fact.swaps, if_pos (Nat.lt_succ_self n), hlist, pow_add, sign_real, mul_assoc,
    Fact.diagR, signs_exp]
  rw [mul_comm ((-1 : ℝ) ^ f.k), mul_assoc]
  rfl

section singular

variable {n : ℕ} {A : Matrix (Fin (n + 1)) (Fin (n + 1)) ℝ} {f : Fact (n + 1) (n + 1)}

/-- C72: the vectors returned by `null()`: they are nonzero and `A φ`, `Aᵀ ψ` have Euclidean norm `|R[-1,-1]|`, so
less than `tol` whenever the matrix is flagged singular. -/
theorem C72_null (h : IsQR A f) (hb : ∀ i : Fin n, f.R i.castSucc i.castSucc ≠ 0) :
    let φ := f.null.1
    let ψ := f.null.2
    φ ≠ 0 ∧ ψ ⬝ᵥ ψ = 1 ∧ (A *ᵥ φ) ⬝ᵥ (A *ᵥ φ) = f.R (Fin.last n) (Fin.last n) ^ 2 ∧
      (Aᵀ *ᵥ ψ) ⬝ᵥ (Aᵀ *ᵥ ψ) = f.R (Fin.last n) (Fin.last n) ^ 2 := by
  have hRb : f.Rbar.det ≠ 0 := by rw [det_Rbar h]; exact Finset.prod_ne_zero_iff.mpr fun i _ => hb i
  have isom : ∀ v : Fin (n + 1) → ℝ, (f.Q *ᵥ v) ⬝ᵥ (f.Q *ᵥ v) = v ⬝ᵥ v := by
    intro v
    rw [Matrix.dotProduct_mulVec, Matrix.vecMul_mulVec, ← Matrix.mulVec_transpose]
    rw [Matrix.mulVec_transpose, h.orth, Matrix.vecMul_one]
  have snoc_dot : ∀ a : ℝ, (snoc (0 : Fin n → ℝ) a) ⬝ᵥ (snoc (0 : Fin n → ℝ) a) = a ^ 2 := by
    intro a
    simp only [dotProduct, Fin.sum_univ_castSucc, snoc, Fin.snoc_castSucc, Fin.snoc_last]
    simp [pow_two]
  refine ⟨?_, ?_, ?_, ?_⟩
  · intro e
    have := congrFun e (f.C (Fin.last n))
    simp [Fact.null, Fact.permP, snoc] at this
  · simp only [Fact.null]
    rw [isom, snoc_dot]; norm_num
  · simp only [Fact.null]
    rw [h.mulVec_permP, R_mulVec_snoc h, mul_inv_mulVec hRb, isom]
    have : f.Sbar + (-1 : ℝ) • f.Sbar = 0 := by simp
    rw [this, snoc_dot]; ring
  · have hA : ∀ j, (Aᵀ *ᵥ f.null.2) (f.C j) = snoc (0 : Fin n → ℝ) (f.R (Fin.last n) (Fin.last n)) j := by
      intro j
      simp only [Fact.null]
      rw [h.transpose_mulVec, h.QtQ, Rt_mulVec_snoc h]
      simp
    have : (Aᵀ *ᵥ f.null.2) ⬝ᵥ (Aᵀ *ᵥ f.null.2)
        = snoc (0 : Fin n → ℝ) (f.R (Fin.last n) (Fin.last n)) ⬝ᵥ snoc (0 : Fin n → ℝ) (f.R (Fin.last n) (Fin.last n)) := by
      simp only [dotProduct]
      rw [← Equiv.sum_comp f.C]
      exact Finset.sum_congr rfl fun j _ => by rw [hA j]
    rw [this, snoc_dot]

/-- C72: a vector returned by `particular(b)` solves `A x = b` up to a residual that is a multiple (at most `tol` in
modulus) of the unit left null vector `ψ`; in particular exactly when `ψ ⬝ b = 0`. -/
theorem C72_particular (h : IsQR A f) (hb : ∀ i : Fin n, f.R i.castSucc i.castSucc ≠ 0) (tol : ℝ)
    (b x : Fin (n + 1) → ℝ) (hx : f.particular tol b = some x) :
    A *ᵥ x = b - (f.null.2 ⬝ᵥ b) • f.null.2 ∧ |f.null.2 ⬝ᵥ b| ≤ tol := by
  have hRb : f.Rbar.det ≠ 0 := by rw [det_Rbar h]; exact Finset.prod_ne_zero_iff.mpr fun i _ => hb i
  simp only [Fact.particular] at hx
  split_ifs at hx with ht
  have hx := Option.some.inj hx
  have hdot := psi_dot (f := f) b
  refine ⟨?_, ?_⟩
  · rw [← hx, h.mulVec_permP, R_mulVec_snoc h, mul_inv_mulVec hRb, hdot]
    simp only [zero_smul, add_zero, mul_zero, Fact.null]
    conv_rhs => rw [← h.QQt b]
    rw [h.QtQ, ← Matrix.mulVec_smul, ← Matrix.mulVec_sub]
    congr 1
    funext i
    refine Fin.lastCases ?_ (fun i => ?_) i <;> simp [snoc, init]
  · rw [hdot]; exact not_lt.mp ht

/-- C72: `particular` raises exactly when the solvability condition is violated by more than `tol`. -/
theorem C72_particular_raises (h : IsQR A f) (tol : ℝ) (b : Fin (n + 1) → ℝ) :
    f.particular tol b = none ↔ tol < |f.null.2 ⬝ᵥ b| := by
  have hdot := psi_dot (f := f) b
  rw [hdot]
  simp only [Fact.particular]
  split_ifs with ht <;> simp [ht]

/-- C72: a vector returned by `particular_adj(b)` solves `Aᵀ y = b` except in the last pivot coordinate, where the
error is `|φ ⬝ b| ≤ tol`; so exactly when `φ ⬝ b = 0`. -/
theorem C72_particular_adj (h : IsQR A f) (hb : ∀ i : Fin n, f.R i.castSucc i.castSucc ≠ 0) (tol : ℝ)
    (b y : Fin (n + 1) → ℝ) (hy : f.particularAdj tol b = some y) :
    Aᵀ *ᵥ y = b + (f.null.1 ⬝ᵥ b) • Pi.single (f.C (Fin.last n)) 1 ∧ |f.null.1 ⬝ᵥ b| ≤ tol := by
  have hRb : f.Rbar.det ≠ 0 := by rw [det_Rbar h]; exact Finset.prod_ne_zero_iff.mpr fun i _ => hb i
  have hRt : f.Rbarᵀ.det ≠ 0 := by rwa [Matrix.det_transpose]
  simp only [Fact.particularAdj] at hy
  split_ifs at hy with ht
  have hy := Option.some.inj hy
  set b' : Fin (n + 1) → ℝ := fun j => b (f.C j) with hb'
  have hdot := phi_dot (f := f) b
  refine ⟨?_, by rw [hdot]; exact not_lt.mp ht⟩
  apply h.transpose_ext
  intro j
  rw [← hy, h.QtQ, Rt_mulVec_snoc h, mul_inv_mulVec hRt, hdot]
  refine Fin.lastCases ?_ (fun j => ?_) j
  · simp [snoc, hb']
  · have : f.C j.castSucc ≠ f.C (Fin.last n) := fun e => absurd (f.C.injective e) (Fin.castSucc_lt_last j).ne
    simp [snoc, init, hb']

/-- C72: `QR` is a correct solver object for the bordered solver `BEM` (exact arithmetic): the factorisation is flagged
singular only if it is (`hsing`), and then the leading block of `R` is regular. -/
theorem C72_correct (h : IsQR A f) (tol : ℝ) (htol : 0 < tol)
    (hsing : f.isSingular tol = true → f.R (Fin.last n) (Fin.last n) = 0)
    (hb : ∀ i : Fin n, f.R i.castSucc i.castSucc ≠ 0) : Bem.Correct A (f.toSolver tol) := by
  have hreg : f.isSingular tol = false → A.det ≠ 0 := by
    intro hs
    have : f.R (Fin.last n) (Fin.last n) ≠ 0 := by
      intro e
      rw [Fact.isSingular, e] at hs
      simp at hs; linarith
    rw [det_eq h, Fin.prod_univ_castSucc]
    refine mul_ne_zero ?_ (mul_ne_zero (pow_ne_zero _ (by norm_num)) (mul_ne_zero ?_ this))
    · intro e
      have := perm_sign_abs f.C
      rw [e] at this; simp at this
    · exact Finset.prod_ne_zero_iff.mpr fun i _ => hb i
  have hnull := C72_null h hb
  refine ⟨fun hs b => C72_solve h (hreg hs) b, fun hs b => C72_solve_adj h (hreg hs) b, fun hs => C72_det h, ?_, ?_, ?_⟩
  · intro hs
    have h0 := hsing hs
    rw [h0] at hnull
    obtain ⟨h1, h2, h3, h4⟩ := hnull
    refine ⟨h1, ?_, ?_, ?_⟩
    · exact dotProduct_self_eq_zero.mp (h3.trans (by norm_num))
    · intro e
      change f.null.2 = 0 at e
      rw [e] at h2; simp at h2
    · exact dotProduct_self_eq_zero.mp (h4.trans (by norm_num))
  · intro hs b hbz
    change f.null.2 ⬝ᵥ b = 0 at hbz
    change A *ᵥ ((f.particular tol b).getD 0) = b
    rcases hp : f.particular tol b with - | x
    · rw [C72_particular_raises h, hbz] at hp
      simp at hp; linarith
    · have := (C72_particular h hb tol b x hp).1
      rw [hbz] at this
      simpa using this
  · intro hs b hbz
    change f.null.1 ⬝ᵥ b = 0 at hbz
    change Aᵀ *ᵥ ((f.particularAdj tol b).getD 0) = b
    rcases hp : f.particularAdj tol b with - | x
    · exfalso
      simp only [Fact.particularAdj] at hp
      split_ifs at hp with ht
      rw [← phi_dot, hbz] at ht
      simp at ht; linarith
    · have := (C72_particular_adj h hb tol b x hp).1
      rw [hbz] at this
      simpa using this

/-- C72: `BEM` with a `QR` solver solves the bordered system `[A c; b d]`, whether `A` is regular or has rank defect
one. -/
theorem C72_bordered (h : IsQR A f) (tol : ℝ) (htol : 0 < tol)
    (hsing : f.isSingular tol = true → f.R (Fin.last n) (Fin.last n) = 0)
    (hb : ∀ i : Fin n, f.R i.castSucc i.castSucc ≠ 0) (b c : Fin (n + 1) → ℝ) (d : ℝ)
    (hM : (Bem.bordered A b c d).det ≠ 0) (g : Fin (n + 1) ⊕ Unit → ℝ) :
    ∃ x, (Bem.Bem.init (f.toSolver tol) b c d).solve g = some x ∧ Bem.bordered A b c d *ᵥ x = g := by
  obtain ⟨x, h1, h2, -⟩ := C44_solve (C72_correct h tol htol hsing hb) b c d hM g
  exact ⟨x, h1, h2⟩

end singular

/-- The factorisation of `[[3, 6], [4, 8]]` with the columns exchanged (one Householder reflection). -/
noncomputable def exFact : Fact 2 2 where
  Q := !![-3/5, -4/5; -4/5, 3/5]
  R := !![-10, -5; 0, 0]
  C := swap 0 1
  k := 1

/-- A singular matrix meeting the hypotheses of the C72 theorems. -/
example : IsQR !![3, 6; 4, 8] exFact ∧ exFact.isSingular (1/100) = true ∧ exFact.R (Fin.last 1) (Fin.last 1) = 0 ∧
    ∀ i : Fin 1, exFact.R i.castSucc i.castSucc ≠ 0 := by
  refine ⟨⟨?_, ?_, ?_, ?_⟩, ?_, rfl, ?_⟩
  · ext i j
    fin_cases i <;> fin_cases j <;> simp [exFact, Matrix.mul_apply, Fin.sum_univ_two] <;> norm_num
  · intro i j hij
    fin_cases i <;> fin_cases j <;> simp [exFact] at hij ⊢
  · intro i j
    fin_cases i <;> fin_cases j <;> simp [exFact, Matrix.mul_apply, Fin.sum_univ_two] <;> norm_num
  · simp [exFact, Matrix.det_fin_two]; norm_num
  · simp [exFact, Fact.isSingular, Fin.last]
  · intro i; fin_cases i; simp [exFact]

/-! ## C73: class QRCholesky -/

section pinv

variable {r e d : ℕ} {A : Matrix (Fin (r + e)) (Fin (r + d)) ℝ} {f : Fact (r + e) (r + d)}

/-- C73: for a matrix of rank `r` (rows of `R` below `r` vanish, leading block regular) with at most as many rows as
columns, the vector returned by the singular `solve` satisfies the normal equations: it is a least squares solution. -/
theorem C73_least_squares (h : IsQR A f) (hd : ∀ i : Fin r, f.R (Fin.castAdd e i) (Fin.castAdd d i) ≠ 0)
    (hz : ∀ i j, f.R (Fin.natAdd r i) j = 0) (L : Matrix (Fin d) (Fin d) ℝ) (b : Fin (r + e) → ℝ) :
    Aᵀ *ᵥ (A *ᵥ f.solveSingular L b) = Aᵀ *ᵥ b := by
  rw [solveSingular_R h hd hz]
  apply h.transpose_ext
  intro j
  rw [h.transpose_mulVec, h.QtQ]
  simp only [Matrix.mulVec, dotProduct, Fin.sum_univ_add, Fin.append_left, Fin.append_right, Matrix.transpose_apply, hz]
  simp

theorem pinv_of_comm (h : IsQR A f) (hd : ∀ i : Fin r, f.R (Fin.castAdd e i) (Fin.castAdd d i) ≠ 0)
    (hz : ∀ i j, f.R (Fin.natAdd r i) j = 0) (L : Matrix (Fin d) (Fin d) ℝ) (hL : IsChol f.M L)
    (hc : Lᵀ * L = L * Lᵀ) (b : Fin (r + e) → ℝ) : IsPinvSolution A b (f.solveSingular L b) := by
  refine ⟨C73_least_squares h hd hz L b, ?_⟩
  intro z hAz
  have hR : f.Rr.det ≠ 0 := by rw [det_Rr h]; exact Finset.prod_ne_zero_iff.mpr fun i _ => hd i
  set w := f.Rr⁻¹ *ᵥ fun i => (f.Qᵀ *ᵥ b) (Fin.castAdd e i) with hw
  set y := (Lᵀ)⁻¹ *ᵥ (L⁻¹ *ᵥ (f.jbarᵀ *ᵥ w)) with hy
  have hM : f.M *ᵥ y = f.jbarᵀ *ᵥ w := by
    have hLt : (Lᵀ).det ≠ 0 := by rw [Matrix.det_transpose]; exact hL.det
    rw [← hL.eq, hc, ← Matrix.mulVec_mulVec, hy, mul_inv_mulVec hLt, mul_inv_mulVec hL.det]
  have hM' : y + f.jbarᵀ *ᵥ (f.jbar *ᵥ y) = f.jbarᵀ *ᵥ w := by
    rw [← hM, Fact.M, Matrix.add_mulVec, Matrix.one_mulVec, Matrix.mulVec_mulVec]
  set z1 : Fin r → ℝ := fun i => z (f.C (Fin.castAdd d i)) with hz1
  set z2 : Fin d → ℝ := fun i => z (f.C (Fin.natAdd r i)) with hz2
  have hzz : (fun j => z (f.C j)) = Fin.append z1 z2 := (append_split (fun j => z (f.C j))).symm
  have hker : z1 = -(f.jbar *ᵥ z2) := by
    have h1 := h.mulVec z
    rw [hAz, hzz, R_mulVec_append hz] at h1
    have h2 : Fin.append (f.Rr *ᵥ z1 + f.Sr *ᵥ z2) (0 : Fin e → ℝ) = 0 := by
      have := congrArg (fun v => f.Qᵀ *ᵥ v) h1
      simp only [Matrix.mulVec_zero, h.QtQ] at this
      exact this.symm
    have h3 : f.Rr *ᵥ z1 + f.Sr *ᵥ z2 = 0 := by
      funext i
      have := congrFun h2 (Fin.castAdd e i)
      rwa [Fin.append_left] at this
    have h4 : f.Rr *ᵥ z1 = f.Rr *ᵥ (-(f.jbar *ᵥ z2)) := by
      rw [Matrix.mulVec_neg, Fact.jbar, ← Matrix.mulVec_mulVec, mul_inv_mulVec hR]
      exact eq_neg_of_add_eq_zero_left h3
    have : Invertible f.Rr := f.Rr.invertibleOfIsUnitDet (isUnit_iff_ne_zero.mpr hR)
    exact Matrix.mulVec_injective_of_invertible f.Rr h4
  have hx : f.solveSingular L b ⬝ᵥ z = (w - f.jbar *ᵥ y) ⬝ᵥ z1 + y ⬝ᵥ z2 := by
    rw [solveSingular_eq, ← append_dot, ← hzz]
    simp only [dotProduct, Fact.permP]
    rw [← Equiv.sum_comp f.C]
    simp only [Equiv.symm_apply_apply]
    rfl
  have e1 : (w - f.jbar *ᵥ y) ⬝ᵥ (f.jbar *ᵥ z2) = (f.jbarᵀ *ᵥ (w - f.jbar *ᵥ y)) ⬝ᵥ z2 := by
    rw [Matrix.dotProduct_mulVec, Matrix.mulVec_transpose]
  rw [hx, hker, dotProduct_neg, e1, Matrix.mulVec_sub, ← hM', sub_dotProduct, add_dotProduct]
  ring

end pinv

/-- C73 (partial): for rank deficiency one (`d = 1`) the singular `solve` returns the pseudo-inverse (minimum norm least
squares) solution.  Missing: deficiency two or more, where it is false (`C73_pinv_fails`): the two triangular solves
with the Cholesky factor are applied in the wrong order. -/
theorem C73_pinv_partial {r e : ℕ} {A : Matrix (Fin (r + e)) (Fin (r + 1)) ℝ} {f : Fact (r + e) (r + 1)} (h : IsQR A f)
    (hd : ∀ i : Fin r, f.R (Fin.castAdd e i) (Fin.castAdd 1 i) ≠ 0) (hz : ∀ i j, f.R (Fin.natAdd r i) j = 0)
    (L : Matrix (Fin 1) (Fin 1) ℝ) (hL : IsChol f.M L) (b : Fin (r + e) → ℝ) :
    IsPinvSolution A b (f.solveSingular L b) := by
  refine pinv_of_comm h hd hz L hL ?_ b
  ext i j
  fin_cases i; fin_cases j
  simp [Matrix.mul_apply]

/-- The factorisation of the row `[1, 3/4, 15/16]`. -/
noncomputable def badFact : Fact (1 + 0) (1 + 2) where
  Q := 1
  R := Matrix.of fun _ j => if j.val = 0 then 1 else if j.val = 1 then 3/4 else 15/16
  C := 1
  k := 0

/-- C73: with rank deficiency two the returned vector is in general not orthogonal to the kernel: `A = [1, 3/4, 15/16]`,
`b = 1`. -/
theorem C73_pinv_fails : ∃ (A : Matrix (Fin (1 + 0)) (Fin (1 + 2)) ℝ) (L : Matrix (Fin 2) (Fin 2) ℝ)
    (b : Fin (1 + 0) → ℝ), IsQR A badFact ∧ IsChol badFact.M L ∧ ¬ IsPinvSolution A b (badFact.solveSingular L b) := by
  have hRr : badFact.Rr = 1 := by
    ext i j; fin_cases i; fin_cases j; simp [Fact.Rr, badFact]
  have hj0 : badFact.jbar 0 0 = 3/4 := by
    rw [Fact.jbar, hRr]; simp [Fact.Sr, badFact]
  have hj1 : badFact.jbar 0 1 = 15/16 := by
    rw [Fact.jbar, hRr]; simp [Fact.Sr, badFact]
  have hchol : IsChol badFact.M !![5/4, 9/16; 0, 5/4] := by
    refine ⟨?_, ?_, ?_⟩
    · intro i j hij; fin_cases i <;> fin_cases j <;> simp at hij ⊢
    · intro i; fin_cases i <;> norm_num
    · ext i j
      fin_cases i <;> fin_cases j <;>
        simp [Fact.M, Matrix.mul_apply, Fin.sum_univ_two, Matrix.add_apply, hj0, hj1] <;> norm_num
  refine ⟨badFact.R, !![5/4, 9/16; 0, 5/4], fun _ => 1, ⟨?_, ?_, ?_, ?_⟩, hchol, ?_⟩
  · simp [badFact]
  · intro i j hij; omega
  · intro i j; simp [badFact]
  · simp [badFact]
  · rintro ⟨-, hk⟩
    set L : Matrix (Fin 2) (Fin 2) ℝ := !![5/4, 9/16; 0, 5/4] with hL
    set w : Fin 1 → ℝ := badFact.Rr⁻¹ *ᵥ (fun i => (badFact.Qᵀ *ᵥ (fun _ => (1 : ℝ))) (Fin.castAdd 0 i)) with hw
    have hw0 : w 0 = 1 := by
      rw [hw, hRr]; simp [badFact]
    set t : Fin 2 → ℝ := L⁻¹ *ᵥ (badFact.jbarᵀ *ᵥ w) with ht
    set y : Fin 2 → ℝ := (Lᵀ)⁻¹ *ᵥ t with hy
    have e1 := mul_inv_mulVec hchol.det (badFact.jbarᵀ *ᵥ w)
    rw [← ht] at e1
    have e2 := mul_inv_mulVec (M := Lᵀ) (by rw [Matrix.det_transpose]; exact hchol.det) t
    rw [← hy] at e2
    have e10 := congrFun e1 0
    have e11 := congrFun e1 1
    have e20 := congrFun e2 0
    have e21 := congrFun e2 1
    simp [Matrix.mulVec, dotProduct, Fin.sum_univ_two, hL, hj0, hj1, hw0] at e10 e11 e20 e21
    -- the kernel vector `(-3/4, 1, 0)`
    have hz := hk (Fin.append (fun _ => -3/4) ![1, 0]) (by
      funext i
      simp only [Matrix.mulVec, dotProduct, Fin.sum_univ_add, Fin.append_left, Fin.append_right, Fin.sum_univ_one,
        Fin.sum_univ_two]
      simp [badFact]
      norm_num)
    have hperm : badFact.solveSingular L (fun _ => 1) = Fin.append (w - badFact.jbar *ᵥ y) y := by
      rw [solveSingular_eq]; rfl
    rw [hperm, append_dot] at hz
    simp [dotProduct, Matrix.mulVec, Fin.sum_univ_two, hj0, hj1, hw0] at hz
    linarith

/-- C73: `tangent_vector()` of a matrix with rank deficiency one is a unit kernel vector. -/
theorem C73_tangent {r e : ℕ} {A : Matrix (Fin (r + e)) (Fin (r + 1)) ℝ} {f : Fact (r + e) (r + 1)} (h : IsQR A f)
    (hd : ∀ i : Fin r, f.R (Fin.castAdd e i) (Fin.castAdd 1 i) ≠ 0) (hz : ∀ i j, f.R (Fin.natAdd r i) j = 0) :
    A *ᵥ f.tangent = 0 ∧ f.tangent ⬝ᵥ f.tangent = 1 := by
  have hR : f.Rr.det ≠ 0 := by rw [det_Rr h]; exact Finset.prod_ne_zero_iff.mpr fun i _ => hd i
  set w : Fin r → ℝ := fun i => f.jbar i 0 with hw
  have hpos : 0 < 1 + w ⬝ᵥ w := by
    have : 0 ≤ w ⬝ᵥ w := Finset.sum_nonneg fun i _ => mul_self_nonneg _
    linarith
  set s := Real.sqrt (1 + w ⬝ᵥ w) with hs
  have hs0 : 0 < s := Real.sqrt_pos.mpr hpos
  have hs2 : s * s = 1 + w ⬝ᵥ w := Real.mul_self_sqrt hpos.le
  have hsn : snoc (-w) 1 = Fin.append (-w) (fun _ : Fin 1 => (1 : ℝ)) := by
    funext i
    refine Fin.lastCases ?_ (fun i => ?_) i
    · rw [show Fin.last r = Fin.natAdd r (0 : Fin 1) from rfl, Fin.append_right]
      exact Fin.snoc_last (α := fun _ => ℝ) _ _
    · rw [show i.castSucc = Fin.castAdd 1 i from rfl, Fin.append_left]
      exact Fin.snoc_castSucc (α := fun _ => ℝ) _ _ _
  have ht : f.tangent = s⁻¹ • f.permP (Fin.append (-w) (fun _ : Fin 1 => (1 : ℝ))) := by
    funext i
    simp only [Fact.tangent, Fact.permP, Pi.smul_apply, smul_eq_mul]
    rw [← hw, ← hs, hsn]
    field_simp
  have hperm : ∀ u : Fin (r + 1) → ℝ, f.permP u ⬝ᵥ f.permP u = u ⬝ᵥ u := by
    intro u
    simp only [dotProduct, Fact.permP]
    rw [← Equiv.sum_comp f.C]
    simp
  constructor
  · rw [ht, Matrix.mulVec_smul, h.mulVec_permP, R_mulVec_append hz]
    have : f.Rr *ᵥ (-w) + f.Sr *ᵥ (fun _ : Fin 1 => (1 : ℝ)) = 0 := by
      have e1 : w = f.jbar *ᵥ (fun _ : Fin 1 => (1 : ℝ)) := by
        funext i; simp [hw, Matrix.mulVec, dotProduct]
      rw [Matrix.mulVec_neg, e1, Fact.jbar, ← Matrix.mulVec_mulVec, mul_inv_mulVec hR]
      simp
    rw [this]
    have : Fin.append (0 : Fin r → ℝ) (0 : Fin e → ℝ) = 0 := by
      funext i; refine Fin.addCases (fun i => ?_) (fun i => ?_) i <;> simp
    rw [this]; simp
  · rw [ht, smul_dotProduct, dotProduct_smul, hperm, append_dot, neg_dotProduct, dotProduct_neg, neg_neg]
    simp only [dotProduct, smul_eq_mul]
    have : ∑ i : Fin r, w i * w i = s * s - 1 := by rw [hs2]; simp [dotProduct]
    rw [this]
    simp
    field_simp

/-- C73: `detH()` of an `n × (n+1)` matrix is the determinant of `A` without its last column (and raises if that is
zero). -/
theorem C73_detH {n : ℕ} {A : Matrix (Fin n) (Fin (n + 1)) ℝ} {f : Fact n (n + 1)} (h : IsQR A f) (eps : ℝ) (he : 0 < eps) :
    f.detH eps = if (A.submatrix id Fin.castSucc).det = 0 then none else some (A.submatrix id Fin.castSucc).det := by
  set t := f.C.symm (Fin.last n) with ht
  have hH : toMat n f.H = f.R.submatrix id t.succAbove := by
    ext i j
    simp only [toMat, Matrix.of_apply, Matrix.submatrix_apply, id, Fact.H]
    by_cases hj : j.val < t.val
    · rw [Fin.succAbove_of_castSucc_lt _ _ (by rw [Fin.lt_def]; simpa using hj)]
      simp only [← ht, if_pos hj]
      rw [dif_pos ⟨i.isLt, by omega⟩]
      rfl
    · rw [Fin.succAbove_of_le_castSucc _ _ (by rw [Fin.le_def]; simpa using hj)]
      simp only [← ht, if_neg hj]
      rw [dif_pos ⟨i.isLt, by omega⟩]
      rfl
  have hess : ∀ i j, i < n → j + 1 < i → f.H i j = 0 := by
    intro i j hi hj
    simp only [Fact.H]
    split_ifs with h1 h2 h2
    · exact h.upper _ _ (by simp only; omega)
    · rfl
    · exact h.upper _ _ (by simp only; omega)
    · rfl
  have hnC : f.nC = List.ofFn fun i => (reduce f.C.symm (Fin.last n) i).val := by
    have h2 := idxOf_ofFn (fun i => (f.C.symm i).val) (fun i j e => f.C.symm.injective (Fin.ext e)) (Fin.last n)
    have h3 : f.P.idxOf t.val = n := by simpa [Fact.P] using h2
    simp only [Fact.nC, ← ht]
    rw [h3, Fact.P]
    have h4 := eraseIdx_ofFn (fun i => (f.C.symm i).val) (Fin.last n)
    simp only [Fin.val_last] at h4
    rw [h4, List.map_ofFn]
    congr 1
    funext i
    simp only [Function.comp]
    rw [← reduce_spec, ← ht]
    set q := reduce f.C.symm (Fin.last n) i
    by_cases hq : q.val < t.val
    · rw [Fin.succAbove_of_castSucc_lt _ _ (by rw [Fin.lt_def]; simpa using hq)]
      simp only [Fin.val_castSucc]
      rw [if_neg (by omega)]
    · rw [Fin.succAbove_of_le_castSucc _ _ (by rw [Fin.le_def]; simpa using hq)]
      simp only [Fin.val_succ]
      rw [if_pos (by omega)]
      rfl
  have hdet := det_delete h (Fin.last n)
  rw [Fin.succAbove_last, ← ht, ← hH] at hdet
  set D := (toMat n f.H).det with hD
  have hs1 : ((Perm.sign (reduce f.C.symm (Fin.last n)) : ℤ) : ℝ) ≠ 0 := by
    intro e0; have := perm_sign_abs (reduce f.C.symm (Fin.last n)); rw [e0] at this; simp at this
  have hk : ((-1 : ℝ) ^ f.k) ≠ 0 := pow_ne_zero _ (by norm_num)
  rw [Fact.detH, C71_slogdet eps he n f.H hess, ← hD, hdet]
  by_cases h0 : D = 0
  · simp [h0]
  · rw [if_neg h0, if_neg (mul_ne_zero hs1 (mul_ne_zero hk h0))]
    simp only [Option.map_some, Option.some.injEq]
    rw [hnC, pow_add, sign_real]
    have : (SignType.sign D : ℝ) * Real.exp (Real.log |D|) = D := by
      rw [Real.exp_log (abs_pos.mpr h0)]
      exact sign_mul_abs D
    linear_combination ((Perm.sign (reduce f.C.symm (Fin.last n)) : ℤ) : ℝ) * (-1) ^ f.k * this

/-- C73: `pseudo_rank`: the leading `rank` diagonal entries are the ones before the first entry of modulus at most
`eps * |r₀|²`. -/
theorem C73_pseudo_rank (eps : ℝ) (r0 : ℝ) (h0 : r0 ≠ 0) (l : List ℝ) :
    let k := pseudoRank eps (r0 :: l)
    1 ≤ k ∧ k ≤ l.length + 1 ∧ (∀ j, 1 ≤ j → j < k → eps * |r0| ^ 2 < |(r0 :: l).getD j 0|) ∧
      (k < l.length + 1 → |(r0 :: l).getD k 0| ≤ eps * |r0| ^ 2) := by
  have hr : 0 < |r0| := abs_pos.mpr h0
  have hdec : ∀ x : ℝ, (|r0| ≠ 0 ∧ |x| / |r0| ≤ |r0| * eps) ↔ |x| ≤ eps * |r0| ^ 2 := by
    intro x
    rw [div_le_iff₀ hr]
    constructor
    · rintro ⟨-, h⟩; nlinarith
    · intro h; exact ⟨hr.ne', by nlinarith⟩
  set s : List Bool := l.map fun x => decide (|x| ≤ eps * |r0| ^ 2) with hs
  have hk : pseudoRank eps (r0 :: l) = if s.all (fun b => !b) then l.length + 1 else s.idxOf true + 1 := by
    have e : (((r0 :: l).map fun x => |x|).drop 1).map (fun x => decide (|r0| ≠ 0 ∧ x / |r0| ≤ |r0| * eps)) = s := by
      simp only [List.map_cons, List.drop_succ_cons, List.drop_zero, List.map_map, hs]
      apply List.map_congr_left
      intro x _
      simp only [Function.comp]
      exact decide_eq_decide.mpr (hdec x)
    have e0 : ((r0 :: l).map fun x => |x|).getD 0 0 = |r0| := rfl
    simp only [pseudoRank]
    rw [e0, e]
    simp
  have hget : ∀ j, j < l.length → (s.getD j false = true ↔ |(r0 :: l).getD (j + 1) 0| ≤ eps * |r0| ^ 2) := by
    intro j hj
    rw [hs, List.getD_eq_getElem _ _ (by simpa using hj), List.getElem_map, decide_eq_true_iff, List.getD_cons_succ,
      List.getD_eq_getElem _ _ hj]
  have hlen : s.length = l.length := by simp [hs]
  simp only
  rw [hk]
  by_cases hall : s.all (fun b => !b) = true
  · rw [if_pos hall]
    refine ⟨by omega, le_rfl, ?_, by omega⟩
    intro j hj1 hj2
    obtain ⟨i, rfl⟩ : ∃ i, j = i + 1 := ⟨j - 1, by omega⟩
    have hi : i < l.length := by omega
    by_contra hcon
    have := (hget i hi).mpr (not_lt.mp hcon)
    rw [List.getD_eq_getElem _ _ (by omega)] at this
    rw [List.all_eq_true] at hall
    have h2 := hall _ (List.getElem_mem (l := s) (n := i) (by omega))
    rw [this] at h2; simp at h2
  · rw [if_neg hall]
    have hmem : true ∈ s := by
      rw [List.all_eq_true] at hall
      push Not at hall
      obtain ⟨x, hx, hx2⟩ := hall
      have : x = true := by simpa using hx2
      rwa [this] at hx
    have hlt := List.idxOf_lt_length_of_mem hmem
    refine ⟨by omega, by omega, ?_, ?_⟩
    · intro j hj1 hj2
      obtain ⟨i, rfl⟩ : ∃ i, j = i + 1 := ⟨j - 1, by omega⟩
      by_contra hcon
      have := (hget i (by omega)).mpr (not_lt.mp hcon)
      rw [List.getD_eq_getElem _ _ (by omega)] at this
      have h3 := List.not_of_lt_findIdx (p := (· == true)) (xs := s) (i := i) (by
        have : s.findIdx (· == true) = s.idxOf true := rfl
        omega)
      simp [this] at h3
    · intro _
      refine (hget _ (by omega)).mp ?_
      rw [List.getD_eq_getElem _ _ hlt]
      exact List.getElem_idxOf hlt

/-- C73: the rank test is not scale invariant: `c·I` with `c ≥ 1/eps` (condition number one) is assigned rank one. -/
theorem C73_scaled_identity_fails (eps c : ℝ) (he : 0 < eps) (hc : 1 / eps ≤ c) (n : ℕ) :
    pseudoRank eps (List.replicate (n + 2) c) = 1 := by
  have hcp : 0 < c := lt_of_lt_of_le (by positivity) hc
  have h1 : 1 ≤ c * eps := by rw [div_le_iff₀ he] at hc; exact hc
  simp only [pseudoRank, List.map_replicate, abs_of_pos hcp]
  have hd : (List.replicate (n + 2) c).getD 0 0 = c := rfl
  have hdr : (List.replicate (n + 2) c).drop 1 = List.replicate (n + 1) c := by simp
  rw [hd, hdr, List.map_replicate]
  have ht : decide (c ≠ 0 ∧ c / c ≤ c * eps) = true := by
    rw [decide_eq_true_iff]; exact ⟨hcp.ne', by rw [div_self hcp.ne']; exact h1⟩
  rw [ht]
  simp [List.replicate_succ]

/-- C73: the zero matrix is assigned full rank (all the comparisons are with `nan`). -/
theorem C73_zero_matrix_fails (eps : ℝ) (n : ℕ) : pseudoRank eps (List.replicate (n + 1) 0) = n + 1 := by
  simp only [pseudoRank, List.map_replicate, abs_zero]
  have hd : (List.replicate (n + 1) (0 : ℝ)).getD 0 0 = 0 := rfl
  rw [hd]
  simp

end Funpy.Props
