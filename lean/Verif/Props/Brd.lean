import Verif.Model.Brd
import Verif.Props.QR

/-!
# C107: bordered systems by QR (`BMatrix`)
-/

namespace Funpy.Props
open Matrix Funpy.QR Funpy.Brd

variable {n : ℕ}

/-- C107: `mat` is the bordered matrix `[A c; b d]`, and `_matvec` multiplies with it. -/
theorem C107_mat (M : BMatrix n) (x : Fin (n + 1) ⊕ Unit → ℝ) :
    M.mat = Bem.bordered M.A M.b M.c M.d ∧ M.matvec x = M.mat *ᵥ x := by
  have h1 : M.mat = Bem.bordered M.A M.b M.c M.d := by
    ext i j
    rcases i with i | i <;> rcases j with j | j <;> simp [BMatrix.mat, Bem.bordered]
  refine ⟨h1, ?_⟩
  funext i
  rcases i with i | i
  · simp [BMatrix.matvec, hstack, Matrix.mulVec, dotProduct, BMatrix.mat, Fintype.sum_sum_type, mul_comm]
  · simp [BMatrix.matvec, hstack, Matrix.mulVec, dotProduct, BMatrix.mat, Fintype.sum_sum_type, mul_comm]

theorem mat_hstack (M : BMatrix n) (x : Fin (n + 1) → ℝ) (z : ℝ) :
    M.mat *ᵥ hstack x z = hstack (M.A *ᵥ x + z • M.c) (M.b ⬝ᵥ x + z * M.d) := by
  rw [← (C107_mat M _).2]
  rfl

theorem hstack_eta (g : Fin n ⊕ Unit → ℝ) : hstack (fun i => g (.inl i)) (g (.inr ())) = g := by
  funext i; rcases i with i | i <;> rfl

theorem det_ne_of_mulVec {ι : Type*} [Fintype ι] [DecidableEq ι] {N : Matrix ι ι ℝ} (h : N.det ≠ 0) {v : ι → ℝ} (hv : N *ᵥ v = 0) : v = 0 := by
  by_contra hne
  exact h (Matrix.exists_mulVec_eq_zero_iff.mp ⟨v, hne, hv⟩)

theorem det_ne_of_vecMul {ι : Type*} [Fintype ι] [DecidableEq ι] {N : Matrix ι ι ℝ} (h : N.det ≠ 0) {v : ι → ℝ} (hv : v ᵥ* N = 0) : v = 0 := by
  by_contra hne
  exact h (Matrix.exists_vecMul_eq_zero_iff.mp ⟨v, hne, hv⟩)

/-! ### Regular `A` -/

theorem det_R_ne {M : BMatrix n} (h : IsQR M.A M.f) (hA : M.A.det ≠ 0) : M.f.R.det ≠ 0 := by
  intro e; apply hA; rw [det_eq h, ← det_R h, e]; ring

/-- The Schur complement step: for any `g`, with `xhat = R⁻¹ (Qᵀ f - z γ)`. -/
theorem nonsing_rows {M : BMatrix n} (h : IsQR M.A M.f) (hA : M.A.det ≠ 0) (f : Fin (n + 1) → ℝ) (z : ℝ) :
    M.A *ᵥ M.f.permP (M.f.R⁻¹ *ᵥ (M.f.Qᵀ *ᵥ f - z • M.gamma)) + z • M.c = f ∧
      M.b ⬝ᵥ M.f.permP (M.f.R⁻¹ *ᵥ (M.f.Qᵀ *ᵥ f - z • M.gamma)) + z * M.d = M.beta ⬝ᵥ (M.f.Qᵀ *ᵥ f) + z * M.delta := by
  have hR := det_R_ne h hA
  have hRt : M.f.Rᵀ.det ≠ 0 := by rwa [Matrix.det_transpose]
  constructor
  · rw [h.mulVec_permP, mul_inv_mulVec hR, Matrix.mulVec_sub, h.QQt, Matrix.mulVec_smul, BMatrix.gamma, h.QQt]
    simp
  · set w := M.f.Qᵀ *ᵥ f - z • M.gamma with hw
    have h1 : M.b ⬝ᵥ M.f.permP (M.f.R⁻¹ *ᵥ w) = (fun j => M.b (M.f.C j)) ⬝ᵥ (M.f.R⁻¹ *ᵥ w) := by
      simp only [dotProduct, Fact.permP]
      rw [← Equiv.sum_comp M.f.C]
      simp
    have h2 : (fun j => M.b (M.f.C j)) = M.f.Rᵀ *ᵥ M.beta := by rw [BMatrix.beta, mul_inv_mulVec hRt]
    rw [h1, h2, Matrix.mulVec_transpose, ← Matrix.dotProduct_mulVec, mul_inv_mulVec hR, hw, dotProduct_sub, dotProduct_smul, BMatrix.delta,
      smul_eq_mul]
    ring

theorem brd_delta_ne {M : BMatrix n} (h : IsQR M.A M.f) (hA : M.A.det ≠ 0) (hM : M.mat.det ≠ 0) : M.delta ≠ 0 := by
  intro e
  obtain ⟨h1, h2⟩ := nonsing_rows h hA 0 1
  have h3 : M.mat *ᵥ hstack (M.f.permP (M.f.R⁻¹ *ᵥ (M.f.Qᵀ *ᵥ (0 : Fin (n + 1) → ℝ) - (1 : ℝ) • M.gamma))) 1 = 0 := by
    rw [mat_hstack, h1, h2, e]
    funext i; rcases i with i | i <;> simp [hstack]
  have := congrFun (det_ne_of_mulVec hM h3) (.inr ())
  simp [hstack] at this

/-- C107: `solve_nonsingular(g)` solves the bordered system whenever `A` and the bordered matrix are regular. -/
theorem C107_nonsingular {M : BMatrix n} (h : IsQR M.A M.f) (hA : M.A.det ≠ 0) (hM : M.mat.det ≠ 0) (g : Fin (n + 1) ⊕ Unit → ℝ) :
    M.mat *ᵥ M.solveNonsingular g = g := by
  have hd := brd_delta_ne h hA hM
  obtain ⟨h1, h2⟩ := nonsing_rows h hA (fun i => g (.inl i)) ((g (.inr ()) - M.beta ⬝ᵥ (M.f.Qᵀ *ᵥ fun i => g (.inl i))) / M.delta)
  simp only [BMatrix.solveNonsingular]
  rw [mat_hstack, h1, h2, div_mul_cancel₀ _ hd]
  conv_rhs => rw [← hstack_eta g]
  congr 1
  ring

/-! ### Singular `A` -/

theorem part_eq {M : BMatrix n} (h : IsQR M.A M.f) (hb : ∀ i : Fin n, M.f.R i.castSucc i.castSucc ≠ 0) (b : Fin (n + 1) → ℝ)
    (hz : M.null.2 ⬝ᵥ b = 0) : M.A *ᵥ M.part b = b := by
  have hp : M.f.particular 0 b = some (M.part b) := by
    rw [Fact.particular, if_neg]
    · rfl
    · rw [← psi_dot]
      change ¬ 0 < |M.null.2 ⬝ᵥ b|
      rw [hz]; simp
  have := (C72_particular h hb 0 b _ hp).1
  change M.A *ᵥ M.part b = b - (M.null.2 ⬝ᵥ b) • M.null.2 at this
  rw [this, hz]; simp

theorem null_eq {M : BMatrix n} (h : IsQR M.A M.f) (hb : ∀ i : Fin n, M.f.R i.castSucc i.castSucc ≠ 0)
    (h0 : M.f.R (Fin.last n) (Fin.last n) = 0) : M.null.1 ≠ 0 ∧ M.null.2 ≠ 0 ∧ M.A *ᵥ M.null.1 = 0 ∧ M.null.2 ᵥ* M.A = 0 := by
  obtain ⟨h1, h2, h3, h4⟩ := C72_null h hb
  rw [h0] at h3 h4
  refine ⟨h1, ?_, ?_, ?_⟩
  · intro e
    change M.f.null.2 = 0 at e
    rw [e] at h2; simp at h2
  · exact dotProduct_self_eq_zero.mp (h3.trans (by norm_num))
  · rw [← Matrix.mulVec_transpose]
    exact dotProduct_self_eq_zero.mp (h4.trans (by norm_num))

/-- C107: the singular case in exact arithmetic: if the last diagonal entry of `R` is zero and the others are not, `solve_singular(g)`
solves the (regular) bordered system. -/
theorem C107_singular {M : BMatrix n} (h : IsQR M.A M.f) (hb : ∀ i : Fin n, M.f.R i.castSucc i.castSucc ≠ 0)
    (h0 : M.f.R (Fin.last n) (Fin.last n) = 0) (hM : M.mat.det ≠ 0) (g : Fin (n + 1) ⊕ Unit → ℝ) :
    M.mat *ᵥ M.solveSingular g = g := by
  obtain ⟨n1, n2, n3, n4⟩ := null_eq h hb h0
  have hc : M.null.2 ⬝ᵥ M.c ≠ 0 := by
    intro e
    apply n2
    have hv : hstack M.null.2 0 ᵥ* M.mat = 0 := by
      funext j
      rcases j with j | j
      · have := congrFun n4 j
        simpa [hstack, Matrix.vecMul, dotProduct, BMatrix.mat, Fintype.sum_sum_type] using this
      · simpa [hstack, Matrix.vecMul, dotProduct, BMatrix.mat, Fintype.sum_sum_type] using e
    have := det_ne_of_vecMul hM hv
    funext i
    exact congrFun this (.inl i)
  have hbp : M.b ⬝ᵥ M.null.1 ≠ 0 := by
    intro e
    apply n1
    have hv : M.mat *ᵥ hstack M.null.1 0 = 0 := by
      rw [mat_hstack, n3, e]
      funext j; rcases j with j | j <;> simp [hstack]
    have := det_ne_of_mulVec hM hv
    funext i
    exact congrFun this (.inl i)
  simp only [BMatrix.solveSingular]
  set f : Fin (n + 1) → ℝ := fun i => g (.inl i) with hf
  set z := (M.null.2 ⬝ᵥ f) / (M.null.2 ⬝ᵥ M.c) with hzdef
  have hz : M.null.2 ⬝ᵥ (f - z • M.c) = 0 := by
    rw [dotProduct_sub, dotProduct_smul, smul_eq_mul, hzdef, div_mul_cancel₀ _ hc, sub_self]
  have hpart := part_eq h hb _ hz
  rw [mat_hstack, Matrix.mulVec_add, Matrix.mulVec_smul, n3, hpart, dotProduct_add, dotProduct_smul, smul_eq_mul, div_mul_cancel₀ _ hbp]
  conv_rhs => rw [← hstack_eta g]
  congr 1
  · simp [hf]
  · ring

/-- The nearby singular matrix: the last diagonal entry of `R` replaced by zero. -/
noncomputable def snap (M : BMatrix n) : BMatrix n :=
  { M with
    A := fun i j => M.A i j - if j = M.f.C (Fin.last n) then M.f.Q i (Fin.last n) * M.f.R (Fin.last n) (Fin.last n) else 0
    f := { M.f with R := M.f.R.updateRow (Fin.last n) 0 } }

theorem snap_qr {M : BMatrix n} (h : IsQR M.A M.f) : IsQR (snap M).A (snap M).f := by
  refine ⟨h.orth, ?_, ?_, h.detQ⟩
  · intro i j hij
    by_cases hi : i = Fin.last n
    · subst hi; simp [snap]
    · simp only [snap]; rw [Matrix.updateRow_ne hi]; exact h.upper i j hij
  · intro i j
    have h1 := h.eq i j
    simp only [snap, EmbeddingLike.apply_eq_iff_eq]
    rw [h1]
    simp only [Matrix.mul_apply, Fin.sum_univ_castSucc, Matrix.updateRow_self, Pi.zero_apply, mul_zero, add_zero]
    have h2 : ∀ k : Fin n, (M.f.R.updateRow (Fin.last n) 0) k.castSucc j = M.f.R k.castSucc j := by
      intro k; rw [Matrix.updateRow_ne (Fin.castSucc_lt_last k).ne]
    simp only [h2]
    split_ifs with hj
    · subst hj; ring
    · have : M.f.R (Fin.last n) j = 0 := h.upper _ _ (by
        have : j < Fin.last n := lt_of_le_of_ne (Fin.le_last j) hj
        exact this)
      rw [this]; ring

theorem snap_solve (M : BMatrix n) (g : Fin (n + 1) ⊕ Unit → ℝ) : (snap M).solveSingular g = M.solveSingular g := by
  have h1 : (snap M).f.Rbar = M.f.Rbar := by
    ext i j
    simp only [Fact.Rbar, snap, Matrix.submatrix_apply]
    rw [Matrix.updateRow_ne (Fin.castSucc_lt_last i).ne]
  have h2 : (snap M).f.Sbar = M.f.Sbar := by
    funext i
    simp only [Fact.Sbar, snap]
    rw [Matrix.updateRow_ne (Fin.castSucc_lt_last i).ne]
  simp only [BMatrix.solveSingular, BMatrix.null, BMatrix.part, h1, h2]
  rfl

theorem Q_entry {M : BMatrix n} (h : IsQR M.A M.f) (i j : Fin (n + 1)) : |M.f.Q i j| ≤ 1 := by
  have h1 := congrFun (congrFun h.orth j) j
  simp only [Matrix.mul_apply, Matrix.transpose_apply, Matrix.one_apply_eq] at h1
  have h2 : M.f.Q i j * M.f.Q i j ≤ 1 := by
    rw [← h1]
    exact Finset.single_le_sum (f := fun k => M.f.Q k j * M.f.Q k j) (fun k _ => mul_self_nonneg _) (Finset.mem_univ i)
  exact abs_le_one_iff_mul_self_le_one.mpr h2

/-- C107: what `solve` returns when `A` is flagged singular but is not exactly singular: it is the exact solution of a bordered system whose block
`A'` differs from `A` by less than `tol` in every entry (in one column only), provided that nearby bordered matrix is regular. -/
theorem C107_backward {M : BMatrix n} (h : IsQR M.A M.f) (hb : ∀ i : Fin n, M.f.R i.castSucc i.castSucc ≠ 0)
    (hs : M.isSingular = true) : ∃ A' : Matrix (Fin (n + 1)) (Fin (n + 1)) ℝ, (∀ i j, |M.A i j - A' i j| < M.tol) ∧
      A'.det = 0 ∧
      ((Bem.bordered A' M.b M.c M.d).det ≠ 0 → ∀ g, Bem.bordered A' M.b M.c M.d *ᵥ M.solve g = g) := by
  have hs' : |M.f.R (Fin.last n) (Fin.last n)| < M.tol := by
    simpa [BMatrix.isSingular, Fact.isSingular] using hs
  have hq := snap_qr h
  refine ⟨(snap M).A, ?_, ?_, ?_⟩
  · intro i j
    have : M.A i j - (snap M).A i j = if j = M.f.C (Fin.last n) then M.f.Q i (Fin.last n) * M.f.R (Fin.last n) (Fin.last n) else 0 := by
      simp [snap]
    rw [this]
    split_ifs with hj
    · rw [abs_mul]
      exact lt_of_le_of_lt (mul_le_of_le_one_left (abs_nonneg _) (Q_entry h i _)) hs'
    · simpa using lt_of_le_of_lt (abs_nonneg _) hs'
  · rw [det_eq hq, Finset.prod_eq_zero (Finset.mem_univ (Fin.last n)) (by simp [snap])]
    ring
  · intro hM g
    have hm : (snap M).mat = Bem.bordered (snap M).A M.b M.c M.d := (C107_mat (snap M) 0).1
    have := C107_singular (M := snap M) hq
      (by intro i; simp only [snap]; rw [Matrix.updateRow_ne (Fin.castSucc_lt_last i).ne]; exact hb i)
      (by simp [snap]) (by rw [hm]; exact hM) g
    rw [hm, snap_solve] at this
    rw [BMatrix.solve, if_pos hs]
    exact this

/-- C107: the solver chooses the right branch in exact arithmetic: for a positive tolerance that separates the regular from the singular case,
`solve(g)` solves the bordered system. -/
theorem C107_solve {M : BMatrix n} (h : IsQR M.A M.f) (ht : 0 < M.tol) (hb : ∀ i : Fin n, M.f.R i.castSucc i.castSucc ≠ 0)
    (hsing : M.isSingular = true → M.A.det = 0) (hM : M.mat.det ≠ 0) (g : Fin (n + 1) ⊕ Unit → ℝ) :
    M.mat *ᵥ M.solve g = g := by
  have hdet : M.A.det = 0 ↔ M.f.R (Fin.last n) (Fin.last n) = 0 := by
    rw [det_eq h, Fin.prod_univ_castSucc]
    constructor
    · intro e
      have h1 : ((Equiv.Perm.sign M.f.C : ℤ) : ℝ) ≠ 0 := by
        intro e
        have := perm_sign_abs M.f.C
        rw [e] at this; simp at this
      have h2 : ((-1 : ℝ)) ^ M.f.k ≠ 0 := pow_ne_zero _ (by norm_num)
      have h3 : ∏ i : Fin n, M.f.R i.castSucc i.castSucc ≠ 0 := Finset.prod_ne_zero_iff.mpr fun i _ => hb i
      rcases mul_eq_zero.mp e with e | e
      · exact absurd e h1
      · rcases mul_eq_zero.mp e with e | e
        · exact absurd e h2
        · exact (mul_eq_zero.mp e).resolve_left h3
    · intro e; rw [e]; ring
  rw [BMatrix.solve]
  by_cases hs : M.isSingular = true
  · rw [if_pos hs]
    exact C107_singular h hb (hdet.mp (hsing hs)) hM g
  · rw [if_neg hs]
    refine C107_nonsingular h ?_ hM g
    intro e
    apply hs
    rw [BMatrix.isSingular, Fact.isSingular, hdet.mp e]
    simpa using ht

/-- C107 (partial): `solve_null()` solves the bordered system with right-hand side `(0, 1)` if `A` is regular.  Missing: singular `A`
(`C107_null_fails`). -/
theorem C107_null_partial {M : BMatrix n} (h : IsQR M.A M.f) (hs : M.isSingular = false) (hA : M.A.det ≠ 0) (hM : M.mat.det ≠ 0) :
    M.mat *ᵥ M.solveNull = hstack 0 1 := by
  have hd := brd_delta_ne h hA hM
  obtain ⟨h1, h2⟩ := nonsing_rows h hA 0 (1 / M.delta)
  simp only [Matrix.mulVec_zero, zero_sub, dotProduct_zero, zero_add] at h1 h2
  rw [BMatrix.solveNull, if_neg (by simp [hs])]
  simp only [neg_smul]
  rw [mat_hstack, h1, h2, div_mul_cancel₀ _ hd]

/-- The vector in the singular case: the second component of the product is `b ⬝ φ`, not one. -/
theorem C107_null_singular {M : BMatrix n} (h : IsQR M.A M.f) (hb : ∀ i : Fin n, M.f.R i.castSucc i.castSucc ≠ 0)
    (h0 : M.f.R (Fin.last n) (Fin.last n) = 0) (hs : M.isSingular = true) :
    M.mat *ᵥ M.solveNull = hstack 0 (M.b ⬝ᵥ M.null.1) := by
  rw [BMatrix.solveNull, if_pos hs, mat_hstack, (null_eq h hb h0).2.2.1]
  simp

/-- `[[3, 6], [4, 8]]` bordered with `b = (1, 0)`, `c = (0, 1)`, `d = 0`. -/
noncomputable def exB : BMatrix 1 := ⟨!![3, 6; 4, 8], ![1, 0], ![0, 1], 0, exFact, 1/100⟩

theorem exB_qr : IsQR exB.A exB.f := by
  refine ⟨?_, ?_, ?_, ?_⟩
  · ext i j
    fin_cases i <;> fin_cases j <;> simp [exB, exFact, Matrix.mul_apply, Fin.sum_univ_two] <;> norm_num
  · intro i j hij
    fin_cases i <;> fin_cases j <;> simp [exB, exFact] at hij ⊢
  · intro i j
    fin_cases i <;> fin_cases j <;> simp [exB, exFact, Matrix.mul_apply, Fin.sum_univ_two] <;> norm_num
  · simp [exB, exFact, Matrix.det_fin_two]; norm_num

theorem exB_det : exB.mat.det ≠ 0 := by
  intro e
  obtain ⟨v, hv, hz⟩ := Matrix.exists_mulVec_eq_zero_iff.mpr e
  apply hv
  have h1 := congrFun hz (.inl 0)
  have h2 := congrFun hz (.inl 1)
  have h3 := congrFun hz (.inr ())
  simp [exB, BMatrix.mat, Matrix.mulVec, dotProduct, Fintype.sum_sum_type, Fin.sum_univ_two] at h1 h2 h3
  funext i
  rcases i with i | i
  · fin_cases i
    · simpa using h3
    · simp; linarith
  · simp
    linarith

/-- The hypotheses of the singular theorems are met by `exB`. -/
theorem exB_meets : IsQR exB.A exB.f ∧ 0 < exB.tol ∧ (∀ i : Fin 1, exB.f.R i.castSucc i.castSucc ≠ 0) ∧
    exB.f.R (Fin.last 1) (Fin.last 1) = 0 ∧ exB.isSingular = true ∧ exB.A.det = 0 ∧ exB.mat.det ≠ 0 := by
  refine ⟨exB_qr, by norm_num [exB], ?_, rfl, ?_, ?_, exB_det⟩
  · intro i; fin_cases i; simp [exB, exFact]
  · simp [BMatrix.isSingular, exB, exFact, Fact.isSingular, Fin.last]
  · simp [exB, Matrix.det_fin_two]; norm_num

/-- C107 fails for `solve_null` of a singular `A`: for `exB` the product is `(0, -1)`; for a regular `A` it is `(0, 1)`. -/
theorem C107_null_fails : exB.mat *ᵥ exB.solveNull = hstack 0 (-1) := by
  obtain ⟨h1, -, h3, h4, h5, -, -⟩ := exB_meets
  rw [C107_null_singular h1 h3 h4 h5]
  congr 1
  have : exB.b ⬝ᵥ exB.null.1 = exB.null.1 0 := by
    simp [exB, dotProduct, Fin.sum_univ_two]
  rw [this]
  have hC : exB.f.C.symm 0 = Fin.last 1 := by
    simp [exB, exFact, Fin.last]
  simp only [BMatrix.null, Fact.permP]
  rw [hC, snoc, Fin.snoc_last]

/-- A regular matrix meeting the hypotheses of `C107_nonsingular` and `C107_null_partial`. -/
example : ∃ M : BMatrix 0, IsQR M.A M.f ∧ M.isSingular = false ∧ M.A.det ≠ 0 ∧ M.mat.det ≠ 0 ∧ M.b ≠ 0 ∧ M.c ≠ 0 := by
  refine ⟨⟨!![2], ![1], ![1], 1, ⟨!![1], !![2], 1, 0⟩, 1/100⟩, ⟨?_, ?_, ?_, ?_⟩, ?_, ?_, ?_, ?_, ?_⟩
  · ext i j; fin_cases i; fin_cases j; simp [Matrix.mul_apply]
  · intro i j hij; fin_cases i; fin_cases j; simp at hij
  · intro i j; fin_cases i; fin_cases j; simp [Matrix.mul_apply]
  · simp
  · simp [BMatrix.isSingular, Fact.isSingular]; norm_num
  · simp
  · intro e
    obtain ⟨v, hv, hz⟩ := Matrix.exists_mulVec_eq_zero_iff.mpr e
    apply hv
    have h1 := congrFun hz (.inl 0)
    have h3 := congrFun hz (.inr ())
    simp [BMatrix.mat, Matrix.mulVec, dotProduct, Fintype.sum_sum_type] at h1 h3
    funext i
    rcases i with i | i
    · fin_cases i; simp; linarith
    · simp; linarith
  · intro e; have := congrFun e 0; simp at this
  · intro e; have := congrFun e 0; simp at this

end Funpy.Props
