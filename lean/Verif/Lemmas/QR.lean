import Verif.Spec.QR
import Mathlib.LinearAlgebra.Matrix.Block
import Mathlib.Tactic

/-! Lemmas for `Props/QR.lean`. -/

namespace Funpy.QR

open Matrix Equiv

variable {m n : ℕ} {A : Matrix (Fin m) (Fin n) ℝ} {f : Fact m n}

theorem IsQR.orth' (h : IsQR A f) : f.Q * f.Qᵀ = 1 := mul_eq_one_comm.mp h.orth

theorem IsQR.QQt (h : IsQR A f) (v : Fin m → ℝ) : f.Q *ᵥ (f.Qᵀ *ᵥ v) = v := by
  rw [Matrix.mulVec_mulVec, h.orth', Matrix.one_mulVec]

theorem IsQR.QtQ (h : IsQR A f) (v : Fin m → ℝ) : f.Qᵀ *ᵥ (f.Q *ᵥ v) = v := by
  rw [Matrix.mulVec_mulVec, h.orth, Matrix.one_mulVec]

theorem IsQR.mulVec_permP (h : IsQR A f) (v : Fin n → ℝ) : A *ᵥ f.permP v = f.Q *ᵥ (f.R *ᵥ v) := by
  rw [Matrix.mulVec_mulVec]
  funext i
  simp only [Matrix.mulVec, dotProduct, Fact.permP]
  rw [← Equiv.sum_comp f.C]
  exact Finset.sum_congr rfl fun j _ => by rw [h.eq, Equiv.symm_apply_apply]

theorem IsQR.mulVec (h : IsQR A f) (x : Fin n → ℝ) : A *ᵥ x = f.Q *ᵥ (f.R *ᵥ fun j => x (f.C j)) := by
  have := h.mulVec_permP (fun j => x (f.C j))
  rw [← this]
  congr 1
  funext i; simp [Fact.permP]

theorem IsQR.transpose_mulVec (h : IsQR A f) (y : Fin m → ℝ) (j : Fin n) :
    (Aᵀ *ᵥ y) (f.C j) = (f.Rᵀ *ᵥ (f.Qᵀ *ᵥ y)) j := by
  rw [Matrix.mulVec_mulVec, ← Matrix.transpose_mul]
  simp only [Matrix.mulVec, dotProduct, Matrix.transpose_apply]
  exact Finset.sum_congr rfl fun i _ => by rw [h.eq]

theorem IsQR.transpose_ext (h : IsQR A f) {y : Fin m → ℝ} {b : Fin n → ℝ}
    (e : ∀ j, (f.Rᵀ *ᵥ (f.Qᵀ *ᵥ y)) j = b (f.C j)) : Aᵀ *ᵥ y = b := by
  funext i
  obtain ⟨j, rfl⟩ := f.C.surjective i
  rw [h.transpose_mulVec, e]

theorem mul_inv_mulVec {ι : Type*} [Fintype ι] [DecidableEq ι] {M : Matrix ι ι ℝ} (hM : M.det ≠ 0) (v : ι → ℝ) :
    M *ᵥ (M⁻¹ *ᵥ v) = v := by
  rw [Matrix.mulVec_mulVec, Matrix.mul_nonsing_inv _ (isUnit_iff_ne_zero.mpr hM), Matrix.one_mulVec]

theorem det_R {f : Fact n n} {A : Matrix (Fin n) (Fin n) ℝ} (h : IsQR A f) : f.R.det = ∏ i, f.R i i :=
  Matrix.det_of_upperTriangular (fun i j hij => h.upper i j hij)

theorem det_eq {f : Fact n n} {A : Matrix (Fin n) (Fin n) ℝ} (h : IsQR A f) :
    A.det = ((Perm.sign f.C : ℤ) : ℝ) * ((-1) ^ f.k * ∏ i, f.R i i) := by
  have h1 : A = (f.Q * f.R).submatrix id f.C.symm := by
    ext i j
    rw [Matrix.submatrix_apply, id, ← h.eq, Equiv.apply_symm_apply]
  rw [h1, Matrix.det_permute', Matrix.det_mul, det_R h, h.detQ]
  simp

theorem det_Rbar {f : Fact (n + 1) (n + 1)} {A : Matrix (Fin (n + 1)) (Fin (n + 1)) ℝ} (h : IsQR A f) :
    f.Rbar.det = ∏ i : Fin n, f.R i.castSucc i.castSucc := by
  have : ∀ i j : Fin n, j < i → f.Rbar i j = 0 := fun i j hij => h.upper i.castSucc j.castSucc hij
  exact Matrix.det_of_upperTriangular this

theorem R_mulVec_snoc {f : Fact (n + 1) (n + 1)} {A : Matrix (Fin (n + 1)) (Fin (n + 1)) ℝ} (h : IsQR A f)
    (x : Fin n → ℝ) (a : ℝ) :
    f.R *ᵥ snoc x a = snoc (f.Rbar *ᵥ x + a • f.Sbar) (f.R (Fin.last n) (Fin.last n) * a) := by
  funext i
  refine Fin.lastCases ?_ (fun i => ?_) i
  · simp only [Matrix.mulVec, dotProduct, snoc, Fin.sum_univ_castSucc, Fin.snoc_castSucc, Fin.snoc_last]
    rw [Finset.sum_eq_zero (fun j _ => by rw [h.upper _ _ (by simp)]; ring), zero_add]
  · simp only [Matrix.mulVec, dotProduct, snoc, Fin.sum_univ_castSucc, Fin.snoc_castSucc, Fin.snoc_last,
      Fact.Rbar, Fact.Sbar, Pi.add_apply, Pi.smul_apply, smul_eq_mul, Matrix.submatrix_apply]
    ring

theorem Rt_mulVec_snoc {f : Fact (n + 1) (n + 1)} {A : Matrix (Fin (n + 1)) (Fin (n + 1)) ℝ} (h : IsQR A f)
    (x : Fin n → ℝ) (a : ℝ) :
    f.Rᵀ *ᵥ snoc x a = snoc (f.Rbarᵀ *ᵥ x) (f.Sbar ⬝ᵥ x + f.R (Fin.last n) (Fin.last n) * a) := by
  funext i
  refine Fin.lastCases ?_ (fun i => ?_) i
  · simp only [Matrix.mulVec, dotProduct, snoc, Fin.sum_univ_castSucc, Fin.snoc_castSucc, Fin.snoc_last,
      Matrix.transpose_apply, Fact.Sbar]
  · simp only [Matrix.mulVec, dotProduct, snoc, Fin.sum_univ_castSucc, Fin.snoc_castSucc, Fin.snoc_last,
      Matrix.transpose_apply, Fact.Rbar, Matrix.submatrix_apply]
    rw [h.upper (Fin.last n) i.castSucc (by simp)]
    ring

theorem snoc_init (v : Fin (n + 1) → ℝ) : snoc (init v) (v (Fin.last n)) = v := by
  funext i
  refine Fin.lastCases ?_ (fun i => ?_) i <;> simp [snoc, init]

theorem phi_dot {f : Fact (n + 1) (n + 1)} (b : Fin (n + 1) → ℝ) :
    f.null.1 ⬝ᵥ b = f.Sbar ⬝ᵥ ((f.Rbarᵀ)⁻¹ *ᵥ init (fun j => b (f.C j))) - b (f.C (Fin.last n)) := by
  have e1 : f.null.1 ⬝ᵥ b = snoc (f.Rbar⁻¹ *ᵥ f.Sbar) (-1) ⬝ᵥ (fun j => b (f.C j)) := by
    simp only [Fact.null, dotProduct, Fact.permP]
    rw [← Equiv.sum_comp f.C]
    simp
  rw [e1, dotProduct, Fin.sum_univ_castSucc]
  simp only [snoc, Fin.snoc_castSucc, Fin.snoc_last]
  have e2 : (∑ i : Fin n, (f.Rbar⁻¹ *ᵥ f.Sbar) i * b (f.C i.castSucc))
      = f.Sbar ⬝ᵥ ((f.Rbarᵀ)⁻¹ *ᵥ init (fun j => b (f.C j))) := by
    rw [← Matrix.transpose_nonsing_inv, Matrix.mulVec_transpose, dotProduct_comm f.Sbar,
      ← Matrix.dotProduct_mulVec, dotProduct_comm]
    rfl
  rw [e2]; ring

theorem psi_dot {f : Fact (n + 1) (n + 1)} (b : Fin (n + 1) → ℝ) : f.null.2 ⬝ᵥ b = (f.Qᵀ *ᵥ b) (Fin.last n) := by
  simp only [Fact.null]
  rw [dotProduct_comm, Matrix.dotProduct_mulVec, ← Matrix.mulVec_transpose, dotProduct,
    Fin.sum_univ_castSucc]
  simp [snoc]

/-! ## Permutations with one entry removed -/

theorem foldr_max_ofFn {k : ℕ} (g : Fin k → ℕ) (M : ℕ) (hle : ∀ i, g i ≤ M) (i₀ : Fin k) (h0 : g i₀ = M) :
    (List.ofFn g).foldr max 0 = M := by
  have h1 : ∀ l : List ℕ, (∀ x ∈ l, x ≤ M) → l.foldr max 0 ≤ M := by
    intro l
    induction l with
    | nil => simp
    | cons a l ih =>
      intro h
      simp only [List.foldr_cons]
      exact max_le (h a (by simp)) (ih (fun x hx => h x (by simp [hx])))
  have h2 : ∀ l : List ℕ, M ∈ l → M ≤ l.foldr max 0 := by
    intro l
    induction l with
    | nil => simp
    | cons a l ih =>
      intro h
      simp only [List.foldr_cons]
      rcases List.mem_cons.mp h with rfl | h
      · exact le_max_left _ _
      · exact le_trans (ih h) (le_max_right _ _)
  apply le_antisymm
  · exact h1 _ (by intro x hx; obtain ⟨i, rfl⟩ := (List.mem_ofFn' g x).mp hx; exact hle i)
  · exact h2 _ ((List.mem_ofFn' g M).mpr ⟨i₀, h0⟩)

theorem idxOf_ofFn {k : ℕ} (g : Fin k → ℕ) (hg : Function.Injective g) (i₀ : Fin k) :
    (List.ofFn g).idxOf (g i₀) = i₀.val := by
  have hn : (List.ofFn g).Nodup := List.nodup_ofFn.mpr hg
  have hi : i₀.val < (List.ofFn g).length := by simp
  have := hn.idxOf_getElem i₀.val hi
  simpa using this

theorem eraseIdx_ofFn {k : ℕ} (g : Fin (k + 1) → ℕ) (p : Fin (k + 1)) :
    (List.ofFn g).eraseIdx p.val = List.ofFn fun i => g (p.succAbove i) := by
  apply List.ext_getElem
  · rw [List.length_eraseIdx_of_lt (by simp; omega)]; simp
  · intro i h1 h2
    have hi : i < k := by simpa using h2
    have e2 : (List.ofFn fun i => g (p.succAbove i))[i] = g (p.succAbove ⟨i, hi⟩) := by rw [List.getElem_ofFn]
    rw [List.getElem_eraseIdx, e2]
    split_ifs with h
    · rw [List.getElem_ofFn, Fin.succAbove_of_castSucc_lt _ _ (by rw [Fin.lt_def]; simpa using h)]
      rfl
    · rw [List.getElem_ofFn, Fin.succAbove_of_le_castSucc _ _ (by rw [Fin.le_def]; simpa using h)]
      rfl

/-- The permutation of the remaining indices after deleting position `p` and value `σ p`. -/
noncomputable def reduce {k : ℕ} (σ : Perm (Fin (k + 1))) (p : Fin (k + 1)) : Perm (Fin k) :=
  Equiv.ofBijective (fun i => (Fin.exists_succAbove_eq (x := σ (p.succAbove i)) (y := σ p)
      (fun e => Fin.succAbove_ne p i (σ.injective e))).choose) (by
    rw [Finite.injective_iff_bijective.symm]
    intro i j hij
    have hi := (Fin.exists_succAbove_eq (x := σ (p.succAbove i)) (y := σ p)
      (fun e => Fin.succAbove_ne p i (σ.injective e))).choose_spec
    have hj := (Fin.exists_succAbove_eq (x := σ (p.succAbove j)) (y := σ p)
      (fun e => Fin.succAbove_ne p j (σ.injective e))).choose_spec
    simp only at hij
    rw [hij] at hi
    exact Fin.succAbove_right_injective (σ.injective (hi.symm.trans hj)))

theorem reduce_spec {k : ℕ} (σ : Perm (Fin (k + 1))) (p : Fin (k + 1)) (i : Fin k) :
    (σ p).succAbove (reduce σ p i) = σ (p.succAbove i) :=
  (Fin.exists_succAbove_eq (x := σ (p.succAbove i)) (y := σ p)
      (fun e => Fin.succAbove_ne p i (σ.injective e))).choose_spec

theorem det_delete {k : ℕ} {A : Matrix (Fin k) (Fin (k + 1)) ℝ} {f : Fact k (k + 1)} (h : IsQR A f) (p : Fin (k + 1)) :
    (A.submatrix id p.succAbove).det = ((Perm.sign (reduce f.C.symm p) : ℤ) : ℝ) *
      ((-1) ^ f.k * (f.R.submatrix id (f.C.symm p).succAbove).det) := by
  have h1 : A.submatrix id p.succAbove
      = (f.Q * f.R.submatrix id (f.C.symm p).succAbove).submatrix id (reduce f.C.symm p) := by
    ext i j
    simp only [Matrix.submatrix_apply, id, Matrix.mul_apply]
    have := h.eq i (f.C.symm (p.succAbove j))
    rw [Equiv.apply_symm_apply] at this
    rw [this, Matrix.mul_apply]
    exact Finset.sum_congr rfl fun l _ => by rw [reduce_spec]
  rw [h1, Matrix.det_permute', Matrix.det_mul, h.detQ]

/-! ## Pseudo-inverse -/

theorem append_dot {r d : ℕ} (a a' : Fin r → ℝ) (b b' : Fin d → ℝ) :
    (Fin.append a b) ⬝ᵥ (Fin.append a' b') = a ⬝ᵥ a' + b ⬝ᵥ b' := by
  simp only [dotProduct, Fin.sum_univ_add, Fin.append_left, Fin.append_right]

theorem append_split {r d : ℕ} (v : Fin (r + d) → ℝ) :
    Fin.append (fun i => v (Fin.castAdd d i)) (fun i => v (Fin.natAdd r i)) = v := Fin.append_castAdd_natAdd

theorem R_mulVec_append {r e d : ℕ} {f : Fact (r + e) (r + d)}
    (hz : ∀ i j, f.R (Fin.natAdd r i) j = 0) (x : Fin r → ℝ) (y : Fin d → ℝ) :
    f.R *ᵥ Fin.append x y = Fin.append (f.Rr *ᵥ x + f.Sr *ᵥ y) 0 := by
  funext i
  refine Fin.addCases (fun i => ?_) (fun i => ?_) i
  · simp only [Matrix.mulVec, dotProduct, Fin.sum_univ_add, Fin.append_left, Fin.append_right, Fact.Rr, Fact.Sr,
      Pi.add_apply, Matrix.submatrix_apply]
  · simp only [Matrix.mulVec, dotProduct, Fin.append_right, hz]
    simp

theorem det_Rr {r e d : ℕ} {A : Matrix (Fin (r + e)) (Fin (r + d)) ℝ} {f : Fact (r + e) (r + d)} (h : IsQR A f) :
    f.Rr.det = ∏ i : Fin r, f.R (Fin.castAdd e i) (Fin.castAdd d i) := by
  have : ∀ i j : Fin r, j < i → f.Rr i j = 0 := fun i j hij => h.upper _ _ (by simpa using hij)
  exact Matrix.det_of_upperTriangular this

/-- The result of `solve_singular_dense` in the pivoted coordinates. -/
theorem solveSingular_eq {r e d : ℕ} {f : Fact (r + e) (r + d)} (L : Matrix (Fin d) (Fin d) ℝ) (b : Fin (r + e) → ℝ) :
    f.solveSingular L b = f.permP (Fin.append
      (f.Rr⁻¹ *ᵥ (fun i => (f.Qᵀ *ᵥ b) (Fin.castAdd e i))
        - f.jbar *ᵥ ((Lᵀ)⁻¹ *ᵥ (L⁻¹ *ᵥ (f.jbarᵀ *ᵥ (f.Rr⁻¹ *ᵥ fun i => (f.Qᵀ *ᵥ b) (Fin.castAdd e i))))))
      ((Lᵀ)⁻¹ *ᵥ (L⁻¹ *ᵥ (f.jbarᵀ *ᵥ (f.Rr⁻¹ *ᵥ fun i => (f.Qᵀ *ᵥ b) (Fin.castAdd e i)))))) := by
  funext i
  simp only [Fact.solveSingular, Fact.permP]
  refine Fin.addCases (fun i => ?_) (fun i => ?_) (f.C.symm i)
  · simp only [Fin.append_left, Matrix.mulVec_neg, Pi.sub_apply, Pi.neg_apply]
    ring
  · simp only [Fin.append_right, Matrix.mulVec_neg, Pi.neg_apply, neg_neg]

theorem solveSingular_R {r e d : ℕ} {A : Matrix (Fin (r + e)) (Fin (r + d)) ℝ} {f : Fact (r + e) (r + d)} (h : IsQR A f)
    (hd : ∀ i : Fin r, f.R (Fin.castAdd e i) (Fin.castAdd d i) ≠ 0)
    (hz : ∀ i j, f.R (Fin.natAdd r i) j = 0) (L : Matrix (Fin d) (Fin d) ℝ) (b : Fin (r + e) → ℝ) :
    A *ᵥ f.solveSingular L b = f.Q *ᵥ Fin.append (fun i => (f.Qᵀ *ᵥ b) (Fin.castAdd e i)) 0 := by
  have hR : f.Rr.det ≠ 0 := by rw [det_Rr h]; exact Finset.prod_ne_zero_iff.mpr fun i _ => hd i
  rw [solveSingular_eq, h.mulVec_permP, R_mulVec_append hz, Matrix.mulVec_sub, mul_inv_mulVec hR]
  congr 2
  rw [Fact.jbar, ← Matrix.mulVec_mulVec, mul_inv_mulVec hR]
  simp

/-- What `scipy.linalg.cholesky` promises. -/
structure IsChol {d : ℕ} (M L : Matrix (Fin d) (Fin d) ℝ) : Prop where
  upper : ∀ i j, j < i → L i j = 0
  pos : ∀ i, 0 < L i i
  eq : Lᵀ * L = M

theorem IsChol.det {d : ℕ} {M L : Matrix (Fin d) (Fin d) ℝ} (h : IsChol M L) : L.det ≠ 0 := by
  rw [Matrix.det_of_upperTriangular (fun i j hij => h.upper i j hij)]
  exact Finset.prod_ne_zero_iff.mpr fun i _ => (h.pos i).ne'

end Funpy.QR
