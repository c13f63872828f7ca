import Verif.Spec.Bem
import Mathlib.Tactic.FieldSimp
import Mathlib.Tactic.LinearCombination
import Mathlib.Tactic.Linarith
import Mathlib.Tactic.Abel
import Mathlib.Tactic.NormNum
import Mathlib.Data.Real.Basic
import Mathlib.Data.Matrix.Mul
import Mathlib.LinearAlgebra.Matrix.ToLinearEquiv
import Mathlib.LinearAlgebra.Matrix.DotProduct

/-!
# C44: the bordered solver
-/

namespace Funpy.Props

open Matrix Funpy.Bem

variable {ι K : Type*} [Fintype ι] [DecidableEq ι] [Field K]

theorem bordered_mulVec (A : Matrix ι ι K) (b c : ι → K) (d : K) (x : ι → K) (y : K) :
    bordered A b c d *ᵥ hstack x y = hstack (A *ᵥ x + y • c) (b ⬝ᵥ x + d * y) := by
  unfold bordered hstack
  rw [Matrix.fromBlocks_mulVec]
  funext i
  rcases i with i | i
  · simp [Matrix.mulVec, dotProduct, Matrix.replicateCol, mul_comm]
  · simp [Matrix.mulVec, dotProduct, Matrix.replicateRow]

theorem bordered_transpose (A : Matrix ι ι K) (b c : ι → K) (d : K) :
    (bordered A b c d)ᵀ = bordered Aᵀ c b d := by
  unfold bordered
  rw [Matrix.fromBlocks_transpose]
  rfl

theorem hstack_head_last (v : ι ⊕ Unit → K) : hstack (head v) (last v) = v := by
  funext i; rcases i with i | i <;> rfl

theorem inj_of_det {κ : Type*} [Fintype κ] [DecidableEq κ] {M : Matrix κ κ K} (h : M.det ≠ 0) {x y : κ → K} (e : M *ᵥ x = M *ᵥ y) : x = y := by
  have : Invertible M := M.invertibleOfIsUnitDet (isUnit_iff_ne_zero.mpr h)
  exact Matrix.mulVec_injective_of_invertible M e

theorem det_ne_of_surj {A : Matrix ι ι K} (s : (ι → K) → (ι → K)) (h : ∀ f, A *ᵥ s f = f) : A.det ≠ 0 := by
  have hs : Function.Surjective A.mulVec := fun f => ⟨s f, h f⟩
  have hu : IsUnit A := Matrix.mulVec_surjective_iff_isUnit.mp hs
  exact ((Matrix.isUnit_iff_isUnit_det A).mp hu).ne_zero

theorem bordered_det (A : Matrix ι ι K) (b c beta : ι → K) (d : K) (hA : A.det ≠ 0) (h : A *ᵥ beta = c) :
    (bordered A b c d).det = A.det * (d - b ⬝ᵥ beta) := by
  have : Invertible A := A.invertibleOfIsUnitDet (isUnit_iff_ne_zero.mpr hA)
  unfold bordered
  rw [Matrix.det_fromBlocks₁₁]
  congr 1
  have hb : ⅟A * Matrix.replicateCol Unit c = Matrix.replicateCol Unit beta := by
    rw [← h, Matrix.replicateCol_mulVec, ← Matrix.mul_assoc, invOf_mul_self, Matrix.one_mul]
  rw [Matrix.mul_assoc, hb, Matrix.det_unique]
  simp [Matrix.mul_apply, dotProduct]

section
variable {A : Matrix ι ι K} {s : Solver ι K} (h : Correct A s) (b c : ι → K) (d : K)
include h

theorem eta_ne (hs : s.isSingular = false) (hM : (bordered A b c d).det ≠ 0) :
    d - b ⬝ᵥ s.solve c ≠ 0 := by
  intro e
  rw [bordered_det A b c (s.solve c) d (det_ne_of_surj _ (h.solve hs)) (h.solve hs c), e, mul_zero] at hM
  exact hM rfl

theorem delta_ne (hs : s.isSingular = false) (hM : (bordered A b c d).det ≠ 0) :
    d - s.solveAdj b ⬝ᵥ c ≠ 0 := by
  intro e
  rw [← Matrix.det_transpose, bordered_transpose,
    bordered_det Aᵀ c b (s.solveAdj b) d (det_ne_of_surj _ (h.solveAdj hs)) (h.solveAdj hs b),
    dotProduct_comm, e, mul_zero] at hM
  exact hM rfl

theorem bphi_ne (hs : s.isSingular = true) (hM : (bordered A b c d).det ≠ 0) : b ⬝ᵥ s.null.1 ≠ 0 := by
  intro e
  obtain ⟨h1, h2, _, _⟩ := h.null hs
  have := inj_of_det hM (x := hstack s.null.1 0) (y := 0) (by
    rw [bordered_mulVec, h2, e, Matrix.mulVec_zero]
    funext i; rcases i with i | i <;> simp [hstack])
  apply h1
  funext i
  exact congrFun this (Sum.inl i)

theorem psic_ne (hs : s.isSingular = true) (hM : (bordered A b c d).det ≠ 0) : s.null.2 ⬝ᵥ c ≠ 0 := by
  intro e
  obtain ⟨_, _, h3, h4⟩ := h.null hs
  rw [← Matrix.det_transpose, bordered_transpose] at hM
  have := inj_of_det hM (x := hstack s.null.2 0) (y := 0) (by
    rw [bordered_mulVec, h4, dotProduct_comm, e, Matrix.mulVec_zero]
    funext i; rcases i with i | i <;> simp [hstack])
  apply h3
  funext i
  exact congrFun this (Sum.inl i)

theorem solveNonsing_exact (hs : s.isSingular = false)
    (hM : (bordered A b c d).det ≠ 0) (f : ι ⊕ Unit → K) :
    bordered A b c d *ᵥ (Bem.init s b c d).solveNonsing (prepare s b c d) f = f := by
  have he := eta_ne h b c d hs hM
  unfold Bem.solveNonsing prepare Bem.init
  simp only []
  set y1 := (last f - s.solveAdj b ⬝ᵥ head f) / (d - s.solveAdj b ⬝ᵥ c) with hy1
  set w := s.solve (head f - y1 • c) with hw
  rw [bordered_mulVec, Matrix.mulVec_sub, Matrix.mulVec_smul, h.solve hs c, hw, h.solve hs, ← hw]
  conv_rhs => rw [← hstack_head_last f]
  congr 1
  · rw [add_smul]; abel
  · rw [dotProduct_sub, dotProduct_smul, smul_eq_mul]
    field_simp
    ring

theorem solveNonsingAdj_exact (hs : s.isSingular = false)
    (hM : (bordered A b c d).det ≠ 0) (f : ι ⊕ Unit → K) :
    (bordered A b c d)ᵀ *ᵥ (Bem.init s b c d).solveNonsingAdj (prepare s b c d) f = f := by
  have he := delta_ne h b c d hs hM
  unfold Bem.solveNonsingAdj prepare Bem.init
  simp only []
  set y1 := (last f - s.solve c ⬝ᵥ head f) / (d - b ⬝ᵥ s.solve c) with hy1
  set w := s.solveAdj (head f - y1 • b) with hw
  rw [bordered_transpose, bordered_mulVec, Matrix.mulVec_sub, Matrix.mulVec_smul, h.solveAdj hs b, hw,
    h.solveAdj hs, ← hw]
  conv_rhs => rw [← hstack_head_last f]
  congr 1
  · rw [add_smul]; abel
  · rw [dotProduct_sub, dotProduct_smul, smul_eq_mul, dotProduct_comm c (s.solveAdj b)]
    field_simp
    ring

theorem solveSingular_exact (hs : s.isSingular = true)
    (hM : (bordered A b c d).det ≠ 0) (f : ι ⊕ Unit → K) :
    bordered A b c d *ᵥ (Bem.init s b c d).solveSingular f = f := by
  have hb := bphi_ne h b c d hs hM
  have hc := psic_ne h b c d hs hM
  obtain ⟨h1, h2, h3, h4⟩ := h.null hs
  unfold Bem.solveSingular Bem.init
  simp only []
  set z := s.null.2 ⬝ᵥ head f / (s.null.2 ⬝ᵥ c) with hz
  have hcons : s.null.2 ⬝ᵥ (head f - z • c) = 0 := by
    rw [dotProduct_sub, dotProduct_smul, smul_eq_mul, hz, div_mul_cancel₀ _ hc, sub_self]
  have hp := h.particular hs _ hcons
  set xp := s.particular (head f - z • c) with hxp
  rw [bordered_mulVec, Matrix.mulVec_add, Matrix.mulVec_smul, h2, hp, smul_zero]
  conv_rhs => rw [← hstack_head_last f]
  congr 1
  · abel
  · rw [dotProduct_add, dotProduct_smul, smul_eq_mul, div_mul_cancel₀ _ hb]
    ring

theorem solveSingularAdj_exact (hs : s.isSingular = true)
    (hM : (bordered A b c d).det ≠ 0) (f : ι ⊕ Unit → K) :
    (bordered A b c d)ᵀ *ᵥ (Bem.init s b c d).solveSingularAdj f = f := by
  have hb := bphi_ne h b c d hs hM
  have hc := psic_ne h b c d hs hM
  obtain ⟨h1, h2, h3, h4⟩ := h.null hs
  rw [dotProduct_comm] at hb hc
  unfold Bem.solveSingularAdj Bem.init
  simp only []
  set z := s.null.1 ⬝ᵥ head f / (s.null.1 ⬝ᵥ b) with hz
  have hcons : s.null.1 ⬝ᵥ (head f - z • b) = 0 := by
    rw [dotProduct_sub, dotProduct_smul, smul_eq_mul, hz, div_mul_cancel₀ _ hb, sub_self]
  have hp := h.particularAdj hs _ hcons
  set xp := s.particularAdj (head f - z • b) with hxp
  rw [bordered_transpose, bordered_mulVec, Matrix.mulVec_add, Matrix.mulVec_smul, h4, hp, smul_zero]
  conv_rhs => rw [← hstack_head_last f]
  congr 1
  · abel
  · rw [dotProduct_add, dotProduct_smul, smul_eq_mul, div_mul_cancel₀ _ hc]
    ring

/-- **C44** `BEM(solver, b, c, d).solve(f)`: if the bordered matrix is nonsingular, the result is its unique
solution, whether or not the inner matrix `A` is singular. -/
theorem C44_solve (hM : (bordered A b c d).det ≠ 0) (f : ι ⊕ Unit → K) :
    ∃ x, (Bem.init s b c d).solve f = some x ∧ bordered A b c d *ᵥ x = f ∧
      ∀ x', bordered A b c d *ᵥ x' = f → x' = x := by
  have hu : ∀ x, bordered A b c d *ᵥ x = f → ∀ x', bordered A b c d *ᵥ x' = f → x' = x :=
    fun x hx x' hx' => inj_of_det hM (hx'.trans hx.symm)
  cases hs : s.isSingular with
  | true =>
    have e := solveSingular_exact h b c d hs hM f
    exact ⟨_, by simp [Bem.solve, Bem.init, hs], e, hu _ e⟩
  | false =>
    have e := solveNonsing_exact h b c d hs hM f
    refine ⟨(Bem.init s b c d).solveNonsing (prepare s b c d) f, ?_, e, hu _ e⟩
    simp [Bem.solve, Bem.init, hs]

/-- **C44** `solve_adj` solves the transposed bordered system. -/
theorem C44_solve_adj (hM : (bordered A b c d).det ≠ 0) (f : ι ⊕ Unit → K) :
    ∃ x, (Bem.init s b c d).solveAdj f = some x ∧ (bordered A b c d)ᵀ *ᵥ x = f ∧
      ∀ x', (bordered A b c d)ᵀ *ᵥ x' = f → x' = x := by
  have hM' : (bordered A b c d)ᵀ.det ≠ 0 := by rwa [Matrix.det_transpose]
  have hu : ∀ x, (bordered A b c d)ᵀ *ᵥ x = f → ∀ x', (bordered A b c d)ᵀ *ᵥ x' = f → x' = x :=
    fun x hx x' hx' => inj_of_det hM' (hx'.trans hx.symm)
  cases hs : s.isSingular with
  | true =>
    have e := solveSingularAdj_exact h b c d hs hM f
    exact ⟨_, by simp [Bem.solveAdj, Bem.init, hs], e, hu _ e⟩
  | false =>
    have e := solveNonsingAdj_exact h b c d hs hM f
    refine ⟨(Bem.init s b c d).solveNonsingAdj (prepare s b c d) f, ?_, e, hu _ e⟩
    simp [Bem.solveAdj, Bem.init, hs]

/-- **C44** `solve_zero(f)` solves the bordered system with right-hand side `(f, 0)`. -/
theorem C44_solve_zero (hM : (bordered A b c d).det ≠ 0) (f : ι → K) :
    ∃ x, (Bem.init s b c d).solveZero f = some x ∧ bordered A b c d *ᵥ x = hstack f 0 := by
  have e1 : head (hstack f (0:K)) = f := rfl
  have e2 : last (hstack f (0:K)) = 0 := rfl
  cases hs : s.isSingular with
  | true =>
    refine ⟨(Bem.init s b c d).solveSingular (hstack f 0), ?_, solveSingular_exact h b c d hs hM _⟩
    simp only [Bem.solveZero, Bem.init, hs, if_true, Bem.solveZeroSingular, Bem.solveSingular, e1, e2]
    congr 5
    ring
  | false =>
    refine ⟨(Bem.init s b c d).solveNonsing (prepare s b c d) (hstack f 0), ?_,
      solveNonsing_exact h b c d hs hM _⟩
    simp only [Bem.solveZero, Bem.init, hs, Bem.solveZeroNonsing, Bem.solveNonsing, e1, e2, zero_sub,
      Bool.false_eq_true, if_false, Option.map_some, Option.some.injEq]
    rw [neg_add, ← sub_eq_add_neg]

/-- **C44** `det()` is the determinant of the bordered matrix (nonsingular inner matrix). -/
theorem C44_det (hs : s.isSingular = false) :
    (Bem.init s b c d).det = some (bordered A b c d).det := by
  rw [bordered_det A b c (s.solve c) d (det_ne_of_surj _ (h.solve hs)) (h.solve hs c)]
  simp [Bem.det, Bem.init, hs, prepare, h.det hs]

/-- **C44** `solve_null()` solves the system with right-hand side `(0, 1)` when `A` is nonsingular. -/
theorem C44_null_partial (hs : s.isSingular = false) (hM : (bordered A b c d).det ≠ 0) :
    ∃ t, (Bem.init s b c d).solveNull = some t ∧ bordered A b c d *ᵥ t = hstack 0 1 := by
  have he := eta_ne h b c d hs hM
  have hd := delta_ne h b c d hs hM
  refine ⟨(Bem.init s b c d).solveNullNonsing (prepare s b c d), by simp [Bem.solveNull, Bem.init, hs], ?_⟩
  have hde : d - s.solveAdj b ⬝ᵥ c = d - b ⬝ᵥ s.solve c := by
    have h1 := h.solve hs c
    have h2 := h.solveAdj hs b
    conv_lhs => rw [← h1]
    conv_rhs => rw [← h2]
    rw [Matrix.dotProduct_mulVec, Matrix.mulVec_transpose, ← Matrix.dotProduct_mulVec]
  unfold Bem.solveNullNonsing prepare Bem.init
  simp only []
  rw [hde]
  have hone : 1 / (d - b ⬝ᵥ s.solve c) + (1 + 1 / (d - b ⬝ᵥ s.solve c) * (b ⬝ᵥ s.solve c - d)) / (d - b ⬝ᵥ s.solve c)
      = 1 / (d - b ⬝ᵥ s.solve c) := by
    field_simp; ring
  rw [hone, Matrix.mulVec_smul, bordered_mulVec, Matrix.mulVec_neg, h.solve hs c]
  funext i
  rcases i with i | i
  · simp [hstack]
  · simp only [hstack, Pi.smul_apply, Sum.elim_inr, smul_eq_mul, dotProduct_neg, mul_one]
    field_simp
    ring

/-- **C44** `solve_null_adj()` solves the transposed system with right-hand side `(0, 1)` when `A` is nonsingular. -/
theorem C44_null_adj_partial (hs : s.isSingular = false) (hM : (bordered A b c d).det ≠ 0) :
    ∃ t, (Bem.init s b c d).solveNullAdj = some t ∧ (bordered A b c d)ᵀ *ᵥ t = hstack 0 1 := by
  have he := eta_ne h b c d hs hM
  have hd := delta_ne h b c d hs hM
  refine ⟨(Bem.init s b c d).solveNullNonsingAdj (prepare s b c d), by simp [Bem.solveNullAdj, Bem.init, hs], ?_⟩
  have hde : d - s.solveAdj b ⬝ᵥ c = d - b ⬝ᵥ s.solve c := by
    have h1 := h.solve hs c
    have h2 := h.solveAdj hs b
    conv_lhs => rw [← h1]
    conv_rhs => rw [← h2]
    rw [Matrix.dotProduct_mulVec, Matrix.mulVec_transpose, ← Matrix.dotProduct_mulVec]
  unfold Bem.solveNullNonsingAdj prepare Bem.init
  simp only []
  rw [← hde, dotProduct_comm c]
  have hone : 1 / (d - s.solveAdj b ⬝ᵥ c) + (1 + 1 / (d - s.solveAdj b ⬝ᵥ c) * (s.solveAdj b ⬝ᵥ c - d)) /
      (d - s.solveAdj b ⬝ᵥ c) = 1 / (d - s.solveAdj b ⬝ᵥ c) := by
    field_simp; ring
  rw [hone, Matrix.mulVec_smul, bordered_transpose, bordered_mulVec, Matrix.mulVec_neg, h.solveAdj hs b]
  funext i
  rcases i with i | i
  · simp [hstack]
  · simp only [hstack, Pi.smul_apply, Sum.elim_inr, smul_eq_mul, dotProduct_neg, mul_one]
    rw [dotProduct_comm c]
    field_simp
    ring

/-- For a singular `A`, `solve_null()` returns `(φ, 0)`, which solves the system with right-hand side
`(0, b·φ)` and not `(0, 1)`; it does span the null space of `[A c]`. -/
theorem C44_null_singular (hs : s.isSingular = true) :
    ∃ t, (Bem.init s b c d).solveNull = some t ∧ t ≠ 0 ∧
      bordered A b c d *ᵥ t = hstack 0 (b ⬝ᵥ s.null.1) := by
  obtain ⟨h1, h2, _, _⟩ := h.null hs
  refine ⟨hstack s.null.1 0, by simp [Bem.solveNull, Bem.init, hs], ?_, ?_⟩
  · intro e; apply h1; funext i; exact congrFun e (Sum.inl i)
  · rw [bordered_mulVec, h2]; simp

/-- `nullspace()` returns the zero vector whenever the bordered matrix is nonsingular. -/
theorem C44_nullspace (hs : s.isSingular = false) (hM : (bordered A b c d).det ≠ 0) :
    (Bem.init s b c d).nullspace = some 0 := by
  have he := eta_ne h b c d hs hM
  have hA := det_ne_of_surj _ (h.solve hs)
  have hlin : ∀ t : K, s.solve (t • c) = t • s.solve c := fun t =>
    inj_of_det hA (by rw [h.solve hs, Matrix.mulVec_smul, h.solve hs])
  simp only [Bem.nullspace, Bem.init, hs, prepare]
  simp only [Bool.false_eq_true, if_false, Option.map_some, Option.some.injEq]
  rw [hlin]
  set y := 1 / (d - s.solveAdj b ⬝ᵥ c)
  have e : (y * d + b ⬝ᵥ -(y • s.solve c)) / (d - b ⬝ᵥ s.solve c) = y := by
    rw [dotProduct_neg, dotProduct_smul, smul_eq_mul, div_eq_iff he]; ring
  rw [e]
  funext i
  rcases i with i | i <;> simp [hstack]

/-- For a singular `A`, `solve_null_adj()` returns `(ψ, 0)`, a nonzero vector with the transposed bordered matrix times
it equal to `(0, c·ψ)`. -/
theorem C44_null_adj_singular (hs : s.isSingular = true) :
    ∃ t, (Bem.init s b c d).solveNullAdj = some t ∧ t ≠ 0 ∧
      (bordered A b c d)ᵀ *ᵥ t = hstack 0 (c ⬝ᵥ s.null.2) := by
  obtain ⟨_, _, h3, h4⟩ := h.null hs
  refine ⟨hstack s.null.2 0, by simp [Bem.solveNullAdj, Bem.init, hs], ?_, ?_⟩
  · intro e; apply h3; funext i; exact congrFun e (Sum.inl i)
  · rw [bordered_transpose, bordered_mulVec, h4]; simp

/-- `nullspace_adj()` returns the zero vector whenever the bordered matrix is nonsingular. -/
theorem C44_nullspace_adj (hs : s.isSingular = false) (hM : (bordered A b c d).det ≠ 0) :
    (Bem.init s b c d).nullspaceAdj = some 0 := by
  have he := delta_ne h b c d hs hM
  have hA := det_ne_of_surj _ (h.solveAdj hs)
  have hlin : ∀ t : K, s.solveAdj (t • b) = t • s.solveAdj b := fun t =>
    inj_of_det hA (by rw [h.solveAdj hs, Matrix.mulVec_smul, h.solveAdj hs])
  simp only [Bem.nullspaceAdj, Bem.init, hs, prepare]
  simp only [Bool.false_eq_true, if_false, Option.map_some, Option.some.injEq]
  rw [hlin]
  set y := 1 / (d - b ⬝ᵥ s.solve c)
  have e : (y * d + c ⬝ᵥ -(y • s.solveAdj b)) / (d - s.solveAdj b ⬝ᵥ c) = y := by
    rw [dotProduct_neg, dotProduct_smul, smul_eq_mul, div_eq_iff he, dotProduct_comm c]; ring
  rw [e]
  funext i
  rcases i with i | i <;> simp [hstack]

/-- **C44** `update_row(b', d')` leaves the object in the state a fresh construction would have. -/
theorem C44_update_row (b' : ι → K) (d' : K) :
    (Bem.init s b c d).updateRow b' d' = Bem.init s b' c d' := by
  cases hs : s.isSingular <;> simp [Bem.updateRow, Bem.init, prepare, hs]

/-- **C44** `update_col(c', d')` leaves the object in the state a fresh construction would have. -/
theorem C44_update_col (c' : ι → K) (d' : K) :
    (Bem.init s b c d).updateCol c' d' = Bem.init s b c' d' := by
  cases hs : s.isSingular <;> simp [Bem.updateCol, Bem.init, prepare, hs]

end

/-- **C44** `min_norm(f)`: the result solves the underdetermined system `[A c] (x, y) = f` and has the smallest
Euclidean norm among all its solutions. -/
theorem C44_min_norm {A : Matrix ι ι ℝ} {s : Solver ι ℝ} (h : Correct A s) (b c : ι → ℝ) (d : ℝ)
    (hM : (bordered A b c d).det ≠ 0) (f : ι → ℝ) :
    ∃ v, (Bem.init s b c d).minNorm f = some v ∧ A *ᵥ head v + last v • c = f ∧
      ∀ v', A *ᵥ head v' + last v' • c = f → v ⬝ᵥ v ≤ v' ⬝ᵥ v' := by
  obtain ⟨x, hx1, hx2⟩ := C44_solve_zero h b c d hM f
  obtain ⟨t, κ, ht1, ht0, ht2⟩ : ∃ t κ, (Bem.init s b c d).solveNull = some t ∧ t ≠ 0 ∧
      bordered A b c d *ᵥ t = hstack 0 κ := by
    cases hs : s.isSingular with
    | true =>
      obtain ⟨t, h1, h2, h3⟩ := C44_null_singular h b c d hs
      exact ⟨t, _, h1, h2, h3⟩
    | false =>
      obtain ⟨t, h1, h2⟩ := C44_null_partial h b c d hs hM
      refine ⟨t, _, h1, ?_, h2⟩
      rintro rfl
      rw [Matrix.mulVec_zero] at h2
      have := congrFun h2 (Sum.inr ())
      simp [hstack] at this
  have hκ : κ ≠ 0 := by
    rintro rfl
    apply ht0
    refine inj_of_det hM ?_
    rw [ht2, Matrix.mulVec_zero]
    funext i; rcases i with i | i <;> rfl
  have htt : t ⬝ᵥ t ≠ 0 := fun e => ht0 (dotProduct_self_eq_zero.mp e)
  refine ⟨x - ((x ⬝ᵥ t) / (t ⬝ᵥ t)) • t, ?_, ?_, ?_⟩
  · simp [Bem.minNorm, hx1, ht1]
  · have e := bordered_mulVec A b c d (head (x - ((x ⬝ᵥ t) / (t ⬝ᵥ t)) • t)) (last (x - ((x ⬝ᵥ t) / (t ⬝ᵥ t)) • t))
    rw [hstack_head_last, Matrix.mulVec_sub, Matrix.mulVec_smul, hx2, ht2] at e
    funext i
    have := congrFun e (Sum.inl i)
    simp [hstack] at this
    rw [this]; rfl
  · intro v' hv'
    set v := x - ((x ⬝ᵥ t) / (t ⬝ᵥ t)) • t with hv
    have hvt : v ⬝ᵥ t = 0 := by
      rw [hv, sub_dotProduct, smul_dotProduct, smul_eq_mul, div_mul_cancel₀ _ htt, sub_self]
    obtain ⟨μ, hμ⟩ : ∃ μ : ℝ, bordered A b c d *ᵥ v' = hstack f μ :=
      ⟨b ⬝ᵥ head v' + d * last v', by
        have := bordered_mulVec A b c d (head v') (last v')
        rw [hstack_head_last, hv'] at this; exact this⟩
    have hw : v' = v + ((x ⬝ᵥ t) / (t ⬝ᵥ t) + μ / κ) • t := by
      refine inj_of_det hM ?_
      rw [hμ, hv, Matrix.mulVec_add, Matrix.mulVec_sub, Matrix.mulVec_smul, Matrix.mulVec_smul, hx2, ht2]
      funext i
      rcases i with i | i
      · simp [hstack]
      · simp [hstack]; field_simp; ring
    set τ := (x ⬝ᵥ t) / (t ⬝ᵥ t) + μ / κ
    have hvt' : t ⬝ᵥ v = 0 := by rw [dotProduct_comm]; exact hvt
    rw [hw, add_dotProduct, dotProduct_add, dotProduct_add, smul_dotProduct, dotProduct_smul, smul_dotProduct,
      dotProduct_smul, hvt, hvt']
    simp only [smul_eq_mul, mul_zero, add_zero, zero_add]
    have : 0 ≤ t ⬝ᵥ t := by
      unfold dotProduct; exact Finset.sum_nonneg fun i _ => mul_self_nonneg _
    nlinarith [mul_nonneg (mul_self_nonneg τ) this]

/-- An exact solver for the `1 × 1` matrix `[2]`. -/
noncomputable def exSolver : Solver Unit ℝ where
  isSingular := false
  solve f := fun i => f i / 2
  solveAdj f := fun i => f i / 2
  null := (0, 0)
  particular := id
  particularAdj := id
  det := 2

theorem exSolver_correct : Correct (Matrix.of fun (_ _ : Unit) => (2:ℝ)) exSolver := by
  refine ⟨?_, ?_, ?_, ?_, ?_, ?_⟩
  · intro _ f; funext i; simp [exSolver, Matrix.mulVec, dotProduct]; field_simp
  · intro _ f; funext i; simp [exSolver, Matrix.mulVec, dotProduct]; field_simp
  · intro _; simp [exSolver, Matrix.det_unique]
  all_goals (intro h; simp [exSolver] at h)

/-- A correct solver for the singular matrix `[0]`. -/
noncomputable def exSing : Solver Unit ℝ where
  isSingular := true
  solve f := f
  solveAdj f := f
  null := (fun _ => 2, fun _ => 1)
  particular := fun _ => 0
  particularAdj := fun _ => 0
  det := 0

theorem exSing_correct : Correct (0 : Matrix Unit Unit ℝ) exSing := by
  refine ⟨by simp [exSing], by simp [exSing], by simp [exSing], ?_, ?_, ?_⟩
  · intro _
    refine ⟨fun e => ?_, by simp, fun e => ?_, by simp⟩
    · have := congrFun e (); simp [exSing] at this
    · have := congrFun e (); simp [exSing] at this
  · intro _ f hf; funext i
    simp only [exSing, dotProduct, Finset.univ_unique, Finset.sum_singleton, one_mul] at hf
    simpa [exSing] using hf.symm
  · intro _ f hf; funext i
    simp only [exSing, dotProduct, Finset.univ_unique, Finset.sum_singleton] at hf
    have : f () = 0 := by simpa using hf
    simpa [exSing] using this.symm

theorem exSing_bordered : (bordered (0 : Matrix Unit Unit ℝ) (fun _ => 1) (fun _ => 1) 0).det ≠ 0 := by
  intro h0
  obtain ⟨v, hv, hv2⟩ := Matrix.exists_mulVec_eq_zero_iff.mpr h0
  apply hv
  rw [← hstack_head_last v, bordered_mulVec] at hv2
  have h1 := congrFun hv2 (Sum.inl ())
  have h2 := congrFun hv2 (Sum.inr ())
  simp [hstack] at h1 h2
  funext i
  rcases i with i | i
  · exact h2
  · exact h1

/-- **C44 fails** for `solve_null` with a singular inner matrix: with `A = [0]`, `b = c = 1`, `d = 0` and the
null vector `φ = 2`, the last row of the system gives `2` instead of `1`. -/
theorem C44_null_singular_fails : ∃ (A : Matrix Unit Unit ℝ) (s : Solver Unit ℝ) (b c : Unit → ℝ) (d : ℝ),
    Correct A s ∧ (bordered A b c d).det ≠ 0 ∧
    ∃ t, (Bem.init s b c d).solveNull = some t ∧ bordered A b c d *ᵥ t ≠ hstack 0 1 := by
  refine ⟨0, exSing, fun _ => 1, fun _ => 1, 0, exSing_correct, exSing_bordered, ?_⟩
  obtain ⟨t, h1, _, h2⟩ := C44_null_singular exSing_correct (fun _ => 1) (fun _ => 1) 0 rfl
  refine ⟨t, h1, ?_⟩
  rw [h2]
  intro e
  have := congrFun e (Sum.inr ())
  simp [hstack, exSing, dotProduct] at this

example (f : Unit ⊕ Unit → ℝ) : ∃ x, (Bem.init exSing (fun _ => 1) (fun _ => 1) 0).solve f = some x ∧
    bordered (0 : Matrix Unit Unit ℝ) (fun _ => 1) (fun _ => 1) 0 *ᵥ x = f := by
  obtain ⟨x, h1, h2, _⟩ := C44_solve exSing_correct (fun _ => 1) (fun _ => 1) 0 exSing_bordered f
  exact ⟨x, h1, h2⟩

example : (Bem.init exSolver (fun _ => 1) (fun _ => 1) 3).det =
    some (bordered (Matrix.of fun (_ _ : Unit) => (2:ℝ)) (fun _ => 1) (fun _ => 1) 3).det :=
  C44_det exSolver_correct _ _ _ rfl

end Funpy.Props
