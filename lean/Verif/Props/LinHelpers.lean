import Verif.Lemmas.LinHelpers
import Verif.Lemmas.Hessenberg
import Mathlib.LinearAlgebra.Matrix.Block
import Mathlib.LinearAlgebra.Matrix.NonsingularInverse

/-!
# C46, C47, C70, C71: determinant helpers

A permutation array is `[σ 0, ..., σ (n-1)]` for a permutation `σ` of `Fin n`; determinants are Mathlib's.
-/

namespace Funpy.Props

open Funpy.LinHelpers Equiv

/-! ## C46: minimumSwaps -/

/-- C46: the returned number is the length of a factorisation of the permutation into transpositions. -/
theorem C46_swaps {n : ℕ} (σ : Perm (Fin n)) :
    ∃ l : List (Perm (Fin n)), l.length = minimumSwaps (List.ofFn fun i => (σ i).val) ∧
      (∀ g ∈ l, g.IsSwap) ∧ l.prod = σ := by
  obtain ⟨l, h1, h2, h3, -⟩ := minimumSwaps_inv σ
  exact ⟨l, h1, h2, h3⟩

/-- C46: no factorisation into transpositions is shorter. -/
theorem C46_minimum {n : ℕ} (σ : Perm (Fin n)) (l : List (Perm (Fin n))) (hl : ∀ g ∈ l, g.IsSwap)
    (hp : l.prod = σ) : minimumSwaps (List.ofFn fun i => (σ i).val) ≤ l.length := by
  obtain ⟨l', h1, -, -, h4⟩ := minimumSwaps_inv σ
  have := finrank_Inv_prod l hl
  rw [hp] at this
  omega

/-- C46: its parity is the sign of the permutation. -/
theorem C46_sign {n : ℕ} (σ : Perm (Fin n)) :
    (-1 : ℤˣ) ^ minimumSwaps (List.ofFn fun i => (σ i).val) = Perm.sign σ := by
  obtain ⟨l, h1, h2, h3⟩ := C46_swaps σ
  rw [← h1, ← h3, map_list_prod]
  clear h1 h3
  induction l with
  | nil => rfl
  | cons g l ih =>
    rw [List.length_cons, pow_succ, ih (fun g hg => h2 g (by simp [hg])), List.map_cons, List.prod_cons,
      (h2 g (by simp)).sign_eq, mul_comm]

example : minimumSwaps [1, 2, 0] = 2 ∧ minimumSwaps [1, 0, 3, 2] = 2 ∧ minimumSwaps [0, 1, 2] = 0 := by decide

theorem sign_real {n : ℕ} (σ : Perm (Fin n)) :
    (-1 : ℝ) ^ minimumSwaps (List.ofFn fun i => (σ i).val) = ((Perm.sign σ : ℤ) : ℝ) := by
  rw [← C46_sign σ]; push_cast; simp

/-! ## C47: detH -/

/-- The leading `n × n` block as a matrix. -/
def toMat {K : Type*} (n : ℕ) (A : ℕ → ℕ → K) : Matrix (Fin n) (Fin n) K := Matrix.of fun i j => A i j

/-- C47 (partial): `detH(A)` is the determinant for every upper Hessenberg `A` of size at least 2 whose entries
`A[j,k]` vanish for `j ≥ 1`, `k ≥ j + 2` (in particular tridiagonal matrices).  Missing: other Hessenberg matrices,
for which the claim is false (`C47_fails`): the products `p[j]` pick up the factor `d[j]` again at every pass. -/
theorem C47_detH_partial {K : Type*} [CommRing K] (n : ℕ) (hn : 2 ≤ n) (A : ℕ → ℕ → K)
    (hH : ∀ i j, i < n → j + 1 < i → A i j = 0) (hS : ∀ j k, 1 ≤ j → j + 2 ≤ k → k < n → A j k = 0) :
    detH n A = some (toMat n A).det := by
  obtain ⟨h1, -, -⟩ := detH_inv A n hH hS (n - 1) (by omega)
  rw [detH, if_neg (by omega)]
  simp only []
  rw [h1 n (by omega)]
  rfl

/-- C47: for 2×2 and 3×3 upper Hessenberg matrices there is no further condition. -/
theorem C47_detH_small {K : Type*} [CommRing K] (n : ℕ) (hn : n = 2 ∨ n = 3) (A : ℕ → ℕ → K)
    (hH : ∀ i j, i < n → j + 1 < i → A i j = 0) : detH n A = some (toMat n A).det :=
  C47_detH_partial n (by omega) A hH (fun j k h1 h2 h3 => by omega)

/-- C47: a 1×1 (or empty) matrix raises (`k` is unbound). -/
theorem C47_tiny_fails {K : Type*} [CommRing K] (n : ℕ) (hn : n ≤ 1) (A : ℕ → ℕ → K) : detH n A = none := by
  rw [detH, if_pos hn]

/-- The matrix `[[2,0,0,0],[0,0,0,1],[0,1,0,0],[0,0,1,0]]`. -/
def badH (i j : ℕ) : ℤ :=
  if i = 0 ∧ j = 0 then 2 else if i = 1 ∧ j = 3 then 1 else if i = 2 ∧ j = 1 then 1
  else if i = 3 ∧ j = 2 then 1 else 0

/-- C47: the property is false: an upper Hessenberg 4×4 matrix with determinant 2 for which 4 is returned. -/
theorem C47_fails : (∀ i j, i < 4 → j + 1 < i → badH i j = 0) ∧ (toMat 4 badH).det = 2 ∧ detH 4 badH = some 4 := by
  refine ⟨?_, ?_, ?_⟩
  · intro i j hi hj
    simp only [badH]
    split_ifs <;> omega
  · rw [toMat, Matrix.det_succ_row_zero]
    simp [badH, Matrix.det_fin_three, Fin.succAbove]
  · decide

example : detH 3 (fun i j => ([[2, 1, 5], [3, 4, 1], [0, 7, 6]].getD i []).getD j (0 : ℤ)) = some 121 := by decide

/-! ## C70: logdet -/

/-- What SuperLU promises: unit lower triangular `L`, upper triangular `U` and permutations with `Pr A Pc = L U`,
where `Pr[perm_r[i], i] = 1` and `Pc[j, perm_c[j]] = 1`, so `(L U)[perm_r i, perm_c j] = A[i, j]`. -/
structure IsLU {n : ℕ} (A : Matrix (Fin n) (Fin n) ℝ) (L U : Matrix (Fin n) (Fin n) ℝ) (pr pc : Perm (Fin n)) : Prop where
  lower : ∀ i j, i < j → L i j = 0
  upper : ∀ i j, j < i → U i j = 0
  eq : ∀ i j, (L * U) (pr i) (pc j) = A i j

/-- The attributes of the factorisation object that are read. -/
def luOf {n : ℕ} (L U : Matrix (Fin n) (Fin n) ℝ) (pr pc : Perm (Fin n)) : LU :=
  ⟨List.ofFn fun i => L i i, List.ofFn fun i => U i i, List.ofFn fun i => (pr i).val, List.ofFn fun i => (pc i).val⟩

theorem IsLU.det {n : ℕ} {A L U : Matrix (Fin n) (Fin n) ℝ} {pr pc : Perm (Fin n)} (h : IsLU A L U pr pc) :
    A.det = ((Perm.sign pr : ℤ) : ℝ) * ((Perm.sign pc : ℤ) : ℝ) * ((∏ i, L i i) * ∏ i, U i i) := by
  have hA : A = ((L * U).submatrix pr id).submatrix id pc := by
    ext i j; rw [Matrix.submatrix_apply, Matrix.submatrix_apply]; exact (h.eq i j).symm
  have hL : L.det = ∏ i, L i i := Matrix.det_of_lowerTriangular L (fun i j hij => h.lower i j hij)
  have hU : U.det = ∏ i, U i i := Matrix.det_of_upperTriangular (fun i j hij => h.upper i j hij)
  rw [hA, Matrix.det_permute', Matrix.det_permute, Matrix.det_mul, hL, hU]
  ring

theorem sign_list_prod {n : ℕ} (f : Fin n → ℝ) :
    ((List.ofFn f).map fun x => (SignType.sign x : ℝ)).prod = (SignType.sign (∏ i, f i) : ℝ) := by
  rw [List.map_ofFn, List.prod_ofFn]
  have h : ∀ s : Finset (Fin n), ∏ i ∈ s, (SignType.sign (f i) : ℝ) = (SignType.sign (∏ i ∈ s, f i) : ℝ) := by
    intro s
    induction s using Finset.induction_on with
    | empty => simp
    | insert a s ha ih => rw [Finset.prod_insert ha, Finset.prod_insert ha, ih, sign_mul, SignType.coe_mul]
  exact h Finset.univ

theorem log_list_sum {n : ℕ} (f : Fin n → ℝ) (hf : ∏ i, f i ≠ 0) :
    ((List.ofFn f).map Real.log).sum = Real.log (∏ i, f i) := by
  rw [List.map_ofFn, List.sum_ofFn, Real.log_prod (fun i _ => fun h0 => hf (Finset.prod_eq_zero (Finset.mem_univ i) h0))]
  rfl

/-- Sign of a product with a permutation sign. -/
theorem perm_sign_cast {n : ℕ} (σ : Perm (Fin n)) : (SignType.sign ((Perm.sign σ : ℤ) : ℝ) : ℝ) = ((Perm.sign σ : ℤ) : ℝ) := by
  rcases Int.units_eq_one_or (Perm.sign σ) with h | h <;> rw [h] <;> simp

theorem perm_sign_abs {n : ℕ} (σ : Perm (Fin n)) : |((Perm.sign σ : ℤ) : ℝ)| = 1 := by
  rcases Int.units_eq_one_or (Perm.sign σ) with h | h <;> rw [h] <;> simp

theorem perm_sign_sq {n : ℕ} (σ : Perm (Fin n)) : ((Perm.sign σ : ℤ) : ℝ) * ((Perm.sign σ : ℤ) : ℝ) = 1 := by
  rcases Int.units_eq_one_or (Perm.sign σ) with h | h <;> rw [h] <;> simp

/-- C70: the logarithm returned by `logdet` is `log |det A|` for every nonsingular `A`. -/
theorem C70_logabs {n : ℕ} {A L U : Matrix (Fin n) (Fin n) ℝ} {pr pc : Perm (Fin n)} (h : IsLU A L U pr pc)
    (hA : A.det ≠ 0) : (logdetSuperlu (luOf L U pr pc)).2 = Real.log |A.det| := by
  have hd := h.det
  rw [hd] at hA ⊢
  have hL : (∏ i, L i i) ≠ 0 := fun h0 => hA (by rw [h0]; ring)
  have hU : (∏ i, U i i) ≠ 0 := fun h0 => hA (by rw [h0]; ring)
  simp only [logdetSuperlu, luOf]
  rw [log_list_sum _ hL, log_list_sum _ hU, abs_mul, abs_mul, perm_sign_abs, perm_sign_abs, one_mul, one_mul,
    Real.log_abs, Real.log_mul hL hU]

/-- C70: the returned sign is the sign of the determinant *times the sign of the column permutation*. -/
theorem C70_sign_actual {n : ℕ} {A L U : Matrix (Fin n) (Fin n) ℝ} {pr pc : Perm (Fin n)} (h : IsLU A L U pr pc) :
    (logdetSuperlu (luOf L U pr pc)).1 = ((Perm.sign pc : ℤ) : ℝ) * (SignType.sign A.det : ℝ) := by
  rw [h.det]
  simp only [logdetSuperlu, luOf]
  rw [sign_real, sign_list_prod, sign_list_prod]
  simp only [sign_mul, SignType.coe_mul, perm_sign_cast]
  linear_combination (-(Perm.sign pr : ℤ) * (SignType.sign (∏ i, L i i) : ℝ) * (SignType.sign (∏ i, U i i) : ℝ))
    * perm_sign_sq pc

/-- C70 (partial): `logdet` returns the sign of the determinant when the column permutation chosen by SuperLU is even.
Missing: odd column permutations, for which the claim is false (`C70_fails`). -/
theorem C70_logdet_partial {n : ℕ} {A L U : Matrix (Fin n) (Fin n) ℝ} {pr pc : Perm (Fin n)} (h : IsLU A L U pr pc)
    (hA : A.det ≠ 0) (hpc : Perm.sign pc = 1) :
    logdetSuperlu (luOf L U pr pc) = ((SignType.sign A.det : ℝ), Real.log |A.det|) := by
  refine Prod.ext ?_ (C70_logabs h hA)
  rw [C70_sign_actual h, hpc]; simp

/-- C70: the property is false: `A = [[0,1],[1,0]]` with the column permutation swapping the columns. -/
theorem C70_fails : ∃ (A L U : Matrix (Fin 2) (Fin 2) ℝ) (pr pc : Perm (Fin 2)), IsLU A L U pr pc ∧ A.det = -1 ∧
    (logdetSuperlu (luOf L U pr pc)).1 = 1 := by
  refine ⟨!![0, 1; 1, 0], 1, 1, 1, swap 0 1, ?_, ?_, ?_⟩
  · refine ⟨fun i j h => Matrix.one_apply_ne h.ne, fun i j h => Matrix.one_apply_ne h.ne', ?_⟩
    intro i j
    fin_cases i <;> fin_cases j <;> simp
  · simp [Matrix.det_fin_two]
  · have : minimumSwaps [0, 1] = 0 := by decide
    simp [logdetSuperlu, luOf, this]

/-- C70: the UMFPACK variant with row scalings `R` (`A[i,j] = R[i] (L U)[perm_r i, perm_c j]`, positive `R`): the
logarithm is right and the sign is off by the sign of the *row* permutation. -/
theorem C70_umfpack {n : ℕ} {A L U : Matrix (Fin n) (Fin n) ℝ} {R : Fin n → ℝ} {pr pc : Perm (Fin n)} (hR : ∀ i, 0 < R i)
    (h : IsLU (Matrix.of fun i j => (R i)⁻¹ * A i j) L U pr pc) (hA : A.det ≠ 0) :
    logdetUmfpack (luOf L U pr pc) (List.ofFn R)
      = (((Perm.sign pr : ℤ) : ℝ) * (SignType.sign A.det : ℝ), Real.log |A.det|) := by
  have hB : A = Matrix.of fun i j => R i * (Matrix.of fun i j => (R i)⁻¹ * A i j : Matrix _ _ ℝ) i j := by
    ext i j; simp [(hR i).ne']
  have hd : A.det = (∏ i, R i) * (Matrix.of fun i j => (R i)⁻¹ * A i j : Matrix (Fin n) (Fin n) ℝ).det := by
    conv_lhs => rw [hB]
    exact Matrix.det_mul_column R _
  have hRp : 0 < ∏ i, R i := Finset.prod_pos fun i _ => hR i
  rw [h.det] at hd
  rw [hd] at hA ⊢
  have hL : (∏ i, L i i) ≠ 0 := fun h0 => hA (by rw [h0]; ring)
  have hU : (∏ i, U i i) ≠ 0 := fun h0 => hA (by rw [h0]; ring)
  refine Prod.ext ?_ ?_
  · simp only [logdetUmfpack, luOf]
    rw [sign_real, sign_list_prod, sign_list_prod]
    simp only [sign_mul, SignType.coe_mul, perm_sign_cast, sign_pos hRp]
    have := perm_sign_sq pr
    simp only [SignType.coe_one, one_mul]
    linear_combination (-(Perm.sign pc : ℤ) * (SignType.sign (∏ i, L i i) : ℝ) * (SignType.sign (∏ i, U i i) : ℝ)) * this
  · simp only [logdetUmfpack, luOf]
    rw [log_list_sum _ hL, log_list_sum _ hU, log_list_sum _ hRp.ne', abs_mul, abs_mul, abs_mul, perm_sign_abs, perm_sign_abs,
      one_mul, one_mul, Real.log_mul (abs_ne_zero.mpr hRp.ne') (abs_ne_zero.mpr (mul_ne_zero hL hU)), Real.log_abs,
      Real.log_abs, Real.log_mul hL hU]
    ring

/-! ## C71: givensAlgorithm and slogdet_hessenberg -/

/-- C71: `givensAlgorithm(f, g)` returns a rotation that maps `(f, g)` to `(r, 0)`, whichever scaling branch runs. -/
theorem C71_givens (eps f g : ℝ) (he : 0 < eps) :
    let z := givens eps f g
    z.1 ^ 2 + z.2.1 ^ 2 = 1 ∧ z.1 * f + z.2.1 * g = z.2.2 ∧ -z.2.1 * f + z.1 * g = 0 ∧ z.2.2 ^ 2 = f ^ 2 + g ^ 2 := by
  obtain ⟨h1, h2, h3⟩ := givens_spec eps f g he
  simp only
  set z := givens eps f g
  refine ⟨h3, ?_, ?_, ?_⟩
  · rw [← h1, ← h2]; linear_combination z.2.2 * h3
  · rw [← h1, ← h2]; ring
  · rw [← h1, ← h2]; linear_combination (-z.2.2 ^ 2) * h3

/-- C71: the two scaling loops terminate: the number of passes the model takes does satisfy the exit test. -/
theorem C71_givens_scaling (eps scale : ℝ) (he : 0 < eps) (he1 : eps < 1) (hs : 0 < scale) :
    scale * eps ^ scaleCount scale eps (fun z => z < 1 / eps) < 1 / eps ∧
    eps < scale * (1 / eps) ^ scaleCount scale (1 / eps) (fun z => eps < z) := by
  constructor
  · have hne : {k : ℕ | 1 ≤ k ∧ scale * eps ^ k < 1 / eps}.Nonempty := by
      obtain ⟨k, hk⟩ := exists_pow_lt_of_lt_one (show 0 < 1 / scale by positivity) he1
      refine ⟨k + 1, by simp, ?_⟩
      have h1 : scale * eps ^ k < 1 := by
        have := mul_lt_mul_of_pos_left hk hs
        rwa [mul_one_div_cancel hs.ne'] at this
      have h2 : scale * eps ^ (k + 1) < 1 := by
        rw [pow_succ, ← mul_assoc]
        nlinarith [mul_pos hs (pow_pos he k)]
      have h3 : 1 < 1 / eps := by rw [lt_div_iff₀ he]; linarith
      linarith
    exact (Nat.sInf_mem hne).2
  · have hne : {k : ℕ | 1 ≤ k ∧ eps < scale * (1 / eps) ^ k}.Nonempty := by
      have h3 : 1 < 1 / eps := by rw [lt_div_iff₀ he]; linarith
      obtain ⟨k, hk⟩ := pow_unbounded_of_one_lt (1 / scale) h3
      refine ⟨k + 1, by simp, ?_⟩
      have h1 : 1 < scale * (1 / eps) ^ k := by
        have := mul_lt_mul_of_pos_left hk hs
        rwa [mul_one_div_cancel hs.ne'] at this
      rw [pow_succ, ← mul_assoc]
      nlinarith [mul_pos hs (pow_pos (lt_trans one_pos h3) k)]
    exact (Nat.sInf_mem hne).2

/-- C71: `slogdet_hessenberg(H)` is the sign and the logarithm of the modulus of the determinant of every nonsingular
upper Hessenberg matrix (any size, including 0 and 1), and raises exactly for singular ones. -/
theorem C71_slogdet (eps : ℝ) (he : 0 < eps) (n : ℕ) (H : ℕ → ℕ → ℝ) (hH : ∀ i j, i < n → j + 1 < i → H i j = 0) :
    slogdetHessenberg eps n H =
      if (toMat n H).det = 0 then none
      else some ⟨(SignType.sign (toMat n H).det : ℝ), Real.log |(toMat n H).det|⟩ := by
  rcases n with - | k
  · simp [slogdetHessenberg, toMat]
  · rw [slogdetHessenberg, if_neg (by omega)]
    simp only [Nat.add_sub_cancel]
    have := slog_inv eps he H k (fun i j hi hj => hH i j (by omega) hj) (fun i => H i k) ⟨1, 0⟩
    rw [this, Mcol_self]
    change SL.mul ⟨1, 0⟩ (toMat (k + 1) H).det = _
    rw [SL.mul]
    simp

example : ∃ H : ℕ → ℕ → ℝ, (∀ i j, i < 3 → j + 1 < i → H i j = 0) ∧ (toMat 3 H).det = 121 := by
  refine ⟨fun i j => if i = 0 ∧ j = 0 then 2 else if i = 0 ∧ j = 1 then 1 else if i = 0 ∧ j = 2 then 5 else
    if i = 1 ∧ j = 0 then 3 else if i = 1 ∧ j = 1 then 4 else if i = 1 ∧ j = 2 then 1 else
    if i = 2 ∧ j = 1 then 7 else if i = 2 ∧ j = 2 then 6 else 0, ?_, ?_⟩
  · intro i j hi hj
    have : i = 2 ∧ j = 0 := by omega
    simp [this.1, this.2]
  · rw [Matrix.det_fin_three]; simp [toMat]; norm_num

end Funpy.Props
