import Verif.Lemmas.UltraMult3
import Verif.Lemmas.ChebCalc
import Verif.Lemmas.Tech
import Mathlib.Analysis.Calculus.IteratedDeriv.Lemmas
import Mathlib.Analysis.Calculus.ContDiff.Polynomial

/-! Inverse conversion, uniqueness of coefficients, derivatives and integrals on a general interval. -/

namespace Funpy.UltraS
open Spec Matrix Finset Polynomial

lemma convertLoop_succ (n cnt : ℕ) : ∀ (s : ℕ) (S : Matrix (Fin n) (Fin n) ℝ),
    convertLoop n (cnt + 1) s S = spconvert n (s + cnt) * convertLoop n cnt s S := by
  induction cnt with
  | zero => intro s S; simp [convertLoop]
  | succ c ih =>
    intro s S
    rw [convertLoop, ih, show convertLoop n (c + 1) s S = convertLoop n c (s + 1) (spconvert n s * S) from rfl]
    congr 2
    omega

lemma convertInvLoop_mul (n K1 cnt : ℕ) : ∀ (S A : Matrix (Fin n) (Fin n) ℝ),
    convertInvLoop n K1 cnt S * A = convertInvLoop n K1 cnt (S * A) := by
  induction cnt with
  | zero => intro S A; rfl
  | succ c ih => intro S A; rw [convertInvLoop, ih, convertInvLoop, Matrix.mul_assoc]

lemma convertInvLoop_inv (n K1 cnt : ℕ) (h2 : 2 ≤ n ∨ 0 < K1) :
    convertInvLoop n K1 cnt (convertLoop n cnt K1 1) = 1 := by
  induction cnt with
  | zero => rfl
  | succ c ih =>
    rw [convertInvLoop, convertLoop_succ, ← Matrix.mul_assoc, spconvertInv_mul n _ (by omega), Matrix.one_mul, ih]

lemma convertmatInv_mul (n K1 : ℕ) (K2 : ℤ) (h2 : 2 ≤ n ∨ 0 < K1) : convertmatInv n K1 K2 * convertmat n K1 K2 = 1 := by
  unfold convertmatInv convertmat
  rw [convertInvLoop_mul, Matrix.one_mul, convertInvLoop_inv n K1 _ h2]

lemma convertmat_mul_inv (n K1 : ℕ) (K2 : ℤ) (h2 : 2 ≤ n ∨ 0 < K1) : convertmat n K1 K2 * convertmatInv n K1 K2 = 1 :=
  mul_eq_one_comm.mp (convertmatInv_mul n K1 K2 h2)

lemma ultraSeries_zero_eq {n : ℕ} (v : Fin n → ℝ) (x : ℝ) : ultraSeries 0 v x = chebEval (List.ofFn v) x := by
  rw [sum_list_fin]
  unfold basisSum chebEval
  simp only [List.length_ofFn]
  rfl

/-- Linear independence of the Chebyshev polynomials. -/
lemma T_sum_zero (n : ℕ) (a : ℕ → ℝ) (h : ∑ k ∈ range n, C (a k) * Chebyshev.T ℝ k = 0) : ∀ k < n, a k = 0 := by
  induction n with
  | zero => intro k hk; omega
  | succ n ih =>
    rw [sum_range_succ] at h
    have hlow : (∑ k ∈ range n, C (a k) * Chebyshev.T ℝ k).coeff n = 0 := by
      rw [finset_sum_coeff]
      refine sum_eq_zero fun k hk => ?_
      rw [mem_range] at hk
      rw [coeff_C_mul, coeff_eq_zero_of_natDegree_lt, mul_zero]
      have : (Chebyshev.T ℝ (k : ℤ)).natDegree = k := by rw [Chebyshev.natDegree_T]; rfl
      omega
    have hn : (Chebyshev.T ℝ n).coeff n ≠ 0 := by
      have h1 : (Chebyshev.T ℝ (n : ℤ)).natDegree = n := by rw [Chebyshev.natDegree_T]; rfl
      have h2 : (Chebyshev.T ℝ n).leadingCoeff ≠ 0 := by
        rw [leadingCoeff_ne_zero]
        intro h0
        have := congrArg (Polynomial.eval 1) h0
        simp at this
      rwa [leadingCoeff, h1] at h2
    have han : a n = 0 := by
      have := congrArg (fun p => p.coeff n) h
      simp only [coeff_add, hlow, coeff_C_mul, coeff_zero, zero_add] at this
      exact (mul_eq_zero.mp this).resolve_right hn
    rw [han] at h
    simp only [C_0, zero_mul, add_zero] at h
    intro k hk
    rcases Nat.lt_succ_iff_lt_or_eq.mp hk with h' | h'
    · exact ih h k h'
    · rw [h']; exact han

lemma ultraSeries_zero_inj {n : ℕ} (v w : Fin n → ℝ) (h : ∀ x, ultraSeries 0 v x = ultraSeries 0 w x) : v = w := by
  have hp : ∑ k ∈ range n, C ((List.ofFn v).getD k 0 - (List.ofFn w).getD k 0) * Chebyshev.T ℝ k = 0 := by
    apply Polynomial.funext
    intro x
    have := h x
    rw [sum_list_fin, sum_list_fin] at this
    unfold basisSum at this
    simp only [eval_finsetSum, eval_mul, eval_C, eval_zero, sub_mul, sum_sub_distrib]
    exact sub_eq_zero.mpr this
  have := T_sum_zero n _ hp
  funext i
  have hi := this i i.2
  rw [getD_lt' _ _ _ (by simp), getD_lt' _ _ _ (by simp)] at hi
  simp at hi
  linarith

lemma ultraSeries_inj {n : ℕ} (lam : ℕ) (h2 : 2 ≤ n) (v w : Fin n → ℝ)
    (h : ∀ x, ultraSeries lam v x = ultraSeries lam w x) : v = w := by
  have hS := convertmat_mul_inv n 0 ((lam : ℤ) - 1) (Or.inl h2)
  have key : ∀ u : Fin n → ℝ, ∀ x, ultraSeries lam u x = ultraSeries 0 (convertmatInv n 0 ((lam : ℤ) - 1) *ᵥ u) x := by
    intro u x
    rw [← convertmat_series n 0 lam (by omega) (Or.inl h2), mulVec_mulVec, hS, one_mulVec]
  have h0 := ultraSeries_zero_inj (convertmatInv n 0 ((lam : ℤ) - 1) *ᵥ v) (convertmatInv n 0 ((lam : ℤ) - 1) *ᵥ w)
    fun x => by rw [← key v x, ← key w x]; exact h x
  have := congrArg (fun u => convertmat n 0 ((lam : ℤ) - 1) *ᵥ u) h0
  simpa only [mulVec_mulVec, hS, one_mulVec] using this

lemma pad_eval (lam k : ℕ) (c : List ℝ) (hc : c.length ≤ k) (x : ℝ) :
    ultraSeries lam (fun i : Fin k => c.getD i 0) x = ∑ j ∈ range c.length, c.getD j 0 * ultraBasis lam j x := by
  unfold ultraSeries
  rw [← Finset.sum_range (fun j => c.getD j 0 * ultraBasis lam j x)]
  symm
  apply sum_subset
  · intro j; simp; omega
  · intro j _ hj
    rw [getD_ge' _ _ _ (by simpa using hj)]; ring

/-! ### Differentiation on `[a, b]` -/

lemma ultraSeries_contDiff {n : ℕ} (v : Fin n → ℝ) (m : ℕ) : ContDiff ℝ m (ultraSeries 0 v) := by
  have : ultraSeries 0 v = fun x => (∑ k : Fin n, C (v k) * Chebyshev.T ℝ k).eval x := by
    funext x
    simp only [ultraSeries, eval_finsetSum, eval_mul, eval_C]
    rfl
  rw [this]
  have h := Polynomial.contDiff_aeval (𝕜 := ℝ) (∑ k : Fin n, C (v k) * Chebyshev.T ℝ k) m
  simp only [Polynomial.coe_aeval_eq_eval] at h
  exact h

lemma iteratedDeriv_affine (U : ℝ → ℝ) (m : ℕ) (hU : ContDiff ℝ m U) (al be y : ℝ) :
    iteratedDeriv m (fun t => U (al * t + be)) y = al ^ m * iteratedDeriv m U (al * y + be) := by
  have h1 : iteratedDeriv m (fun t => U (al * t + be)) = fun y => al ^ m * iteratedDeriv m (fun s => U (s + be)) (al * y) :=
    iteratedDeriv_comp_const_mul (f := fun s => U (s + be)) (hU.comp (by fun_prop)) al
  rw [h1]
  have h2 := congrFun (iteratedDeriv_comp_add_const m U be) (al * y)
  simp only at h2 ⊢
  rw [h2]

lemma spdiag_one_apply (n : ℕ) (data : List ℝ) (w : Fin n → ℝ) (d : ℕ) (h : ∀ i : Fin n, d ≤ i → w i = 0) (i : Fin n)
    (hi : d ≤ i + 1) : (spdiag n data 1 *ᵥ w) i = 0 := by
  simp only [mulVec, dotProduct]
  apply Finset.sum_eq_zero
  intro j _
  unfold spdiag
  split_ifs with hj
  · rw [h j (by omega), mul_zero]
  · rw [zero_mul]

lemma diffLoop_supp (n cnt : ℕ) : ∀ (s : ℕ) (D : Matrix (Fin n) (Fin n) ℝ) (v : Fin n → ℝ) (d : ℕ),
    (∀ i : Fin n, d ≤ i → (D *ᵥ v) i = 0) → ∀ i : Fin n, d ≤ i + cnt → (diffLoop n cnt s D *ᵥ v) i = 0 := by
  induction cnt with
  | zero => intro s D v d h i hi; exact h i hi
  | succ c ih =>
    intro s D v d h i hi
    rw [diffLoop]
    refine ih (s + 1) _ v (d - 1) ?_ i (by omega)
    intro i hi
    rw [← mulVec_mulVec]
    exact spdiag_one_apply n _ _ d h i (by omega)

lemma diffmat_supp (n m : ℕ) (v : Fin n → ℝ) (d : ℕ) (h : ∀ i : Fin n, d ≤ i → v i = 0) (i : Fin n) (hi : d ≤ i + m) :
    (diffmat n m *ᵥ v) i = 0 := by
  unfold diffmat
  split_ifs with hm
  · refine diffLoop_supp n (m - 1) 1 _ v (d - 1) ?_ i (by omega)
    intro i hi
    exact spdiag_one_apply n _ _ d h i (by omega)
  · rw [one_mulVec]; exact h i (by omega)

lemma discDiff_supp (n m : ℕ) (len : ℝ) (v : Fin n → ℝ) (d : ℕ) (h : ∀ i : Fin n, d ≤ i → v i = 0) (i : Fin n) (hi : d ≤ i + m) :
    (discDiff n m len *ᵥ v) i = 0 := by
  unfold discDiff
  split_ifs with hm
  · rw [one_mulVec]; exact h i (by omega)
  · rw [smul_mulVec, Pi.smul_apply, diffmat_supp n m v d h i hi, smul_zero]

lemma discDiff_series (n m : ℕ) (len : ℝ) (v : Fin n → ℝ) (x : ℝ) :
    ultraSeries m (discDiff n m len *ᵥ v) x = (2 / len) ^ m * iteratedDeriv m (ultraSeries 0 v) x := by
  unfold discDiff
  split_ifs with hm
  · subst hm; simp
  · rw [smul_mulVec, ultraSeries_smul, diffmat_series]

/-! ### Integration -/

lemma intWeights_getD (k j : ℕ) (hj : j < k) (hk : 2 ≤ k) : (intWeights k).getD j 0 = Cheb.intT j := by
  unfold intWeights Cheb.intT
  simp only []
  rw [getD_lt' _ _ _ (by simp; omega), List.getElem_mapIdx]
  by_cases ho : j % 2 = 1
  · simp [ho]
  · rw [if_neg ho, if_neg ho]
    rcases j with _ | _ | j
    · simp; 
    · omega
    · simp; ring_nf

lemma intmat_series (k : ℕ) (hk : 2 ≤ k) (w : Fin k → ℝ) (x : ℝ) :
    ultraSeries 0 (intmat k *ᵥ w) x = ∫ t in (-1 : ℝ)..1, ultraSeries 0 w t := by
  have hi : ∫ t in (-1 : ℝ)..1, ultraSeries 0 w t = ∑ j : Fin k, w j * Cheb.intT j := by
    simp only [ultraSeries_zero_eq]
    rw [Cheb.integral_chebEval, List.length_ofFn, Finset.sum_range]
    refine sum_congr rfl fun i _ => ?_
    rw [getD_lt' _ _ _ (by simp)]; simp
  rw [hi, series_mulVec]
  refine sum_congr rfl fun j _ => ?_
  congr 1
  rw [Finset.sum_eq_single (⟨0, by omega⟩ : Fin k)]
  · simp only [intmat, if_true]
    rw [intWeights_getD k j j.2 hk]
    simp [ultraBasis]
  · intro i _ hi
    unfold intmat
    rw [if_neg (fun h => hi (Fin.ext h)), zero_mul]
  · simp

lemma discInt_series (n : ℕ) (hn : 2 ≤ n) (e : Ends) (he : e.e0 ≠ e.e1) (w : Fin n → ℝ) (x : ℝ) :
    ultraSeries 0 (discInt n (Mapping.diff e) *ᵥ w) x = ∫ y in e.e0..e.e1, ultraSeries 0 w (Mapping.bwd e y) := by
  unfold discInt
  rw [smul_mulVec, smul_mulVec, ultraSeries_smul, ultraSeries_smul, intmat_series n hn]
  have hd : Mapping.diff e ≠ 0 := by unfold Mapping.diff; exact sub_ne_zero.mpr (Ne.symm he)
  simp only [Cheb.bwd_eq]
  rw [intervalIntegral.integral_comp_mul_add (fun t => ultraSeries 0 w t) (by positivity : (2 / Mapping.diff e) ≠ 0)]
  rw [smul_eq_mul, ← mul_assoc]
  have hd' : e.e1 - e.e0 ≠ 0 := hd
  congr 1
  · field_simp; norm_num
  · congr 1
    · unfold Mapping.diff; field_simp; ring
    · unfold Mapping.diff; field_simp; ring

end Funpy.UltraS
