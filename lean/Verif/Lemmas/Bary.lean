import Verif.Lemmas.ChebInner
import Mathlib.LinearAlgebra.Lagrange

namespace Funpy.Cheb
open Finset Real Spec Polynomial

/-- `P = (1 - X²) U_{M-1}`, which vanishes at the Chebyshev points. -/
lemma bary_P (M : ℕ) : (1 - X ^ 2) * Chebyshev.U ℝ ((M : ℤ) - 1)
    = X * Chebyshev.T ℝ (M : ℤ) - Chebyshev.T ℝ ((M : ℤ) + 1) := by
  have := Chebyshev.one_sub_X_sq_mul_U_eq_pol_in_T ℝ ((M : ℤ) - 1)
  convert this using 3 <;> ring_nf

lemma bary_P_deriv (M : ℕ) : derivative ((1 - X ^ 2) * Chebyshev.U ℝ ((M : ℤ) - 1))
    = -(M : ℝ[X]) * Chebyshev.T ℝ (M : ℤ) - X * Chebyshev.U ℝ ((M : ℤ) - 1) := by
  rw [bary_P, derivative_sub, derivative_mul, derivative_X, Chebyshev.T_derivative_eq_U,
    Chebyshev.T_derivative_eq_U]
  have h := Chebyshev.U_eq_X_mul_U_add_T ℝ ((M : ℤ) - 1)
  have e : (M : ℤ) - 1 + 1 = M := by ring
  have e' : (M : ℤ) + 1 - 1 = M := by ring
  rw [e] at h
  rw [e', h]
  push_cast
  ring

/-- angle of the node `j` -/
noncomputable def ang (M j : ℕ) : ℝ := π * ((M - j : ℕ) : ℝ) / M

lemma node_eq (M : ℕ) (hM : 0 < M) (j : ℕ) (hj : j ≤ M) :
    (chebpts2 (M + 1)).getD j 0 = cos (ang M j) := chebpts2_getD M hM j hj

lemma T_node (M : ℕ) (hM : 0 < M) (j : ℕ) (hj : j ≤ M) :
    (Chebyshev.T ℝ (M : ℤ)).eval ((chebpts2 (M + 1)).getD j 0) = (-1) ^ (M - j) := by
  have hM' : (M : ℝ) ≠ 0 := by positivity
  rw [node_eq M hM j hj, Chebyshev.T_real_cos, ang]
  have : ((M : ℤ) : ℝ) * (π * ((M - j : ℕ) : ℝ) / M) = π * ((M - j : ℕ) : ℝ) := by
    push_cast; field_simp
  rw [this, cos_pi_nat]

lemma P_node (M : ℕ) (hM : 0 < M) (j : ℕ) (hj : j ≤ M) :
    ((1 - X ^ 2) * Chebyshev.U ℝ ((M : ℤ) - 1)).eval ((chebpts2 (M + 1)).getD j 0) = 0 := by
  have hM' : (M : ℝ) ≠ 0 := by positivity
  rw [bary_P, eval_sub, eval_mul, eval_X, node_eq M hM j hj, Chebyshev.T_real_cos,
    Chebyshev.T_real_cos]
  have e1 : (((M : ℤ) + 1 : ℤ) : ℝ) * ang M j = ((M : ℤ) : ℝ) * ang M j + ang M j := by
    push_cast; ring
  have e2 : ((M : ℤ) : ℝ) * ang M j = ((M - j : ℕ) : ℝ) * π := by
    rw [ang]; push_cast; field_simp
  rw [e1, cos_add, e2, sin_nat_mul_pi]
  ring

lemma XU_node (M : ℕ) (hM : 0 < M) (j : ℕ) (hj : j ≤ M) :
    (X * Chebyshev.U ℝ ((M : ℤ) - 1)).eval ((chebpts2 (M + 1)).getD j 0)
      = if j = 0 ∨ j = M then (M : ℝ) * (-1) ^ (M - j) else 0 := by
  have hM' : (M : ℝ) ≠ 0 := by positivity
  rw [eval_mul, eval_X]
  split_ifs with h
  · rcases h with rfl | rfl
    · have : (chebpts2 (M + 1)).getD 0 0 = -1 := by
        rw [node_eq M hM 0 (by omega), ang, Nat.sub_zero]
        have : π * (M : ℝ) / M = π := by field_simp
        rw [this, cos_pi]
      rw [this, Chebyshev.U_eval_neg_one]
      obtain ⟨K, rfl⟩ : ∃ K, M = K + 1 := ⟨M - 1, by omega⟩
      have : (((K + 1 : ℕ) : ℤ) - 1) = (K : ℤ) := by push_cast; ring
      rw [this]
      simp only [Int.cast_negOnePow, zpow_natCast, Nat.sub_zero, pow_succ]
      push_cast
      ring
    · have : (chebpts2 (j + 1)).getD j 0 = 1 := by
        rw [node_eq j hM j le_rfl, ang]; simp
      rw [this, Chebyshev.U_eval_one]
      push_cast
      simp
  · have hU := Chebyshev.U_real_cos (ang M j) ((M : ℤ) - 1)
    have e2 : ((((M : ℤ) - 1 : ℤ) : ℝ) + 1) * ang M j = ((M - j : ℕ) : ℝ) * π := by
      rw [ang]; push_cast; field_simp; ring
    rw [e2, sin_nat_mul_pi] at hU
    have hs : sin (ang M j) ≠ 0 := by
      apply (sin_pos_of_pos_of_lt_pi _ _).ne'
      · rw [ang]
        have : (0 : ℝ) < ((M - j : ℕ) : ℝ) := by exact_mod_cast (by omega : 0 < M - j)
        positivity
      · rw [ang, div_lt_iff₀ (by positivity)]
        apply mul_lt_mul_of_pos_left _ pi_pos
        exact_mod_cast (by omega : M - j < M)
    rw [node_eq M hM j hj, (mul_eq_zero.mp hU).resolve_right hs, mul_zero]

/-- the nodes as an indexed family -/
noncomputable def nd (N : ℕ) : ℕ → ℝ := fun j => (chebpts2 N).getD j 0

lemma nd_inj (N : ℕ) : Set.InjOn (nd N) (range N : Finset ℕ) := by
  intro i hi j hj h
  simp only [coe_range, Set.mem_Iio] at hi hj
  match N with
  | 0 => omega
  | 1 => omega
  | K + 2 =>
    have hM : 0 < K + 1 := by omega
    simp only [nd] at h
    rw [node_eq (K + 1) hM i (by omega), node_eq (K + 1) hM j (by omega)] at h
    have hMp : (0 : ℝ) < (K + 1 : ℕ) := by positivity
    have hmem : ∀ i, ang (K + 1) i ∈ Set.Icc 0 π := by
      intro i
      refine ⟨by unfold ang; positivity, ?_⟩
      rw [ang, div_le_iff₀ hMp]
      exact mul_le_mul_of_nonneg_left (by exact_mod_cast Nat.sub_le _ _) pi_pos.le
    have := injOn_cos (hmem i) (hmem j) h
    unfold ang at this
    rw [div_left_inj' hMp.ne', mul_right_inj' pi_ne_zero] at this
    have : K + 1 - i = K + 1 - j := by exact_mod_cast this
    omega

lemma nodal_P (M : ℕ) (hM : 0 < M) :
    ∃ a : ℝ, a ≠ 0 ∧ (1 - X ^ 2) * Chebyshev.U ℝ ((M : ℤ) - 1)
      = C a * Lagrange.nodal (range (M + 1)) (nd (M + 1)) := by
  set P : ℝ[X] := (1 - X ^ 2) * Chebyshev.U ℝ ((M : ℤ) - 1) with hP
  have hd : P.degree = ((M + 1 : ℕ) : WithBot ℕ) := by
    obtain ⟨K, rfl⟩ : ∃ K, M = K + 1 := ⟨M - 1, by omega⟩
    rw [hP, degree_mul]
    have h1 : (((K + 1 : ℕ) : ℤ) - 1) = (K : ℤ) := by push_cast; ring
    have h2 : (1 - X ^ 2 : ℝ[X]).degree = 2 := by
      have : (1 - X ^ 2 : ℝ[X]) = -(X ^ 2 - C 1) := by simp
      rw [this, degree_neg, degree_X_pow_sub_C (by norm_num)]
      rfl
    rw [h1, h2, Chebyshev.degree_U_natCast]
    norm_cast
    omega
  have hP0 : P ≠ 0 := by
    intro h; rw [h, degree_zero] at hd; exact absurd hd (WithBot.bot_ne_coe)
  have ha : P.leadingCoeff ≠ 0 := leadingCoeff_ne_zero.mpr hP0
  refine ⟨P.leadingCoeff, ha, ?_⟩
  apply eq_of_degree_le_of_eval_index_eq (range (M + 1)) (nd_inj (M + 1))
  · rw [hd, card_range]
  · rw [hd, degree_C_mul ha, Lagrange.degree_nodal, card_range]
  · rw [leadingCoeff_mul (C P.leadingCoeff), leadingCoeff_C, Lagrange.nodal_monic.leadingCoeff, mul_one]
  · intro j hj
    rw [eval_mul (p := C P.leadingCoeff), Lagrange.eval_nodal_at_node hj, mul_zero]
    exact P_node M hM j (by have := mem_range.mp hj; omega)

/-- the sign-alternating weights -/
lemma nodalWeight_node (M : ℕ) (hM : 0 < M) :
    ∃ a : ℝ, a ≠ 0 ∧ ∀ j, j ≤ M → Lagrange.nodalWeight (range (M + 1)) (nd (M + 1)) j
      = a * ((-1) ^ (M - j) * (if j = 0 ∨ j = M then 1 / 2 else 1)) := by
  have hM' : (M : ℝ) ≠ 0 := by positivity
  obtain ⟨a, ha, hP⟩ := nodal_P M hM
  refine ⟨-a / M, by simp [ha, hM'], ?_⟩
  intro j hj
  rw [Lagrange.nodalWeight_eq_eval_derivative_nodal (mem_range.mpr (by omega))]
  have h1 := congrArg derivative hP
  rw [bary_P_deriv, derivative_mul, derivative_C, zero_mul, zero_add] at h1
  have h2 := congrArg (eval (nd (M + 1) j)) h1
  rw [eval_sub, eval_mul (p := -(M : ℝ[X])), eval_mul (p := C a), eval_C, eval_neg] at h2
  simp only [nd] at h2
  rw [T_node M hM j hj, XU_node M hM j hj, eval_natCast] at h2
  have hsq : ((-1 : ℝ) ^ (M - j)) * ((-1) ^ (M - j)) = 1 := by
    rw [← mul_pow]; simp
  have hs0 : ((-1 : ℝ) ^ (M - j)) ≠ 0 := by positivity
  set e := eval ((chebpts2 (M + 1)).getD j 0) (derivative (Lagrange.nodal (range (M + 1)) (nd (M + 1)))) with he
  have he' : eval (nd (M + 1) j) (derivative (Lagrange.nodal (range (M + 1)) (nd (M + 1)))) = e := rfl
  rw [he']
  have h2' : -↑M * (-1) ^ (M - j) - (if j = 0 ∨ j = M then (M : ℝ) * (-1) ^ (M - j) else 0) = a * e := h2
  apply inv_eq_of_mul_eq_one_left
  split_ifs at h2' ⊢ with h
  · have : e = (-2 * M * (-1) ^ (M - j)) / a := by rw [eq_div_iff ha]; linarith
    rw [this]; field_simp; linear_combination hsq
  · have : e = (-M * (-1) ^ (M - j)) / a := by rw [eq_div_iff ha]; linarith
    rw [this]; field_simp; linear_combination hsq

lemma go_mem (i k : ℕ) : k ∈ sliceDown2.go i ↔ k ≤ i ∧ (i - k) % 2 = 0 := by
  induction i using sliceDown2.go.induct with
  | case1 => simp [sliceDown2.go]
  | case2 => simp [sliceDown2.go]; omega
  | case3 i ih => simp only [sliceDown2.go, List.mem_cons, ih]; omega

lemma foldl_set_getD (idx : List ℕ) (a : ℝ) : ∀ (c : List ℝ) (k : ℕ), k < c.length →
    (idx.foldl (fun c i => c.set i a) c).getD k 0 = if k ∈ idx then a else c.getD k 0 := by
  induction idx with
  | nil => intro c k _; simp
  | cons i idx ih =>
    intro c k hk
    rw [List.foldl_cons, ih _ _ (by simpa using hk), getD_set']
    by_cases h : k ∈ idx
    · simp [h]
    · rw [if_neg h]
      by_cases h' : k = i
      · subst h'; simp [hk]
      · rw [if_neg (by tauto), if_neg (by simp [h, h'])]

lemma foldl_set_length (idx : List ℕ) (a : ℝ) : ∀ (c : List ℝ),
    (idx.foldl (fun c i => c.set i a) c).length = c.length := by
  induction idx with
  | nil => intro c; rfl
  | cons i idx ih => intro c; rw [List.foldl_cons, ih]; simp

lemma baryWeights_length (N : ℕ) (hN : 0 < N) : (baryWeights N).length = N := by
  simp only [baryWeights, List.length_set, foldl_set_length]; simp; omega

lemma baryWeights_getD (M : ℕ) (hM : 0 < M) (j : ℕ) (hj : j ≤ M) :
    (baryWeights (M + 1)).getD j 0 = (-1) ^ (M - j) * (if j = 0 ∨ j = M then 1 / 2 else 1) := by
  have hs : sliceDown2 (M + 1) (((M + 1 : ℕ) : ℤ) - 2) = sliceDown2.go (M - 1) := by
    unfold sliceDown2
    have h1 : ¬ (((M + 1 : ℕ) : ℤ) - 2 < 0) := by push_cast; omega
    simp only [h1, if_false]
    have h2 : min (((M + 1 : ℕ) : ℤ) - 2) (((M + 1 : ℕ) : ℤ) - 1) = ((M - 1 : ℕ) : ℤ) := by
      push_cast [Nat.cast_sub hM]; omega
    rw [h2, if_neg (by omega), Int.toNat_natCast]
  simp only [baryWeights, if_neg (by omega : ¬ M + 1 < 2), hs, Nat.add_sub_cancel]
  set c0 : List ℝ := List.replicate M 1 ++ [0.5] with hc0
  have hl : c0.length = M + 1 := by simp [hc0]
  have hc : ∀ k, k ≤ M → ((sliceDown2.go (M - 1)).foldl (fun c i => c.set i (-1)) c0).getD k 0
      = if k < M then (-1) ^ (M - k) else 0.5 := by
    intro k hk
    rw [foldl_set_getD _ _ _ _ (by omega)]
    simp only [go_mem]
    by_cases hkM : k < M
    · rw [if_pos hkM]
      rcases Nat.even_or_odd (M - k) with he | ho
      · have := Nat.even_iff.mp he
        rw [if_neg (by omega), he.neg_one_pow, hc0, getD_append', if_pos (by simpa using hkM),
          getD_lt' _ _ _ (by simpa using hkM)]
        simp
      · have := Nat.odd_iff.mp ho
        rw [if_pos (by omega), ho.neg_one_pow]
    · have : k = M := by omega
      subst this
      rw [if_neg hkM, if_neg (by omega), hc0, getD_append', if_neg (by simp)]
      simp
  rw [getD_set', foldl_set_length, hl]
  by_cases hj0 : j = 0
  · subst hj0
    rw [if_pos ⟨rfl, by omega⟩, hc 0 (by omega), if_pos hM]
    norm_num
  · rw [if_neg (by omega), hc j hj]
    by_cases hjM : j = M
    · subst hjM; norm_num
    · rw [if_pos (by omega), if_neg (by omega), mul_one]

/-- The barycentric weights are the Lagrange nodal weights of the Chebyshev points up to a common
non-zero factor. -/
lemma bary_nodal (N : ℕ) (hN : 0 < N) : ∃ a : ℝ, a ≠ 0 ∧ ∀ j, j < N →
    (baryWeights N).getD j 0 = a * Lagrange.nodalWeight (range N) (nd N) j := by
  by_cases h1 : N = 1
  · subst h1
    refine ⟨0.25, by norm_num, ?_⟩
    intro j hj
    have : j = 0 := by omega
    subst this
    simp [baryWeights, Lagrange.nodalWeight]
    norm_num
  · obtain ⟨M, rfl⟩ : ∃ M, N = M + 1 := ⟨N - 1, by omega⟩
    obtain ⟨a, ha, h⟩ := nodalWeight_node M (by omega)
    refine ⟨a⁻¹, inv_ne_zero ha, ?_⟩
    intro j hj
    rw [h j (by omega), baryWeights_getD M (by omega) j (by omega)]
    field_simp

end Funpy.Cheb
