import Verif.Model.ChebRoots
import Verif.Lemmas.Pencil
import Verif.Lemmas.ChebInner

/-! Lemmas on root finding. -/

namespace Funpy.Cheb
open Finset Real Polynomial Spec

lemma chebRec_eq (x : ℝ) (k : ℕ) : chebRec x k = (Chebyshev.T ℝ (k : ℤ)).eval x := by
  induction k using Nat.strong_induction_on with
  | _ k ih =>
    match k, ih with
    | 0, _ => simp [chebRec]
    | 1, _ => simp [chebRec]
    | k + 2, ih =>
      have := Chebyshev.T_add_two ℝ (k : ℤ)
      rw [chebRec, ih (k + 1) (by omega), ih k (by omega)]
      push_cast
      rw [this]; simp

/-- A polynomial of degree `< N` sampled at the Chebyshev points is recovered by `polyfit`. -/
lemma polyfit_of_poly (N : ℕ) (hN : 0 < N) (h : List ℝ) (hl : h.length ≤ N) (v : List ℝ)
    (hv : v = (chebpts2 N).map (chebEval h)) :
    polyfitCol v = prolongCol h N := by
  have hpl : (prolongCol h (N : ℤ)).length = N := by rw [prolongCol_length]; omega
  have hne : prolongCol h (N : ℤ) ≠ [] := by
    intro h0; rw [h0] at hpl; simp at hpl; omega
  rw [← polyfit_polyval_col _ hne, polyvalCol_eq _ hne, hpl, hv]
  congr 1
  apply List.map_congr_left
  intro x _
  apply chebEval_congr_getD
  intro k
  rw [prolongCol_getD]
  split_ifs with hk
  · rfl
  · rw [getD_ge' _ _ _ (by omega)]

lemma eval_chebPoly (c : List ℝ) (x : ℝ) : (chebPoly c).eval x = chebEval c x := by
  unfold chebPoly chebEval
  rw [eval_finsetSum]
  apply sum_congr rfl
  intro k _
  simp

/-- the affine map from `[-1,1]` to `[a,b]` as a polynomial -/
noncomputable def affP (a b : ℝ) : ℝ[X] := C ((b - a) / 2) * X + C ((a + b) / 2)

lemma affP_eval (a b t : ℝ) : (affP a b).eval t = 0.5 * (b * (t + 1) + a * (1 - t)) := by
  simp [affP]; ring

lemma affP_natDegree (a b : ℝ) : (affP a b).natDegree ≤ 1 := by
  unfold affP; exact natDegree_linear_le

/-- composition with an affine map preserves the number of Chebyshev terms -/
lemma exists_comp (p : ℝ[X]) (N : ℕ) (hp : p.natDegree < N) (a b : ℝ) :
    ∃ h : List ℝ, h.length = N ∧ ∀ t, chebEval h t = p.eval (0.5 * (b * (t + 1) + a * (1 - t))) := by
  have hd : (p.comp (affP a b)).degree < N := by
    refine lt_of_le_of_lt degree_le_natDegree ?_
    have : (p.comp (affP a b)).natDegree ≤ p.natDegree * 1 :=
      natDegree_comp_le.trans (Nat.mul_le_mul_left _ (affP_natDegree a b))
    exact_mod_cast (by omega : (p.comp (affP a b)).natDegree < N)
  obtain ⟨h, hl, hh⟩ := exists_cheb N _ hd
  refine ⟨h, hl, fun t => ?_⟩
  rw [← eval_chebPoly, hh, eval_comp, affP_eval]

lemma natDegree_chebPoly_lt' (c : List ℝ) (hc : 0 < c.length) : (chebPoly c).natDegree < c.length := by
  have : (chebPoly c).natDegree ≤ c.length - 1 := by
    unfold chebPoly
    apply natDegree_sum_le_of_forall_le
    intro k hk
    rw [mem_range] at hk
    refine (natDegree_C_mul_le _ _).trans ?_
    have := Chebyshev.natDegree_T ℝ (k : ℤ)
    rw [this]
    simp; omega
  omega

lemma splitClenshaw_eval (c : List ℝ) (hc : c ≠ []) (a b t : ℝ) :
    chebEval (splitClenshaw c a b) t = chebEval c (0.5 * (b * (t + 1) + a * (1 - t))) := by
  have hpos := List.length_pos_iff.mpr hc
  obtain ⟨h, hl, hh⟩ := exists_comp (chebPoly c) c.length (natDegree_chebPoly_lt' c hpos) a b
  have : splitClenshaw c a b = prolongCol h c.length := by
    apply polyfit_of_poly _ hpos _ hl.le
    rw [chebptsAB, List.map_map]
    apply List.map_congr_left
    intro x _
    simp only [Function.comp]
    rw [clenshawScalar_eq (by norm_num) _ _ hc, hh, eval_chebPoly]
  rw [this, ← eval_chebPoly c, ← hh]
  apply chebEval_congr_getD
  intro k
  rw [prolongCol_getD]
  split_ifs with hk
  · rfl
  · rw [getD_ge' _ _ _ (by omega)]

lemma fftCol_eq (M : ℕ) (hM : 0 < M) (v : List ℝ) (hv : v.length = M + 1) : fftCol M v = polyfitCol v := by
  have hM' : (M : ℝ) ≠ 0 := by positivity
  set u := (v.drop 1).reverse ++ v.take M with hu
  have hul : u.length = 2 * M := by simp [hu, hv]; omega
  have hug : ∀ j, j < 2 * M → u.getD j 0 = if j ≤ M then v.getD (M - j) 0 else v.getD (j - M) 0 := by
    intro j hj
    rw [hu, getD_append']
    have hrl : (v.drop 1).reverse.length = M := by simp [hv]
    rw [hrl]
    split_ifs with h1 h2 h2
    · rw [getD_lt' _ _ _ (by omega), List.getElem_reverse, List.getElem_drop, getD_lt' _ _ _ (by omega)]
      congr 1
      simp [hv]; omega
    · omega
    · rw [show j = M by omega, Nat.sub_self, getD_lt' _ _ _ (by simp [hv]; omega), List.getElem_take,
        getD_lt' _ _ _ (by omega)]
    · rw [getD_lt' _ _ _ (by simp [hv]; omega), List.getElem_take, getD_lt' _ _ _ (by omega)]
  -- the real part of the Fourier sum
  have hw : ∀ k, k ≤ M → ((fft (u.map fun z : ℝ => (z : ℂ))).map fun z : ℂ => (z / (M : ℂ)).re).getD k 0
      = (v.getD M 0 + (-1) ^ k * v.getD 0 0
          + 2 * ∑ j ∈ Ico 1 M, v.getD (M - j) 0 * cos (π * k * j / M)) / M := by
    intro k hk
    rw [getD_lt' (List.map _ _) _ _ (by simp [fft_length, hul]; omega), List.getElem_map,
      ← getD_lt' _ 0 _ (by simp [fft_length, hul]; omega), fft_getD _ _ (by simp [hul]; omega)]
    have hdiv : ∀ z : ℂ, (z / (M : ℂ)).re = z.re / M := by
      intro z
      rw [← Complex.ofReal_natCast, Complex.div_ofReal_re]
    rw [hdiv]
    congr 1
    rw [Complex.re_sum]
    have hterm : ∀ j ∈ range (List.map (fun z : ℝ => (z : ℂ)) u).length,
        ((List.map (fun z : ℝ => (z : ℂ)) u).getD j 0 *
          rou (List.map (fun z : ℝ => (z : ℂ)) u).length (-(↑j * ↑k))).re
        = u.getD j 0 * cos (π * k * j / M) := by
      intro j hj
      have h1 : (List.map (fun z : ℝ => (z : ℂ)) u).getD j 0 = ((u.getD j 0 : ℝ) : ℂ) := by
        have := getD_map' (fun z : ℝ => (z : ℂ)) 0 u j
        simpa using this
      rw [h1, Complex.re_ofReal_mul, List.length_map, hul]
      congr 1
      rw [rou_re]
      rw [← cos_neg]
      congr 1
      push_cast
      field_simp
    rw [sum_congr rfl hterm, List.length_map, hul]
    set g : ℕ → ℝ := fun j => (if j ≤ M then v.getD (M - j) 0 else v.getD (j - M) 0)
      * cos (π * k * j / M) with hg
    have hsum : ∑ j ∈ range (2 * M), u.getD j 0 * cos (π * k * j / M) = ∑ j ∈ range (2 * M), g j := by
      apply sum_congr rfl
      intro j hj
      rw [hug j (mem_range.mp hj)]
    rw [hsum, fold_sum M hM g]
    · have h0 : g 0 = v.getD M 0 := by simp [hg]
      have h1 : g M = (-1) ^ k * v.getD 0 0 := by
        simp only [hg, le_refl, if_true, Nat.sub_self]
        have : π * k * M / M = k * π := by field_simp
        rw [this, cos_nat_mul_pi, mul_comm]
      rw [h0, h1]
      congr 2
      apply sum_congr rfl
      intro j hj
      rw [mem_Ico] at hj
      simp only [hg, if_pos (by omega : j ≤ M)]
    · intro j hj
      have hc : cos (π * k * ((2 * M - j : ℕ) : ℝ) / M) = cos (π * k * j / M) := by
        rw [Nat.cast_sub hj]
        have : π * k * (((2 * M : ℕ) : ℝ) - j) / M = (k : ℤ) * (2 * π) - π * k * j / M := by
          push_cast; field_simp
        rw [this, cos_int_mul_two_pi_sub]
      simp only [hg, hc]
      congr 1
      by_cases h1 : j ≤ M
      · by_cases h2 : j = M
        · subst h2
          rw [show 2 * j - j = j by omega]
        · rw [if_neg (by omega), if_pos h1]; congr 1; omega
      · rw [if_pos (by omega), if_neg h1]; congr 1; omega
  -- compare with the discrete cosine transform
  apply ext_getD 0
  · simp [fftCol, polyfitCol_length, hv]
  · intro k hk
    have hfl : (fftCol M v).length = M + 1 := by simp [fftCol]
    have hk' : k ≤ M := by omega
    rw [fftCol]
    simp only [← hu]
    rw [getD_map_range, if_pos (by omega), polyfitCol]
    simp only [hv, Nat.add_sub_cancel]
    rw [if_neg (show ¬ (M + 1 = 1) by omega)]
    set c := (List.range (M + 1)).map fun i => v.getD (M + 1 - i - 1) 0 / (M : ℝ) with hc
    have hcl : c.length = M + 1 := by simp [hc]
    have hcg : ∀ i, i ≤ M → c.getD i 0 = v.getD (M - i) 0 / M := by
      intro i hi
      rw [hc, getD_map_range, if_pos (by omega), show M + 1 - i - 1 = M - i by omega]
    have hdl : (dct1 c).length = M + 1 := by rw [dct1_length, hcl]
    have hd : (dct1 c).getD k 0 = (v.getD M 0 + (-1) ^ k * v.getD 0 0
          + 2 * ∑ j ∈ Ico 1 M, v.getD (M - j) 0 * cos (π * k * j / M)) / M := by
      rw [dct1]
      simp only [hcl, Nat.add_sub_cancel]
      rw [getD_map_range, if_pos (by omega), hcg 0 (by omega), hcg M le_rfl, Nat.sub_self, Nat.sub_zero]
      rw [add_div, add_div, mul_div_assoc 2, sum_div]
      congr 1
      · ring
      · congr 1
        apply sum_congr rfl
        intro j hj
        rw [mem_Ico] at hj
        rw [hcg j (by omega)]; ring
    rw [hw k hk', getD_set', getD_set', ← hd]
    rw [List.length_set, hdl, getD_set', hdl]
    by_cases h0 : k = 0
    · subst h0
      rw [if_pos (Or.inl rfl), if_neg (by omega), if_pos (by omega)]
      ring
    · by_cases h1 : k = M
      · subst h1
        rw [if_pos (Or.inr rfl), if_pos (by omega), if_neg (by omega)]
        ring
      · rw [if_neg (by omega), if_neg (by omega), if_neg (by omega)]

lemma splitFFT_eval (c : List ℝ) (hc : c.length ≤ 513) (a b t : ℝ) :
    chebEval (splitFFT c a b) t = chebEval c (0.5 * (b * (t + 1) + a * (1 - t))) := by
  -- the columns
  have hcol : ∀ k, k < c.length → ∃ h : List ℝ, h.length = k + 1 ∧
      (∀ t, chebEval h t = (Chebyshev.T ℝ (k : ℤ)).eval (0.5 * (b * (t + 1) + a * (1 - t)))) ∧
      ∀ i, fftWeight 512 a b i k = h.getD i 0 := by
    intro k hk
    obtain ⟨h, hl, hh⟩ := exists_comp (Chebyshev.T ℝ (k : ℤ)) (k + 1)
      (by rw [Chebyshev.natDegree_T]; simp) a b
    refine ⟨h, hl, hh, fun i => ?_⟩
    rw [fftWeight]
    split_ifs with hik
    · rw [fftCol_eq 512 (by norm_num) _ (by simp [chebptsAB, chebpts2_length]),
        polyfit_of_poly 513 (by norm_num) h (by omega) _ ?_, prolongCol_getD, if_pos (by omega)]
      rw [chebptsAB, List.map_map]
      apply List.map_congr_left
      intro x _
      simp only [Function.comp]
      rw [chebRec_eq, hh]
    · rw [getD_ge' _ _ _ (by omega)]
  unfold chebEval
  rw [show (splitFFT c a b).length = c.length by simp [splitFFT]]
  have hval : ∀ k ∈ range c.length, c.getD k 0 *
      (Chebyshev.T ℝ (k : ℤ)).eval (0.5 * (b * (t + 1) + a * (1 - t)))
      = ∑ i ∈ range c.length, fftWeight 512 a b i k * c.getD k 0 * (Chebyshev.T ℝ (i : ℤ)).eval t := by
    intro k hk
    rw [mem_range] at hk
    obtain ⟨h, hl, hh, hw⟩ := hcol k hk
    rw [← hh, chebEval_eq_of_getD h c.length (by omega), mul_sum]
    apply sum_congr rfl
    intro i _
    rw [hw]; ring
  rw [sum_congr rfl hval, sum_comm]
  apply sum_congr rfl
  intro i hi
  rw [splitFFT, getD_map_range, if_pos (mem_range.mp hi), sum_mul]

end Funpy.Cheb
