import Verif.Model.ChebInner
import Verif.Lemmas.ChebTransform
import Verif.Lemmas.ChebCalc
import Verif.Lemmas.ChebArith
import Verif.Lemmas.FFT

namespace Funpy.Cheb
open Finset Real Spec Polynomial

/-- The extended coefficient vector of `quadwts`. -/
noncomputable def qc (M l : ℕ) : ℝ := 2 / (1 - (2 * ((min l (M - l) : ℕ) : ℝ)) ^ 2)

lemma quadwts_aux (N : ℕ) (hN : 2 ≤ N) :
    let c : List ℝ := ((1 : ℝ) :: (List.range ((N - 1) / 2)).map fun i : ℕ => 1 - (2 * (i : ℝ) + 2) ^ 2).map (2 / ·)
    c ++ ((c.take (N / 2)).drop 1).reverse = (List.range (N - 1)).map (qc (N - 1)) := by
  intro c
  have hlen : c.length = 1 + (N - 1) / 2 := by simp [c]; omega
  have hc : ∀ l, l < c.length → c.getD l 0 = 2 / (1 - (2 * (l : ℝ)) ^ 2) := by
    intro l hl
    rw [hlen] at hl
    cases l with
    | zero => simp [c]
    | succ l =>
      have : c.getD (l + 1) 0 = ((List.range ((N - 1) / 2)).map (fun i : ℕ => 2 / (1 - (2 * (i : ℝ) + 2) ^ 2))).getD l 0 := by
        simp only [c, List.map_cons, List.map_map, List.getD_cons_succ]
        rfl
      rw [this, getD_map_range, if_pos (by omega)]
      push_cast
      ring_nf
  have htl : (((c.take (N / 2)).drop 1).reverse).length = N / 2 - 1 := by
    simp only [List.length_reverse, List.length_drop, List.length_take, hlen]; omega
  apply ext_getD 0
  · rw [List.length_append, htl, hlen, List.length_map, List.length_range]; omega
  intro l hl
  rw [List.length_append, htl, hlen] at hl
  rw [getD_map_range, if_pos (by omega), getD_append']
  split_ifs with h
  · rw [hc l h, qc]
    rw [hlen] at h
    have : min l (N - 1 - l) = l := by omega
    rw [this]
  · rw [hlen] at h ⊢
    rw [getD_reverse _ _ (by rw [← List.length_reverse, htl]; omega)]
    rw [← List.length_reverse, htl]
    have h1 : ((c.take (N / 2)).drop 1).getD (N / 2 - 1 - 1 - (l - (1 + (N - 1) / 2))) 0
        = c.getD (N - 1 - l) 0 := by
      simp only [List.getD_eq_getElem?_getD, List.getElem?_drop, List.getElem?_take]
      rw [if_pos (by omega)]
      congr 2
      omega
    rw [h1, hc _ (by omega), qc]
    have : min l (N - 1 - l) = N - 1 - l := by omega
    rw [this]

/-- real part of the inverse transform of the extended coefficients -/
noncomputable def qW (M j : ℕ) : ℝ := (∑ l ∈ range M, qc M l * cos (π * (2 * l : ℕ) * j / M)) / M

lemma rou_re (n : ℕ) (z : ℤ) : (rou n z).re = cos (2 * π * z / n) := by
  have : rou n z = Complex.exp (((2 * π * z / n : ℝ) : ℂ) * Complex.I) := by
    unfold rou; congr 1; push_cast; ring
  rw [this, Complex.exp_ofReal_mul_I_re]

lemma quadwts_getD (M : ℕ) (hM : 0 < M) :
    (quadwts (M + 1)).length = M + 1 ∧
    ∀ j, j ≤ M → (quadwts (M + 1)).getD j 0 = if j = 0 ∨ j = M then qW M 0 / 2 else qW M j := by
  have haux := quadwts_aux (M + 1) (by omega)
  simp only [Nat.add_sub_cancel] at haux
  simp only [quadwts, Nat.add_sub_cancel, if_neg (by omega : ¬ (M + 1 = 0)), if_neg (by omega : ¬ (M + 1 = 1))]
  rw [haux]
  set y : List ℂ := List.map Complex.ofReal ((List.range M).map (qc M)) with hy
  have hyl : y.length = M := by simp [hy]
  have hyg : ∀ l, l < M → y.getD l 0 = (qc M l : ℂ) := by
    intro l hl
    have : y = (List.range M).map (fun l => (qc M l : ℂ)) := by simp [hy, Function.comp_def]
    rw [this, getD_map_range, if_pos hl]
  have hW : ∀ j, j < M → ((ifft y).getD j 0).re = qW M j := by
    intro j hj
    rw [ifft_getD y j (by omega), hyl, qW]
    rw [show ((M : ℂ)) = ((M : ℝ) : ℂ) by simp, Complex.div_ofReal_re, Complex.re_sum]
    congr 1
    apply sum_congr rfl
    intro l hl
    rw [hyg l (mem_range.mp hl), Complex.re_ofReal_mul, rou_re]
    congr 2
    push_cast; ring
  constructor
  · simp [ifft_length, hyl]
  · intro j hj
    have hre : ∀ (z : List ℂ) (k : ℕ), (z.map Complex.re).getD k 0 = (z.getD k 0).re := by
      intro z k
      simp only [List.getD_eq_getElem?_getD, List.getElem?_map]
      cases z[k]? <;> simp
    rw [hre, getD_append']
    have hl0 : ((ifft y).set 0 (0.5 * (ifft y).getD 0 0)).length = M := by
      rw [List.length_set, ifft_length, hyl]
    have h0 : ((ifft y).set 0 (0.5 * (ifft y).getD 0 0)).getD 0 0 = 0.5 * (ifft y).getD 0 0 := by
      rw [getD_set']; simp [ifft_length, hyl, hM]
    have h0re : (0.5 * (ifft y).getD 0 0 : ℂ).re = qW M 0 / 2 := by
      rw [show (0.5 : ℂ) = ((0.5 : ℝ) : ℂ) by norm_num, Complex.re_ofReal_mul, hW 0 hM]; ring
    rw [hl0, h0]
    by_cases hjM : j < M
    · rw [if_pos hjM]
      by_cases hj0 : j = 0
      · subst hj0
        rw [h0, h0re]; simp
      · rw [getD_set']
        rw [if_neg (by omega), if_neg (by omega), hW j hjM]
    · have : j = M := by omega
      subst this
      rw [if_neg hjM, Nat.sub_self, if_pos (Or.inr rfl)]
      simpa using h0re

lemma cos_sym (M : ℕ) (hM : 0 < M) (j n : ℕ) (hn : n ≤ 2 * M) :
    cos (π * j * ((2 * M - n : ℕ) : ℝ) / M) = cos (π * j * n / M) := by
  have hM' : (M : ℝ) ≠ 0 := by positivity
  have : π * j * ((2 * M - n : ℕ) : ℝ) / M = ((j : ℤ) : ℝ) * (2 * π) - π * j * n / M := by
    rw [Nat.cast_sub hn]; push_cast; field_simp
  rw [this, cos_int_mul_two_pi_sub]

lemma cos_even_sym (M : ℕ) (hM : 0 < M) (l j : ℕ) (hj : j ≤ M) :
    cos (π * ((2 * l : ℕ) : ℝ) * ((M - j : ℕ) : ℝ) / M) = cos (π * ((2 * l : ℕ) : ℝ) * j / M) := by
  have hM' : (M : ℝ) ≠ 0 := by positivity
  have : π * ((2 * l : ℕ) : ℝ) * ((M - j : ℕ) : ℝ) / M
      = ((l : ℤ) : ℝ) * (2 * π) - π * ((2 * l : ℕ) : ℝ) * j / M := by
    rw [Nat.cast_sub hj]; push_cast; field_simp
  rw [this, cos_int_mul_two_pi_sub]

lemma qW_sym (M : ℕ) (hM : 0 < M) (j : ℕ) (hj : j ≤ M) : qW M (M - j) = qW M j := by
  simp only [qW, cos_even_sym M hM _ j hj]

lemma cc_mode (M : ℕ) (hM : 0 < M) (k : ℕ) (hk : k ≤ M) :
    ∑ j ∈ range (2 * M), qW M j * cos (π * k * j / M) = 2 * intT k := by
  have hM' : (M : ℝ) ≠ 0 := by positivity
  have h1 : ∑ j ∈ range (2 * M), qW M j * cos (π * k * j / M)
      = ∑ l ∈ range M, qc M l * ((if (2 * M : ℤ) ∣ (2 * l + k) then 1 else 0)
          + (if (2 * M : ℤ) ∣ (2 * l - k) then 1 else 0)) := by
    have : ∀ j ∈ range (2 * M), qW M j * cos (π * k * j / M)
        = ∑ l ∈ range M, qc M l / M * (1 / 2) * (cos (π * (2 * l + k : ℤ) * j / M) + cos (π * (2 * l - k : ℤ) * j / M)) := by
      intro j _
      rw [qW, sum_div, sum_mul]
      apply sum_congr rfl
      intro l _
      have e1 : π * (2 * l + k : ℤ) * j / M = π * (2 * l : ℕ) * j / M + π * k * j / M := by
        push_cast; ring
      have e2 : π * (2 * l - k : ℤ) * j / M = π * (2 * l : ℕ) * j / M - π * k * j / M := by
        push_cast; ring
      rw [e1, e2, cos_add, cos_sub]
      ring
    rw [sum_congr rfl this, sum_comm]
    apply sum_congr rfl
    intro l _
    rw [← mul_sum, sum_add_distrib, cos_sum M hM, cos_sum M hM]
    split_ifs <;> field_simp <;> ring
  rw [h1]
  simp only [mul_add, sum_add_distrib, mul_ite, mul_one, mul_zero]
  rcases Nat.even_or_odd' k with ⟨r, rfl | rfl⟩
  · have hr : 2 * r ≤ M := hk
    have hint : intT (2 * r) = qc M r := by
      rw [intT, qc, if_neg (by omega)]
      have : min r (M - r) = r := by omega
      rw [this]; push_cast; ring
    have hA : ∑ l ∈ range M, (if (2 * M : ℤ) ∣ (2 * l - (2 * r : ℕ)) then qc M l else 0) = qc M r := by
      rw [sum_eq_single r]
      · simp
      · intro l hl hlr
        rw [mem_range] at hl
        rw [if_neg]
        intro hd
        have := Int.eq_zero_of_abs_lt_dvd hd (by rw [abs_lt]; constructor <;> push_cast <;> omega)
        push_cast at this; omega
      · intro h; exact absurd (mem_range.mpr (by omega)) h
    have hB : ∑ l ∈ range M, (if (2 * M : ℤ) ∣ (2 * l + (2 * r : ℕ)) then qc M l else 0) = qc M r := by
      by_cases hr0 : r = 0
      · subst hr0
        rw [sum_eq_single 0]
        · simp
        · intro l hl hlr
          rw [mem_range] at hl
          rw [if_neg]
          intro hd
          have := Int.eq_zero_of_abs_lt_dvd hd (by rw [abs_lt]; constructor <;> push_cast <;> omega)
          push_cast at this; omega
        · intro h; exact absurd (mem_range.mpr (by omega)) h
      · rw [sum_eq_single (M - r)]
        · rw [if_pos]
          · rw [qc, qc]
            have : min (M - r) (M - (M - r)) = min r (M - r) := by omega
            rw [this]
          · refine ⟨1, ?_⟩; push_cast; omega
        · intro l hl hlr
          rw [mem_range] at hl
          rw [if_neg]
          intro hd
          have hd2 : (2 * M : ℤ) ∣ (2 * l + (2 * r : ℕ)) - 2 * M := Dvd.dvd.sub hd (dvd_refl _)
          have := Int.eq_zero_of_abs_lt_dvd hd2 (by rw [abs_lt]; constructor <;> push_cast <;> omega)
          push_cast at this; omega
        · intro h; exact absurd (mem_range.mpr (by omega)) h
    rw [hA, hB, hint]; ring
  · rw [sum_eq_zero, sum_eq_zero, intT, if_pos (by omega)]
    · ring
    · intro l _
      rw [if_neg]
      rintro ⟨q, hq⟩
      push_cast at hq
      have : (2 : ℤ) ∣ 2 * l - (2 * r + 1) := ⟨M * q, by rw [hq]; ring⟩
      omega
    · intro l _
      rw [if_neg]
      rintro ⟨q, hq⟩
      push_cast at hq
      have : (2 : ℤ) ∣ 2 * l + (2 * r + 1) := ⟨M * q, by rw [hq]; ring⟩
      omega

lemma quad_T (M : ℕ) (hM : 0 < M) (k : ℕ) (hk : k ≤ M) :
    ∑ j ∈ range (M + 1), (quadwts (M + 1)).getD j 0
      * (Chebyshev.T ℝ (k : ℤ)).eval ((chebpts2 (M + 1)).getD j 0) = intT k := by
  have hM' : (M : ℝ) ≠ 0 := by positivity
  have h1 : ∀ j ∈ range (M + 1), (quadwts (M + 1)).getD j 0
      * (Chebyshev.T ℝ (k : ℤ)).eval ((chebpts2 (M + 1)).getD j 0)
      = wt M (M - j) / 2 * (qW M (M - j) * cos (π * k * (M - j : ℕ) / M)) := by
    intro j hj
    have hj' : j ≤ M := by have := mem_range.mp hj; omega
    rw [(quadwts_getD M hM).2 j hj', chebpts2_getD M hM j hj', Chebyshev.T_real_cos]
    have e : ((k : ℤ) : ℝ) * (π * ((M - j : ℕ) : ℝ) / M) = π * k * ((M - j : ℕ) : ℝ) / M := by
      push_cast; ring
    rw [e, qW_sym M hM j hj', wt]
    by_cases h : j = 0 ∨ j = M
    · rw [if_pos h, if_pos (by omega)]
      have : qW M j = qW M 0 := by
        rcases h with rfl | rfl
        · rfl
        · rw [← qW_sym _ hM 0 (by omega)]; simp
      rw [this]; ring
    · rw [if_neg h, if_neg (by omega)]; ring
  rw [sum_congr rfl h1]
  have hre := sum_range_reflect (fun j : ℕ => wt M j / 2 * (qW M j * cos (π * k * j / M))) (M + 1)
  simp only [Nat.add_sub_cancel] at hre
  rw [hre]
  have h2 := wsum_eq M hM (fun j : ℕ => qW M j * cos (π * k * j / M))
  have h3 := fold_sum M hM (fun j : ℕ => qW M j * cos (π * k * j / M)) (by
    intro n hn
    simp only [qW, cos_sym M hM _ n hn])
  have h4 := cc_mode M hM k hk
  rw [h3] at h4
  have h5 : ∑ j ∈ range (M + 1), wt M j / 2 * (qW M j * cos (π * k * j / M))
      = (∑ j ∈ range (M + 1), wt M j * (qW M j * cos (π * k * j / M))) / 2 := by
    rw [sum_div]; apply sum_congr rfl; intro j _; ring
  rw [h5, ← h2, wsum, h4]; ring

/-- Clenshaw–Curtis integrates Chebyshev series of at most `N` terms. -/
lemma quad_cheb (N : ℕ) (hN : 0 < N) (c : List ℝ) (hc : c.length ≤ N) :
    ∑ j ∈ range N, (quadwts N).getD j 0 * chebEval c ((chebpts2 N).getD j 0)
      = ∫ x in (-1 : ℝ)..1, chebEval c x := by
  rw [integral_chebEval]
  by_cases h1 : N = 1
  · subst h1
    rcases c with _ | ⟨a, _ | ⟨b, c⟩⟩
    · simp [chebEval]
    · simp [quadwts, chebpts2, chebEval, intT]; ring
    · simp at hc
  · obtain ⟨M, rfl⟩ : ∃ M, N = M + 1 := ⟨N - 1, by omega⟩
    have hM : 0 < M := by omega
    simp only [chebEval, mul_sum]
    rw [sum_comm]
    apply sum_congr rfl
    intro k hk
    rw [← quad_T M hM k (by have := mem_range.mp hk; omega), mul_sum]
    apply sum_congr rfl
    intro j _
    ring

/-- every polynomial of degree `< N` is a Chebyshev series with `N` terms -/
lemma exists_cheb (N : ℕ) (p : ℝ[X]) (hp : p.degree < N) : Rep N p := by
  induction N using Nat.strong_induction_on generalizing p with
  | _ N ih =>
    by_cases h0 : p = 0
    · subst h0; exact Rep.zero N
    · have hd : p.natDegree < N := by
        rw [degree_eq_natDegree h0] at hp; exact_mod_cast hp
      have hX : ∀ m, m < N → Rep N ((X : ℝ[X]) ^ m) := by
        intro m
        induction m with
        | zero => intro h; simpa using Rep.T (M := N) (k := 0) h
        | succ m ihm =>
          intro h
          have hXr : Rep 2 (X : ℝ[X]) := by simpa using Rep.T (M := 2) (k := 1) (by omega)
          have hm' : Rep (m + 1) ((X : ℝ[X]) ^ m) := by
            apply ih (m + 1) h
            rw [degree_X_pow]; exact_mod_cast Nat.lt_succ_self m
          have := Rep.mul hm' hXr (by omega) (by omega)
          have h2 : Rep (m + 2) ((X : ℝ[X]) ^ (m + 1)) := by
            rw [pow_succ]; exact this
          obtain ⟨c, hc, hcp⟩ := h2
          refine ⟨c ++ List.replicate (N - (m + 2)) 0, ?_, ?_⟩
          · simp [hc]; omega
          · rw [← hcp]
            apply chebPoly_congr_getD
            intro k
            rw [getD_append']
            split_ifs with hk
            · rfl
            · rw [getD_replicate', getD_ge' _ _ _ (by omega)]
      rw [p.as_sum_range_C_mul_X_pow]
      apply Rep.sum
      intro i hi
      exact Rep.smul _ (hX i (by have := mem_range.mp hi; omega))

end Funpy.Cheb
