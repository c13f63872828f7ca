import Verif.Lemmas.ChebAdapt
import Verif.Lemmas.ChebInner
import Verif.Props.ChebNorm

/-!
# Near-best approximation by chopped interpolants
-/

namespace Funpy.Props
open Spec Cheb Real Finset Mapping

lemma wt_sum (M : ℕ) (hM : 0 < M) : ∑ n ∈ range (M + 1), wt M n = 2 * M := by
  have := wsum_eq M hM (fun _ => 1)
  simp only [mul_one] at this
  rw [← this, wsum]
  simp
  rw [Nat.cast_sub hM]; push_cast; ring

lemma wt_bounds (M k : ℕ) : 0 ≤ wt M k ∧ wt M k ≤ 2 := by
  unfold wt; split_ifs <;> norm_num

/-- The coefficients depend on the values in a bounded way. -/
lemma polyfitCol_diff (v w : List ℝ) (M : ℕ) (hv : v.length = M + 1) (hw : w.length = M + 1) (hM : 0 < M) (E : ℝ)
    (h : ∀ i, i ≤ M → |v.getD i 0 - w.getD i 0| ≤ E) (k : ℕ) (hk : k ≤ M) :
    |(polyfitCol v).getD k 0 - (polyfitCol w).getD k 0| ≤ 2 * E := by
  have hE : 0 ≤ E := (abs_nonneg _).trans (h 0 (by omega))
  have hM' : (0 : ℝ) < M := by exact_mod_cast hM
  rw [polyfitCol_getD v M hv hM k hk, polyfitCol_getD w M hw hM k hk, dct1_getD' _ M (by simp) hM k hk,
    dct1_getD' _ M (by simp) hM k hk, ← mul_sub, ← sum_sub_distrib, abs_mul]
  have hs : |∑ n ∈ range (M + 1), (wt M n * ((((List.range (M + 1)).map fun i => v.getD (M - i) 0 / (M : ℝ)).getD n 0) * cos (π * k * n / M))
      - wt M n * ((((List.range (M + 1)).map fun i => w.getD (M - i) 0 / (M : ℝ)).getD n 0) * cos (π * k * n / M)))| ≤ 2 * E := by
    refine (abs_sum_le_sum_abs _ _).trans ?_
    have : ∀ n ∈ range (M + 1), |wt M n * ((((List.range (M + 1)).map fun i => v.getD (M - i) 0 / (M : ℝ)).getD n 0) * cos (π * k * n / M))
      - wt M n * ((((List.range (M + 1)).map fun i => w.getD (M - i) 0 / (M : ℝ)).getD n 0) * cos (π * k * n / M))| ≤ wt M n * (E / M) := by
      intro n hn
      have hn' := mem_range.mp hn
      rw [getD_map_range, getD_map_range, if_pos hn', if_pos hn', ← mul_sub, ← sub_mul, ← sub_div, abs_mul, abs_mul, abs_div,
        abs_of_nonneg (wt_bounds M n).1, abs_of_pos hM']
      apply mul_le_mul_of_nonneg_left _ (wt_bounds M n).1
      have h1 := h (M - n) (by omega)
      have h2 : |v.getD (M - n) 0 - w.getD (M - n) 0| / M ≤ E / M := div_le_div_of_nonneg_right h1 hM'.le
      calc _ ≤ |v.getD (M - n) 0 - w.getD (M - n) 0| / M * 1 :=
            mul_le_mul_of_nonneg_left (abs_cos_le_one _) (by positivity)
        _ ≤ _ := by rw [mul_one]; exact h2
    refine (sum_le_sum this).trans ?_
    rw [← sum_mul, wt_sum M hM]
    apply le_of_eq; field_simp
  have h1 : |wt M k / 2| ≤ 1 := by
    have := wt_bounds M k
    rw [abs_of_nonneg (by linarith)]; linarith
  calc _ ≤ 1 * (2 * E) := mul_le_mul h1 hs (abs_nonneg _) (by norm_num)
    _ = _ := one_mul _

/-- A Chebyshev series with coefficients of modulus at most `E`. -/
lemma cheb_diff (c d : List ℝ) (N : ℕ) (hc : c.length ≤ N) (hd : d.length ≤ N) (E : ℝ)
    (h : ∀ k, k < N → |c.getD k 0 - d.getD k 0| ≤ E) (x : ℝ) (hx : |x| ≤ 1) : |chebEval c x - chebEval d x| ≤ N * E := by
  rw [chebEval_eq_of_getD c N hc, chebEval_eq_of_getD d N hd, ← sum_sub_distrib]
  refine (abs_sum_le_sum_abs _ _).trans ?_
  have : ∀ k ∈ range N, |c.getD k 0 * (Polynomial.Chebyshev.T ℝ (k : ℤ)).eval x
      - d.getD k 0 * (Polynomial.Chebyshev.T ℝ (k : ℤ)).eval x| ≤ E := by
    intro k hk
    rw [← sub_mul, abs_mul]
    exact (mul_le_of_le_one_right (abs_nonneg _) (Polynomial.Chebyshev.abs_eval_T_real_le_one (k : ℤ) hx)).trans
      (h k (mem_range.mp hk))
  refine (sum_le_sum this).trans ?_
  simp

/-- Interpolation is near-best. -/
lemma interp_near (f : ℝ → ℝ) (N : ℕ) (hN : 2 ≤ N) (c : List ℝ) (hc : c.length ≤ N) (E : ℝ)
    (h : ∀ x, |x| ≤ 1 → |f x - chebEval c x| ≤ E) (x : ℝ) (hx : |x| ≤ 1) :
    |chebEval (interp f N) x - f x| ≤ (2 * N + 1) * E := by
  have h1 : ∀ k, k < N → |(interp f N).getD k 0 - c.getD k 0| ≤ 2 * E := by
    intro k hk
    rw [← interp_series c (chebEval c) N (by omega) hc (fun _ _ => rfl) k]
    obtain ⟨M, rfl⟩ : ∃ M, N = M + 1 := ⟨N - 1, by omega⟩
    apply polyfitCol_diff _ _ M (by simp [chebpts2_length]) (by simp [chebpts2_length]) (by omega) E _ k (by omega)
    intro i hi
    have hi' : i < (chebpts2 (M + 1)).length := by rw [chebpts2_length]; omega
    rw [getD_lt' _ _ _ (by simpa using hi'), getD_lt' _ _ _ (by simpa using hi'), List.getElem_map, List.getElem_map]
    exact h _ (chebpts2_mem_abs _ hN _ (List.getElem_mem _))
  have h2 := cheb_diff (interp f N) c N (by rw [interp_length]) hc _ h1 x hx
  have h3 := h x hx
  calc |chebEval (interp f N) x - f x| ≤ |chebEval (interp f N) x - chebEval c x| + |chebEval c x - f x| := abs_sub_le _ _ _
    _ ≤ N * (2 * E) + E := by rw [abs_sub_comm (chebEval c x)]; exact add_le_add h2 h3
    _ = _ := by ring

/-- The chopped interpolant of `f` on `N` points is within the chopping error of `f` at the grid points, and within the
chopping error plus `(2N+1)` times the best uniform approximation error everywhere. -/
lemma chopped_near (f : ℝ → ℝ) (N : ℕ) (hN : 2 ≤ N) (δ : ℝ) (h0 : 0 ≤ δ) (d : List ℝ) (hd : Chopped δ (interp f N) d) :
    (∀ x ∈ chebpts2 N, |chebEval d x - f x| ≤ N * δ) ∧
    ∀ p : Polynomial ℝ, p.natDegree < N → ∀ E, (∀ x, |x| ≤ 1 → |f x - p.eval x| ≤ E) →
      ∀ x, |x| ≤ 1 → |chebEval d x - f x| ≤ N * δ + (2 * N + 1) * E := by
  constructor
  · intro x hx
    have := hd.error h0 x (chebpts2_mem_abs N hN x hx)
    rw [interp_length, interp_eval f N (by omega) x hx] at this
    exact this
  · intro p hp E hE x hx
    have hdeg : p.degree < N := lt_of_le_of_lt Polynomial.degree_le_natDegree (by exact_mod_cast hp)
    obtain ⟨c, hc, hcp⟩ := exists_cheb N p hdeg
    have hce : ∀ x, chebEval c x = p.eval x := by
      intro x; rw [chebEval_eq_eval, hcp]
    have h1 := interp_near f N hN c (by omega) E (by intro x hx; rw [hce]; exact hE x hx) x hx
    have h2 := hd.error h0 x hx
    rw [interp_length] at h2
    calc _ ≤ |chebEval d x - chebEval (interp f N) x| + |chebEval (interp f N) x - f x| := abs_sub_le _ _ _
      _ ≤ _ := add_le_add h2 h1

/-- The result of the adaptive constructor, as a statement about values. -/
lemma ofCallable_near (fs : List (ℝ → ℝ)) (hfs : fs ≠ []) (eps : ℝ) (ml : ℕ) (hs : ℝ) (hhs : 0 < hs) (h0 : 0 < eps)
    (hml : 17 ≤ ml) (B : ℝ) (hB1 : 1 ≤ B) (hB : hs ≤ B) (hBe : B * eps < 1) (hbd : ∀ f ∈ fs, ∀ x, |x| ≤ 1 → |f x| ≤ B) :
    ∃ t N, Cheb.ofCallable fs eps ml 17 hs = some t ∧ t.Proper ∧ t.eps = eps ∧ t.coeffs.m = fs.length ∧ 17 ≤ N ∧ N ≤ ml ∧
      ∀ i (hi : i < fs.length), ∃ d, t.coeffs.cols[i]? = some d ∧
        (∀ x ∈ chebpts2 N, |chebEval d x - fs[i] x| ≤ N * (B * eps) ^ ((1 : ℝ) / 3)) ∧
        ∀ p : Polynomial ℝ, p.natDegree < N → ∀ E, (∀ x, |x| ≤ 1 → |fs[i] x - p.eval x| ≤ E) →
          ∀ x, |x| ≤ 1 → |chebEval d x - fs[i] x| ≤ N * (B * eps) ^ ((1 : ℝ) / 3) + (2 * N + 1) * E := by
  have hmin : max 9 (min ml 17) = 17 := by omega
  have h17 : firstN 17 = 17 := by simp [firstN]; decide
  obtain ⟨t, ht, hp, he, _, _, hm, j, hj, _, hcols⟩ := ofCallable_spec_hs fs hfs eps ml 17 hs hhs h0 (by rw [hmin, h17]; exact hml)
    B hB1 hB hBe hbd
  rw [hmin] at hj hcols
  have hN : 17 ≤ sizeSeq .nested 17 j := by
    have := sizeSeq_mono 17 j
    simp only [sizeSeq, h17] at this; omega
  refine ⟨t, _, ht, hp, he, hm, hN, hj, fun i hi => ?_⟩
  obtain ⟨d, hd, hch⟩ := hcols i hi
  exact ⟨d, hd, chopped_near _ _ (by omega) _ (by positivity) d hch⟩

end Funpy.Props
