import Verif.Lemmas.ChebSimplify
import Mathlib.Analysis.SpecialFunctions.Trigonometric.Chebyshev.RootsExtrema
import Mathlib.Tactic.NormNum
import Mathlib.Tactic.Linarith

/-!
# C20 – C23: chopping and simplification
-/

namespace Funpy.Props
open Spec Cheb Real Finset

/-! ## C20 -/

/-- C20: for a tolerance in `(0,1)` the cutoff is a legal index or `n` ("not happy"). -/
theorem C20_range (c : List ℝ) (tol : ℝ) (h0 : 0 < tol) (h1 : tol < 1) :
    standardChop c tol ≤ c.length := by
  rcases standardChop_spec c tol h0 h1 with h | ⟨h, _⟩ <;> omega

/-- C20: the plateau scan never falls off the end of its loop, i.e. `plateauPoint` is never read
uninitialised: for every vector of at least two entries. -/
theorem C20_scan_total (env : List ℝ) (tol : ℝ) (h : 2 ≤ env.length) :
    scan env tol env.length (env.length - 1) 1 ≠ .exhausted :=
  scan_ne_exhausted env tol env.length _ 1 (by omega) (by omega)

/-- C20: tolerances at least one chop everything, short vectors are never chopped, and vectors of
zeros (of length at least 17) are chopped to nothing. -/
theorem C20_special (c : List ℝ) (tol : ℝ) :
    (1 ≤ tol → standardChop c tol = 0) ∧
    (tol < 1 → c.length < 17 → standardChop c tol = c.length) ∧
    (tol < 1 → 17 ≤ c.length → (∀ x ∈ c, x = 0) → standardChop c tol = 0) := by
  refine ⟨fun h => ?_, fun h hl => ?_, fun h hl hz => ?_⟩
  · simp [standardChop, standardChopAbs, h]
  · simp only [standardChop, standardChopAbs, List.length_map]
    rw [if_neg (by linarith), if_pos hl]
  · simp only [standardChop, standardChopAbs, List.length_map]
    rw [if_neg (by linarith), if_neg (by omega), if_pos]
    obtain ⟨k, _, hk, he⟩ := envelope_attained (c.map abs) 0 (by simp; omega)
    rw [he, getD_lt' _ _ _ hk, List.getElem_map, hz _ (List.getElem_mem _), abs_zero]

example : standardChop (List.replicate 20 0) (1 / 2) = 0 :=
  (C20_special _ _).2.2 (by norm_num) (by simp) (by intro x hx; exact (List.mem_replicate.mp hx).2)

/-! ## C21 -/

private lemma chop_two (x : ℝ) (hx : 0 < x) (hx1 : x ≤ 1) (tol : ℝ)
    (hsmall : x = 1 / 2000 ∨ x = 1 / 2) (ht : tol = 1 / 10) (s : ℝ) (hs : x ≤ s) :
    standardChop ([s, x] ++ List.replicate 15 0) tol = if x = 1 / 2 then 1 else 0 := by
  have hspos : 0 < s := lt_of_lt_of_le hx hs
  have henv : envelope (([s, x] ++ List.replicate 15 0).map abs)
      = [s, x] ++ List.replicate 15 0 := by
    simp [List.replicate, envelope, abs_of_pos hx, abs_of_pos hspos, hs, hx.le]
  have h01 : ¬ (1 ≤ tol) := by rw [ht]; norm_num
  have hl10 : 0 < log 10 := log_pos (by norm_num)
  have hlt : log tol = -log 10 := by rw [ht, one_div, log_inv]
  have hptol : 0 < tol ^ ((7 : ℝ) / 6) := by rw [ht]; positivity
  have hptol1 : tol ^ ((7 : ℝ) / 6) < 1 := by
    rw [ht]; exact rpow_lt_one (by norm_num) (by norm_num) (by norm_num)
  have hlogp : logb 10 (tol ^ ((7 : ℝ) / 6)) = -(7 / 6) := by
    rw [logb, log_rpow (by rw [ht]; norm_num), hlt]; field_simp
  have hlogt : logb 10 tol = -1 := by rw [logb, hlt]; field_simp
  simp only [standardChop, standardChopAbs]
  rw [if_neg h01, henv]
  rw [if_neg (by simp), if_neg (by simp; exact hspos.ne'),
    normalizeInPlace_eq _ (by simp; exact hspos.ne')]
  rcases hsmall with h | h
  · -- the small entry is below tol: plateau found immediately
    have hne : x ≠ 1 / 2 := by rw [h]; norm_num
    have hr : rFun x tol < 0 := by
      unfold rFun
      have : log x < log tol := log_lt_log hx (by rw [h, ht]; norm_num)
      have h2 : 1 < log x / log tol := by
        rw [lt_div_iff_of_neg (by rw [hlt]; linarith)]; linarith
      linarith
    have hxp : x < tol ^ ((7 : ℝ) / 6) := by
      rw [h, ht]
      calc (1 / 2000 : ℝ) < (1 / 10) ^ (2 : ℝ) := by norm_num
        _ ≤ _ := rpow_le_rpow_of_exponent_ge (by norm_num) (by norm_num) (by norm_num)
    have hscan : scan (([s, x] ++ List.replicate 15 0).set 0 1) tol
        (([s, x] ++ List.replicate 15 0).map abs).length
        ((([s, x] ++ List.replicate 15 0).map abs).length - 1) 1 = .found 0 6 := by
      simp [scan, List.replicate, roundIdx, hr]
    rw [hscan]
    simp only
    rw [if_neg hne]
    simp [chopStep3, List.replicate, List.range_succ, hptol1.le, not_le.mpr hxp, not_le.mpr hptol,
      argmin, linspace0, hlogp, hlogt]
    split_ifs <;> rfl
  · have hxt : tol < x := by rw [h, ht]; norm_num
    have hr : ¬ (rFun x tol < 0) := by
      unfold rFun
      have : log tol < log x := log_lt_log (by rw [ht]; norm_num) hxt
      have h2 : log x / log tol ≤ 1 := by
        rw [div_le_iff_of_neg (by rw [hlt]; linarith)]; linarith
      linarith
    have hxp : tol ^ ((7 : ℝ) / 6) ≤ x := by
      calc tol ^ ((7 : ℝ) / 6) ≤ tol ^ (1 : ℝ) := rpow_le_rpow_of_exponent_ge (by rw [ht]; norm_num)
            (by rw [ht]; norm_num) (by norm_num)
        _ ≤ x := by rw [rpow_one]; exact hxt.le
    have hscan : scan (([s, x] ++ List.replicate 15 0).set 0 1) tol
        (([s, x] ++ List.replicate 15 0).map abs).length
        ((([s, x] ++ List.replicate 15 0).map abs).length - 1) 1 = .found 1 8 := by
      simp [scan, List.replicate, roundIdx, hr, hx.ne']
    have hlogx : -1 < logb 10 x := by
      rw [← hlogt]; exact logb_lt_logb (by norm_num) (by rw [ht]; norm_num) hxt
    rw [hscan, if_pos h]
    simp only
    have e1 : chopStep3 (([s, x] ++ List.replicate 15 0).set 0 1) tol
        (([s, x] ++ List.replicate 15 0).map abs).length 1 8 =
        argmin [0, logb 10 x + 1 * (1 / 3 / 2), -(7 / 6) + 2 * (1 / 3 / 2)] - 1 := by
      simp [chopStep3, List.replicate, List.range_succ, hptol1.le, hxp, not_le.mpr hptol,
        linspace0, hlogp, hlogt, hx.ne']
      norm_num
    rw [e1]
    have h3 : ¬ (logb 10 x + 1 * (1 / 3 / 2) ≤ -(7 / 6) + 2 * (1 / 3 / 2)) := by linarith
    have h4 : ¬ ((0 : ℝ) ≤ -(7 / 6) + 2 * (1 / 3 / 2)) := by norm_num
    simp only [argmin, List.getD_cons_zero, List.getD_cons_succ, h3, h4, if_false]

/-- C21 is false of the code: scaling a coefficient vector by `1/1000` changes the cutoff from `1`
to `0`, so a coefficient of relative size `1/2` is discarded at relative tolerance `1/10`.  Cause:
the in-place normalisation of the envelope divides by its own already overwritten first entry. -/
theorem C21_scale_invariance_fails :
    ∃ (c : List ℝ) (s tol : ℝ), 0 < s ∧ 0 < tol ∧ tol < 1 ∧
      standardChop (c.map (s * ·)) tol ≠ standardChop c tol := by
  refine ⟨[1, 1 / 2] ++ List.replicate 15 0, 1 / 1000, 1 / 10, by norm_num, by norm_num,
    by norm_num, ?_⟩
  have h1 := chop_two (1 / 2) (by norm_num) (by norm_num) (1 / 10) (Or.inr rfl) rfl 1 (by norm_num)
  have h2 := chop_two (1 / 2000) (by norm_num) (by norm_num) (1 / 10) (Or.inl rfl) rfl (1 / 1000)
    (by norm_num)
  have e : (([1, 1 / 2] ++ List.replicate 15 0 : List ℝ)).map ((1 / 1000 : ℝ) * ·)
      = [1 / 1000, 1 / 2000] ++ List.replicate 15 0 := by
    simp [List.replicate]; norm_num
  rw [e, h1, h2]
  norm_num

/-- C21, what the normalisation loop does: it replaces the first entry by one and leaves all others
as they are. -/
theorem C21_normalisation (env : List ℝ) (h : env.getD 0 0 ≠ 0) :
    normalizeInPlace env = env.set 0 1 := normalizeInPlace_eq env h

/-- C21, the part that holds: if the largest coefficient is already one in absolute value, the
normalisation is the documented division of the whole envelope by its first entry.
Missing for the full property: vectors of any other magnitude. -/
theorem C21_normalised_partial (c : List ℝ) (h : (envelope (c.map abs)).getD 0 0 = 1) :
    normalizeInPlace (envelope (c.map abs))
      = (envelope (c.map abs)).map (· / (envelope (c.map abs)).getD 0 0) := by
  rw [normalizeInPlace_eq _ (by rw [h]; norm_num), h]
  simp only [div_one, List.map_id']
  generalize envelope (c.map abs) = e at h
  cases e with
  | nil => rfl
  | cons a l => simp at h; simp [h]

example : (envelope (([1, 1 / 2, -1 / 3] : List ℝ).map abs)).getD 0 0 = 1 := by
  simp [envelope, abs_of_pos]
  norm_num [abs_of_neg]

/-! ## C22 -/

/-- C22: simplification keeps an initial segment of `k` (zero padded) coefficients of every column,
the same `k ∈ [1, n+1]` for all columns, and every discarded coefficient is at most `eps^(1/3)`. -/
theorem C22_prefix (a : Arr ℝ) (hw : a.WF) (eps : ℝ) (h0 : 0 < eps) (h1 : eps < 1) :
    ∃ k : ℕ, 1 ≤ k ∧ k ≤ a.n + 1 ∧ (simplifyCoeffs a eps).n = k ∧
      (simplifyCoeffs a eps).cols.length = a.cols.length ∧
      ∀ j (hj : j < a.cols.length), ∃ d, (simplifyCoeffs a eps).cols[j]? = some d ∧ d.length = k ∧
        (∀ i < k, d.getD i 0 = a.cols[j].getD i 0) ∧
        (∀ i, k ≤ i → |a.cols[j].getD i 0| ≤ eps ^ ((1 : ℝ) / 3)) := by
  refine ⟨keep a eps, (keep_bounds a eps).1, (keep_bounds a eps).2, simplify_n a eps, ?_, ?_⟩
  · rw [simplify_eq_prolong]; simp [prolong, Arr.mapCols]
  · intro j hj
    refine ⟨prolongCol a.cols[j] (keep a eps : ℤ), ?_, ?_, ?_, ?_⟩
    · rw [simplify_eq_prolong]; simp [prolong, Arr.mapCols, hj]
    · rw [prolongCol_length]; omega
    · intro i hi; rw [prolongCol_getD, if_pos (by omega)]
    · intro i hi
      exact keep_dropped a hw eps h0 h1 _ (List.getElem_mem hj) i hi

/-- C22: the change of the function is at most `eps^(1/3)` per discarded coefficient, uniformly on
`[-1,1]`. -/
theorem C22_error (a : Arr ℝ) (hw : a.WF) (eps : ℝ) (h0 : 0 < eps) (h1 : eps < 1) (x : ℝ)
    (hx : |x| ≤ 1) (j : ℕ) (hj : j < a.cols.length) (d : List ℝ)
    (hd : (simplifyCoeffs a eps).cols[j]? = some d) :
    |chebEval a.cols[j] x - chebEval d x|
      ≤ ((a.n - (simplifyCoeffs a eps).n : ℕ) : ℝ) * eps ^ ((1 : ℝ) / 3) := by
  obtain ⟨k, hk1, hk2, hkn, _, hcol⟩ := C22_prefix a hw eps h0 h1
  obtain ⟨d', hd', hlen, hsame, hdrop⟩ := hcol j hj
  rw [hd] at hd'
  obtain rfl := Option.some.inj hd'
  rw [hkn]
  have hcl : a.cols[j].length = a.n := hw _ (List.getElem_mem hj)
  rw [chebEval_eq_of_getD _ (max a.n k) (by omega), chebEval_eq_of_getD d (max a.n k) (by omega),
    ← sum_sub_distrib]
  have hterm : ∀ i ∈ range (max a.n k), |a.cols[j].getD i 0 * (Polynomial.Chebyshev.T ℝ (i : ℤ)).eval x
      - d.getD i 0 * (Polynomial.Chebyshev.T ℝ (i : ℤ)).eval x|
      ≤ if k ≤ i then eps ^ ((1 : ℝ) / 3) else 0 := by
    intro i _
    rw [← sub_mul, abs_mul]
    have hT := Polynomial.Chebyshev.abs_eval_T_real_le_one (i : ℤ) hx
    split_ifs with hi
    · rw [getD_ge' d _ _ (by omega), sub_zero]
      exact (mul_le_of_le_one_right (abs_nonneg _) hT).trans (hdrop i hi)
    · rw [hsame i (by omega), sub_self, abs_zero, zero_mul]
  refine (abs_sum_le_sum_abs _ _).trans ((sum_le_sum hterm).trans ?_)
  rw [← sum_filter, sum_const, nsmul_eq_mul]
  apply mul_le_mul_of_nonneg_right _ (by positivity)
  have : (range (max a.n k)).filter (fun i => k ≤ i) = Ico k (max a.n k) := by
    ext i; simp only [mem_filter, mem_range, mem_Ico]; tauto
  rw [this, Nat.card_Ico]
  exact_mod_cast (by omega)

/-- C22: if as many coefficients are kept as there were, no function value changes. -/
theorem C22_lossless (a : Arr ℝ) (hw : a.WF) (eps : ℝ) (hk : a.n ≤ (simplifyCoeffs a eps).n) (x : ℝ) :
    (simplifyCoeffs a eps).cols.map (fun c => chebEval c x) = a.cols.map fun c => chebEval c x := by
  rw [simplify_n] at hk
  rw [simplify_eq_prolong]
  simp only [prolong, Arr.mapCols, List.map_map]
  apply List.map_congr_left
  intro c hc
  apply chebEval_congr_getD
  intro i
  rw [prolongCol_getD]
  split_ifs with h
  · rfl
  · rw [getD_ge' c _ _ (by rw [hw c hc]; omega)]

/-! ## C23 -/

private lemma chop_ones (eps : ℝ) (h1 : eps < 1) :
    standardChop (List.replicate 10 1 ++ List.replicate 8 0) eps = 18 := by
  have henv : envelope ((List.replicate 10 1 ++ List.replicate 8 0 : List ℝ).map abs)
      = List.replicate 10 1 ++ List.replicate 8 0 := by
    simp [List.replicate, envelope]
  simp only [standardChop, standardChopAbs]
  rw [if_neg (by linarith), henv, if_neg (by simp), if_neg (by simp [List.replicate]),
    normalizeInPlace_eq _ (by simp [List.replicate])]
  have hr : rFun 1 eps = 3 := by simp [rFun]
  have hscan : scan ((List.replicate 10 1 ++ List.replicate 8 0 : List ℝ).set 0 1) eps
      ((List.replicate 10 1 ++ List.replicate 8 0 : List ℝ).map abs).length
      (((List.replicate 10 1 ++ List.replicate 8 0 : List ℝ).map abs).length - 1) 1 = .noPlateau := by
    simp [scan, List.replicate, roundIdx, hr]
    norm_num
  rw [hscan]
  simp

/-- C23 is false of the code: simplifying a function with the ten coefficients `1,…,1` returns
eleven coefficients, for every tolerance below one. -/
theorem C23_lengthens (eps : ℝ) (h1 : eps < 1) :
    (simplifyCoeffs ⟨10, [List.replicate 10 1]⟩ eps).n = 11 := by
  rw [simplify_n]
  have : prolong (⟨10, [List.replicate 10 1]⟩ : Arr ℝ) ((max 17 (roundIdx 10) : ℕ) : ℤ)
      = ⟨18, [List.replicate 10 1 ++ List.replicate 8 0]⟩ := by
    simp [prolong, prolongCol, Arr.mapCols, roundIdx]
  unfold keep
  simp only at this ⊢
  rw [this]
  simp only [List.foldl_cons, List.foldl_nil, chop_ones eps h1]
  norm_num

/-- C23, the part that holds: simplification adds at most one coefficient, and that one is zero.
Missing for the full property: the additional coefficient itself (see `C23_lengthens`). -/
theorem C23_at_most_one_partial (a : Arr ℝ) (hw : a.WF) (eps : ℝ) :
    (simplifyCoeffs a eps).n ≤ a.n + 1 ∧
    ∀ c ∈ (simplifyCoeffs a eps).cols, ∀ i, a.n ≤ i → c.getD i 0 = 0 := by
  refine ⟨by rw [simplify_n]; exact (keep_bounds a eps).2, ?_⟩
  intro c hc i hi
  rw [simplify_eq_prolong] at hc
  obtain ⟨d, hd, rfl⟩ := List.mem_map.mp hc
  rw [prolongCol_getD]
  split_ifs
  · rw [getD_ge' _ _ _ (by rw [hw d hd]; exact hi)]
  · rfl

example : (⟨2, [[1, 2], [0, 1]]⟩ : Arr ℝ).WF ∧ (0 : ℝ) < 1 / 10 ∧ (1 / 10 : ℝ) < 1 := by
  refine ⟨by simp [Arr.WF], by norm_num, by norm_num⟩

end Funpy.Props
