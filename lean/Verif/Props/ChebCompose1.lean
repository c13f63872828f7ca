import Verif.Props.ChebCompose

/-!
# C90: composition at the level of `chebtech`
-/

namespace Funpy.Props
open Spec Cheb Real Finset Mapping

/-- The functions that `compose(f, op)` really samples: `op` applied to the series cut after nine coefficients. -/
noncomputable def cutFuns (φ : ℝ → ℝ) (f : Arr ℝ) : List (ℝ → ℝ) :=
  f.cols.map fun c y => φ (chebEval (c.take 9) y)

lemma eval_prolong9 (c : List ℝ) (n : ℕ) (hn : 9 ≤ n) (y : ℝ) :
    chebEval (prolongCol (prolongCol c 9) n) y = chebEval (c.take 9) y := by
  apply chebEval_congr_getD
  intro k
  rw [prolongCol_getD, prolongCol_getD]
  have : (c.take 9).getD k 0 = if k < 9 then c.getD k 0 else 0 := by
    simp only [List.getD_eq_getElem?_getD, List.getElem?_take]
    split_ifs <;> rfl
  rw [this]
  split_ifs <;> first | rfl | omega

lemma prolong_prolong9 (f : Arr ℝ) (n k : ℕ) (hn : 9 ≤ n) (hk : n ≤ k) :
    prolong (prolong (prolong f 9) n) k = prolong (prolong f 9) k := by
  simp only [prolong, Arr.mapCols, List.map_map]
  congr 1
  apply List.map_congr_left
  intro c _
  simp only [Function.comp]
  apply ext_getD 0
  · rw [prolongCol_length, prolongCol_length]
  · intro l _
    simp only [prolongCol_getD]
    split_ifs <;> first | rfl | omega

lemma oddInner_map_pts (g : ℝ → ℝ) (xs : List ℝ) : oddInner (xs.map g) = (oddInner xs).map g := by
  simp only [oddInner, List.length_map, List.map_map]
  apply List.map_congr_left
  intro i hi
  have hi' := List.mem_range.mp hi
  simp only [Function.comp]
  rw [getD_lt' _ _ _ (by simp; omega), getD_lt' _ _ _ (by omega), List.getElem_map]

lemma values_prolong9 (φ : ℝ → ℝ) (f : Arr ℝ) (n : ℕ) (hn : 9 ≤ n) :
    (polyval (prolong (prolong f 9) n)).cols = f.cols.map fun c => (chebpts2 n).map fun y => chebEval (c.take 9) y := by
  simp only [polyval, prolong, Arr.mapCols, List.map_map]
  apply List.map_congr_left
  intro c _
  simp only [Function.comp]
  have hl : (prolongCol (prolongCol c 9) (n : ℤ)).length = n := by rw [prolongCol_length]; omega
  rw [polyvalCol_eq _ (by intro h; rw [h] at hl; simp at hl; omega), hl]
  apply List.map_congr_left
  intro y _
  exact eval_prolong9 c n hn y

private lemma step_next (φ : ℝ → ℝ) (f : Arr ℝ) (hf : f.cols ≠ []) (ms ml n : ℕ) (hn : 9 ≤ n) :
    composeStep φ ms ml (polyfit (sample (cutFuns φ f) (chebpts2 n))) (sample (cutFuns φ f) (chebpts2 n)) (prolong (prolong f 9) n)
      = if 2 * n - 1 > ml then (sample (cutFuns φ f) (chebpts2 n), prolong (prolong f 9) n, true)
        else (sample (cutFuns φ f) (chebpts2 (2 * n - 1)), prolong (prolong f 9) ((2 * n - 1 : ℕ) : ℤ), false) := by
  have hg : cutFuns φ f ≠ [] := by simpa [cutFuns] using hf
  have hN : (sample (cutFuns φ f) (chebpts2 n)).n = n := by simp [sample, chebpts2_length]
  have hM : (sample (cutFuns φ f) (chebpts2 n)).m ≠ 0 := by simp [sample, Arr.m, hg]
  have hP : (polyfit (sample (cutFuns φ f) (chebpts2 n))).n = n := by simp [polyfit, Arr.mapCols, hN]
  rw [composeStep, if_neg (Nat.mul_ne_zero (by omega) hM), hP]
  simp only
  have h24 := C24_nested_step (cutFuns φ f) hg ms ml n (by omega) ⟨0, []⟩
  rw [nestedStep, if_neg (Nat.mul_ne_zero (by omega) hM), hN] at h24
  simp only at h24
  split_ifs at h24 ⊢ with h
  · rfl
  · rw [prolong_prolong9 f n (2 * n - 1) hn (by omega), values_prolong9 φ f (2 * n - 1) (by omega)]
    simp only [Prod.mk.injEq, and_true, true_and] at h24 ⊢
    rw [← h24]
    congr 1
    congr 1
    simp only [sample, cutFuns, List.map_map]
    apply List.map_congr_left
    intro c _
    simp only [Function.comp_apply, oddInner_map_pts, List.map_map]
    rfl

private lemma loop_from (φ : ℝ → ℝ) (f : Arr ℝ) (hf : f.cols ≠ []) (ms : ℕ) : ∀ (fuel : ℕ) (t : Tech) (n : ℕ), 9 ≤ n →
    t.coeffs = polyfit (sample (cutFuns φ f) (chebpts2 n)) →
    composeLoop φ ms fuel t (sample (cutFuns φ f) (chebpts2 n)) (prolong (prolong f 9) n)
      = (populate .nested (cutFuns φ f) ms fuel t (sample (cutFuns φ f) (chebpts2 n))).map
        fun r => (r.1, prolong (prolong f 9) (r.2.1.n : ℤ), r.2.1, r.2.2)
  | 0, _, _, _, _ => rfl
  | fuel + 1, t, n, hn, ht => by
    have hg : cutFuns φ f ≠ [] := by simpa [cutFuns] using hf
    have hsn : ∀ k, (sample (cutFuns φ f) (chebpts2 k)).n = k := fun k => by simp [sample, chebpts2_length]
    rw [composeLoop, populate, refineStep, ht, step_next φ f hf ms t.maxLength n hn, C24_nested_step _ hg ms t.maxLength n (by omega)]
    by_cases hb : 2 * n - 1 > t.maxLength
    · simp only [if_pos hb, if_true, Option.map_some, hsn]
    · simp only [if_neg hb, Bool.false_eq_true, if_false]
      by_cases hh : (Tech.happy { t with coeffs := polyfit (sample (cutFuns φ f) (chebpts2 (2 * n - 1))) }).1 = true
      · simp only [hh, if_true, Option.map_some, hsn]
      · simp only [hh, if_false]
        exact loop_from φ f hf ms fuel _ (2 * n - 1) (by omega) rfl

lemma firstN_nine : firstN 9 = 9 := by simp [firstN]; decide

/-- The run of the refiner is the run of the ordinary constructor on the truncated function. -/
private lemma loop_eq (φ : ℝ → ℝ) (f : Arr ℝ) (hf : f.cols ≠ []) (fuel : ℕ) (t : Tech) (ht : t.coeffs = ⟨0, []⟩) (hml : 9 ≤ t.maxLength) :
    composeLoop φ 9 fuel t ⟨0, []⟩ f = (populate .nested (cutFuns φ f) 9 fuel t ⟨0, []⟩).map
        fun r => (r.1, prolong (prolong f 9) (r.2.1.n : ℤ), r.2.1, r.2.2) := by
  rcases fuel with _ | fuel
  · rfl
  have hsn : ∀ k, (sample (cutFuns φ f) (chebpts2 k)).n = k := fun k => by simp [sample, chebpts2_length]
  have h9 : prolong f 9 = prolong (prolong f 9) ((9 : ℕ) : ℤ) := by
    simp only [prolong, Arr.mapCols, List.map_map]
    congr 1
    apply List.map_congr_left
    intro c _
    simp only [Function.comp]
    apply ext_getD 0
    · rw [prolongCol_length, prolongCol_length]; rfl
    · intro l _
      simp only [prolongCol_getD]
      split_ifs <;> first | rfl | omega
  have hs1 : composeStep φ 9 t.maxLength ⟨0, []⟩ ⟨0, []⟩ f = (sample (cutFuns φ f) (chebpts2 9), prolong (prolong f 9) ((9 : ℕ) : ℤ), false) := by
    rw [composeStep]
    simp only [Nat.zero_mul, if_true, composeFirst, getN, Arr.m, List.length_nil, firstN_nine]
    have : ¬ (9 > t.maxLength) := by omega
    simp only [this, decide_false, Bool.false_eq_true, if_false, Prod.mk.injEq, and_true]
    constructor
    · have := values_prolong9 φ f 9 le_rfl
      rw [← h9] at this
      simp only [Nat.cast_ofNat]
      rw [this]
      simp only [sample, cutFuns, chebpts2_length, Arr.mk.injEq, true_and, List.map_map]
      apply List.map_congr_left
      intro c _
      simp only [Function.comp_apply, List.map_map]
      rfl
    · exact h9
  have hs2 : refineStep .nested (cutFuns φ f) 9 t.maxLength ⟨0, []⟩ ⟨0, []⟩ = (sample (cutFuns φ f) (chebpts2 9), false) := by
    have : ¬ (9 > t.maxLength) := by omega
    simp [refineStep, nestedStep, resampleStep, getN, Arr.m, firstN_nine, this]
  rw [composeLoop, populate, ht, hs1, hs2]
  simp only [Bool.false_eq_true, if_false]
  by_cases hh : (Tech.happy { t with coeffs := polyfit (sample (cutFuns φ f) (chebpts2 9)) }).1 = true
  · simp only [hh, if_true, Option.map_some, hsn]
  · simp only [hh, if_false]
    exact loop_from φ f hf 9 fuel _ 9 le_rfl rfl

/-- C90: what `compose(f, op)` computes: the adaptive approximation of `op(g(x))`, where `g` is `f` cut after its first
nine coefficients; and afterwards the caller's `f` has been replaced by `g` (padded with zeros to the `N` sample points). -/
theorem C90_truncates (φ : ℝ → ℝ) (t : Tech) (ht : t.Proper) (eps : ℝ) (h0 : 0 < eps) (B : ℝ) (hB1 : 1 ≤ B) (hBe : B * eps < 1)
    (hbd : ∀ c ∈ t.coeffs.cols, ∀ x, |x| ≤ 1 → |φ (chebEval (c.take 9) x)| ≤ B) :
    ∃ h f' N, t.compose φ eps = some (h, f') ∧ h.Proper ∧ h.coeffs.m = t.coeffs.m ∧ 9 ≤ N ∧ N ≤ 1 + 2 ^ 14 ∧
      f'.coeffs.n = N ∧ f'.coeffs.cols = t.coeffs.cols.map (fun c => prolongCol (prolongCol c 9) N) ∧
      (∀ (c : List ℝ) (y : ℝ), chebEval (prolongCol (prolongCol c 9) N) y = chebEval (c.take 9) y) ∧
      ∀ i (hi : i < t.coeffs.cols.length), ∃ d, h.coeffs.cols[i]? = some d ∧
        Chopped ((B * eps) ^ ((1 : ℝ) / 3)) (interp (fun x => φ (chebEval (t.coeffs.cols[i].take 9) x)) N) d := by
  have hf : t.coeffs.cols ≠ [] := by
    intro h; have := ht.m_ne; simp [Arr.m, h] at this
  have hg : cutFuns φ t.coeffs ≠ [] := by simpa [cutFuns] using hf
  have hmin : max 9 (min (1 + 2 ^ 14) 9) = 9 := by norm_num
  obtain ⟨h, _, hp, _, _, _, hm, j, hj, _, hcols, r, hr, hv, hmk⟩ := ofCallable_run (cutFuns φ t.coeffs) hg eps (1 + 2 ^ 14) 9 1
    one_pos h0 (by rw [hmin, firstN_nine]; norm_num) B hB1 hB1 hBe (by
      intro g hg x hx
      obtain ⟨c, hc, rfl⟩ := List.mem_map.mp hg
      exact hbd c hc x hx)
  rw [hmin] at hj hcols hr hv
  set N := sizeSeq .nested 9 j with hN
  have hN9 : 9 ≤ N := by
    have := sizeSeq_mono 9 j
    simp only [sizeSeq, firstN_nine] at this; omega
  have hrn : r.2.1.n = N := by rw [hv]; simp [sample, chebpts2_length]
  refine ⟨h, { t with coeffs := prolong (prolong t.coeffs 9) (N : ℤ) }, N, ?_, hp, by rw [hm]; simp [cutFuns, Arr.m], hN9, hj, ?_, ?_,
    fun c y => eval_prolong9 c N hN9 y, fun i hi => ?_⟩
  · rw [Tech.compose, loop_eq φ t.coeffs hf _ ⟨⟨0, []⟩, eps, 1, 1 + 2 ^ 14, false⟩ rfl (by norm_num),
      show 2 ^ 14 + 2 = 1 + 2 ^ 14 + 1 by norm_num, hr]
    simp only [Option.map_some, Option.bind_some, hmk, hrn]
  · simp [prolong, Arr.mapCols]
  · simp only [prolong, Arr.mapCols, List.map_map]; rfl
  · obtain ⟨d, hd, hch⟩ := hcols i (by simpa [cutFuns] using hi)
    refine ⟨d, hd, ?_⟩
    simpa [cutFuns] using hch

/-- C90 (partial: functions with at most nine coefficients; longer ones are cut and destroyed, see `C90_fails`):
`compose(f, op)` agrees with `op(f(x))` up to the chopping error at its sample points, and everywhere up to that and
`2N+1` times the best polynomial approximation error; `f` still represents the same function afterwards. -/
theorem C90_short_partial (φ : ℝ → ℝ) (t : Tech) (ht : t.Proper) (hn : t.coeffs.n ≤ 9) (eps : ℝ) (h0 : 0 < eps) (B : ℝ)
    (hB1 : 1 ≤ B) (hBe : B * eps < 1) (hbd : ∀ c ∈ t.coeffs.cols, ∀ x, |x| ≤ 1 → |φ (chebEval c x)| ≤ B) :
    ∃ h f' N, t.compose φ eps = some (h, f') ∧ h.Proper ∧ h.coeffs.m = t.coeffs.m ∧ 9 ≤ N ∧ N ≤ 1 + 2 ^ 14 ∧
      f'.coeffs.cols.map (fun c => chebEval c) = t.coeffs.cols.map (fun c => chebEval c) ∧
      ∀ i (hi : i < t.coeffs.cols.length), ∃ d, h.coeffs.cols[i]? = some d ∧
        (∀ x ∈ chebpts2 N, |chebEval d x - φ (chebEval t.coeffs.cols[i] x)| ≤ N * (B * eps) ^ ((1 : ℝ) / 3)) ∧
        ∀ p : Polynomial ℝ, p.natDegree < N → ∀ E, (∀ x, |x| ≤ 1 → |φ (chebEval t.coeffs.cols[i] x) - p.eval x| ≤ E) →
          ∀ x, |x| ≤ 1 → |chebEval d x - φ (chebEval t.coeffs.cols[i] x)| ≤ N * (B * eps) ^ ((1 : ℝ) / 3) + (2 * N + 1) * E := by
  have htake : ∀ c ∈ t.coeffs.cols, c.take 9 = c := by
    intro c hc
    apply List.take_of_length_le
    rw [ht.wf c hc]; exact hn
  obtain ⟨h, f', N, h1, h2, h3, h4, h5, _, h6, h7, h8⟩ := C90_truncates φ t ht eps h0 B hB1 hBe (by
    intro c hc; rw [htake c hc]; exact hbd c hc)
  refine ⟨h, f', N, h1, h2, h3, h4, h5, ?_, fun i hi => ?_⟩
  · rw [h6, List.map_map]
    apply List.map_congr_left
    intro c hc
    funext y
    simp only [Function.comp]
    rw [h7, htake c hc]
  · obtain ⟨d, hd, hch⟩ := h8 i hi
    rw [htake _ (List.getElem_mem hi)] at hch
    exact ⟨d, hd, chopped_near _ N (by omega) _ (by positivity) d hch⟩

/-- C90: `compose(T_16, identity)` is the zero function, and `f` has become the zero function as well. -/
theorem C90_fails (t : Tech) (hc : t.coeffs = ⟨17, [List.replicate 16 0 ++ [1]]⟩) (eps : ℝ) (h0 : 0 < eps) (h1 : eps < 1) :
    (∀ x, chebEval (List.replicate 16 0 ++ [1]) x = (Polynomial.Chebyshev.T ℝ 16).eval x) ∧
    ∃ h f' d c, t.compose (fun y => y) eps = some (h, f') ∧ h.coeffs.cols = [d] ∧ f'.coeffs.cols = [c] ∧
      (∀ x, chebEval d x = 0) ∧ ∀ x, chebEval c x = 0 := by
  have hz : ∀ x, chebEval ((List.replicate 16 0 ++ [1] : List ℝ).take 9) x = 0 := by
    intro x
    have : (List.replicate 16 0 ++ [1] : List ℝ).take 9 = List.replicate 9 0 := by simp [List.replicate]
    rw [this, chebEval_congr_getD _ []]
    · simp [chebEval]
    · intro i; rw [getD_replicate']; simp
  have ht : t.Proper := ⟨by rw [hc]; simp [Arr.WF], by rw [hc]; simp [Arr.m]⟩
  refine ⟨fun x => ?_, ?_⟩
  · rw [chebEval_eq_of_getD _ 17 (by simp), sum_range_succ]
    have : ∑ k ∈ range 16, (List.replicate 16 0 ++ [1] : List ℝ).getD k 0 * (Polynomial.Chebyshev.T ℝ (k : ℤ)).eval x = 0 := by
      apply sum_eq_zero
      intro k hk
      rw [getD_append', if_pos (by simpa using hk), getD_replicate', zero_mul]
    rw [this]
    simp [List.replicate]
  · obtain ⟨h, f', N, e1, e2, e3, e4, e5, _, e6, e7, e8⟩ := C90_truncates (fun y => y) t ht eps h0 1 le_rfl (by linarith) (by
      intro c hc' x _
      rw [hc] at hc'
      simp only [List.mem_singleton] at hc'; subst hc'
      rw [hz]; norm_num)
    obtain ⟨d, hd, hch⟩ := e8 0 (by rw [hc]; simp)
    have ht0 : t.coeffs.cols[0]'(by rw [hc]; simp) = List.replicate 16 0 ++ [1] := by simp [hc]
    have hcols : h.coeffs.cols = [d] := by
      have hl : h.coeffs.cols.length = 1 := by rw [hc] at e3; exact e3
      obtain ⟨a, ha⟩ := List.length_eq_one_iff.mp hl
      rw [ha] at hd ⊢
      simp at hd; rw [hd]
    refine ⟨h, f', d, _, e1, hcols, by rw [e6, hc]; rfl, ?_, fun x => by rw [e7]; exact hz x⟩
    intro x
    rw [ht0] at hch
    have hi : ∀ k, (interp (fun x => chebEval ((List.replicate 16 0 ++ [1] : List ℝ).take 9) x) N).getD k 0 = 0 := by
      intro k
      rw [interp_series [] _ N (by omega) (by simp) (fun x _ => by rw [hz]; simp [chebEval]) k]
      simp
    rw [chebEval_congr_getD d []]
    · simp [chebEval]
    · intro l
      rcases hch l with h | ⟨h, _⟩
      · rw [h, hi]; simp
      · rw [h]; simp

/-- a concrete case of the positive theorem: `exp` of `x/2` -/
example : ∃ h f', Tech.compose Real.exp (1 / 10 ^ 16) ⟨⟨2, [[0, 1 / 2]]⟩, 1 / 10 ^ 16, 1, 2 ^ 14 + 1, true⟩ = some (h, f') := by
  obtain ⟨h, f', _, hh, _⟩ := C90_short_partial Real.exp ⟨⟨2, [[0, 1 / 2]]⟩, 1 / 10 ^ 16, 1, 2 ^ 14 + 1, true⟩
    ⟨by simp [Arr.WF], by simp [Arr.m]⟩ (by norm_num) (1 / 10 ^ 16) (by norm_num) 3 (by norm_num) (by norm_num) (by
      intro c hc x hx
      simp only [List.mem_singleton] at hc; subst hc
      have : chebEval [(0 : ℝ), 1 / 2] x = x / 2 := by
        simp [chebEval, sum_range_succ]; ring
      rw [this, abs_of_pos (exp_pos _)]
      have := (abs_le.mp hx).2
      calc exp (x / 2) ≤ exp 1 := exp_le_exp.mpr (by linarith)
        _ ≤ 3 := by have := Real.exp_one_lt_d9; linarith)
  exact ⟨h, f', hh⟩

end Funpy.Props
