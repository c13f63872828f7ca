import Verif.Props.ChebCompose1
import Verif.Model.ChebCompose2

/-!
# C90: composition of two functions, `compose(f, op, g)`, at the level of `chebtech`
-/

namespace Funpy.Props
open Spec Cheb Real Finset Mapping

/-- The functions that `compose(f, op, g)` really samples: `op` applied to both series cut after nine coefficients. -/
noncomputable def cutFuns2 (φ : ℝ → ℝ → ℝ) (f g : Arr ℝ) : List (ℝ → ℝ) :=
  List.zipWith (fun c d y => φ (chebEval (c.take 9) y) (chebEval (d.take 9) y)) f.cols g.cols

private lemma entrywise2_eq {γ : Type} (φ : ℝ → ℝ → ℝ) (xs : List γ) (F : List ℝ → γ → ℝ) :
    ∀ (a b : List (List ℝ)), entrywise2 φ (a.map fun c => xs.map (F c)) (b.map fun c => xs.map (F c))
      = (List.zipWith (fun c d y => φ (F c y) (F d y)) a b).map fun h => xs.map h
  | [], _ => by simp [entrywise2]
  | _ :: _, [] => by simp [entrywise2]
  | c :: a, d :: b => by
    have := entrywise2_eq φ xs F a b
    simp only [entrywise2, List.map_cons, List.zipWith_cons_cons] at this ⊢
    rw [this, List.zipWith_map, List.zipWith_self]

private lemma step_next (φ : ℝ → ℝ → ℝ) (f g : Arr ℝ) (hf : cutFuns2 φ f g ≠ []) (ms ml n : ℕ) (hn : 9 ≤ n) :
    compose2Step φ ms ml (polyfit (sample (cutFuns2 φ f g) (chebpts2 n))) (sample (cutFuns2 φ f g) (chebpts2 n))
        (prolong (prolong f 9) n) (prolong (prolong g 9) n)
      = if 2 * n - 1 > ml then (sample (cutFuns2 φ f g) (chebpts2 n), prolong (prolong f 9) n, prolong (prolong g 9) n, true)
        else (sample (cutFuns2 φ f g) (chebpts2 (2 * n - 1)), prolong (prolong f 9) ((2 * n - 1 : ℕ) : ℤ),
          prolong (prolong g 9) ((2 * n - 1 : ℕ) : ℤ), false) := by
  have hN : (sample (cutFuns2 φ f g) (chebpts2 n)).n = n := by simp [sample, chebpts2_length]
  have hM : (sample (cutFuns2 φ f g) (chebpts2 n)).m ≠ 0 := by simp [sample, Arr.m, hf]
  have hP : (polyfit (sample (cutFuns2 φ f g) (chebpts2 n))).n = n := by simp [polyfit, Arr.mapCols, hN]
  rw [compose2Step, if_neg (Nat.mul_ne_zero (by omega) hM), hP]
  simp only
  have h24 := C24_nested_step (cutFuns2 φ f g) hf ms ml n (by omega) ⟨0, []⟩
  rw [nestedStep, if_neg (Nat.mul_ne_zero (by omega) hM), hN] at h24
  simp only at h24
  split_ifs at h24 ⊢ with h
  · rfl
  · rw [prolong_prolong9 f n (2 * n - 1) hn (by omega), values_prolong9 (fun y => y) f (2 * n - 1) (by omega),
      prolong_prolong9 g n (2 * n - 1) hn (by omega), values_prolong9 (fun y => y) g (2 * n - 1) (by omega)]
    simp only [Prod.mk.injEq, and_true, true_and] at h24 ⊢
    rw [← h24]
    congr 1
    congr 1
    simp only [List.map_map]
    have he : ∀ c : List ℝ, (oddInner ∘ fun c => (chebpts2 (2 * n - 1)).map fun y => chebEval (List.take 9 c) y) c
        = (oddInner (chebpts2 (2 * n - 1))).map fun y => chebEval (List.take 9 c) y := by
      intro c; simp only [Function.comp, oddInner_map_pts]
    rw [show (oddInner ∘ fun c => (chebpts2 (2 * n - 1)).map fun y => chebEval (List.take 9 c) y)
      = fun c => (oddInner (chebpts2 (2 * n - 1))).map fun y => chebEval (List.take 9 c) y from funext he,
      entrywise2_eq φ _ (fun c y => chebEval (List.take 9 c) y)]
    rfl

private lemma loop_from (φ : ℝ → ℝ → ℝ) (f g : Arr ℝ) (hf : cutFuns2 φ f g ≠ []) (ms : ℕ) : ∀ (fuel : ℕ) (t : Tech) (n : ℕ), 9 ≤ n →
    t.coeffs = polyfit (sample (cutFuns2 φ f g) (chebpts2 n)) →
    compose2Loop φ ms fuel t (sample (cutFuns2 φ f g) (chebpts2 n)) (prolong (prolong f 9) n) (prolong (prolong g 9) n)
      = (populate .nested (cutFuns2 φ f g) ms fuel t (sample (cutFuns2 φ f g) (chebpts2 n))).map
        fun r => (r.1, prolong (prolong f 9) (r.2.1.n : ℤ), prolong (prolong g 9) (r.2.1.n : ℤ), r.2.1, r.2.2)
  | 0, _, _, _, _ => rfl
  | fuel + 1, t, n, hn, ht => by
    have hsn : ∀ k, (sample (cutFuns2 φ f g) (chebpts2 k)).n = k := fun k => by simp [sample, chebpts2_length]
    rw [compose2Loop, populate, refineStep, ht, step_next φ f g hf ms t.maxLength n hn, C24_nested_step _ hf ms t.maxLength n (by omega)]
    by_cases hb : 2 * n - 1 > t.maxLength
    · simp only [if_pos hb, if_true, Option.map_some, hsn]
    · simp only [if_neg hb, Bool.false_eq_true, if_false]
      by_cases hh : (Tech.happy { t with coeffs := polyfit (sample (cutFuns2 φ f g) (chebpts2 (2 * n - 1))) }).1 = true
      · simp only [hh, if_true, Option.map_some, hsn]
      · simp only [hh, if_false]
        exact loop_from φ f g hf ms fuel _ (2 * n - 1) (by omega) rfl

private lemma prolong9 (f : Arr ℝ) : prolong f 9 = prolong (prolong f 9) ((9 : ℕ) : ℤ) := by
  simp only [prolong, Arr.mapCols, List.map_map]
  congr 1
  apply List.map_congr_left
  intro c _
  simp only [Function.comp]
  apply ext_getD 0
  · rw [prolongCol_length, prolongCol_length]; rfl
  · intro l _
    simp only [prolongCol_getD]
    split_ifs <;> first | rfl | omega

private lemma loop_eq (φ : ℝ → ℝ → ℝ) (f g : Arr ℝ) (hf : cutFuns2 φ f g ≠ []) (fuel : ℕ) (t : Tech) (ht : t.coeffs = ⟨0, []⟩)
    (hml : 9 ≤ t.maxLength) :
    compose2Loop φ 9 fuel t ⟨0, []⟩ f g = (populate .nested (cutFuns2 φ f g) 9 fuel t ⟨0, []⟩).map
        fun r => (r.1, prolong (prolong f 9) (r.2.1.n : ℤ), prolong (prolong g 9) (r.2.1.n : ℤ), r.2.1, r.2.2) := by
  rcases fuel with _ | fuel
  · rfl
  have hsn : ∀ k, (sample (cutFuns2 φ f g) (chebpts2 k)).n = k := fun k => by simp [sample, chebpts2_length]
  have hs1 : compose2Step φ 9 t.maxLength ⟨0, []⟩ ⟨0, []⟩ f g
      = (sample (cutFuns2 φ f g) (chebpts2 9), prolong (prolong f 9) ((9 : ℕ) : ℤ), prolong (prolong g 9) ((9 : ℕ) : ℤ), false) := by
    rw [compose2Step]
    simp only [Nat.zero_mul, if_true, compose2First, getN, Arr.m, List.length_nil, firstN_nine]
    have : ¬ (9 > t.maxLength) := by omega
    simp only [this, decide_false, Bool.false_eq_true, if_false, Prod.mk.injEq, and_true]
    refine ⟨?_, prolong9 f, prolong9 g⟩
    have h1 := values_prolong9 (fun y => y) f 9 le_rfl
    have h2 := values_prolong9 (fun y => y) g 9 le_rfl
    rw [← prolong9] at h1 h2
    simp only [Nat.cast_ofNat]
    rw [h1, h2, entrywise2_eq φ _ (fun c y => chebEval (List.take 9 c) y)]
    simp only [sample, cutFuns2, chebpts2_length]
  have hs2 : refineStep .nested (cutFuns2 φ f g) 9 t.maxLength ⟨0, []⟩ ⟨0, []⟩ = (sample (cutFuns2 φ f g) (chebpts2 9), false) := by
    have : ¬ (9 > t.maxLength) := by omega
    simp [refineStep, nestedStep, resampleStep, getN, Arr.m, firstN_nine, this]
  rw [compose2Loop, populate, ht, hs1, hs2]
  simp only [Bool.false_eq_true, if_false]
  by_cases hh : (Tech.happy { t with coeffs := polyfit (sample (cutFuns2 φ f g) (chebpts2 9)) }).1 = true
  · simp only [hh, if_true, Option.map_some, hsn]
  · simp only [hh, if_false]
    exact loop_from φ f g hf 9 fuel _ 9 le_rfl rfl

/-- C90: what `compose(f, op, g)` computes: the adaptive approximation of `op(f̂(x), ĝ(x))`, where `f̂` and `ĝ` are `f`
and `g` cut after their first nine coefficients; and afterwards the caller's `f` and `g` have been replaced by `f̂` and
`ĝ` (padded with zeros to the `N` sample points). -/
theorem C90_two_truncates (φ : ℝ → ℝ → ℝ) (t s : Tech) (ht : t.Proper) (hm : s.coeffs.m = t.coeffs.m) (eps : ℝ) (h0 : 0 < eps)
    (B : ℝ) (hB1 : 1 ≤ B) (hBe : B * eps < 1)
    (hbd : ∀ i (hi : i < t.coeffs.cols.length) (hi' : i < s.coeffs.cols.length), ∀ x, |x| ≤ 1 →
      |φ (chebEval (t.coeffs.cols[i].take 9) x) (chebEval (s.coeffs.cols[i].take 9) x)| ≤ B) :
    ∃ h t' s' N, t.compose2 φ eps s = some (h, t', s') ∧ h.Proper ∧ h.coeffs.m = t.coeffs.m ∧ 9 ≤ N ∧ N ≤ 1 + 2 ^ 14 ∧
      t'.coeffs.n = N ∧ t'.coeffs.cols = t.coeffs.cols.map (fun c => prolongCol (prolongCol c 9) N) ∧
      s'.coeffs.n = N ∧ s'.coeffs.cols = s.coeffs.cols.map (fun c => prolongCol (prolongCol c 9) N) ∧
      (∀ (c : List ℝ) (y : ℝ), chebEval (prolongCol (prolongCol c 9) N) y = chebEval (c.take 9) y) ∧
      ∀ i (hi : i < t.coeffs.cols.length) (hi' : i < s.coeffs.cols.length), ∃ d, h.coeffs.cols[i]? = some d ∧
        Chopped ((B * eps) ^ ((1 : ℝ) / 3))
          (interp (fun x => φ (chebEval (t.coeffs.cols[i].take 9) x) (chebEval (s.coeffs.cols[i].take 9) x)) N) d := by
  have hlen : s.coeffs.cols.length = t.coeffs.cols.length := hm
  have hl0 : t.coeffs.cols.length ≠ 0 := ht.m_ne
  have hcl : (cutFuns2 φ t.coeffs s.coeffs).length = t.coeffs.cols.length := by
    simp [cutFuns2, hlen]
  have hg : cutFuns2 φ t.coeffs s.coeffs ≠ [] := by
    intro h; rw [h] at hcl; exact hl0 hcl.symm
  have hmin : max 9 (min (1 + 2 ^ 14) 9) = 9 := by norm_num
  obtain ⟨h, _, hp, _, _, _, hmm, j, hj, _, hcols, r, hr, hv, hmk⟩ := ofCallable_run (cutFuns2 φ t.coeffs s.coeffs) hg eps
    (1 + 2 ^ 14) 9 1 one_pos h0 (by rw [hmin, firstN_nine]; norm_num) B hB1 hB1 hBe (by
      intro g hg x hx
      obtain ⟨i, hi, rfl⟩ := List.getElem_of_mem hg
      have h1 : i < t.coeffs.cols.length := by rw [← hcl]; exact hi
      have h2 : i < s.coeffs.cols.length := by omega
      have e : (cutFuns2 φ t.coeffs s.coeffs)[i] = fun y => φ (chebEval (t.coeffs.cols[i].take 9) y)
          (chebEval (s.coeffs.cols[i].take 9) y) := by simp [cutFuns2]
      rw [e]
      exact hbd i h1 h2 x hx)
  rw [hmin] at hj hcols hr hv
  set N := sizeSeq .nested 9 j with hN
  have hN9 : 9 ≤ N := by
    have := sizeSeq_mono 9 j
    simp only [sizeSeq, firstN_nine] at this; omega
  have hrn : r.2.1.n = N := by rw [hv]; simp [sample, chebpts2_length]
  refine ⟨h, { t with coeffs := prolong (prolong t.coeffs 9) (N : ℤ) }, { s with coeffs := prolong (prolong s.coeffs 9) (N : ℤ) }, N,
    ?_, hp, by rw [hmm]; exact hcl, hN9, hj, ?_, ?_, ?_, ?_, fun c y => eval_prolong9 c N hN9 y, fun i hi hi' => ?_⟩
  · rw [Tech.compose2, loop_eq φ t.coeffs s.coeffs hg _ ⟨⟨0, []⟩, eps, 1, 1 + 2 ^ 14, false⟩ rfl (by norm_num),
      show 2 ^ 14 + 2 = 1 + 2 ^ 14 + 1 by norm_num, hr]
    simp only [Option.map_some, Option.bind_some, hmk, hrn]
  · simp [prolong, Arr.mapCols]
  · simp only [prolong, Arr.mapCols, List.map_map]; rfl
  · simp [prolong, Arr.mapCols]
  · simp only [prolong, Arr.mapCols, List.map_map]; rfl
  · obtain ⟨d, hd, hch⟩ := hcols i (by rw [hcl]; exact hi)
    refine ⟨d, hd, ?_⟩
    simpa [cutFuns2] using hch

/-- C90 (partial: functions with at most nine coefficients; longer ones are cut and destroyed, see `C90_two_fails`):
`compose(f, op, g)` agrees with `op(f(x), g(x))` up to the chopping error at its sample points, and everywhere up to that
and `2N+1` times the best polynomial approximation error; `f` and `g` still represent the same functions afterwards. -/
theorem C90_two_short_partial (φ : ℝ → ℝ → ℝ) (t s : Tech) (ht : t.Proper) (hs : s.Proper) (hm : s.coeffs.m = t.coeffs.m)
    (hn : t.coeffs.n ≤ 9) (hn' : s.coeffs.n ≤ 9) (eps : ℝ) (h0 : 0 < eps) (B : ℝ) (hB1 : 1 ≤ B) (hBe : B * eps < 1)
    (hbd : ∀ i (hi : i < t.coeffs.cols.length) (hi' : i < s.coeffs.cols.length), ∀ x, |x| ≤ 1 →
      |φ (chebEval t.coeffs.cols[i] x) (chebEval s.coeffs.cols[i] x)| ≤ B) :
    ∃ h t' s' N, t.compose2 φ eps s = some (h, t', s') ∧ h.Proper ∧ h.coeffs.m = t.coeffs.m ∧ 9 ≤ N ∧ N ≤ 1 + 2 ^ 14 ∧
      t'.coeffs.cols.map (fun c => chebEval c) = t.coeffs.cols.map (fun c => chebEval c) ∧
      s'.coeffs.cols.map (fun c => chebEval c) = s.coeffs.cols.map (fun c => chebEval c) ∧
      ∀ i (hi : i < t.coeffs.cols.length) (hi' : i < s.coeffs.cols.length), ∃ d, h.coeffs.cols[i]? = some d ∧
        (∀ x ∈ chebpts2 N, |chebEval d x - φ (chebEval t.coeffs.cols[i] x) (chebEval s.coeffs.cols[i] x)|
          ≤ N * (B * eps) ^ ((1 : ℝ) / 3)) ∧
        ∀ p : Polynomial ℝ, p.natDegree < N → ∀ E,
          (∀ x, |x| ≤ 1 → |φ (chebEval t.coeffs.cols[i] x) (chebEval s.coeffs.cols[i] x) - p.eval x| ≤ E) →
          ∀ x, |x| ≤ 1 → |chebEval d x - φ (chebEval t.coeffs.cols[i] x) (chebEval s.coeffs.cols[i] x)|
            ≤ N * (B * eps) ^ ((1 : ℝ) / 3) + (2 * N + 1) * E := by
  have htake : ∀ c ∈ t.coeffs.cols, c.take 9 = c := fun c hc => List.take_of_length_le (by rw [ht.wf c hc]; exact hn)
  have hstake : ∀ c ∈ s.coeffs.cols, c.take 9 = c := fun c hc => List.take_of_length_le (by rw [hs.wf c hc]; exact hn')
  obtain ⟨h, t', s', N, h1, h2, h3, h4, h5, _, h6, _, h6', h7, h8⟩ := C90_two_truncates φ t s ht hm eps h0 B hB1 hBe (by
    intro i hi hi'
    rw [htake _ (List.getElem_mem hi), hstake _ (List.getElem_mem hi')]; exact hbd i hi hi')
  refine ⟨h, t', s', N, h1, h2, h3, h4, h5, ?_, ?_, fun i hi hi' => ?_⟩
  · rw [h6, List.map_map]
    apply List.map_congr_left
    intro c hc
    funext y
    simp only [Function.comp]
    rw [h7, htake c hc]
  · rw [h6', List.map_map]
    apply List.map_congr_left
    intro c hc
    funext y
    simp only [Function.comp]
    rw [h7, hstake c hc]
  · obtain ⟨d, hd, hch⟩ := h8 i hi hi'
    rw [htake _ (List.getElem_mem hi), hstake _ (List.getElem_mem hi')] at hch
    exact ⟨d, hd, chopped_near _ N (by omega) _ (by positivity) d hch⟩

/-- C90: `compose(T_16, add, g)` forgets the first argument: the result does not change if `T_16` is replaced by the
zero function, and afterwards the caller's `T_16` is the zero function. -/
theorem C90_two_fails (t s : Tech) (hc : t.coeffs = ⟨17, [List.replicate 16 0 ++ [1]]⟩) (hsc : s.coeffs = ⟨1, [[1]]⟩) (eps : ℝ)
    (h0 : 0 < eps) (h1 : eps < 1) :
    (∀ x, chebEval (List.replicate 16 0 ++ [1]) x = (Polynomial.Chebyshev.T ℝ 16).eval x) ∧
    ∃ h t' s' d c, t.compose2 (fun y z => y + z) eps s = some (h, t', s') ∧ h.coeffs.cols = [d] ∧ t'.coeffs.cols = [c] ∧
      (∀ x, |chebEval d x - 1| ≤ eps ^ ((1 : ℝ) / 3)) ∧ ∀ x, chebEval c x = 0 := by
  have hz : ∀ x, chebEval ((List.replicate 16 0 ++ [1] : List ℝ).take 9) x = 0 := by
    intro x
    have : (List.replicate 16 0 ++ [1] : List ℝ).take 9 = List.replicate 9 0 := by simp [List.replicate]
    rw [this, chebEval_congr_getD _ []]
    · simp [chebEval]
    · intro i; rw [getD_replicate']; simp
  have h1' : ∀ x, chebEval (([1] : List ℝ).take 9) x = 1 := by
    intro x; simp [chebEval]
  have ht : t.Proper := ⟨by rw [hc]; simp [Arr.WF], by rw [hc]; simp [Arr.m]⟩
  refine ⟨(C90_fails t hc eps h0 h1).1, ?_⟩
  obtain ⟨h, t', s', N, e1, e2, e3, e4, e5, _, e6, _, e6', e7, e8⟩ := C90_two_truncates (fun y z => y + z) t s ht
    (by rw [hc, hsc]; simp [Arr.m]) eps h0 1 le_rfl (by linarith) (by
      intro i hi hi' x _
      have hi0 : i = 0 := by rw [hc] at hi; simp at hi; exact hi
      subst hi0
      have a1 : t.coeffs.cols[0] = List.replicate 16 0 ++ [1] := by simp [hc]
      have a2 : s.coeffs.cols[0] = [1] := by simp [hsc]
      rw [a1, a2, hz, h1']; norm_num)
  have hi : 0 < t.coeffs.cols.length := by rw [hc]; simp
  have hi' : 0 < s.coeffs.cols.length := by rw [hsc]; simp
  obtain ⟨d, hd, hch⟩ := e8 0 hi hi'
  have ht0 : t.coeffs.cols[0] = List.replicate 16 0 ++ [1] := by simp [hc]
  have hs0 : s.coeffs.cols[0] = [1] := by simp [hsc]
  have hcols : h.coeffs.cols = [d] := by
    have hl : h.coeffs.cols.length = 1 := by rw [hc] at e3; exact e3
    obtain ⟨a, ha⟩ := List.length_eq_one_iff.mp hl
    rw [ha] at hd ⊢
    simp at hd; rw [hd]
  refine ⟨h, t', s', d, _, e1, hcols, by rw [e6, hc]; rfl, ?_, fun x => by rw [e7]; exact hz x⟩
  intro x
  rw [ht0, hs0] at hch
  have hi : ∀ k, (interp (fun x => chebEval ((List.replicate 16 0 ++ [1] : List ℝ).take 9) x
      + chebEval (([1] : List ℝ).take 9) x) N).getD k 0 = ([1] : List ℝ).getD k 0 := by
    intro k
    rw [interp_series [1] _ N (by omega) (by simp; omega) (fun x _ => by rw [hz, h1', zero_add]; simp [chebEval]) k]
  have hd0 : ∀ l, 1 ≤ l → d.getD l 0 = 0 := by
    intro l hl
    have hq : ([1] : List ℝ).getD l 0 = 0 := getD_ge' _ _ _ (by simpa using hl)
    rcases hch l with h | ⟨h, _⟩
    · rw [h, hi, hq]
    · exact h
  have hev : chebEval d x = d.getD 0 0 := by
    rw [chebEval_congr_getD d [d.getD 0 0]]
    · simp [chebEval]
    · intro l
      rcases l with _ | l
      · simp
      · rw [hd0 (l + 1) (by omega), getD_ge' _ _ _ (by simp)]
  rw [hev]
  rcases hch 0 with h | ⟨h, hb⟩
  · rw [h, hi]; simp; positivity
  · rw [hi] at hb
    rw [h]
    simp only [one_mul] at hb
    simpa using hb

/-- a concrete case of the positive theorem: the maximum of `x/2` and `1/4` -/
example : ∃ h t' s', Tech.compose2 max (1 / 10 ^ 16) ⟨⟨2, [[0, 1 / 2]]⟩, 1 / 10 ^ 16, 1, 2 ^ 14 + 1, true⟩
    ⟨⟨1, [[1 / 4]]⟩, 1 / 10 ^ 16, 1, 2 ^ 14 + 1, true⟩ = some (h, t', s') := by
  obtain ⟨h, t', s', _, hh, _⟩ := C90_two_short_partial max ⟨⟨2, [[0, 1 / 2]]⟩, 1 / 10 ^ 16, 1, 2 ^ 14 + 1, true⟩
    ⟨⟨1, [[1 / 4]]⟩, 1 / 10 ^ 16, 1, 2 ^ 14 + 1, true⟩
    ⟨by simp [Arr.WF], by simp [Arr.m]⟩ ⟨by simp [Arr.WF], by simp [Arr.m]⟩ (by simp [Arr.m]) (by norm_num) (by norm_num)
    (1 / 10 ^ 16) (by norm_num) 3 (by norm_num) (by norm_num) (by
      intro i hi hi' x hx
      simp only [List.length_singleton, Nat.lt_one_iff] at hi; subst hi
      have h1 : chebEval [(0 : ℝ), 1 / 2] x = x / 2 := by simp [chebEval, sum_range_succ]; ring
      have h2 : chebEval [(1 / 4 : ℝ)] x = 1 / 4 := by simp [chebEval]
      simp only [List.getElem_cons_zero, h1, h2]
      have := abs_le.mp hx
      rw [abs_le]
      constructor
      · have := le_max_right (x / 2) (1 / 4 : ℝ); linarith
      · exact max_le (by linarith) (by norm_num))
  exact ⟨h, t', s', hh⟩

/-! ## C89: `compose(f, op, g)` of `Fun` objects -/

/-- C89: what `compose(f, op, g)` computes for functions whose domains contain `[-1,1]`: an approximation of
`op(f(y), g(y))` with `y = bwd(x)`, the position of `x` relative to the domain of `f`, instead of `op(f(x), g(x))`. -/
theorem C89_two_shifted (φ : ℝ → ℝ → ℝ) (f g : ChebFun) (hf : f.onefun.Proper) (hg : g.onefun.Proper)
    (hm : g.onefun.coeffs.m = f.onefun.coeffs.m) (hd : f.dom.e0 < f.dom.e1) (hl : f.dom.e0 ≤ -1) (hr : 1 ≤ f.dom.e1)
    (hd' : g.dom.e0 < g.dom.e1) (hl' : g.dom.e0 ≤ -1) (hr' : 1 ≤ g.dom.e1)
    (eps : ℝ) (h0 : 0 < eps) (B : ℝ) (hB1 : 1 ≤ B) (hB : max |f.dom.e0| |f.dom.e1| ≤ B) (hBe : B * eps < 1)
    (hbd : ∀ i (hi : i < f.onefun.coeffs.cols.length) (hi' : i < g.onefun.coeffs.cols.length), ∀ y, |y| ≤ 1 →
      |φ (chebEval f.onefun.coeffs.cols[i] (bwd f.dom y)) (chebEval g.onefun.coeffs.cols[i] (bwd g.dom y))| ≤ B) :
    ∃ h N, f.compose2 φ eps g = some h ∧ h.dom = f.dom ∧ h.onefun.Proper ∧ h.onefun.coeffs.m = f.onefun.coeffs.m ∧ 17 ≤ N ∧
      N ≤ 1 + 2 ^ 14 ∧
      ∀ i (hi : i < f.onefun.coeffs.cols.length) (hi' : i < g.onefun.coeffs.cols.length), ∃ d, h.onefun.coeffs.cols[i]? = some d ∧
        ∀ p : Polynomial ℝ, p.natDegree < N → ∀ E,
          (∀ y, |y| ≤ 1 → |φ (chebEval f.onefun.coeffs.cols[i] (bwd f.dom y)) (chebEval g.onefun.coeffs.cols[i] (bwd g.dom y))
            - p.eval y| ≤ E) →
          ∀ x ∈ Set.Icc f.dom.e0 f.dom.e1,
            |chebEval d (bwd f.dom x) - φ (chebEval f.onefun.coeffs.cols[i] (bwd f.dom (bwd f.dom x)))
              (chebEval g.onefun.coeffs.cols[i] (bwd g.dom (bwd f.dom x)))|
            ≤ N * (B * eps) ^ ((1 : ℝ) / 3) + (2 * N + 1) * E := by
  obtain ⟨v, hv⟩ := (compose_guard f.dom hd).mpr ⟨hl, hr⟩
  obtain ⟨w, hw⟩ := (compose_guard g.dom hd').mpr ⟨hl', hr'⟩
  have hlen : g.onefun.coeffs.cols.length = f.onefun.coeffs.cols.length := hm
  have hl0 : f.onefun.coeffs.cols.length ≠ 0 := hf.m_ne
  set L := List.zipWith (fun (c d : List ℝ) (y : ℝ) => φ (chebEval c (bwd f.dom y)) (chebEval d (bwd g.dom y)))
    f.onefun.coeffs.cols g.onefun.coeffs.cols with hL
  have hLl : L.length = f.onefun.coeffs.cols.length := by simp [hL, hlen]
  have hfn : List.zipWith (fun (c d : List ℝ) (y : ℝ) => φ (clenshawScalar (bwd f.dom y) c) (clenshawScalar (bwd g.dom y) d))
      f.onefun.coeffs.cols g.onefun.coeffs.cols = L := by
    apply List.ext_getElem
    · rw [hLl]; simp [hlen]
    · intro i h1 h2
      have h3 : i < f.onefun.coeffs.cols.length := by rw [← hLl]; exact h2
      have h4 : i < g.onefun.coeffs.cols.length := by omega
      simp only [hL, List.getElem_zipWith]
      funext y
      rw [clenshaw_cheb _ _ (hf.col_ne (List.getElem_mem h3)), clenshaw_cheb _ _ (hg.col_ne (List.getElem_mem h4))]
  have hne : L ≠ [] := by intro h; rw [h] at hLl; exact hl0 hLl.symm
  obtain ⟨t, N, ht, hp, he, hmm, hN, hN', hcols⟩ := ofCallable_near _ hne eps (1 + 2 ^ 14) _ (ends_pos f.dom hd) h0 (by norm_num) B hB1 hB hBe (by
      intro q hq x hx
      obtain ⟨i, hi, rfl⟩ := List.getElem_of_mem hq
      have h3 : i < f.onefun.coeffs.cols.length := by rw [← hLl]; exact hi
      have h4 : i < g.onefun.coeffs.cols.length := by omega
      have e : L[i] = fun y => φ (chebEval f.onefun.coeffs.cols[i] (bwd f.dom y)) (chebEval g.onefun.coeffs.cols[i] (bwd g.dom y)) := by
        simp [hL]
      rw [e]
      exact hbd i h3 h4 x hx)
  refine ⟨⟨f.dom, t⟩, N, by rw [ChebFun.compose2, hv, Option.bind_some, hw, Option.bind_some, hfn, ht]; rfl, rfl, hp, by rw [hmm]; exact hLl,
    hN, hN', fun i hi hi' => ?_⟩
  obtain ⟨d, hd1, _, hbest⟩ := hcols i (by rw [hLl]; exact hi)
  have e : ∀ h : i < L.length, L[i]
      = fun y => φ (chebEval f.onefun.coeffs.cols[i] (bwd f.dom y)) (chebEval g.onefun.coeffs.cols[i] (bwd g.dom y)) := by
    intro h; simp [hL]
  rw [e] at hbest
  exact ⟨d, hd1, fun p hp E hE x hx => hbest p hp E hE (bwd f.dom x) (bwd_mem f.dom hd x hx).1⟩

/-- C89 (partial: functions on `[-1,1]` only): `compose(f, op, g)` is the pointwise composition, up to the chopping error
and `2N+1` times the best polynomial approximation error. -/
theorem C89_two_unit_partial (φ : ℝ → ℝ → ℝ) (f g : ChebFun) (hf : f.onefun.Proper) (hg : g.onefun.Proper)
    (hm : g.onefun.coeffs.m = f.onefun.coeffs.m) (hd : f.dom = ⟨-1, 1⟩) (hd' : g.dom = ⟨-1, 1⟩)
    (eps : ℝ) (h0 : 0 < eps) (B : ℝ) (hB1 : 1 ≤ B) (hBe : B * eps < 1)
    (hbd : ∀ i (hi : i < f.onefun.coeffs.cols.length) (hi' : i < g.onefun.coeffs.cols.length), ∀ y, |y| ≤ 1 →
      |φ (chebEval f.onefun.coeffs.cols[i] y) (chebEval g.onefun.coeffs.cols[i] y)| ≤ B) :
    ∃ h N, f.compose2 φ eps g = some h ∧ h.dom = f.dom ∧ h.onefun.Proper ∧ h.onefun.coeffs.m = f.onefun.coeffs.m ∧ 17 ≤ N ∧
      N ≤ 1 + 2 ^ 14 ∧
      ∀ i (hi : i < f.onefun.coeffs.cols.length) (hi' : i < g.onefun.coeffs.cols.length), ∃ d, h.onefun.coeffs.cols[i]? = some d ∧
        ∀ p : Polynomial ℝ, p.natDegree < N → ∀ E,
          (∀ x, |x| ≤ 1 → |φ (chebEval f.onefun.coeffs.cols[i] x) (chebEval g.onefun.coeffs.cols[i] x) - p.eval x| ≤ E) →
          ∀ x, |x| ≤ 1 → |chebEval d x - φ (chebEval f.onefun.coeffs.cols[i] x) (chebEval g.onefun.coeffs.cols[i] x)|
            ≤ N * (B * eps) ^ ((1 : ℝ) / 3) + (2 * N + 1) * E := by
  have hb : ∀ x, bwd f.dom x = x := by intro x; rw [hd]; simp only [bwd, Mapping.diff]; ring
  have hb' : ∀ x, bwd g.dom x = x := by intro x; rw [hd']; simp only [bwd, Mapping.diff]; ring
  obtain ⟨h, N, h1, h2, h3, h4, h5, h6, h7⟩ := C89_two_shifted φ f g hf hg hm (by rw [hd]; norm_num) (by rw [hd]) (by rw [hd])
    (by rw [hd']; norm_num) (by rw [hd']) (by rw [hd']) eps h0 B hB1
    (by rw [hd]; norm_num; exact hB1) hBe (by intro i hi hi' y hy; rw [hb, hb']; exact hbd i hi hi' y hy)
  refine ⟨h, N, h1, h2, h3, h4, h5, h6, fun i hi hi' => ?_⟩
  obtain ⟨d, hd1, hd2⟩ := h7 i hi hi'
  refine ⟨d, hd1, fun p hp E hE x hx => ?_⟩
  have := hd2 p hp E (by intro y hy; rw [hb, hb']; exact hE y hy) x (by rw [hd]; exact abs_le.mp hx)
  rwa [hb, hb, hb'] at this

/-- C89: `compose(f, op, g)` raises whenever the domain of `f` or of `g` does not contain `[-1,1]`. -/
theorem C89_two_raises_fails (φ : ℝ → ℝ → ℝ) (f g : ChebFun) (hd : f.dom.e0 < f.dom.e1) (hd' : g.dom.e0 < g.dom.e1)
    (h : -1 < f.dom.e0 ∨ f.dom.e1 < 1 ∨ -1 < g.dom.e0 ∨ g.dom.e1 < 1) (eps : ℝ) : f.compose2 φ eps g = none := by
  have key : ∀ e : Ends, e.e0 < e.e1 → (-1 < e.e0 ∨ e.e1 < 1) → funCall e (fun z => z) (chebpts2 17) = none := by
    intro e he h
    rcases hc : funCall e (fun z => z) (chebpts2 17) with _ | v
    · rfl
    · have := (compose_guard e he).mp ⟨v, hc⟩
      rcases h with h | h
      · linarith [this.1]
      · linarith [this.2]
  rw [ChebFun.compose2]
  rcases h with h | h | h | h
  · rw [key f.dom hd (.inl h)]; rfl
  · rw [key f.dom hd (.inr h)]; rfl
  · rw [key g.dom hd' (.inl h)]; cases funCall f.dom (fun z => z) (chebpts2 17) <;> rfl
  · rw [key g.dom hd' (.inr h)]; cases funCall f.dom (fun z => z) (chebpts2 17) <;> rfl

end Funpy.Props
