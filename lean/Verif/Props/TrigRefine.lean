import Verif.Lemmas.TrigRefine
import Verif.Props.TrigArith

/-!
# C109: adaptive construction of periodic functions; C63: error of `simplify`
-/

namespace Funpy.Props
open Spec Trig Finset Complex ComplexConjugate

/-! ## C63: what is dropped -/

/-- C63: every pair of modes dropped by `simplify` from a happy object is at most the cube root of the tolerance, and
the function changes by at most that much per dropped pair, uniformly. -/
theorem C63_error (t : Tech) (hp : t.Proper) (hh : t.ishappy = true) (h0 : 0 < t.eps) (h1 : t.eps < 1) (i : ℕ)
    (hi : i < t.cols.length) :
    ∃ k, t.simplify.n = 2 * k - 1 ∧
      (∀ w : ℕ, k ≤ w → ‖fourier (trigEval (t.cols.getD i [])) w‖ + ‖fourier (trigEval (t.cols.getD i [])) (-w)‖
        ≤ t.eps ^ ((1 : ℝ) / 3)) ∧
      ∀ x, ‖trigEval (t.simplify.cols.getD i []) x - trigEval (t.cols.getD i []) x‖
        ≤ ((t.n / 2 + 1 - k : ℕ) : ℝ) * t.eps ^ ((1 : ℝ) / 3) := by
  have hs : t.simplify = let r := simplifyCols t.n t.cols t.eps
      { t with n := 2 * r.2 - 1, cols := r.1, vals := r.1.map coeffs2vals } := by
    unfold Tech.simplify; rw [if_pos hh]
  have hd : ∀ w : ℕ, (simplifyCols t.n t.cols t.eps).2 ≤ w →
      ‖fourier (trigEval (t.cols.getD i [])) w‖ + ‖fourier (trigEval (t.cols.getD i [])) (-w)‖ ≤ t.eps ^ ((1 : ℝ) / 3) := by
    intro w hw
    rw [getD_lt' _ _ _ hi]
    exact simplify_dropped t.n hp.pos t.cols t.eps h0 h1 hp.wf _ (List.getElem_mem hi) w hw
  obtain ⟨k1, -, -, -, s2⟩ := simplifyCols_eval t.n hp.pos t.cols t.eps hp.wf
  refine ⟨(simplifyCols t.n t.cols t.eps).2, by rw [hs], hd, fun x => ?_⟩
  have hcl : (t.cols.getD i []).length = t.n := by
    rw [getD_lt' _ _ _ hi]; exact hp.wf _ (List.getElem_mem hi)
  rw [hs]
  simp only
  rw [(s2 i hi).2 x, norm_sub_rev]
  refine (partialSum_error _ (by rw [hcl]; exact hp.pos) _ k1 x).trans ?_
  refine (sum_le_sum fun w hw => hd w (mem_Ico.mp hw).1).trans ?_
  rw [sum_const, Nat.card_Ico, nsmul_eq_mul, hcl]

/-! ## C109: specification -/

/-- The trigonometric interpolant of `f` of length `n`: a series with `n` coefficients. -/
noncomputable def trigInterp (f : ℝ → ℂ) (n : ℕ) : List ℂ := vals2coeffs (gridValues f n)

lemma trigInterp_length (f : ℝ → ℂ) (n : ℕ) : (trigInterp f n).length = n := by
  rw [trigInterp, vals2coeffs_length, gridValues_length]

/-- C109: `trigInterp f n` is the only series with `n` coefficients which takes the values of `f` at the `n` equispaced points of
`[-1, 1)`, with the mean of `f(-1)` and `f(1)` at `-1`. -/
theorem C109_interpolates (f : ℝ → ℂ) (n : ℕ) (c : List ℂ) (hc : c.length = n) :
    c = trigInterp f n ↔ ∀ j < n, trigEval c (equi n j) = if j = 0 then (f (-1) + f 1) / 2 else f (equi n j) := by
  have hi : ∀ j < n, trigEval (trigInterp f n) (equi n j) = if j = 0 then (f (-1) + f 1) / 2 else f (equi n j) := by
    intro j hj
    have := trigEval_grid (trigInterp f n) j (by rw [trigInterp_length]; exact hj)
    rw [trigInterp_length] at this
    rw [this, trigInterp, coeffs2vals_vals2coeffs, gridValues_getD f n j hj]
  constructor
  · rintro rfl; exact hi
  · intro h
    apply eq_of_grid _ _ (by rw [hc, trigInterp_length])
    intro j hj
    rw [hc] at hj ⊢
    rw [h j hj, hi j hj]

/-! ## The run -/

/-- The state of the object after a round on the grid of size `n` (the accumulated `vscale` is `v`). -/
private noncomputable def at_ (fs : List (ℝ → ℂ)) (flags : List Bool) (eps : ℝ) (n : ℕ) (v : ℝ) (b : Bool) : Tech :=
  ⟨n, fs.map fun f => trigInterp f n, fs.map fun f => gridValues f n, flags, eps, v, b⟩

private lemma refine_next (s : Strategy) (fs : List (ℝ → ℂ)) (hfs : fs ≠ []) (n : ℕ) (hn : n ≠ 0) :
    refineStep s fs n fs.length (n, fs.map fun f => gridValues f n) =
      if nextSize s n > maxLength then ((n, fs.map fun f => gridValues f n), true)
      else ((nextSize s n, fs.map fun f => gridValues f (nextSize s n)), false) := by
  have hl : fs.length ≠ 0 := by simpa using hfs
  cases s
  · rw [show nextSize .nested n = 2 * n from rfl]
    simp only [refineStep, nestedStep, List.length_map]
    rw [if_neg (Nat.mul_ne_zero hn hl)]
    by_cases h : 2 * n > maxLength
    · rw [if_pos h, if_pos h]
    · rw [if_neg h, if_neg h, nested_all fs n hn]
  · rw [show nextSize .resample n = getN n 1 from rfl]
    simp only [refineStep, resampleStep, getN_pos n _ hl]
    by_cases h : getN n 1 > maxLength
    · rw [if_pos h, if_pos h]
    · rw [if_neg h, if_neg h, resampleAt_eq]
      unfold getN
      rw [if_neg (by norm_num)]
      simp only
      split_ifs <;> positivity

private lemma refine_first (s : Strategy) (fs : List (ℝ → ℂ)) :
    refineStep s fs 0 0 (0, []) = ((8, fs.map fun f => gridValues f 8), false) := by
  have h : resampleStep fs 0 0 (0, []) = ((8, fs.map fun f => gridValues f 8), false) := by
    unfold resampleStep
    simp only [getN_zero]
    rw [if_neg (by norm_num [maxLength]), resampleAt_eq _ _ (by norm_num)]
  cases s
  · simp only [refineStep, nestedStep]; rw [if_pos (by simp)]; exact h
  · exact h

/-- How the loop ends: at size number `j`, either happily (the interpolants are chopped) or without success because the next
size exceeds the limit. -/
private def EndsAt (s : Strategy) (fs : List (ℝ → ℂ)) (flags : List Bool) (eps : ℝ) (k : ℕ) (t : Tech) : Prop :=
  ∃ j v, k ≤ j ∧ sizeSeq s j ≤ maxLength ∧
    (∀ i, k ≤ i → i < j → (happyLoop (sizeSeq s i) eps (fs.map fun f => trigInterp f (sizeSeq s i))).1 = false) ∧
    (((happyLoop (sizeSeq s j) eps (fs.map fun f => trigInterp f (sizeSeq s j))).1 = true ∧
        t = (at_ fs flags eps (sizeSeq s j) v true).prolong
          (2 * (happyLoop (sizeSeq s j) eps (fs.map fun f => trigInterp f (sizeSeq s j))).2 + 1)) ∨
      ((happyLoop (sizeSeq s j) eps (fs.map fun f => trigInterp f (sizeSeq s j))).1 = false ∧
        nextSize s (sizeSeq s j) > maxLength ∧ t = at_ fs flags eps (sizeSeq s j) v false))

private lemma map_interp (fs : List (ℝ → ℂ)) (n : ℕ) :
    (fs.map fun f => gridValues f n).map vals2coeffs = fs.map fun f => trigInterp f n := by
  rw [List.map_map]; rfl

private lemma round_go (s : Strategy) (fs : List (ℝ → ℂ)) (flags : List Bool) (eps : ℝ) (fuel m : ℕ) (t : Tech) (v : ℕ × List (List ℂ))
    (h : refineStep s fs t.n t.cols.length v = ((m, fs.map fun f => gridValues f m), false)) (he : t.eps = eps)
    (hf : t.isReal = flags) :
    ∃ w, populateLoop s fs (fuel + 1) t v =
      if (happyLoop m eps (fs.map fun f => trigInterp f m)).1 = true then
        some ((at_ fs flags eps m w true).prolong (2 * (happyLoop m eps (fs.map fun f => trigInterp f m)).2 + 1))
      else populateLoop s fs fuel (at_ fs flags eps m w false) (m, fs.map fun f => gridValues f m) := by
  refine ⟨max t.vscale (((fs.map fun f => gridValues f m).map supNorm).foldl max 0), ?_⟩
  subst he hf
  rw [populateLoop]
  simp only [h, Tech.happy, map_interp]
  rw [if_neg (by simp)]
  cases hh : (happyLoop m t.eps (fs.map fun f => trigInterp f m)).1
  · rfl
  · rfl

private lemma ends_mono (s : Strategy) (fs : List (ℝ → ℂ)) (flags : List Bool) (eps : ℝ) (k : ℕ) (t : Tech)
    (hu : (happyLoop (sizeSeq s k) eps (fs.map fun f => trigInterp f (sizeSeq s k))).1 = false)
    (h : EndsAt s fs flags eps (k + 1) t) : EndsAt s fs flags eps k t := by
  obtain ⟨j, v, hj, hm, hun, rest⟩ := h
  refine ⟨j, v, by omega, hm, ?_, rest⟩
  intro i h1 h2
  rcases Nat.eq_or_lt_of_le h1 with h | h
  · rw [← h]; exact hu
  · exact hun i h h2

private lemma populate_from (s : Strategy) (fs : List (ℝ → ℂ)) (hfs : fs ≠ []) (flags : List Bool) (eps : ℝ) :
    ∀ (fuel k : ℕ) (v : ℝ), sizeSeq s k ≤ maxLength →
      (happyLoop (sizeSeq s k) eps (fs.map fun f => trigInterp f (sizeSeq s k))).1 = false → maxLength ≤ fuel + k →
      ∃ t, populateLoop s fs fuel (at_ fs flags eps (sizeSeq s k) v false)
        (sizeSeq s k, fs.map fun f => gridValues f (sizeSeq s k)) = some t ∧ EndsAt s fs flags eps k t
  | 0, k, _, hk, _, hfuel => by
    have := (sizeSeq_spec s k).1
    omega
  | fuel + 1, k, v, hk, hu, hfuel => by
    have hge := (sizeSeq_spec s k).1
    have hr := refine_next s fs hfs (sizeSeq s k) (by omega)
    by_cases hbig : nextSize s (sizeSeq s k) > maxLength
    · rw [if_pos hbig] at hr
      refine ⟨_, ?_, k, v, le_rfl, hk, fun i h1 h2 => by omega, Or.inr ⟨hu, hbig, rfl⟩⟩
      rw [populateLoop]
      simp only [at_, List.length_map, hr, if_true]
    · rw [if_neg hbig] at hr
      obtain ⟨w, hw⟩ := round_go s fs flags eps fuel (nextSize s (sizeSeq s k)) (at_ fs flags eps (sizeSeq s k) v false)
        (sizeSeq s k, fs.map fun f => gridValues f (sizeSeq s k)) (by simpa [at_] using hr) rfl rfl
      rw [hw]
      have hs : nextSize s (sizeSeq s k) = sizeSeq s (k + 1) := rfl
      rw [hs] at hbig ⊢
      by_cases hh : (happyLoop (sizeSeq s (k + 1)) eps (fs.map fun f => trigInterp f (sizeSeq s (k + 1)))).1 = true
      · rw [if_pos hh]
        refine ⟨_, rfl, k + 1, w, by omega, by omega, ?_, Or.inl ⟨hh, rfl⟩⟩
        intro i h1 h2
        rw [show i = k by omega]; exact hu
      · rw [if_neg hh]
        obtain ⟨t, h1, h2⟩ := populate_from s fs hfs flags eps fuel (k + 1) w (by omega) (by simpa using hh) (by omega)
        exact ⟨t, h1, ends_mono s fs flags eps k t hu h2⟩

private lemma populate_ends (s : Strategy) (fs : List (ℝ → ℂ)) (hfs : fs ≠ []) (flags : List Bool) (eps v : ℝ) (fuel : ℕ)
    (hfuel : maxLength + 1 ≤ fuel) :
    ∃ t, populateLoop s fs fuel ⟨0, [], [], flags, eps, v, false⟩ (0, []) = some t ∧ EndsAt s fs flags eps 0 t := by
  obtain ⟨fuel, rfl⟩ : ∃ k, fuel = k + 1 := ⟨fuel - 1, by omega⟩
  obtain ⟨w, hw⟩ := round_go s fs flags eps fuel 8 ⟨0, [], [], flags, eps, v, false⟩ (0, []) (by simpa using refine_first s fs) rfl rfl
  rw [hw]
  have h8 : sizeSeq s 0 = 8 := rfl
  rw [← h8]
  by_cases hh : (happyLoop (sizeSeq s 0) eps (fs.map fun f => trigInterp f (sizeSeq s 0))).1 = true
  · rw [if_pos hh]
    exact ⟨_, rfl, 0, w, le_rfl, by norm_num [sizeSeq, maxLength], fun i h1 h2 => by omega, Or.inl ⟨hh, rfl⟩⟩
  · rw [if_neg hh]
    exact populate_from s fs hfs flags eps fuel 0 w (by norm_num [sizeSeq, maxLength]) (by simpa using hh) (by omega)


/-- The chop of the raw coefficients bounds the dropped modes with positive wave number. -/
private lemma raw_dropped (c : List ℂ) (m : ℕ) (hc : c.length = 2 * m) (eps : ℝ) (h0 : 0 < eps) (h1 : eps < 1)
    (hk : Cheb.standardChopAbs (c.map fun z => ‖z‖) eps < c.length) (w : ℕ)
    (hw : Cheb.standardChopAbs (c.map fun z => ‖z‖) eps / 2 < w) (hwm : w < m) :
    ‖fourier (trigEval c) w‖ ≤ eps ^ ((1 : ℝ) / 3) := by
  have hspec := Cheb.standardChopAbs_spec (c.map fun z => ‖z‖) (by
    intro i hi
    rw [getD_lt' _ _ _ hi]
    simp) eps h0 h1 17 (by norm_num)
  rw [List.length_map] at hspec
  rcases hspec with hs | ⟨-, hs⟩
  · omega
  have := hs (w + m) (by omega) (by omega)
  rw [getD_map_lt _ 0 _ _ _ (by omega)] at this
  rw [((fourier_even c m (by omega) hc w).1 (by rw [abs_of_nonneg (by omega)]; omega)),
    show ((w : ℤ) + m).toNat = w + m by omega]
  exact this

/-- The sizes are `8, 16, 32, …` below 17 only `8` and `16`: unhappy for every tolerance below one. -/
private lemma short_unhappy (n : ℕ) (hn : n < 17) (fs : List (ℝ → ℂ)) (hfs : fs ≠ []) (eps : ℝ) (h1 : eps < 1) :
    (happyLoop n eps (fs.map fun f => trigInterp f n)).1 = false := by
  by_contra h
  obtain ⟨h2, -⟩ := happyLoop_spec n eps _ (by simpa using h)
  obtain ⟨f, hf⟩ := List.exists_mem_of_ne_nil _ hfs
  have := (h2 _ (List.mem_map_of_mem hf)).1
  rw [chop_short _ _ h1 (by rw [List.length_map, trigInterp_length]; exact hn), List.length_map, trigInterp_length] at this
  omega

private lemma realIf_length (r : Bool) (v : List ℂ) : (realIf r v).length = v.length := by
  unfold realIf; split_ifs <;> simp

private lemma zip_realIf (flags : List Bool) (vals : List (List ℂ)) (n : ℕ) (h : ∀ v ∈ vals, v.length = n) :
    ∀ v ∈ List.zipWith realIf flags vals, v.length = n := by
  intro v hv
  rw [List.mem_iff_getElem] at hv
  obtain ⟨i, hi, rfl⟩ := hv
  rw [List.getElem_zipWith, realIf_length]
  exact h _ (List.getElem_mem _)

private lemma prolong_list (c : List ℂ) (m r : ℕ) (hc : c.length = 2 * m) (hr : 2 * r + 1 < 2 * m) :
    (prolongCol c (2 * r + 1)).length = 2 * r + 1 ∧
    ∀ w : ℤ, fourier (trigEval (prolongCol c (2 * r + 1))) w = if |w| ≤ r then fourier (trigEval c) w else 0 := by
  obtain ⟨h1, h2⟩ := C32_chop_odd c (by intro h; simp [h] at hc; omega) (2 * r + 1) (by omega) (by omega)
  refine ⟨h1, fun w => chop_fourier c _ r (by omega) h1 ?_ w⟩
  intro j hj
  rw [h2 j hj]
  congr 2
  omega

private lemma outcome (s : Strategy) (fs : List (ℝ → ℂ)) (hfs : fs ≠ []) (eps : ℝ) (h0 : 0 < eps) (h1 : eps < 1)
    (fuel : ℕ) (hfuel : 4097 ≤ fuel) :
    ∃ t n, fromCallable s fs eps fuel = some t ∧ (∃ j, n = sizeSeq s j) ∧ n ≤ 4096 ∧ t.Proper ∧ t.cols.length = fs.length ∧
      (∀ m, (∃ j, m = sizeSeq s j) → m < n → (happyLoop m eps (fs.map fun f => trigInterp f m)).1 = false) ∧
      ((t.ishappy = false ∧ 4096 < nextSize s n ∧ t.n = n ∧ t.cols = fs.map fun f => trigInterp f n) ∨
       (t.ishappy = true ∧ 17 ≤ n ∧ ∃ k, 1 ≤ k ∧ t.n = 2 * k - 1 ∧ 2 * k - 1 < n ∧
          k ≤ (happyLoop n eps (fs.map fun f => trigInterp f n)).2 + 1 ∧ ∀ i (hi : i < fs.length),
          (∀ x, trigEval (t.cols.getD i []) x = partialSum (trigEval (trigInterp fs[i] n)) k x) ∧
          ∀ w : ℕ, k ≤ w → w < n / 2 → ‖fourier (trigEval (trigInterp fs[i] n)) w‖ ≤ eps ^ ((1 : ℝ) / 3))) := by
  classical
  set flags := fs.map fun f => decide ((f testPoint).im = 0) with hflags
  have hfl : flags.length = fs.length := by simp [hflags]
  obtain ⟨t, ht, j, v, -, hj, hun, hend⟩ := populate_ends s fs hfs flags eps eps fuel (by simpa [maxLength] using hfuel)
  obtain ⟨hge, hev⟩ := sizeSeq_spec s j
  have hmono : StrictMono (sizeSeq s) := by
    apply strictMono_nat_of_lt_succ
    intro k
    exact (nextSize_spec s _ (by have := (sizeSeq_spec s k).1; omega)).1
  have hbefore : ∀ m, (∃ j, m = sizeSeq s j) → m < sizeSeq s j → (happyLoop m eps (fs.map fun f => trigInterp f m)).1 = false := by
    rintro m ⟨i, rfl⟩ hi
    exact hun i (by omega) (hmono.lt_iff_lt.mp hi)
  set n := sizeSeq s j with hn
  have hwf : ∀ c ∈ fs.map (fun f => trigInterp f n), c.length = n := by
    intro c hc
    obtain ⟨f, -, rfl⟩ := List.mem_map.mp hc
    exact trigInterp_length f n
  have hwfv : ∀ c ∈ fs.map (fun f => gridValues f n), c.length = n := by
    intro c hc
    obtain ⟨f, -, rfl⟩ := List.mem_map.mp hc
    exact gridValues_length f n
  rcases hend with ⟨hh, rfl⟩ | ⟨hh, hbig, rfl⟩
  · -- happy
    obtain ⟨hl1, hl2⟩ := happyLoop_spec n eps _ hh
    set r := (happyLoop n eps (fs.map fun f => trigInterp f n)).2 with hr
    have hn17 : 17 ≤ n := by
      by_contra hc
      rw [short_unhappy n (by omega) fs hfs eps h1] at hh
      simp at hh
    have hrn : 2 * r + 1 < n := by
      rcases hl2 with h | ⟨c, hc, h⟩
      · omega
      · have := (hl1 c hc).1; omega
    obtain ⟨m, hm⟩ : ∃ m, n = 2 * m := ⟨n / 2, by omega⟩
    -- the object before simplification
    set P := fs.map (fun f => prolongCol (trigInterp f n) (2 * r + 1)) with hP
    have hPl : ∀ c ∈ P, c.length = 2 * r + 1 := by
      intro c hc
      obtain ⟨f, -, rfl⟩ := List.mem_map.mp hc
      exact (prolong_list _ m r (by rw [trigInterp_length, hm]) (by omega)).1
    have hpro : (at_ fs flags eps n v true).prolong (2 * r + 1) =
        ⟨2 * r + 1, P, List.zipWith realIf flags (P.map coeffs2vals), flags, eps, v, true⟩ := by
      unfold Tech.prolong at_
      rw [if_neg (by simp only; omega)]
      simp only [hP, List.map_map]
      rfl
    set V := List.zipWith realIf flags (List.zipWith realIf flags (P.map coeffs2vals)) with hV
    have hVl : ∀ c ∈ V, c.length = 2 * r + 1 := by
      apply zip_realIf
      apply zip_realIf
      intro c hc
      obtain ⟨d, hd, rfl⟩ := List.mem_map.mp hc
      rw [coeffs2vals_length, hPl d hd]
    set T : Tech := ⟨2 * r + 1, P, V, List.zipWith (getIsReal eps v) P V, eps, v, true⟩ with hT
    have hTp : T.Proper := ⟨by simp [hT], hPl, hVl, by simp [hT, hV, hfl, hP], by simp [hT, hV, hfl, hP]⟩
    have hfc : fromCallable s fs eps fuel = some T.simplify := by
      unfold fromCallable
      simp only [← hflags, ht]
      rw [hpro]
      rfl
    obtain ⟨k1, -, k3, s1, s2⟩ := simplifyCols_eval T.n hTp.pos T.cols T.eps hTp.wf
    have hs : T.simplify = let r := simplifyCols T.n T.cols T.eps
        { T with n := 2 * r.2 - 1, cols := r.1, vals := r.1.map coeffs2vals } := by
      unfold Tech.simplify; rw [if_pos rfl]
    set k := (simplifyCols T.n T.cols T.eps).2 with hk
    have k3' : 2 * k - 1 ≤ 2 * r + 1 := k3 (by simp only [hT]; omega)
    have hTc : T.cols.length = fs.length := by simp [hT, hP]
    refine ⟨_, n, hfc, ⟨j, rfl⟩, hj, ?_, by rw [hs]; simp only; rw [s1, hTc], hbefore, Or.inr ⟨by rw [hs], hn17, k, k1, by rw [hs],
      by omega, by omega, ?_⟩⟩
    · have hcl : ∀ c ∈ (simplifyCols T.n T.cols T.eps).1, c.length = 2 * k - 1 := by
        intro c hc
        rw [List.mem_iff_getElem] at hc
        obtain ⟨i, hi, rfl⟩ := hc
        rw [← getD_lt' _ [] _ hi]
        exact (s2 i (by rw [← s1]; exact hi)).1
      rw [hs]
      refine ⟨?_, hcl, ?_, by simp, ?_⟩
      · simp only; omega
      · intro c hc
        obtain ⟨d, hd, rfl⟩ := List.mem_map.mp hc
        rw [coeffs2vals_length]; exact hcl d hd
      · simp only; rw [s1]; exact hTp.lr
    · intro i hi
      have hiT : i < T.cols.length := by omega
      have hcol : T.cols.getD i [] = prolongCol (trigInterp fs[i] n) (2 * r + 1) := by
        rw [getD_lt' _ _ _ hiT]; simp [hT, hP]
      have hF := (prolong_list (trigInterp fs[i] n) m r (by rw [trigInterp_length, hm]) (by omega)).2
      constructor
      · intro x
        rw [hs]
        simp only
        rw [(s2 i hiT).2 x, hcol]
        exact partialSum_chop _ _ r hF k (by omega) x
      · intro w hkw hwn
        by_cases hwr : w ≤ r
        · have hd := simplify_dropped T.n hTp.pos T.cols T.eps h0 h1 hTp.wf (T.cols.getD i [])
            (by rw [getD_lt' _ _ _ hiT]; exact List.getElem_mem _) w hkw
          rw [hcol, hF, hF, if_pos (by rw [abs_of_nonneg (by omega)]; omega)] at hd
          exact le_trans (le_add_of_nonneg_right (norm_nonneg _)) hd
        · obtain ⟨q1, q2⟩ := hl1 (trigInterp fs[i] n) (List.mem_map_of_mem (List.getElem_mem hi))
          exact raw_dropped _ m (by rw [trigInterp_length, hm]) eps h0 h1 (by rw [trigInterp_length]; exact q1) w (by omega) (by omega)
  · -- unhappy
    have hfc : fromCallable s fs eps fuel = some ⟨n, fs.map fun f => trigInterp f n, List.zipWith realIf flags (fs.map fun f => gridValues f n),
        List.zipWith (getIsReal eps v) (fs.map fun f => trigInterp f n) (List.zipWith realIf flags (fs.map fun f => gridValues f n)), eps, v, false⟩ := by
      unfold fromCallable
      simp only [← hflags, ht]
      rfl
    refine ⟨_, n, hfc, ⟨j, rfl⟩, hj, ⟨by simp only; omega, hwf, zip_realIf _ _ _ hwfv, by simp [hfl], by simp [hfl]⟩, by simp, hbefore,
      Or.inl ⟨rfl, hbig, rfl, rfl⟩⟩

/-- C109: for every list of functions, both strategies and every tolerance in `(0, 1)` the constructor terminates.  It stops
at a size `n ≤ 4096` of the sequence `8, 16, 32, …`.  Either it is unhappy, the next size would exceed 4096, and
the coefficients are those of the interpolants; or it is happy, `n` is at least 17, and every component is a symmetric partial
sum of the Fourier series of its interpolant, all with the same number of modes; every dropped mode of *positive* wave number
below `n/2` is at most the cube root of the tolerance. -/
theorem C109_outcome (s : Strategy) (fs : List (ℝ → ℂ)) (hfs : fs ≠ []) (eps : ℝ) (h0 : 0 < eps) (h1 : eps < 1)
    (fuel : ℕ) (hfuel : 4097 ≤ fuel) :
    ∃ t n, fromCallable s fs eps fuel = some t ∧ (∃ j, n = sizeSeq s j) ∧ n ≤ 4096 ∧ t.Proper ∧ t.cols.length = fs.length ∧
      ((t.ishappy = false ∧ 4096 < nextSize s n ∧ t.n = n ∧ t.cols = fs.map fun f => trigInterp f n) ∨
       (t.ishappy = true ∧ 17 ≤ n ∧ ∃ k, 1 ≤ k ∧ t.n = 2 * k - 1 ∧ 2 * k - 1 < n ∧ ∀ i (hi : i < fs.length),
          (∀ x, trigEval (t.cols.getD i []) x = partialSum (trigEval (trigInterp fs[i] n)) k x) ∧
          ∀ w : ℕ, k ≤ w → w < n / 2 → ‖fourier (trigEval (trigInterp fs[i] n)) w‖ ≤ eps ^ ((1 : ℝ) / 3))) := by
  obtain ⟨t, n, a1, a2, a3, a4, a5, -, a6⟩ := outcome s fs hfs eps h0 h1 fuel hfuel
  refine ⟨t, n, a1, a2, a3, a4, a5, ?_⟩
  rcases a6 with a6 | ⟨b1, b2, k, b3, b4, b5, -, b6⟩
  · exact Or.inl a6
  · exact Or.inr ⟨b1, b2, k, b3, b4, b5, b6⟩

/-- C109: the sizes tried are even, at least 8 and strictly increasing; nested: `8·2^k`; resample: `8, 16, 32, 64, 96, 128,
192, …`, a power of two `2^p > 32` being followed by `3·2^(p-1)` and that by `2^(p+1)`. -/
theorem C109_sizes (s : Strategy) (k : ℕ) :
    sizeSeq s k % 2 = 0 ∧ 8 ≤ sizeSeq s k ∧ sizeSeq s k < sizeSeq s (k + 1) ∧
    sizeSeq .nested k = 8 * 2 ^ k ∧
    (∀ p, 5 < p → nextSize .resample (2 ^ p) = 3 * 2 ^ (p - 1) ∧ nextSize .resample (3 * 2 ^ (p - 1)) = 2 ^ (p + 1)) := by
  obtain ⟨g1, g2⟩ := sizeSeq_spec s k
  refine ⟨g2, by omega, (nextSize_spec s _ (by omega)).1, ?_, ?_⟩
  · induction k with
    | zero => rfl
    | succ k ih =>
      rw [sizeSeq, ih (sizeSeq_spec s k).1 (sizeSeq_spec s k).2]
      simp only [nextSize]; ring
  · intro p hp
    obtain ⟨q, rfl⟩ : ∃ q, p = q + 1 := ⟨p - 1, by omega⟩
    have hlog : Nat.log 2 (2 ^ (q + 1)) = q + 1 := Nat.log_pow (by norm_num) _
    have hlog2 : Nat.log 2 (3 * 2 ^ q) = q + 1 := by
      have h4 : 0 < 2 ^ q := by positivity
      have e1 : 2 ^ (q + 1) = 2 * 2 ^ q := by ring
      have e2 : 2 ^ (q + 1 + 1) = 4 * 2 ^ q := by ring
      rw [Nat.log_eq_iff (by left; omega)]
      omega
    have h4 : 0 < 2 ^ q := by positivity
    have e1 : 2 ^ (q + 1) = 2 * 2 ^ q := by ring
    constructor
    · simp only [nextSize, getN, if_neg (by norm_num : ¬ (1 = 0)), hlog]
      rw [if_pos ⟨trivial, by omega⟩]
    · simp only [nextSize, getN, if_neg (by norm_num : ¬ (1 = 0)), Nat.add_sub_cancel, hlog2]
      rw [if_neg (by omega)]

private lemma trigInterp_real (f : ℝ → ℂ) (hf : ∀ x, (f x).im = 0) (n : ℕ) (x : ℝ) :
    conj (trigEval (trigInterp f n) x) = trigEval (trigInterp f n) x := by
  apply herm_trigEval
  apply herm_of_real
  intro j hj
  rw [gridValues_length] at hj
  rw [gridValues_getD f n j hj]
  split_ifs
  · rw [show (f (-1) + f 1) / 2 = (f (-1) + f 1) / ((2 : ℝ) : ℂ) by norm_num, Complex.div_ofReal_im, Complex.add_im, hf, hf]; simp
  · exact hf _

/-- C109: real-valued functions.  Whatever the outcome, evaluating the object at `x` gives (for every component) the Fourier partial sum of the
interpolant `G` (or `G` itself), a real number, and differs from `G` by at most `n·eps^(1/3)` plus the modulus of the amplitude of
the highest mode `cos(πnx/2)` of `G`. -/
theorem C109_real (s : Strategy) (fs : List (ℝ → ℂ)) (hfs : fs ≠ []) (hr : ∀ f ∈ fs, ∀ x, (f x).im = 0) (eps : ℝ)
    (h0 : 0 < eps) (h1 : eps < 1) (fuel : ℕ) (hfuel : 4097 ≤ fuel) :
    ∃ t n, fromCallable s fs eps fuel = some t ∧ (∃ j, n = sizeSeq s j) ∧ n ≤ 4096 ∧ (t.ishappy = true → 17 ≤ n) ∧
      ∀ x i (hi : i < fs.length), ((t.feval x).1.getD i 0).im = 0 ∧
        (t.ishappy = false → (t.feval x).1.getD i 0 = trigEval (trigInterp fs[i] n) x) ∧
        ‖(t.feval x).1.getD i 0 - trigEval (trigInterp fs[i] n) x‖ ≤ n * eps ^ ((1 : ℝ) / 3) + ‖(trigInterp fs[i] n).getD 0 0‖ := by
  obtain ⟨t, n, a1, a2, a3, a4, a5, a6⟩ := C109_outcome s fs hfs eps h0 h1 fuel hfuel
  have hδ : (0 : ℝ) ≤ eps ^ ((1 : ℝ) / 3) := by positivity
  refine ⟨t, n, a1, a2, a3, fun h => ?_, ?_⟩
  · rcases a6 with ⟨h', -⟩ | ⟨-, h', -⟩
    · rw [h] at h'; simp at h'
    · exact h'
  obtain ⟨j, hj⟩ := a2
  obtain ⟨g1, g2⟩ := sizeSeq_spec s j
  rw [← hj] at g1 g2
  have hreal : ∀ i (hi : i < fs.length) y, (trigEval (t.cols.getD i []) y).im = 0 := by
    intro i hi y
    have hc := trigInterp_real fs[i] (hr _ (List.getElem_mem hi)) n
    rcases a6 with ⟨-, -, -, h⟩ | ⟨-, -, k, -, -, -, h⟩
    · rw [h, getD_lt' (List.map _ _) _ _ (by simpa using hi), List.getElem_map]
      exact Complex.conj_eq_iff_im.mp (hc y)
    · rw [(h i hi).1 y]
      exact Complex.conj_eq_iff_im.mp (partialSum_real _ hc k y)
  have hev : ∀ x i (hi : i < fs.length), (t.feval x).1.getD i 0 = trigEval (t.cols.getD i []) x := by
    intro x i hi
    exact C30_series t a4 x i (by omega) (fun _ => hreal i hi)
  intro x i hi
  rw [hev x i hi]
  refine ⟨hreal i hi x, ?_, ?_⟩
  · intro h
    rcases a6 with ⟨-, -, -, h'⟩ | ⟨h', -⟩
    · rw [h', getD_lt' (List.map _ _) _ _ (by simpa using hi), List.getElem_map]
    · rw [h] at h'; simp at h'
  rcases a6 with ⟨-, -, -, h⟩ | ⟨-, -, k, k1, -, k2, h⟩
  · rw [h, getD_lt' (List.map _ _) _ _ (by simpa using hi), List.getElem_map, sub_self, norm_zero]
    positivity
  obtain ⟨p1, p2⟩ := h i hi
  rw [p1 x, norm_sub_rev]
  set c := trigInterp fs[i] n with hc
  have hcl : c.length = n := trigInterp_length _ _
  obtain ⟨m, hm⟩ : ∃ m, n = 2 * m := ⟨n / 2, by omega⟩
  have hsym : ∀ w : ℕ, ‖fourier (trigEval c) (-w)‖ = ‖fourier (trigEval c) w‖ := by
    intro w
    rw [← fourier_conj _ (trigInterp_real fs[i] (hr _ (List.getElem_mem hi)) n) w, RCLike.norm_conj]
  refine (partialSum_error c (by omega) k k1 x).trans ?_
  rw [hcl, show n / 2 + 1 = m + 1 by omega, sum_Ico_succ_top (by omega)]
  apply add_le_add
  · have hb : ∀ w ∈ Ico k m, ‖fourier (trigEval c) w‖ + ‖fourier (trigEval c) (-w)‖ ≤ 2 * eps ^ ((1 : ℝ) / 3) := by
      intro w hw
      have := mem_Ico.mp hw
      have := p2 w (by omega) (by omega)
      rw [hsym w]; linarith
    refine (sum_le_sum hb).trans ?_
    rw [sum_const, Nat.card_Ico, nsmul_eq_mul, hm]
    push_cast
    have : ((m - k : ℕ) : ℝ) ≤ m := by exact_mod_cast Nat.sub_le _ _
    nlinarith
  · rw [(fourier_even c m (by omega) (by omega) m).2 (abs_of_nonneg (by omega)),
      (fourier_even c m (by omega) (by omega) (-m)).2 (by rw [abs_neg]; exact abs_of_nonneg (by omega)), norm_div]
    norm_num

/-- The hypotheses are met by the real functions `cos πx` and `|x|` with the default tolerance. -/
example : ([fun x : ℝ => ((Real.cos (Real.pi * x) : ℝ) : ℂ), fun x : ℝ => ((|x| : ℝ) : ℂ)] : List (ℝ → ℂ)) ≠ [] ∧
    (∀ f ∈ ([fun x : ℝ => ((Real.cos (Real.pi * x) : ℝ) : ℂ), fun x : ℝ => ((|x| : ℝ) : ℂ)] : List (ℝ → ℂ)), ∀ x, (f x).im = 0) ∧
    (0 : ℝ) < 1e-10 ∧ (1e-10 : ℝ) < 1 := by
  refine ⟨by simp, ?_, by norm_num, by norm_num⟩
  intro f hf x
  simp only [List.mem_cons, List.not_mem_nil, or_false] at hf
  rcases hf with rfl | rfl <;> exact Complex.ofReal_im _

/-! ## Trigonometric polynomials -/

private lemma band_period {M : ℕ} {F : ℝ → ℂ} (hF : Band M F) : F 1 = F (-1) := by
  obtain ⟨a, ha⟩ := band_repr hF
  rw [ha, ha]
  apply sum_congr rfl
  intro k _
  congr 1
  rw [show (I * Real.pi * (wave (2 * M + 1) k) * ((1 : ℝ) : ℂ) : ℂ)
    = I * Real.pi * (wave (2 * M + 1) k) * ((-1 : ℝ) : ℂ) + (wave (2 * M + 1) k) * (2 * Real.pi * I) by push_cast; ring,
    Complex.exp_add, Complex.exp_int_mul_two_pi_mul_I, mul_one]

private lemma trigInterp_band {M : ℕ} {F : ℝ → ℂ} (hF : Band M F) (n : ℕ) (hn : 2 * M < n) (x : ℝ) :
    trigEval (trigInterp F n) x = F x := by
  have hp := band_period hF
  obtain ⟨l, hl, hx⟩ := hF
  have h0 : l.length ≠ 0 := by omega
  have : prolongCol l n = trigInterp F n := by
    rw [C109_interpolates F n _ (prolongCol_length l h0 n (by omega))]
    intro j hj
    rw [prolongCol_eval l h0 n (by omega), hx]
    split_ifs with h
    · have h2 : equi n j = -1 := by simp [equi, h]
      rw [hp, h2]; ring
    · rfl
  rw [← this, prolongCol_eval l h0 n (by omega), hx]

private lemma band_fourier {M : ℕ} {F : ℝ → ℂ} (hF : Band M F) (w : ℤ) (hw : (M : ℤ) < |w|) : fourier F w = 0 := by
  obtain ⟨l, hl, hx⟩ := hF
  rw [show F = trigEval l from (funext hx).symm]
  apply fourier_big l (by omega)
  rw [hl]; omega

private lemma band_chop {M : ℕ} {F : ℝ → ℂ} (hF : Band M F) (m : ℕ) (hm : 2 * M < 2 * m) (h17 : 17 ≤ 2 * m)
    (hr : Cheb.roundIdx (m + M + 1) < 2 * m) (eps : ℝ) (h1 : eps < 1) :
    Cheb.standardChopAbs ((trigInterp F (2 * m)).map fun z => ‖z‖) eps ≤ Cheb.roundIdx (m + M + 1) := by
  have hl : (trigInterp F (2 * m)).length = 2 * m := trigInterp_length _ _
  apply chop_zero_tail _ _ h1 _ (by omega) (by rw [List.length_map, hl]; exact hr) (by rw [List.length_map, hl]; exact h17)
  intro i hi1 hi2
  rw [List.length_map, hl] at hi2
  rw [getD_map_lt _ 0 _ _ _ (by omega)]
  have h2 := (fourier_even _ m (by omega) hl ((i : ℤ) - m)).1 (by rw [abs_of_nonneg (by omega)]; omega)
  rw [show trigEval (trigInterp F (2 * m)) = F from funext (trigInterp_band hF _ hm),
    band_fourier hF _ (by rw [abs_of_nonneg (by omega)]; omega), show ((i : ℤ) - m + m).toNat = i by omega] at h2
  rw [← h2, norm_zero]

private lemma size_128 (s : Strategy) : ∃ j, 128 = sizeSeq s j := by
  cases s
  · exact ⟨4, by decide⟩
  · exact ⟨5, by decide⟩

private lemma nextSize_le (s : Strategy) (n : ℕ) (hn : n ≠ 0) : nextSize s n ≤ 2 * n := by
  cases s
  · simp [nextSize]
  · simp only [nextSize, getN, if_neg (by norm_num : ¬ (1 = 0))]
    have h1 : 2 ^ Nat.log 2 n ≤ n := Nat.pow_log_le_self 2 hn
    split_ifs with h
    · obtain ⟨p, hp⟩ : ∃ p, Nat.log 2 n = p + 1 := ⟨Nat.log 2 n - 1, by omega⟩
      rw [hp] at h1 ⊢
      rw [pow_succ] at h1
      simp only [Nat.add_sub_cancel]; omega
    · rw [pow_succ]; omega

private lemma size_32 (s : Strategy) (n : ℕ) (h : ∃ j, n = sizeSeq s j) (hn : 17 ≤ n) : 32 ≤ n := by
  obtain ⟨j, rfl⟩ := h
  obtain ⟨h0, h1, h2, -⟩ := sizeSeq_small s
  have hmono : StrictMono (sizeSeq s) := by
    apply strictMono_nat_of_lt_succ
    intro k
    exact (nextSize_spec s _ (by have := (sizeSeq_spec s k).1; omega)).1
  rcases j with _ | _ | j
  · omega
  · simp only [Nat.zero_add] at hn; omega
  · have := hmono.monotone (by omega : 2 ≤ j + 1 + 1)
    omega

/-- C109: real trigonometric polynomials of degree below 16 (any number of components) are found on a grid of at most 128
points, and recovered at every `x` up to `2M·eps^(1/3)`. -/
theorem C109_trigpoly (s : Strategy) (fs : List (ℝ → ℂ)) (hfs : fs ≠ []) (hr : ∀ f ∈ fs, ∀ x, (f x).im = 0) (M : ℕ) (hM : M < 16)
    (hp : ∀ f ∈ fs, ∃ h : List ℂ, h.length = 2 * M + 1 ∧ ∀ x, trigEval h x = f x) (eps : ℝ)
    (h0 : 0 < eps) (h1 : eps < 1) (fuel : ℕ) (hfuel : 4097 ≤ fuel) :
    ∃ t, fromCallable s fs eps fuel = some t ∧ t.ishappy = true ∧ t.n < 128 ∧
      ∀ x i (hi : i < fs.length), ‖(t.feval x).1.getD i 0 - fs[i] x‖ ≤ 2 * M * eps ^ ((1 : ℝ) / 3) := by
  have hδ : (0 : ℝ) ≤ eps ^ ((1 : ℝ) / 3) := by positivity
  obtain ⟨t, n, a1, a2, a3, a4, a5, hb, a6⟩ := outcome s fs hfs eps h0 h1 fuel hfuel
  have h128 : (happyLoop 128 eps (fs.map fun f => trigInterp f 128)).1 = true := by
    apply happyLoop_true
    intro c hc
    obtain ⟨f, hf, rfl⟩ := List.mem_map.mp hc
    have := band_chop (hp f hf) 64 (by omega) (by omega) (by unfold Cheb.roundIdx; omega) eps h1
    unfold Cheb.roundIdx at this
    simp only [show 2 * 64 = 128 by norm_num] at this
    omega
  have hn : n ≤ 128 := by
    by_contra hc
    rw [hb 128 (size_128 s) (by omega)] at h128
    simp at h128
  rcases a6 with ⟨-, hbig, -, -⟩ | ⟨hh, hn17, k, k1, k2, k3, -, h⟩
  · obtain ⟨j, rfl⟩ := a2
    have := nextSize_le s (sizeSeq s j) (by have := (sizeSeq_spec s j).1; omega)
    omega
  have hn32 := size_32 s n a2 hn17
  have hev : n % 2 = 0 := by obtain ⟨j, rfl⟩ := a2; exact (sizeSeq_spec s j).2
  refine ⟨t, a1, hh, by omega, ?_⟩
  intro x i hi
  have hfi := hp _ (List.getElem_mem hi)
  have hG : trigEval (trigInterp fs[i] n) = fs[i] := funext (trigInterp_band hfi n (by omega))
  obtain ⟨p1, p2⟩ := h i hi
  rw [hG] at p1 p2
  have hc : ∀ y, conj (fs[i] y) = fs[i] y := fun y => Complex.conj_eq_iff_im.mpr (hr _ (List.getElem_mem hi) y)
  rw [C30_series t a4 x i (by omega) (fun _ y => by rw [p1 y]; exact Complex.conj_eq_iff_im.mp (partialSum_real _ hc k y)), p1 x,
    norm_sub_rev]
  obtain ⟨l, hl, hx⟩ := hfi
  have he := partialSum_error l (by omega) k k1 x
  rw [show trigEval l = fs[i] from funext hx, hl, show (2 * M + 1) / 2 + 1 = M + 1 by omega] at he
  refine he.trans ?_
  have hsym : ∀ w ∈ Ico k (M + 1), ‖fourier fs[i] w‖ + ‖fourier fs[i] (-w)‖ ≤ 2 * eps ^ ((1 : ℝ) / 3) := by
    intro w hw
    have := mem_Ico.mp hw
    rw [← fourier_conj _ hc w, RCLike.norm_conj]
    have := p2 w (by omega) (by omega)
    linarith
  refine (sum_le_sum hsym).trans ?_
  rw [sum_const, Nat.card_Ico, nsmul_eq_mul]
  have : ((M + 1 - k : ℕ) : ℝ) ≤ M := by exact_mod_cast (by omega : M + 1 - k ≤ M)
  nlinarith

/-- The hypotheses are met: `1 + 2 cos(πx)`, of degree 1. -/
example : ∃ f : ℝ → ℂ, (∀ x, (f x).im = 0) ∧ (∃ h : List ℂ, h.length = 2 * 1 + 1 ∧ ∀ x, trigEval h x = f x) ∧ f 0 = 3 := by
  have hh : Herm [1, 1, 1] := by
    intro k hk
    simp only [List.length_cons, List.length_nil] at hk ⊢
    interval_cases k <;> simp [mirror]
  refine ⟨trigEval [1, 1, 1], fun x => Complex.conj_eq_iff_im.mp (herm_trigEval _ hh x), ⟨_, rfl, fun _ => rfl⟩, ?_⟩
  simp only [trigEval, List.length_cons, List.length_nil, sum_range_succ, range_zero, sum_empty]
  simp [trigMode]
  norm_num

/-! ## Failures -/

/-- A series of length 32 whose coefficient `a` is one and all others zero, `a ≤ 7`: the constructor is happy at 32 and
returns the zero function, if the wave number of the coefficient is below `-8`. -/
private lemma lost (s : Strategy) (f : ℝ → ℂ) (c : List ℂ) (hc : c.length = 32) (a : ℕ) (ha : a < 8)
    (hz : ∀ i < 32, i ≠ a → c.getD i 0 = 0) (hf : ∀ j < 32, trigEval c (equi 32 j) = if j = 0 then (f (-1) + f 1) / 2 else f (equi 32 j))
    (eps : ℝ) (h0 : 0 < eps) (h1 : eps < 1) (fuel : ℕ) (hfuel : 4097 ≤ fuel) :
    ∃ t, fromCallable s [f] eps fuel = some t ∧ t.ishappy = true ∧ ∀ x, (t.feval x).1 = [0] := by
  obtain ⟨t, n, a1, a2, a3, a4, a5, hb, a6⟩ := outcome s [f] (by simp) eps h0 h1 fuel hfuel
  have hi : trigInterp f 32 = c := ((C109_interpolates f 32 c hc).mpr hf).symm
  have hchop : Cheb.standardChopAbs (c.map fun z => ‖z‖) eps ≤ 15 := by
    refine (chop_zero_tail _ eps h1 8 (by omega) (by rw [List.length_map, hc]; decide) (by rw [List.length_map, hc]; omega) ?_).trans (by decide)
    intro i hi1 hi2
    rw [List.length_map, hc] at hi2
    rw [getD_map_lt _ 0 _ _ _ (by omega), hz i hi2 (by omega), norm_zero]
  have h32 : (happyLoop 32 eps (([f] : List (ℝ → ℂ)).map fun f => trigInterp f 32)).1 = true := by
    apply happyLoop_true
    intro d hd
    simp only [List.map_cons, List.map_nil, List.mem_singleton] at hd
    rw [hd, hi]; omega
  have hr : (happyLoop 32 eps (([f] : List (ℝ → ℂ)).map fun f => trigInterp f 32)).2 ≤ 7 := by
    rcases (happyLoop_spec 32 eps _ h32).2 with h | ⟨d, hd, h⟩
    · omega
    · simp only [List.map_cons, List.map_nil, List.mem_singleton] at hd
      rw [h, hd, hi]; omega
  have h32s : ∃ j, 32 = sizeSeq s j := ⟨2, (sizeSeq_small s).2.2.1.symm⟩
  have hn : n ≤ 32 := by
    by_contra hcon
    rw [hb 32 h32s (by omega)] at h32
    simp at h32
  rcases a6 with ⟨-, hbig, -, -⟩ | ⟨hh, hn17, k, k1, k2, k3, k4, h⟩
  · obtain ⟨j, rfl⟩ := a2
    have := nextSize_le s (sizeSeq s j) (by have := (sizeSeq_spec s j).1; omega)
    omega
  have hn32 : n = 32 := le_antisymm hn (size_32 s n a2 hn17)
  subst hn32
  refine ⟨t, a1, hh, ?_⟩
  have hzero : ∀ x, trigEval (t.cols.getD 0 []) x = 0 := by
    intro x
    rw [(h 0 (by simp)).1 x]
    simp only [List.getElem_cons_zero, hi]
    unfold partialSum
    apply sum_eq_zero
    intro w hw
    have := mem_Ioo.mp hw
    rw [(fourier_even c 16 (by omega) hc w).1 (by rw [abs_lt]; omega), hz _ (by omega) (by omega), zero_mul]
  intro x
  have hl1 : t.cols.length = 1 := a5
  rw [C30_all t a4 x (by
    intro i hi _ y
    rw [show i = 0 by omega, hzero y]; rfl)]
  unfold series
  obtain ⟨d, hd⟩ := List.length_eq_one_iff.mp hl1
  rw [hd] at hzero ⊢
  simpa using hzero x

/-- C109 fails: the real function `cos(16πx)` is turned into the zero function, happily: on 32 points it is the highest
mode, which is stored first, is never tested and is dropped. -/
theorem C109_highest_mode_fails (s : Strategy) (eps : ℝ) (h0 : 0 < eps) (h1 : eps < 1) (fuel : ℕ) (hfuel : 4097 ≤ fuel) :
    ∃ t, fromCallable s [fun x => ((Real.cos (16 * Real.pi * x) : ℝ) : ℂ)] eps fuel = some t ∧ t.ishappy = true ∧
      ∀ x, (t.feval x).1 = [0] := by
  apply lost s _ (1 :: List.replicate 31 0) (by simp) 0 (by omega) ?_ ?_ eps h0 h1 fuel hfuel
  · intro i hi hne
    obtain ⟨j, rfl⟩ : ∃ j, i = j + 1 := ⟨i - 1, by omega⟩
    rw [List.getD_cons_succ, getD_replicate']
  · have he : ∀ x, trigEval (1 :: List.replicate 31 0) x = ((Real.cos (16 * Real.pi * x) : ℝ) : ℂ) := by
      intro x
      unfold trigEval
      rw [sum_eq_single 0]
      · simp [trigMode]
      · intro k _ hk
        obtain ⟨j, rfl⟩ : ∃ j, k = j + 1 := ⟨k - 1, by omega⟩
        rw [List.getD_cons_succ, getD_replicate', zero_mul]
      · intro h; simp at h
    intro j hj
    rw [he]
    split_ifs with h
    · have h2 : equi 32 j = -1 := by simp [equi, h]
      rw [h2, show 16 * Real.pi * (-1 : ℝ) = -(16 * Real.pi * 1) by ring, Real.cos_neg]; ring
    · rfl

/-- C109 fails: the complex function `exp(-10πix)` is turned into the zero function, happily; the test treats the
coefficients, stored from the lowest to the highest wave number, as if they were sorted by modulus of the wave number. -/
theorem C109_negative_modes_fails (s : Strategy) (eps : ℝ) (h0 : 0 < eps) (h1 : eps < 1) (fuel : ℕ) (hfuel : 4097 ≤ fuel) :
    ∃ t, fromCallable s [fun x => cexp (I * Real.pi * (-10 : ℤ) * x)] eps fuel = some t ∧ t.ishappy = true ∧
      ∀ x, (t.feval x).1 = [0] := by
  apply lost s _ ((List.replicate 32 0).set 6 1) (by simp) 6 (by omega) ?_ ?_ eps h0 h1 fuel hfuel
  · intro i hi hne
    rw [getD_set', if_neg (by omega), getD_replicate']
  · have he : ∀ x, trigEval ((List.replicate 32 0).set 6 1) x = cexp (I * Real.pi * (-10 : ℤ) * x) := by
      intro x
      unfold trigEval
      rw [sum_eq_single 6]
      · rw [getD_set', if_pos (by simp)]
        simp [trigMode, wave]
      · intro k _ hk
        rw [getD_set', if_neg (by omega), getD_replicate', zero_mul]
      · intro h; simp at h
    intro j hj
    rw [he]
    split_ifs with h
    · have h2 : equi 32 j = -1 := by simp [equi, h]
      have hb := band_period (band_mode 10 (-10) (by norm_num))
      rw [h2, hb]; ring
    · rfl

end Funpy.Props
