import Verif.Model.ChebRefine
import Verif.Props.ChebObj

/-!
# C24: adaptive construction
-/

namespace Funpy.Props
open Spec Cheb Real Finset

/-- The sizes visited by a run: the first one, then `n ↦ 2n-1` (nested) or the half-power sequence
(resample). -/
noncomputable def nextSize : Strategy → ℕ → ℕ
  | .nested, n => 2 * n - 1
  | .resample, n => nextN n

/-- See `nextSize`. -/
noncomputable def sizeSeq (s : Strategy) (minSamples : ℕ) : ℕ → ℕ
  | 0 => firstN minSamples
  | k + 1 => nextSize s (sizeSeq s minSamples k)

private lemma sqrt2_bounds (p : ℕ) :
    (1.4 : ℝ) * 2 ^ p ≤ (2 : ℝ) ^ ((p : ℝ) + 0.5) ∧ (2 : ℝ) ^ ((p : ℝ) + 0.5) ≤ 1.5 * 2 ^ p := by
  have h2 : (2 : ℝ) ^ ((p : ℝ) + 0.5) = 2 ^ p * √2 := by
    rw [rpow_add (by norm_num), rpow_natCast, sqrt_eq_rpow]; norm_num
  have l : (1.4 : ℝ) ≤ √2 := by apply le_sqrt_of_sq_le; norm_num
  have u : √2 ≤ (1.5 : ℝ) := by rw [sqrt_le_left (by norm_num)]; norm_num
  have hp : (0 : ℝ) < 2 ^ p := by positivity
  rw [h2]
  constructor <;> nlinarith

/-- C24: sizes of the resampling strategy: `2^p + 1` is followed (for `p > 5`) by an odd size strictly
between `2^p + 1` and `2^(p+1) + 1`, and every other size by the next `2^q + 1`. -/
theorem C24_resample_sizes (n : ℕ) (hn : 2 ≤ n) :
    n < nextN n ∧ nextN n % 2 = 1 ∧
    (∀ p, 5 < p → n = 2 ^ p + 1 →
      nextN n < 2 ^ (p + 1) + 1 ∧ nextN (nextN n) = 2 ^ (p + 1) + 1) := by
  have hlog : n - 1 < 2 ^ (Nat.log 2 (n - 1) + 1) := Nat.lt_pow_succ_log_self (by norm_num) _
  have key : ∀ p, 5 < p → n = 2 ^ p + 1 → ∃ q, nextN n = q ∧ n < q ∧ q % 2 = 1 ∧ q < 2 ^ (p + 1) := by
    intro p hp hnp
    have hl : Nat.log 2 (n - 1) = p := by
      rw [hnp, Nat.add_sub_cancel]; exact Nat.log_pow (by norm_num) p
    obtain ⟨lo, hi⟩ := sqrt2_bounds p
    set y := (2 : ℝ) ^ ((p : ℝ) + 0.5) with hy
    have h64 : (64 : ℕ) ≤ 2 ^ p := by
      calc (64 : ℕ) = 2 ^ 6 := by norm_num
        _ ≤ 2 ^ p := Nat.pow_le_pow_right (by norm_num) hp
    have h64' : (64 : ℝ) ≤ 2 ^ p := by exact_mod_cast h64
    have f1 : 2 ^ p + 2 ≤ ⌊y + 0.5⌋₊ := by
      apply Nat.le_floor; push_cast; linarith
    have f2 : ⌊y + 0.5⌋₊ + 4 < 2 ^ (p + 1) := by
      have : (⌊y + 0.5⌋₊ : ℝ) ≤ y + 0.5 := Nat.floor_le (by linarith)
      have : ((⌊y + 0.5⌋₊ + 4 : ℕ) : ℝ) < ((2 ^ (p + 1) : ℕ) : ℝ) := by
        push_cast; rw [pow_succ]; linarith
      exact_mod_cast this
    refine ⟨_, rfl, ?_⟩
    rw [nextN]
    simp only [hl]
    rw [if_pos ⟨by omega, hp⟩, ← hy]
    omega
  refine ⟨?_, ?_, ?_⟩
  · by_cases h : n - 1 = 2 ^ Nat.log 2 (n - 1) ∧ Nat.log 2 (n - 1) > 5
    · obtain ⟨q, hq, h1, _⟩ := key _ h.2 (by omega)
      omega
    · rw [nextN]; simp only; rw [if_neg h]; omega
  · by_cases h : n - 1 = 2 ^ Nat.log 2 (n - 1) ∧ Nat.log 2 (n - 1) > 5
    · obtain ⟨q, hq, h1, h2, _⟩ := key _ h.2 (by omega)
      omega
    · rw [nextN]; simp only; rw [if_neg h, pow_succ]; omega
  · intro p hp hnp
    obtain ⟨q, hq, h1, h2, h3⟩ := key p hp hnp
    refine ⟨by omega, ?_⟩
    rw [hq]
    have hl : Nat.log 2 (q - 1) = p := by
      rw [Nat.log_eq_iff (by left; omega)]
      omega
    rw [nextN]
    simp only [hl]
    rw [if_neg (by omega)]

example : (2 : ℕ) ≤ 2 ^ 6 + 1 := by norm_num

lemma firstN_ge (ms : ℕ) : 2 ≤ firstN ms := by
  have : 0 < 2 ^ Nat.clog 2 (ms - 1) := by positivity
  simp only [firstN]; omega

private lemma nextSize_gt (s : Strategy) (n : ℕ) (hn : 2 ≤ n) : n < nextSize s n := by
  cases s
  · simp only [nextSize]; omega
  · exact (C24_resample_sizes n hn).1

lemma sizeSeq_ge (s : Strategy) (ms k : ℕ) : k + 2 ≤ sizeSeq s ms k := by
  induction k with
  | zero => exact firstN_ge ms
  | succ k ih =>
    have := nextSize_gt s _ (by omega : 2 ≤ sizeSeq s ms k)
    simp only [sizeSeq]; omega

/-- C24: the Chebyshev grids are nested: the points of the grid of size `2n-1` with even index are
the points of the grid of size `n`. -/
theorem C24_grids_nested (n : ℕ) (hn : 2 ≤ n) (i : ℕ) (hi : i < n) :
    (chebpts2 (2 * n - 1)).getD (2 * i) 0 = (chebpts2 n).getD i 0 := by
  obtain ⟨M, rfl⟩ : ∃ M, n = M + 1 := ⟨n - 1, by omega⟩
  have hM : 0 < M := by omega
  rw [show 2 * (M + 1) - 1 = 2 * M + 1 by omega, chebpts2_getD (2 * M) (by omega) _ (by omega),
    chebpts2_getD M hM i (by omega)]
  congr 1
  have : (M : ℝ) ≠ 0 := by positivity
  rw [show 2 * M - 2 * i = 2 * (M - i) by omega]
  push_cast
  field_simp

private lemma sample_col (n : ℕ) (hn : 2 ≤ n) (f : ℝ → ℝ) :
    interleave (2 * n - 1) ((chebpts2 n).map f) ((oddInner (chebpts2 (2 * n - 1))).map f)
      = (chebpts2 (2 * n - 1)).map f := by
  have hl : (chebpts2 (2 * n - 1)).length = 2 * n - 1 := chebpts2_length _
  apply ext_getD 0
  · simp [interleave, chebpts2_length]
  · intro k hk
    have hk' : k < 2 * n - 1 := by simpa [interleave] using hk
    rw [interleave, getD_map_range, if_pos hk', getD_lt' ((chebpts2 (2 * n - 1)).map f) _ _ (by simpa [hl] using hk'),
      List.getElem_map]
    rcases Nat.even_or_odd' k with ⟨i, rfl | rfl⟩
    · rw [if_pos (by omega), Nat.mul_div_cancel_left _ (by norm_num : 0 < 2),
        getD_lt' (List.map _ _) _ _ (by rw [List.length_map, chebpts2_length]; omega), List.getElem_map]
      congr 1
      have := C24_grids_nested n hn i (by omega)
      rw [getD_lt' _ _ _ (by omega), getD_lt' _ _ _ (by rw [chebpts2_length]; omega)] at this
      exact this.symm
    · have hlen : (oddInner (chebpts2 (2 * n - 1))).length = n - 1 := by
        simp [oddInner, hl]; omega
      rw [if_neg (by omega), if_pos (by omega), show (2 * i + 1) / 2 = i by omega,
        getD_lt' (List.map _ _) _ _ (by rw [List.length_map, hlen]; omega), List.getElem_map]
      congr 1
      simp only [oddInner, List.getElem_map, List.getElem_range]
      rw [getD_lt' _ _ _ (by omega)]

/-- C24: one nested refinement: if the stored values are the user's function sampled on the grid of
size `n`, then the round either gives up without touching them (exactly when `2n-1` exceeds the
maximal length) or replaces them by the samples on the grid of size `2n-1`, although the function is
evaluated only at the `n-1` new points. -/
theorem C24_nested_step (fs : List (ℝ → ℝ)) (hfs : fs ≠ []) (ms ml n : ℕ) (hn : 2 ≤ n) (c : Arr ℝ) :
    nestedStep fs ms ml c (sample fs (chebpts2 n)) =
      if 2 * n - 1 > ml then (sample fs (chebpts2 n), true)
      else (sample fs (chebpts2 (2 * n - 1)), false) := by
  have hN : (sample fs (chebpts2 n)).n = n := by simp [sample, chebpts2_length]
  have hM : (sample fs (chebpts2 n)).m ≠ 0 := by simp [sample, Arr.m, hfs]
  rw [nestedStep, if_neg (Nat.mul_ne_zero (by omega) hM), hN]
  simp only
  split_ifs with h
  · rfl
  · simp only [sample, chebpts2_length, Prod.mk.injEq, Arr.mk.injEq, true_and, and_true]
    rw [List.zipWith_map]
    rw [List.zipWith_self]
    apply List.map_congr_left
    intro f _
    exact sample_col n hn f

private lemma refine_next (s : Strategy) (fs : List (ℝ → ℝ)) (hfs : fs ≠ []) (ms ml n : ℕ) (hn : 2 ≤ n)
    (c : Arr ℝ) (hc : c = polyfit (sample fs (chebpts2 n))) :
    refineStep s fs ms ml c (sample fs (chebpts2 n)) =
      if nextSize s n > ml then (sample fs (chebpts2 n), true)
      else (sample fs (chebpts2 (nextSize s n)), false) := by
  cases s
  · exact C24_nested_step fs hfs ms ml n hn c
  · have hm : c.m ≠ 0 := by rw [hc]; simp [polyfit, sample, Arr.m, Arr.mapCols, hfs]
    have hcn : c.n = n := by rw [hc]; simp [polyfit, sample, Arr.mapCols, chebpts2_length]
    simp only [refineStep, resampleStep, getN, if_neg hm, hcn, nextSize]
    by_cases h : nextN n > ml <;> simp [h]

private lemma refine_first (s : Strategy) (fs : List (ℝ → ℝ)) (ms ml : ℕ) :
    refineStep s fs ms ml ⟨0, []⟩ ⟨0, []⟩ =
      if firstN ms > ml then (⟨0, []⟩, true) else (sample fs (chebpts2 (firstN ms)), false) := by
  cases s <;> simp only [refineStep, nestedStep, resampleStep, getN, Arr.m, List.length_nil,
    Nat.mul_zero, if_true] <;> by_cases h : firstN ms > ml <;> simp [h]

/-- The target object `t` with the coefficients of the interpolant of size `n`. -/
noncomputable def fitted (t : Tech) (fs : List (ℝ → ℝ)) (n : ℕ) : Tech :=
  { t with coeffs := polyfit (sample fs (chebpts2 n)) }

/-- How a run of the constructor that started with samples of size number `k` ends: after some
unhappy rounds it is either happy at size number `j` (and the interpolant is cut at the cutoff), or it
gives up at size `j` because the next size would be too large. -/
def EndsAt (s : Strategy) (fs : List (ℝ → ℝ)) (ms : ℕ) (t : Tech) (k : ℕ)
    (r : Tech × Arr ℝ × Bool) : Prop :=
  ∃ j, k ≤ j ∧ (∀ i, k ≤ i → i < j → (fitted t fs (sizeSeq s ms i)).happy.1 = false) ∧
    sizeSeq s ms j ≤ t.maxLength ∧ r.2.1 = sample fs (chebpts2 (sizeSeq s ms j)) ∧
    ((r.2.2 = false ∧ (fitted t fs (sizeSeq s ms j)).happy.1 = true ∧
        r.1 = { t with coeffs := prolong (polyfit r.2.1)
                          (((fitted t fs (sizeSeq s ms j)).happy.2 : ℤ) + 1) }) ∨
     (r.2.2 = true ∧ t.maxLength < sizeSeq s ms (j + 1) ∧
        (fitted t fs (sizeSeq s ms j)).happy.1 = false ∧ r.1 = { t with coeffs := polyfit r.2.1 }))

private lemma ends_mono (s : Strategy) (fs : List (ℝ → ℝ)) (ms : ℕ) (t : Tech) (k : ℕ)
    (r : Tech × Arr ℝ × Bool) (hu : (fitted t fs (sizeSeq s ms k)).happy.1 = false)
    (h : EndsAt s fs ms t (k + 1) r) : EndsAt s fs ms t k r := by
  obtain ⟨j, hj, hun, rest⟩ := h
  refine ⟨j, by omega, ?_, rest⟩
  intro i h1 h2
  rcases Nat.eq_or_lt_of_le h1 with h | h
  · rw [← h]; exact hu
  · exact hun i h h2

private lemma round_giveup (s : Strategy) (fs : List (ℝ → ℝ)) (ms fuel : ℕ) (t : Tech) (v v' : Arr ℝ)
    (h : refineStep s fs ms t.maxLength t.coeffs v = (v', true)) :
    populate s fs ms (fuel + 1) t v = some ({ t with coeffs := polyfit v' }, v', true) := by
  rw [populate]; simp only [h, if_true]

private lemma round_go (s : Strategy) (fs : List (ℝ → ℝ)) (ms fuel : ℕ) (t t' : Tech) (v v' : Arr ℝ)
    (h : refineStep s fs ms t.maxLength t.coeffs v = (v', false))
    (ht : ({ t with coeffs := polyfit v' } : Tech) = t') :
    populate s fs ms (fuel + 1) t v =
      if t'.happy.1 then some ({ t' with coeffs := prolong t'.coeffs ((t'.happy.2 : ℤ) + 1) }, v', false)
      else populate s fs ms fuel t' v' := by
  rw [populate]; simp only [h]; subst ht; rfl

/-- Rounds after the first one: started with the interpolant of size number `k`, found unhappy. -/
private lemma populate_from (s : Strategy) (fs : List (ℝ → ℝ)) (hfs : fs ≠ []) (ms : ℕ) (t : Tech) :
    ∀ (fuel k : ℕ), sizeSeq s ms k ≤ t.maxLength →
      (fitted t fs (sizeSeq s ms k)).happy.1 = false → t.maxLength ≤ fuel + k →
      ∃ r, populate s fs ms fuel (fitted t fs (sizeSeq s ms k)) (sample fs (chebpts2 (sizeSeq s ms k)))
        = some r ∧ EndsAt s fs ms t k r
  | 0, k, hk, _, hfuel => by
    have := sizeSeq_ge s ms k
    omega
  | fuel + 1, k, hk, hu, hfuel => by
    have hge := sizeSeq_ge s ms k
    have hr := refine_next s fs hfs ms t.maxLength (sizeSeq s ms k) (by omega)
      (fitted t fs (sizeSeq s ms k)).coeffs rfl
    by_cases hbig : nextSize s (sizeSeq s ms k) > t.maxLength
    · rw [if_pos hbig] at hr
      refine ⟨_, round_giveup s fs ms fuel _ _ _ hr, k, le_rfl, fun i h1 h2 => by omega, hk, rfl,
        Or.inr ⟨rfl, hbig, hu, rfl⟩⟩
    · rw [if_neg hbig] at hr
      rw [round_go s fs ms fuel (fitted t fs (sizeSeq s ms k)) (fitted t fs (sizeSeq s ms (k + 1))) _ _ hr rfl]
      by_cases hh : (fitted t fs (sizeSeq s ms (k + 1))).happy.1 = true
      · rw [if_pos hh]
        refine ⟨_, rfl, k + 1, by omega, ?_, by simp only [sizeSeq]; omega, rfl, Or.inl ⟨rfl, hh, rfl⟩⟩
        intro i h1 h2
        rw [show i = k by omega]; exact hu
      · rw [if_neg hh]
        obtain ⟨r, hr1, hr2⟩ := populate_from s fs hfs ms t fuel (k + 1)
          (by simp only [sizeSeq]; omega) (by simpa using hh) (by omega)
        exact ⟨r, hr1, ends_mono s fs ms t k r hu hr2⟩

/-- C24: the constructor loop stops after at most `maxLength + 1` rounds, for every user function and
every strategy, and its result is described by `EndsAt`: the stored values are the user's function
sampled on a Chebyshev grid whose size is in the sequence of sizes and at most `maxLength`. -/
theorem C24_terminates (s : Strategy) (fs : List (ℝ → ℝ)) (hfs : fs ≠ []) (ms : ℕ) (t : Tech)
    (ht : t.coeffs = ⟨0, []⟩) (fuel : ℕ) (hfuel : t.maxLength + 1 ≤ fuel)
    (hlen : firstN ms ≤ t.maxLength) :
    ∃ r, populate s fs ms fuel t ⟨0, []⟩ = some r ∧ EndsAt s fs ms t 0 r := by
  obtain ⟨fuel, rfl⟩ : ∃ k, fuel = k + 1 := ⟨fuel - 1, by omega⟩
  have hr := refine_first s fs ms t.maxLength
  rw [if_neg (by omega), ← ht] at hr
  rw [← ht]
  rw [round_go s fs ms fuel _ (fitted t fs (sizeSeq s ms 0)) _ _ hr rfl]
  by_cases hh : (fitted t fs (sizeSeq s ms 0)).happy.1 = true
  · rw [if_pos hh]
    exact ⟨_, rfl, 0, le_rfl, fun i h1 h2 => by omega, hlen, rfl, Or.inl ⟨rfl, hh, rfl⟩⟩
  · rw [if_neg hh]
    exact populate_from s fs hfs ms t fuel 0 hlen (by simpa using hh) (by omega)

/-- C24: if already the first grid is larger than `maxLength`, the loop gives up at once without
coefficients. -/
theorem C24_too_short (s : Strategy) (fs : List (ℝ → ℝ)) (ms : ℕ) (t : Tech)
    (ht : t.coeffs = ⟨0, []⟩) (fuel : ℕ) (hlen : t.maxLength < firstN ms) :
    populate s fs ms (fuel + 1) t ⟨0, []⟩ = some (t, ⟨0, []⟩, true) := by
  have hr := refine_first s fs ms t.maxLength
  rw [if_pos (by omega), ← ht] at hr
  rw [← ht, round_giveup s fs ms fuel t _ _ hr]
  obtain ⟨c, e, hs, ml, hp⟩ := t
  simp only at ht
  subst ht
  rfl

private lemma clog_small : ∀ ml, 9 ≤ ml → ml < 17 → (firstN (max 9 (min ml 17)) ≤ ml ↔ ml = 9) := by
  intro ml h1 h2
  interval_cases ml <;> simp [firstN] <;> decide

private lemma firstN_17 : firstN 17 = 17 := by simp [firstN]; decide

private lemma firstN_small (ml : ℕ) (h : ml < 9) : ml < firstN (max 9 (min ml 17)) := by
  rw [show max 9 (min ml 17) = 9 by omega]
  have : firstN 9 = 9 := by simp [firstN]; decide
  omega

/-- C24: a callable can be turned into a function (with the default `minSamples`) exactly when
`maxLength` is 9 or at least 17; for all other values construction fails, whatever the callable.
For the accepted values the loop terminates within `maxLength + 1` rounds and an object is returned. -/
theorem C24_constructor (s : Strategy) (fs : List (ℝ → ℝ)) (hfs : fs ≠ []) (eps hs : ℝ) (ml : ℕ)
    (simp : Bool) (fuel : ℕ) (hfuel : ml + 1 ≤ fuel) :
    (∃ t, fromCallable s fs eps hs ml simp fuel = some t ∧ t.eps = eps ∧ t.hscale = hs ∧
      t.maxLength = ml) ↔ (ml = 9 ∨ 17 ≤ ml) := by
  have hfirst : firstN (max 9 (min ml 17)) ≤ ml ↔ (ml = 9 ∨ 17 ≤ ml) := by
    rcases Nat.lt_or_ge ml 9 with h | h
    · have := firstN_small ml h; omega
    · rcases Nat.lt_or_ge ml 17 with h' | h'
      · rw [clog_small ml h h']; omega
      · rw [show max 9 (min ml 17) = 17 by omega, firstN_17]; omega
  constructor
  · rintro ⟨t, ht, -⟩
    by_contra hno
    obtain ⟨fuel, rfl⟩ : ∃ k, fuel = k + 1 := ⟨fuel - 1, by omega⟩
    simp only [fromCallable] at ht
    rw [C24_too_short s fs _ ⟨⟨0, []⟩, eps, hs, ml, false⟩ rfl fuel (by
      show ml < _
      by_contra hc
      exact hno (hfirst.mp (by omega)))] at ht
    simp [Tech.mk'] at ht
  · intro hml
    obtain ⟨r, hr, j, _, _, hj, hv, hfin⟩ := C24_terminates s fs hfs (max 9 (min ml 17))
      ⟨⟨0, []⟩, eps, hs, ml, false⟩ rfl fuel hfuel (hfirst.mpr hml)
    have hge := sizeSeq_ge s (max 9 (min ml 17)) j
    have hsize : r.1.coeffs.n * r.1.coeffs.m ≠ 0 := by
      have hm : ∀ n, (polyfit (sample fs (chebpts2 n))).m ≠ 0 := by
        intro n; simp [polyfit, sample, Arr.m, Arr.mapCols, hfs]
      rcases hfin with ⟨_, _, h⟩ | ⟨_, _, _, h⟩
      · rw [h, hv]
        apply Nat.mul_ne_zero
        · simp only [prolong, Arr.mapCols]; omega
        · have := hm (sizeSeq s (max 9 (min ml 17)) j)
          simpa [prolong, Arr.mapCols, Arr.m] using this
      · rw [h, hv]
        refine Nat.mul_ne_zero ?_ (hm _)
        simp only [polyfit, Arr.mapCols, sample, chebpts2_length]; omega
    obtain ⟨t, ht, h1, h2, h3, -⟩ := mk'_some r.1.coeffs hsize eps false simp hs ml
    refine ⟨t, ?_, h1, h2, h3⟩
    simp only [fromCallable, hr]
    exact ht

lemma sample_wf (fs : List (ℝ → ℝ)) (xs : List ℝ) : (sample fs xs).WF := by
  intro c hc
  simp only [sample, List.mem_map] at hc
  obtain ⟨f, _, rfl⟩ := hc
  simp [sample]

/-- C24: when the constructor gives up, the coefficients it leaves are those of the polynomial which
agrees with the user's function at all points of the last grid. -/
theorem C24_giveup_interpolates (fs : List (ℝ → ℝ)) (n : ℕ) (hn : 0 < n) :
    (polyfit (sample fs (chebpts2 n))).cols.map (fun c => (chebpts2 n).map (chebEval c))
      = fs.map fun f => (chebpts2 n).map f := by
  have hsn : (sample fs (chebpts2 n)).n = n := chebpts2_length n
  have := C07_interpolates (sample fs (chebpts2 n)) (sample_wf _ _) (by rw [hsn]; exact hn)
  rw [hsn] at this
  exact this

lemma go_spec (n : ℕ) : ∀ (cs : List (List ℝ)) (ts : List ℝ) (b : Bool) (r : ℕ),
    cs.length = ts.length → (happinessCheck.go n cs ts b r).1 = true →
    r ≤ (happinessCheck.go n cs ts b r).2 ∧
    ∀ j, j < cs.length → standardChop (cs.getD j []) (ts.getD j 0) < n ∧
      standardChop (cs.getD j []) (ts.getD j 0) ≤ (happinessCheck.go n cs ts b r).2
  | [], [], b, r, _, _ => by simp [happinessCheck.go]
  | c :: cs, t :: ts, b, r, hl, h => by
    rw [happinessCheck.go] at h ⊢
    by_cases hh : standardChop c t < n
    · simp only [hh, decide_true, if_true] at h ⊢
      obtain ⟨h1, h2⟩ := go_spec n cs ts true (max r (standardChop c t)) (by simpa using hl) h
      refine ⟨by omega, ?_⟩
      intro j hj
      cases j with
      | zero => exact ⟨hh, by simp only [List.getD_cons_zero]; omega⟩
      | succ j => exact h2 j (by simpa using hj)
    · simp [hh] at h
  | [], _ :: _, _, _, hl, _ => by simp at hl
  | _ :: _, [], _, _, hl, _ => by simp at hl

lemma vscale_length (a : Arr ℝ) : (vscale a).length = a.m := by
  unfold vscale; split_ifs <;> simp [polyval, Arr.mapCols, Arr.m]

/-- C24: when the constructor stops happily on a grid of at least 17 points with positive tolerances
below one, every component of the result agrees with the user's function at all points of that grid up
to (number of dropped coefficients) × (cube root of the tolerance), the tolerance of component `i`
being `eps * max(hscale, max |f_i| on the grid)`. -/
theorem C24_happy_error (fs : List (ℝ → ℝ)) (t : Tech) (n : ℕ) (hn : 17 ≤ n) (heps : 0 < t.eps)
    (hhs : 0 < t.hscale) (hh : (fitted t fs n).happy.1 = true) (i : ℕ) (hi : i < fs.length)
    (htol : max t.hscale (maxAbs ((chebpts2 n).map fs[i])) * t.eps < 1) (x : ℝ) (hx : x ∈ chebpts2 n)
    (d : List ℝ)
    (hd : (prolong (polyfit (sample fs (chebpts2 n))) (((fitted t fs n).happy.2 : ℤ) + 1)).cols[i]?
      = some d) :
    |chebEval d x - fs[i] x| ≤ ((n - ((fitted t fs n).happy.2 + 1) : ℕ) : ℝ) *
      (max t.hscale (maxAbs ((chebpts2 n).map fs[i])) * t.eps) ^ ((1 : ℝ) / 3) := by
  set v := sample fs (chebpts2 n) with hv
  have hvn : v.n = n := chebpts2_length n
  have hvw : v.WF := sample_wf _ _
  set a := polyfit v with ha
  have han : a.n = n := hvn
  have ham : a.m = fs.length := by simp [ha, hv, polyfit, sample, Arr.m, Arr.mapCols]
  set tol := max t.hscale (maxAbs ((chebpts2 n).map fs[i])) * t.eps with htl
  have htol0 : 0 < tol := mul_pos (lt_of_lt_of_le hhs (le_max_left _ _)) heps
  have hcol : a.cols[i]? = some (polyfitCol ((chebpts2 n).map fs[i])) := by
    simp [ha, hv, polyfit, sample, Arr.mapCols, hi]
  set c := polyfitCol ((chebpts2 n).map fs[i]) with hc
  have hcl : c.length = n := by rw [hc, polyfitCol_length]; simp [chebpts2_length]
  -- the tolerance used for this column
  have hvs : (vscale a).getD i 0 = maxAbs ((chebpts2 n).map fs[i]) := by
    rw [vscale, if_neg (by omega), ha, C07_val_fit v hvw (by omega), hv]
    rw [getD_lt' (List.map _ _) _ _ (by simpa [sample] using hi)]
    simp [sample]
  -- the happiness check
  have hcheck := go_spec n a.cols ((vscale a).map fun w => max t.hscale w * t.eps) true 0
    (by rw [List.length_map, vscale_length]; rfl)
  have hhap : (fitted t fs n).happy = ((happinessCheck.go n a.cols
      ((vscale a).map fun w => max t.hscale w * t.eps) true 0).1,
      (happinessCheck.go n a.cols ((vscale a).map fun w => max t.hscale w * t.eps) true 0).2 + 1) := by
    have h1 : ¬ (a.n < 17) := by omega
    simp only [Tech.happy, happinessCheck, fitted]
    simp only [← hv, ← ha, han]
    rw [if_neg (by omega)]
  rw [hhap] at hh hd ⊢
  simp only at hh hd ⊢
  set rc := (happinessCheck.go n a.cols ((vscale a).map fun w => max t.hscale w * t.eps) true 0).2 with hrc
  obtain ⟨hlt, hle⟩ := (hcheck hh).2 i (by
    have : a.cols.length = fs.length := ham
    omega)
  have hcg : a.cols.getD i [] = c := by
    rw [List.getD_eq_getElem?_getD, hcol]; rfl
  have htg : ((vscale a).map fun w => max t.hscale w * t.eps).getD i 0 = tol := by
    have hil : i < (vscale a).length := by rw [vscale_length, ham]; exact hi
    rw [getD_lt' (List.map _ _) _ _ (by simpa using hil), List.getElem_map, htl, ← hvs,
      getD_lt' _ _ _ hil]
  rw [hcg, htg] at hlt hle
  -- the dropped coefficients
  have hdrop : ∀ k, rc < k → |c.getD k 0| ≤ tol ^ ((1 : ℝ) / 3) := by
    intro k hk
    rcases standardChop_spec c tol htol0 htol with h | ⟨_, h⟩
    · omega
    · exact h k (by omega)
  -- the interpolant
  have hint : chebEval c x = fs[i] x := by
    have := C24_giveup_interpolates fs n (by omega)
    rw [← hv, ← ha] at this
    have h2 := congrArg (fun l => l[i]?) this
    simp only [List.getElem?_map, hcol, List.getElem?_eq_getElem hi, Option.map_some,
      Option.some.injEq] at h2
    exact List.map_inj_left.mp h2 x hx
  have hdc : d = prolongCol c ((((rc + 1 : ℕ) : ℤ)) + 1) := by
    simp only [prolong, Arr.mapCols, List.getElem?_map, hcol, Option.map_some, Option.some.injEq] at hd
    exact hd.symm
  have hx1 : |x| ≤ 1 := by
    obtain ⟨M, rfl⟩ : ∃ M, n = M + 1 := ⟨n - 1, by omega⟩
    obtain ⟨j, hj, rfl⟩ := List.mem_iff_getElem.mp hx
    rw [chebpts2_length] at hj
    rw [← getD_lt' _ 0 _ (by rw [chebpts2_length]; exact hj), chebpts2_getD M (by omega) j (by omega)]
    exact abs_cos_le_one _
  rw [← hint, abs_sub_comm, hdc]
  have hpl : (prolongCol c (((rc + 1 : ℕ) : ℤ) + 1)).length = rc + 2 := by
    rw [prolongCol_length]; omega
  rw [chebEval_eq_of_getD c (max n (rc + 2)) (by omega),
    chebEval_eq_of_getD (prolongCol c _) (max n (rc + 2)) (by omega), ← sum_sub_distrib]
  have hterm : ∀ k ∈ range (max n (rc + 2)),
      |c.getD k 0 * (Polynomial.Chebyshev.T ℝ k).eval x
        - (prolongCol c (((rc + 1 : ℕ) : ℤ) + 1)).getD k 0 * (Polynomial.Chebyshev.T ℝ k).eval x|
      ≤ if rc + 2 ≤ k ∧ k < n then tol ^ ((1 : ℝ) / 3) else 0 := by
    intro k _
    rw [prolongCol_getD]
    by_cases hk : k < rc + 2
    · rw [if_pos (by omega), sub_self, abs_zero, if_neg (by omega)]
    · rw [if_neg (by omega), zero_mul, sub_zero, abs_mul]
      by_cases hkn : k < n
      · rw [if_pos ⟨by omega, hkn⟩]
        have hT : |(Polynomial.Chebyshev.T ℝ k).eval x| ≤ 1 := by
          rw [← cos_arccos (neg_le_of_abs_le hx1) (le_of_abs_le hx1)]
          rw [Polynomial.Chebyshev.T_real_cos]
          exact abs_cos_le_one _
        calc _ ≤ tol ^ ((1 : ℝ) / 3) * 1 :=
              mul_le_mul (hdrop k (by omega)) hT (abs_nonneg _) (rpow_nonneg htol0.le _)
          _ = _ := mul_one _
      · rw [getD_ge' _ _ _ (by omega), abs_zero, zero_mul, if_neg (by omega)]
  refine (abs_sum_le_sum_abs _ _).trans ((sum_le_sum hterm).trans ?_)
  rw [← sum_filter, sum_const, nsmul_eq_mul]
  apply mul_le_mul_of_nonneg_right _ (rpow_nonneg htol0.le _)
  have : ({k ∈ range (max n (rc + 2)) | rc + 2 ≤ k ∧ k < n}) = Ico (rc + 2) n := by
    ext k; simp; omega
  rw [this, Nat.card_Ico]

/-- A run which meets the hypotheses: the constant function 3 on the default settings. -/
example : ∃ r, populate .nested [fun _ => 3] 17 (1 + 2 ^ 14 + 1) ⟨⟨0, []⟩, 1 / 10 ^ 15, 1, 1 + 2 ^ 14, false⟩
    ⟨0, []⟩ = some r ∧ EndsAt .nested [fun _ => 3] 17 ⟨⟨0, []⟩, 1 / 10 ^ 15, 1, 1 + 2 ^ 14, false⟩ 0 r :=
  C24_terminates .nested _ (by simp) 17 _ rfl _ le_rfl (by rw [firstN_17]; norm_num)

end Funpy.Props
