import Verif.Lemmas.TrigArith2
import Verif.Props.TrigBasic

/-!
# C37, C38, C61 – C64: real parts, arithmetic, products, simplify and convolution of periodic functions
-/

namespace Funpy.Props
open Spec Trig Finset Complex ComplexConjugate

/-- A `trigtech` whose values belong to its coefficients and whose reality flags are exact.  (The
constructor sets a flag when the imaginary parts are below a tolerance; a column flagged real with a
small but non-zero imaginary part has it silently dropped by some operations.) -/
structure _root_.Funpy.Trig.Tech.Sound (t : Trig.Tech) : Prop where
  /-- consistent shapes -/
  proper : t.Proper
  /-- `values` are the values of the series on the grid -/
  vals : t.vals = t.cols.map coeffs2vals
  /-- the flags are exact -/
  flags : ∀ i < t.cols.length, FlagExact t i

/-- All columns of `t` are real-valued functions. -/
def RealValued (t : Trig.Tech) : Prop := ∀ c ∈ t.cols, ∀ y, (trigEval c y).im = 0

private lemma realIf_exact (r : Bool) (c : List ℂ) (h : r = true → ∀ y, (trigEval c y).im = 0) :
    realIf r (coeffs2vals c) = coeffs2vals c := by
  unfold realIf
  split_ifs with hr
  · apply ext_getD 0 (by simp)
    intro j hj
    rw [List.length_map, coeffs2vals_length] at hj
    rw [getD_map_lt _ 0 _ _ _ (by rw [coeffs2vals_length]; exact hj)]
    have := h hr (equi c.length j)
    rw [trigEval_grid c j hj] at this
    apply Complex.ext
    · rw [ofReal_re]
    · rw [ofReal_im, this]
  · rfl

/-- Objects built from the coefficients of real-valued functions are sound, whatever the flags. -/
lemma real_sound (n : ℕ) (hn : n ≠ 0) (cols : List (List ℂ)) (eps : ℝ) (h : ∀ c ∈ cols, c.length = n)
    (hr : ∀ c ∈ cols, ∀ y, (trigEval c y).im = 0) : (Tech.ofCoeffs n cols eps).Sound := by
  have hp := ofCoeffs_proper n hn cols eps h
  refine ⟨hp, ?_, ?_⟩
  · simp only [Tech.ofCoeffs, Tech.make]
    apply List.ext_getElem
    · simp
    · intro i h1 h2
      simp only [List.getElem_zipWith, List.getElem_map]
      apply realIf_exact
      intro _
      exact hr _ (List.getElem_mem _)
  · intro i hi _
    rw [getD_lt' _ _ _ hi]
    exact hr _ (List.getElem_mem _)

private lemma const_wave (n : ℕ) (hn : n ≠ 0) (x : ℝ) : trigMode n (constIndex n) x = 1 ∧ constIndex n < n := by
  have h1 : constIndex n = n / 2 := by unfold constIndex; split_ifs <;> omega
  rw [h1]
  refine ⟨?_, by omega⟩
  unfold trigMode
  rw [if_neg (by omega)]
  simp [wave]

private lemma trigEval_map_mul (c : List ℂ) (s : ℂ) (f : ℂ → ℂ) (hf : ∀ z, f z = z * s) (x : ℝ) :
    trigEval (c.map f) x = trigEval c x * s := by
  unfold trigEval
  rw [List.length_map, sum_mul]
  apply sum_congr rfl
  intro k hk
  rw [getD_map_lt _ 0 _ _ _ (mem_range.mp hk), hf]; ring

/-! ## C61 -/

/-- C61: `-f` is pointwise, for every object. -/
theorem C61_negative (t : Tech) (x : ℝ) : series t.neg x = (series t x).map fun z => -z := by
  simp only [series, Tech.neg, Tech.ofBoth, Tech.make, List.map_map]
  apply List.map_congr_left
  intro c _
  simp only [Function.comp]
  rw [trigEval_map_mul c (-1) _ (by intro z; ring)]; ring

/-- C61: `f * s` for a number is pointwise, for every object. -/
theorem C61_times_number (t : Tech) (s : ℂ) (x : ℝ) :
    series (t.mulNum s) x = (series t x).map fun z => z * s := by
  simp only [series, Tech.mulNum, Tech.ofBoth, Tech.make, List.map_map]
  apply List.map_congr_left
  intro c _
  exact trigEval_map_mul c s _ (by intro z; ring) x

/-- C61: `f / s` for a number is refused for `|s| < 1e-16` and pointwise otherwise. -/
theorem C61_divide_number (t : Tech) (s : ℂ) (x : ℝ) :
    (‖s‖ < 1e-16 → t.divNum s = none) ∧
    (¬ ‖s‖ < 1e-16 → ∃ g, t.divNum s = some g ∧ series g x = (series t x).map fun z => z / s) := by
  constructor
  · intro h; unfold Tech.divNum; rw [if_pos h]
  · intro h
    unfold Tech.divNum
    rw [if_neg h]
    refine ⟨_, rfl, ?_⟩
    simp only [series, Tech.ofBoth, Tech.make, List.map_map]
    apply List.map_congr_left
    intro c _
    simp only [Function.comp]
    rw [trigEval_map_mul c s⁻¹ _ (by intro z; rw [div_eq_mul_inv]), div_eq_mul_inv]

/-- C61: `f + s` for a number is pointwise, for all lengths and both parities. -/
theorem C61_plus_number (t : Tech) (hp : t.Proper) (s : ℂ) (x : ℝ) :
    series (t.addNum s) x = (series t x).map fun z => z + s := by
  simp only [series, Tech.addNum, Tech.ofBoth, Tech.make, List.map_map]
  apply List.map_congr_left
  intro c hc
  have hl := hp.wf c hc
  obtain ⟨hm, hi⟩ := const_wave t.n hp.pos x
  simp only [Function.comp]
  unfold trigEval
  rw [List.length_set, hl]
  have : ∀ k ∈ range t.n, (c.set (constIndex t.n) (c.getD (constIndex t.n) 0 + s)).getD k 0 * trigMode t.n k x
      = c.getD k 0 * trigMode t.n k x + (if k = constIndex t.n then s else 0) := by
    intro k _
    rw [getD_set']
    by_cases hk : k = constIndex t.n
    · subst hk
      rw [if_pos ⟨rfl, by omega⟩, if_pos rfl, hm]; ring
    · rw [if_neg (by rintro ⟨h, _⟩; omega), if_neg hk, add_zero]
  rw [sum_congr rfl this, sum_add_distrib, sum_ite_eq', if_pos (mem_range.mpr hi)]

private lemma valsAt_getD (t : Tech) (ht : t.Sound) (N : ℕ) (hN : t.n ≤ N) (i : ℕ) (hi : i < t.cols.length) :
    (t.valsAt N).getD i [] = coeffs2vals (prolongCol (t.cols.getD i []) N) ∧ (t.valsAt N).length = t.cols.length := by
  have hl : (t.cols.getD i []).length = t.n := by
    rw [getD_lt' _ _ _ hi]; exact ht.proper.wf _ (List.getElem_mem hi)
  have hr : i < t.isReal.length := by rw [ht.proper.lr]; exact hi
  unfold Tech.valsAt
  split_ifs with h
  · refine ⟨?_, by simp [ht.proper.lr]⟩
    rw [getD_zipWith_lt _ false [] _ _ _ _ hr hi]
    apply realIf_exact
    intro hb y
    rw [prolongCol_eval _ (by rw [hl]; exact ht.proper.pos) _ (by omega)]
    exact ht.flags i hi hb y
  · refine ⟨?_, by rw [ht.vals]; simp⟩
    rw [ht.vals, getD_map_lt _ [] _ _ _ hi]
    congr 1
    unfold prolongCol
    rw [if_pos (by omega)]

/-- C61: `f + g` is pointwise, for all combinations of lengths and parities. -/
theorem C61_add (f g : Tech) (hf : f.Sound) (hg : g.Sound) (hm : f.cols.length = g.cols.length) (x : ℝ) :
    series (f.add g) x = List.zipWith (· + ·) (series f x) (series g x) := by
  set N := max f.n g.n with hN
  set v0 := List.zipWith (List.zipWith (· + ·)) (f.valsAt N) (g.valsAt N) with hv0
  set v := List.zipWith realIf (List.zipWith (· && ·) f.isReal g.isReal) v0 with hv
  have hlen : v.length = f.cols.length := by
    by_cases h0 : f.cols.length = 0
    · simp [hv, hf.proper.lr, hg.proper.lr, h0]
    · have a1 := (valsAt_getD f hf N (le_max_left _ _) 0 (by omega)).2
      have a2 := (valsAt_getD g hg N (le_max_right _ _) 0 (by omega)).2
      simp [hv, hv0, hf.proper.lr, hg.proper.lr, a1, a2, hm]
  -- the values of column `i`
  have hvi : ∀ i < f.cols.length, v.getD i [] =
      List.zipWith (· + ·) (coeffs2vals (prolongCol (f.cols.getD i []) N)) (coeffs2vals (prolongCol (g.cols.getD i []) N)) := by
    intro i hi
    have hig : i < g.cols.length := by omega
    obtain ⟨a1, a1l⟩ := valsAt_getD f hf N (le_max_left _ _) i hi
    obtain ⟨a2, a2l⟩ := valsAt_getD g hg N (le_max_right _ _) i hig
    have hfl : (f.cols.getD i []).length = f.n := by
      rw [getD_lt' _ _ _ hi]; exact hf.proper.wf _ (List.getElem_mem hi)
    have hgl : (g.cols.getD i []).length = g.n := by
      rw [getD_lt' _ _ _ hig]; exact hg.proper.wf _ (List.getElem_mem hig)
    have hpf := prolongCol_length (f.cols.getD i []) (by rw [hfl]; exact hf.proper.pos) N (by rw [hfl]; exact le_max_left _ _)
    have hpg := prolongCol_length (g.cols.getD i []) (by rw [hgl]; exact hg.proper.pos) N (by rw [hgl]; exact le_max_right _ _)
    rw [hv, getD_zipWith_lt _ false [] _ _ _ _ (by simp [hf.proper.lr, hg.proper.lr]; omega) (by simp [hv0, a1l, a2l]; omega),
      hv0, getD_zipWith_lt _ [] [] _ _ _ _ (by omega) (by omega), a1, a2,
      getD_zipWith_lt _ false false _ _ _ _ (by rw [hf.proper.lr]; exact hi) (by rw [hg.proper.lr]; exact hig)]
    unfold realIf
    split_ifs with hb
    · rw [Bool.and_eq_true] at hb
      apply ext_getD 0 (by simp)
      intro j hj
      rw [List.length_map] at hj
      rw [getD_map_lt _ 0 _ _ _ hj]
      rw [List.length_zipWith, coeffs2vals_length, coeffs2vals_length, hpf, hpg] at hj
      rw [getD_zipWith_lt _ 0 0 _ _ _ _ (by rw [coeffs2vals_length]; omega) (by rw [coeffs2vals_length]; omega),
        ← trigEval_grid _ _ (by omega), ← trigEval_grid _ _ (by omega),
        prolongCol_eval _ (by rw [hfl]; exact hf.proper.pos) _ (by rw [hfl]; exact le_max_left _ _),
        prolongCol_eval _ (by rw [hgl]; exact hg.proper.pos) _ (by rw [hgl]; exact le_max_right _ _)]
      have z1 := hf.flags i hi hb.1 (equi (prolongCol (f.cols.getD i []) N).length j)
      have z2 := hg.flags i hig hb.2 (equi (prolongCol (g.cols.getD i []) N).length j)
      apply Complex.ext
      · rw [ofReal_re]
      · rw [ofReal_im, add_im, z1, z2, add_zero]
    · rfl
  have hsum : ∀ i < f.cols.length, trigEval (vals2coeffs (v.getD i [])) x
      = trigEval (f.cols.getD i []) x + trigEval (g.cols.getD i []) x := by
    intro i hi
    have hig : i < g.cols.length := by omega
    have hfl : (f.cols.getD i []).length = f.n := by
      rw [getD_lt' _ _ _ hi]; exact hf.proper.wf _ (List.getElem_mem hi)
    have hgl : (g.cols.getD i []).length = g.n := by
      rw [getD_lt' _ _ _ hig]; exact hg.proper.wf _ (List.getElem_mem hig)
    have hpf := prolongCol_length (f.cols.getD i []) (by rw [hfl]; exact hf.proper.pos) N (by rw [hfl]; exact le_max_left _ _)
    have hpg := prolongCol_length (g.cols.getD i []) (by rw [hgl]; exact hg.proper.pos) N (by rw [hgl]; exact le_max_right _ _)
    have hl : (List.zipWith (· + ·) (coeffs2vals (prolongCol (f.cols.getD i []) N))
        (coeffs2vals (prolongCol (g.cols.getD i []) N))).length = N := by
      rw [List.length_zipWith, coeffs2vals_length, coeffs2vals_length, hpf, hpg, min_self]
    rw [hvi i hi, interp_lin (coeffs2vals (prolongCol (f.cols.getD i []) N)) (coeffs2vals (prolongCol (g.cols.getD i []) N)) _
      (by rw [hl, coeffs2vals_length, hpf]) (by rw [hl, coeffs2vals_length, hpg]) 1 1, vals2coeffs_coeffs2vals, vals2coeffs_coeffs2vals,
        prolongCol_eval _ (by rw [hfl]; exact hf.proper.pos) _ (by rw [hfl]; exact le_max_left _ _),
        prolongCol_eval _ (by rw [hgl]; exact hg.proper.pos) _ (by rw [hgl]; exact le_max_right _ _), one_mul, one_mul]
    intro k hk
    rw [hl] at hk
    rw [getD_zipWith_lt _ 0 0 _ _ _ _ (by rw [coeffs2vals_length]; omega) (by rw [coeffs2vals_length]; omega)]
    ring
  have hrhs : ∀ i < f.cols.length, (List.zipWith (· + ·) (series f x) (series g x)).getD i 0
      = trigEval (f.cols.getD i []) x + trigEval (g.cols.getD i []) x := by
    intro i hi
    rw [getD_zipWith_lt _ 0 0 _ _ _ _ (by simpa [series] using hi) (by simp [series]; omega), series, series,
      getD_map_lt _ [] _ _ _ hi, getD_map_lt _ [] _ _ _ (by omega)]
  have hrl : (List.zipWith (· + ·) (series f x) (series g x)).length = f.cols.length := by
    simp [series, hm]
  unfold Tech.add
  simp only []
  rw [← hN, ← hv0, ← hv]
  split_ifs with hz
  · -- the zero result
    apply ext_getD 0 (by rw [hrl]; simp [series, Tech.ofBoth, Tech.make, hlen])
    intro i hi
    have hi' : i < f.cols.length := by simpa [series, Tech.ofBoth, Tech.make, hlen] using hi
    rw [hrhs i hi', ← hsum i hi']
    have hzero : ∀ k, (vals2coeffs (v.getD i [])).getD k 0 = 0 := by
      intro k
      have hmem : v.getD i [] ∈ v := by rw [getD_lt' _ _ _ (by omega)]; exact List.getElem_mem _
      by_cases hk : k < (vals2coeffs (v.getD i [])).length
      swap
      · exact getD_ge' _ _ _ (by omega)
      rcases hz with hz | hz
      · rw [vals2coeffs_length] at hk
        rw [vals2coeffs_getD _ _ hk]
        have : ∀ j ∈ range (v.getD i []).length, (v.getD i []).getD j 0 * rou (v.getD i []).length (-(wave (v.getD i []).length k * j)) = 0 := by
          intro j hj
          rw [getD_lt' (v.getD i []) _ _ (mem_range.mp hj), hz _ hmem _ (List.getElem_mem _), zero_mul]
        rw [sum_congr rfl this]; simp
      · rw [getD_lt' _ _ _ hk]
        exact hz _ (List.mem_map_of_mem hmem) _ (List.getElem_mem _)
    have h1 : (series (Tech.ofBoth 1 (v.map fun _ => [(0 : ℂ)]) (v.map fun _ => [(0 : ℂ)])) x).getD i 0 = 0 := by
      simp only [series, Tech.ofBoth, Tech.make, List.map_map]
      rw [getD_map_lt _ [] _ _ _ (by omega)]
      simp [trigEval]
    rw [h1]
    unfold trigEval
    symm
    apply sum_eq_zero
    intro k _
    rw [hzero, zero_mul]
  · apply ext_getD 0 (by rw [hrl]; simp [series, Tech.ofBoth, Tech.make, hlen])
    intro i hi
    have hi' : i < f.cols.length := by simpa [series, Tech.ofBoth, Tech.make, hlen] using hi
    rw [hrhs i hi', ← hsum i hi']
    simp only [series, Tech.ofBoth, Tech.make, List.map_map]
    rw [getD_map_lt _ [] _ _ _ (by omega)]
    rfl

/-- C61: `f - g` is pointwise (the negated object has to be sound, which it is for real-valued
functions, see `C61_sub_real`). -/
theorem C61_sub (f g : Tech) (hf : f.Sound) (hg : g.neg.Sound) (hm : f.cols.length = g.cols.length) (x : ℝ) :
    series (f.sub g) x = List.zipWith (· - ·) (series f x) (series g x) := by
  unfold Tech.sub
  rw [C61_add f _ hf hg (by simp [Tech.neg, Tech.ofBoth, Tech.make, hm]), C61_negative]
  apply ext_getD 0 (by simp)
  intro i hi
  have h1 : i < (series f x).length := by simp at hi; omega
  have h2 : i < (series g x).length := by simp at hi; omega
  rw [getD_zipWith_lt _ 0 0 _ _ _ _ h1 (by simpa using h2), getD_zipWith_lt _ 0 0 _ _ _ _ h1 h2,
    getD_map_lt _ 0 _ _ _ h2]
  ring

private lemma neg_eq_ofCoeffs (g : Tech) (hv : g.vals = g.cols.map coeffs2vals) :
    g.neg = Tech.ofCoeffs g.n (g.cols.map fun c => c.map fun z => -1 * z) := by
  unfold Tech.neg Tech.ofCoeffs Tech.ofBoth
  congr 1
  rw [hv, List.map_map, List.map_map]
  apply List.map_congr_left
  intro c _
  simp only [Function.comp]
  apply ext_getD 0 (by simp [coeffs2vals_length])
  intro j hj
  rw [List.length_map, coeffs2vals_length] at hj
  rw [getD_map_lt _ 0 _ _ _ (by rw [coeffs2vals_length]; exact hj), ← trigEval_grid c j hj]
  have := trigEval_grid (c.map fun z => -1 * z) j (by simpa using hj)
  rw [← this, List.length_map, trigEval_map_mul c (-1) _ (by intro z; ring)]
  ring

/-- The values of `c` plus a constant. -/
private lemma coeffs2vals_addConst (c : List ℂ) (n : ℕ) (hl : c.length = n) (hn : n ≠ 0) (s : ℂ) :
    coeffs2vals (c.set (constIndex n) (c.getD (constIndex n) 0 + s)) = (coeffs2vals c).map fun z => z + s := by
  apply ext_getD 0 (by simp [coeffs2vals_length])
  intro j hj
  rw [coeffs2vals_length, List.length_set] at hj
  rw [getD_map_lt _ 0 _ _ _ (by rw [coeffs2vals_length]; exact hj), ← trigEval_grid c j hj,
    ← trigEval_grid _ j (by simpa using hj), List.length_set]
  have h := C61_plus_number (Tech.ofCoeffs n [c]) (ofCoeffs_proper _ hn _ _ (by simpa using hl)) s
  have h2 := h (-1 + 2 * (j : ℝ) / c.length)
  simp only [series, Tech.addNum, Tech.ofBoth, Tech.make, Tech.ofCoeffs, List.map_cons, List.map_nil, List.cons.injEq, and_true] at h2
  first
  | exact h2
  | convert h2 using 2

/-- C61: the sum with a number, the product with a number and the negative store values that belong to their
coefficients: each result is the object one gets by building a function from its coefficients. -/
theorem C61_values (t : Tech) (hp : t.Proper) (hv : t.vals = t.cols.map coeffs2vals) (s : ℂ) :
    t.neg = Tech.ofCoeffs t.n t.neg.cols ∧ t.mulNum s = Tech.ofCoeffs t.n (t.mulNum s).cols ∧
    t.addNum s = Tech.ofCoeffs t.n (t.addNum s).cols := by
  refine ⟨neg_eq_ofCoeffs t hv, ?_, ?_⟩
  · unfold Tech.mulNum Tech.ofCoeffs Tech.ofBoth
    show _ = Tech.make t.n (t.cols.map _) _ _
    congr 1
    rw [hv, List.map_map]
    simp only [Tech.make]
    rw [List.map_map]
    apply List.map_congr_left
    intro c _
    simp only [Function.comp]
    apply ext_getD 0 (by simp [coeffs2vals_length])
    intro j hj
    rw [List.length_map, coeffs2vals_length] at hj
    rw [getD_map_lt _ 0 _ _ _ (by rw [coeffs2vals_length]; exact hj), ← trigEval_grid c j hj]
    have := trigEval_grid (c.map fun z => z * s) j (by simpa using hj)
    rw [← this, List.length_map, trigEval_map_mul c s _ (by intro z; ring)]
  · unfold Tech.addNum Tech.ofCoeffs Tech.ofBoth
    show _ = Tech.make t.n (t.cols.map _) _ _
    congr 1
    rw [hv, List.map_map]
    simp only [Tech.make]
    rw [List.map_map]
    apply List.map_congr_left
    intro c hc
    simp only [Function.comp]
    rw [coeffs2vals_addConst c t.n (hp.wf c hc) hp.pos s]

example : (Tech.ofCoeffs 3 [[1 / 2, 1, 1 / 2]] 1e-10).Proper :=
  ofCoeffs_proper _ (by norm_num) _ _ (by simp)

/-- C61: `f - g` of real-valued functions is pointwise. -/
theorem C61_sub_real (f g : Tech) (hf : f.Sound) (hg : g.Sound) (hr : RealValued g)
    (hm : f.cols.length = g.cols.length) (x : ℝ) :
    series (f.sub g) x = List.zipWith (· - ·) (series f x) (series g x) := by
  apply C61_sub f g hf _ hm
  rw [neg_eq_ofCoeffs g hg.vals]
  apply real_sound _ hg.proper.pos
  · intro c hc
    obtain ⟨d, hd, rfl⟩ := List.mem_map.mp hc
    rw [List.length_map]; exact hg.proper.wf d hd
  · intro c hc y
    obtain ⟨d, hd, rfl⟩ := List.mem_map.mp hc
    rw [trigEval_map_mul d (-1) _ (by intro z; ring)]
    simp [hr d hd y]

/-- `1 + cos(πx)` with three coefficients is sound and real-valued. -/
private lemma cos_im (y : ℝ) : (trigEval [1 / 2, 1, 1 / 2] y).im = 0 := by
  rw [trigEval_odd _ (by simp)]
  simp only [sum_range_succ, List.length_cons, List.length_nil, range_zero, sum_empty, wave]
  simp [Complex.exp_im, -one_div]

example : (Tech.ofCoeffs 3 [[1 / 2, 1, 1 / 2]] 1e-10).Sound ∧ RealValued (Tech.ofCoeffs 3 [[1 / 2, 1, 1 / 2]] 1e-10) := by
  have h : ∀ c ∈ [[(1 / 2 : ℂ), 1, 1 / 2]], ∀ y, (trigEval c y).im = 0 := by
    intro c hc y
    rw [List.mem_singleton.mp hc]; exact cos_im y
  exact ⟨real_sound 3 (by norm_num) _ _ (by simp) h, h⟩

/-! ## C38 -/

/-- C38, what the code does: `s / f` returns `f / s`; the result agrees with `s / f(x)` exactly where
`f(x)² = s²`. -/
theorem C38_swapped_partial (c : List ℂ) (s : ℂ) (hs : ¬ ‖s‖ < 1e-16) (x : ℝ) (hx : trigEval c x ≠ 0) :
    ∃ g, Tech.numDiv s (Tech.ofCoeffs c.length [c]) = some g ∧ series g x = [trigEval c x / s] ∧
      (series g x = [s / trigEval c x] ↔ trigEval c x ^ 2 = s ^ 2) := by
  obtain ⟨g, hg, hser⟩ := (C61_divide_number (Tech.ofCoeffs c.length [c]) s x).2 hs
  have hser' : series g x = [trigEval c x / s] := by
    rw [hser]; simp [series, Tech.ofCoeffs, Tech.make]
  refine ⟨g, hg, hser', ?_⟩
  have hs0 : s ≠ 0 := by rintro rfl; apply hs; simp; norm_num
  rw [hser', List.cons.injEq, div_eq_div_iff hs0 hx]
  constructor
  · intro h; rw [pow_two, pow_two]; exact h.1
  · intro h; exact ⟨by rw [pow_two, pow_two] at h; exact h, rfl⟩

/-- C38 fails: `4 / f` for the constant `f = 2` is the function `1/2`. -/
theorem C38_fails : ∃ g, Tech.numDiv 4 (Tech.ofCoeffs 1 [[2]]) = some g ∧ series g 0 = [1 / 2] := by
  obtain ⟨g, hg, hs, _⟩ := C38_swapped_partial [2] 4 (by simp; norm_num) 0 (by simp [trigEval, trigMode, wave])
  refine ⟨g, hg, ?_⟩
  rw [hs]
  simp [trigEval, trigMode, wave]
  norm_num

example : trigEval [2] 0 ≠ 0 := by simp [trigEval, trigMode, wave]

/-! ## C37 -/

/-- C37: `np.imag(f)` is the pointwise imaginary part. -/
theorem C37_imag (t : Tech) (h : t.Sound) (x : ℝ) :
    series t.imag x = (series t x).map fun z => ((z.im : ℝ) : ℂ) := by
  unfold Tech.imag
  split_ifs with hall
  · simp only [series, Tech.ofBoth, Tech.make, List.map_map]
    apply ext_getD 0 (by simp)
    intro i hi
    rw [List.length_map] at hi
    rw [getD_map_lt _ [] _ _ _ hi, getD_map_lt _ [] _ _ _ hi]
    simp only [Function.comp]
    rw [trigEval_map_mul _ 0 _ (by intro z; ring), mul_zero]
    rw [List.all_eq_true] at hall
    rw [h.flags i hi (by rw [getD_lt' _ _ _ (by rw [h.proper.lr]; exact hi)]; exact hall _ (List.getElem_mem _))]
    simp
  · simp only [series, Tech.ofBoth, Tech.make, List.map_map, h.vals]
    apply List.map_congr_left
    intro c _
    simp only [Function.comp]
    rw [(interp_reim _ x).2, vals2coeffs_coeffs2vals]

/-- C37: `np.real(f)` is the pointwise real part, unless all real parts on the grid are below `eps`
(for instance negative). -/
theorem C37_real_partial (t : Tech) (h : t.Sound) (hpos : ∃ v ∈ t.vals, ∃ z ∈ v, t.eps ≤ z.re) (x : ℝ) :
    series t.real x = (series t x).map fun z => ((z.re : ℝ) : ℂ) := by
  unfold Tech.real
  split_ifs with hall h2
  · simp only [series, List.map_map]
    apply ext_getD 0 (by simp)
    intro i hi
    rw [List.length_map] at hi
    rw [getD_map_lt _ [] _ _ _ hi, getD_map_lt _ [] _ _ _ hi]
    simp only [Function.comp]
    rw [List.all_eq_true] at hall
    have := h.flags i hi (by rw [getD_lt' _ _ _ (by rw [h.proper.lr]; exact hi)]; exact hall _ (List.getElem_mem _)) x
    apply Complex.ext
    · rw [ofReal_re]
    · rw [ofReal_im, this]
  · obtain ⟨v, hv, z, hz, hre⟩ := hpos
    exact absurd (h2 v hv z hz) (by linarith)
  · simp only [series, Tech.ofBoth, Tech.make, List.map_map, h.vals]
    apply List.map_congr_left
    intro c _
    simp only [Function.comp]
    rw [(interp_reim _ x).1, vals2coeffs_coeffs2vals]

/-- the constant `a + i` -/
private lemma const_tech (a : ℂ) (ha : a.im = 1) (hn : ‖a‖ ≤ 2) :
    Tech.ofCoeffs 1 [[a]] = ⟨1, [[a]], [[a]], [false], 1e-10, 1e-10, true⟩ := by
  have hv : coeffs2vals [a] = [a] := by
    apply ext_getD 0 (by simp [coeffs2vals_length])
    intro j hj
    rw [coeffs2vals_length] at hj
    rw [← trigEval_grid [a] j hj]
    simp at hj
    subst hj
    simp [trigEval, trigMode, wave]
  have hf : getIsReal defaultEps defaultEps [a] [a] = false := by
    unfold getIsReal
    rw [decide_eq_false_iff_not]
    simp [supIm, getVscale, ha, defaultEps]
    have : max 1e-10 ‖a‖ ≤ 2 := max_le (by norm_num) hn
    linarith
  simp [Tech.ofCoeffs, Tech.make, hv, hf, realIf]
  simp [defaultEps]

private lemma const_series (a : ℂ) (x : ℝ) (n e v : _) (r : List Bool) (vs : List (List ℂ)) (hh : Bool) :
    series ⟨n, [[a]], vs, r, e, v, hh⟩ x = [a] := by
  simp [series, trigEval, trigMode, wave]

/-- C37 fails: the real part of the constant `-1 + i` is returned as `0`. -/
theorem C37_real_fails : series (Tech.ofCoeffs 1 [[-1 + I]]).real 0 = [0] ∧
    series (Tech.ofCoeffs 1 [[-1 + I]]) 0 = [-1 + I] := by
  rw [const_tech (-1 + I) (by simp) (by refine (norm_add_le _ _).trans ?_; simp; norm_num)]
  refine ⟨?_, const_series _ _ _ _ _ _ _ _⟩
  unfold Tech.real
  rw [if_neg (by simp), if_pos]
  · simp [series, Tech.ofBoth, Tech.make, trigEval]
  · intro v hv z hz
    simp at hv; subst hv; simp at hz; subst hz
    simp; norm_num

/-- C37 fails: conjugating the constant `i` returns it unchanged. -/
theorem C37_conj_fails : series (Tech.ofCoeffs 1 [[I]]).conj 0 = [I] := by
  rw [const_tech I (by simp) (by simp)]
  unfold Tech.conj
  rw [if_pos (by simp)]
  exact const_series _ _ _ _ _ _ _ _

/-- C37: `conj(f)` is the pointwise conjugate if some column is flagged real and the length is odd, or
if all columns are flagged real. -/
theorem C37_conj_partial (t : Tech) (h : t.Sound) (hsome : ∃ r ∈ t.isReal, r = true)
    (hodd : t.n % 2 = 1 ∨ t.isReal.all id = true) (x : ℝ) :
    series t.conj x = (series t x).map (starRingEnd ℂ) := by
  unfold Tech.conj
  rw [if_neg (by
    rw [List.all_eq_true]; push Not
    obtain ⟨r, hr, hrt⟩ := hsome
    exact ⟨r, hr, by simp [hrt]⟩)]
  simp only [series, Tech.ofBoth, Tech.make, List.map_map]
  apply ext_getD 0 (by simp [h.proper.lr])
  intro i hi
  have hi' : i < t.cols.length := by simpa [h.proper.lr] using hi
  have hr : i < t.isReal.length := by rw [h.proper.lr]; exact hi'
  rw [getD_map_lt _ [] _ _ _ (by simpa [h.proper.lr] using hi'), getD_map_lt _ [] _ _ _ hi',
    getD_zipWith_lt _ false [] _ _ _ _ hr hi']
  simp only [Function.comp]
  have hl : (t.cols.getD i []).length = t.n := by
    rw [getD_lt' _ _ _ hi']; exact h.proper.wf _ (List.getElem_mem hi')
  split_ifs with hb
  · exact (Complex.conj_eq_iff_im.mpr (h.flags i hi' hb x)).symm
  · rcases hodd with ho | ho
    · exact reverse_conj _ (by omega) x
    · exfalso
      rw [List.all_eq_true] at ho
      apply hb
      rw [getD_lt' _ _ _ hr]; exact ho _ (List.getElem_mem _)

/-- A complex constant meets the hypotheses of C37. -/
example : (Tech.ofCoeffs 1 [[1 + I]]).Sound ∧ ∃ v ∈ (Tech.ofCoeffs 1 [[1 + I]]).vals, ∃ z ∈ v, (Tech.ofCoeffs 1 [[1 + I]]).eps ≤ z.re := by
  have hp := ofCoeffs_proper 1 (by norm_num) [[1 + I]] defaultEps (by simp)
  have e := const_tech (1 + I) (by simp) (by refine (norm_add_le _ _).trans ?_; simp; norm_num)
  refine ⟨⟨hp, ?_, ?_⟩, ?_⟩
  · rw [e]
    have hv : coeffs2vals [1 + I] = [1 + I] := by
      apply ext_getD 0 (by simp [coeffs2vals_length])
      intro j hj
      rw [coeffs2vals_length] at hj
      rw [← trigEval_grid [1 + I] j hj]
      simp at hj
      subst hj
      simp [trigEval, trigMode, wave]
    simp [hv]
  · rw [e]; intro i hi hf
    simp at hi; subst hi; simp at hf
  · rw [e]; simp; norm_num

/-! ## C62 -/

/-- C62 fails for squares: `f * f` raises for every non-constant `f`. -/
theorem C62_square_raises (cf f : Tech) (h : f.n ≠ 1) : Tech.mul cf f f = none := by
  unfold Tech.mul
  rw [if_neg h, if_neg h, if_pos (by simp [Tech.eqv])]

/-- C62: multiplying by a constant function is pointwise. -/
theorem C62_constant (cf g : Tech) (a : ℂ) (f : Tech) (hf : f.n = 1) (hc : f.cols = [[a]]) (x : ℝ) :
    ∃ h, Tech.mul cf f g = some h ∧ series h x = (series g x).map fun z => z * a := by
  unfold Tech.mul
  rw [if_pos hf]
  refine ⟨_, rfl, ?_⟩
  rw [C61_times_number, hc]
  rfl

/-- The functions multiplied: values of the product on its grid interpolate the product exactly. -/
private lemma prod_cols (f g : Tech) (hf : f.Sound) (hg : g.Sound) (hm : f.cols.length = g.cols.length)
    (of : f.n % 2 = 1) (og : g.n % 2 = 1) :
    (prodVals f g).length = f.cols.length ∧ ∀ i < f.cols.length,
      ((prodVals f g).getD i []).length = f.n + g.n - 1 ∧
      ∀ x, trigEval (vals2coeffs ((prodVals f g).getD i [])) x
        = trigEval (f.cols.getD i []) x * trigEval (g.cols.getD i []) x := by
  have hfp := hf.proper.pos
  have hgp := hg.proper.pos
  refine ⟨by simp [prodVals, hf.proper.lr, hg.proper.lr, hm], ?_⟩
  intro i hi
  have hig : i < g.cols.length := by omega
  have hfl : (f.cols.getD i []).length = f.n := by
    rw [getD_lt' _ _ _ hi]; exact hf.proper.wf _ (List.getElem_mem hi)
  have hgl : (g.cols.getD i []).length = g.n := by
    rw [getD_lt' _ _ _ hig]; exact hg.proper.wf _ (List.getElem_mem hig)
  set N := f.n + g.n - 1 with hN
  have hpf := prolongCol_length (f.cols.getD i []) (by omega) N (by omega)
  have hpg := prolongCol_length (g.cols.getD i []) (by omega) N (by omega)
  have hz : (prodVals f g).getD i [] = List.zipWith (· * ·)
      (coeffs2vals (prolongCol (f.cols.getD i []) N)) (coeffs2vals (prolongCol (g.cols.getD i []) N)) := by
    unfold prodVals
    simp only []
    rw [getD_zipWith_lt _ [] [] _ _ _ _ (by simp [hf.proper.lr]; omega) (by simp [hg.proper.lr]; omega),
      getD_zipWith_lt _ false [] _ _ _ _ (by rw [hf.proper.lr]; exact hi) hi,
      getD_zipWith_lt _ false [] _ _ _ _ (by rw [hg.proper.lr]; exact hig) hig, ← hN,
      realIf_exact _ _ (fun hb y => by rw [prolongCol_eval _ (by omega) _ (by omega)]; exact hf.flags i hi hb y),
      realIf_exact _ _ (fun hb y => by rw [prolongCol_eval _ (by omega) _ (by omega)]; exact hg.flags i hig hb y)]
  have hl : ((prodVals f g).getD i []).length = N := by
    rw [hz, List.length_zipWith, coeffs2vals_length, coeffs2vals_length, hpf, hpg, min_self]
  refine ⟨hl, fun x => ?_⟩
  have hb := band_mul (band_trigEval (f.cols.getD i []) (by omega)) (band_trigEval (g.cols.getD i []) (by omega))
  apply band_interp hb _ (by rw [hl, hfl, hgl]; omega)
  intro j hj
  rw [hl] at hj ⊢
  rw [hz, getD_zipWith_lt _ 0 0 _ _ _ _ (by rw [coeffs2vals_length]; omega) (by rw [coeffs2vals_length]; omega),
    ← trigEval_grid _ _ (by omega), ← trigEval_grid _ _ (by omega), hpf, hpg,
    prolongCol_eval _ (by omega) _ (by omega), prolongCol_eval _ (by omega) _ (by omega)]

/-- C62: for two different non-constant functions of odd lengths (neither equal to the other's
computed conjugate) the product is a symmetric partial sum of the Fourier series of the pointwise
product `f(x) g(x)`: no coefficient is altered, the only deviation is the truncation chosen by
`simplify`.  Without truncation the product is exact. -/
theorem C62_product_partial (cf f g : Tech) (hf : f.Sound) (hg : g.Sound) (hm : f.cols.length = g.cols.length)
    (of : f.n % 2 = 1) (og : g.n % 2 = 1) (hf1 : f.n ≠ 1) (hg1 : g.n ≠ 1) (hne : f.eqv g = false)
    (hcf : cf.eqv g = false) :
    ∃ h k, Tech.mul cf f g = some h ∧ 1 ≤ k ∧ h.n = 2 * k - 1 ∧ h.n ≤ f.n + g.n - 1 ∧
      h.cols.length = f.cols.length ∧
      (∀ i < f.cols.length, ∀ x, trigEval (h.cols.getD i []) x
        = partialSum (fun y => trigEval (f.cols.getD i []) y * trigEval (g.cols.getD i []) y) k x) ∧
      (h.n = f.n + g.n - 1 → ∀ i < f.cols.length, ∀ x, trigEval (h.cols.getD i []) x
        = trigEval (f.cols.getD i []) x * trigEval (g.cols.getD i []) x) := by
  have hfp := hf.proper.pos
  obtain ⟨p1, p2⟩ := prod_cols f g hf hg hm of og
  have hlen : ∀ c ∈ (prodVals f g).map vals2coeffs, c.length = f.n + g.n - 1 := by
    intro c hc
    obtain ⟨v, hv, rfl⟩ := List.mem_map.mp hc
    obtain ⟨i, hi, rfl⟩ := List.mem_iff_getElem.mp hv
    rw [vals2coeffs_length]
    have := (p2 i (by omega)).1
    rwa [getD_lt' _ _ _ hi] at this
  obtain ⟨k1, k2, k3, s1, s2⟩ := simplifyCols_eval (f.n + g.n - 1) (by omega) _ 1e-14 hlen
  set r := simplifyCols (f.n + g.n - 1) ((prodVals f g).map vals2coeffs) 1e-14 with hr
  have hk3 := k3 (by omega)
  have hcol : ∀ i < f.cols.length, (fun x => trigEval (((prodVals f g).map vals2coeffs).getD i []) x)
      = fun y => trigEval (f.cols.getD i []) y * trigEval (g.cols.getD i []) y := by
    intro i hi
    funext x
    rw [getD_map_lt _ [] _ _ _ (by omega), (p2 i hi).2]
  have hps : ∀ i < f.cols.length, ∀ x, trigEval (r.1.getD i []) x
        = partialSum (fun y => trigEval (f.cols.getD i []) y * trigEval (g.cols.getD i []) y) r.2 x := by
    intro i hi x
    rw [(s2 i (by simp [p1]; omega)).2 x, ← hcol i hi]
  unfold Tech.mul
  rw [if_neg hf1, if_neg hg1, hne, if_neg (by simp)]
  simp only [hcf, Bool.false_eq_true, if_false]
  refine ⟨_, r.2, rfl, k1, rfl, hk3, ?_, hps, ?_⟩
  · simp only [Tech.ofBoth, Tech.make]
    rw [s1, List.length_map, p1]
  · intro hN i hi x
    have hN' : 2 * r.2 - 1 = f.n + g.n - 1 := hN
    have hl := hlen (((prodVals f g).map vals2coeffs).getD i []) (by
      rw [getD_lt' _ _ _ (by simp [p1]; omega)]; exact List.getElem_mem _)
    have e := partialSum_all (((prodVals f g).map vals2coeffs).getD i []) (by omega) r.2 (by omega) x
    have e2 := (s2 i (by simp [p1]; omega)).2 x
    show trigEval (r.1.getD i []) x = _
    rw [e2, e]
    exact congrFun (hcol i hi) x

private lemma im_2cos (y : ℝ) : (trigEval [1, 0, 1] y).im = 0 := by
  rw [trigEval_odd _ (by simp)]
  simp only [sum_range_succ, List.length_cons, List.length_nil, range_zero, sum_empty, wave]
  simp [Complex.exp_im, -one_div]

/-- Two different odd-length functions meet the hypotheses of `C62_product_partial`. -/
example : let f := Tech.ofCoeffs 3 [[1 / 2, 1, 1 / 2]] 1e-10
    let g := Tech.ofCoeffs 3 [[1, 0, 1]] 1e-10
    f.Sound ∧ g.Sound ∧ f.n % 2 = 1 ∧ f.n ≠ 1 ∧ f.eqv g = false := by
  refine ⟨real_sound 3 (by norm_num) _ _ (by simp) ?_, real_sound 3 (by norm_num) _ _ (by simp) ?_, rfl, by simp [Tech.ofCoeffs, Tech.make], ?_⟩
  · intro c hc y
    rw [List.mem_singleton.mp hc]; exact cos_im y
  · intro c hc y
    rw [List.mem_singleton.mp hc]; exact im_2cos y
  · simp [Tech.eqv, Tech.ofCoeffs, Tech.make]

/-- C62 fails for even lengths: `cos(πx)` and `1 + cos(πx)`, stored with two coefficients, have a
product with a non-zero Fourier coefficient `1/4` at wave number `2`; the returned object has no such
mode. -/
theorem C62_even_fails (cf h : Tech)
    (hmul : Tech.mul cf (Tech.ofCoeffs 2 [[1, 0]]) (Tech.ofCoeffs 2 [[1, 1]]) = some h)
    (hcf : cf.eqv (Tech.ofCoeffs 2 [[1, 1]]) = false) :
    fourier (fun x => trigEval [1, 0] x * trigEval [1, 1] x) 2 = 1 / 4 ∧
      fourier (trigEval (h.cols.getD 0 [])) 2 = 0 := by
  constructor
  · have e : (fun x => trigEval [1, 0] x * trigEval [1, 1] x) = fun x : ℝ => ∑ k ∈ range 5,
        (([1 / 4, 1 / 2, 1 / 2, 1 / 2, 1 / 4] : List ℂ).getD k 0) * cexp (I * Real.pi * (((k : ℤ) - 2 : ℤ) : ℂ) * x) := by
      funext x
      have h1 : trigEval [1, 0] x = (cexp (I * Real.pi * x) + cexp (-(I * Real.pi * x))) / 2 := by
        simp [trigEval, trigMode, sum_range_succ, Complex.cos]
        congr 2 <;> ring_nf
      have h2 : trigEval [1, 1] x = 1 + (cexp (I * Real.pi * x) + cexp (-(I * Real.pi * x))) / 2 := by
        simp [trigEval, trigMode, sum_range_succ, Complex.cos, wave]
        rw [add_comm]
        congr 3 <;> ring_nf
      rw [h1, h2]
      simp only [sum_range_succ, range_zero, sum_empty]
      have e1 : cexp (I * Real.pi * x) * cexp (-(I * Real.pi * x)) = 1 := by
        rw [← Complex.exp_add]; simp
      have e2 : cexp (I * Real.pi * (((4 : ℕ) : ℤ) - 2 : ℤ) * x) = cexp (I * Real.pi * x) ^ 2 := by
        rw [← Complex.exp_nat_mul]; congr 1; push_cast; ring
      have e3 : cexp (I * Real.pi * (((0 : ℕ) : ℤ) - 2 : ℤ) * x) = cexp (-(I * Real.pi * x)) ^ 2 := by
        rw [← Complex.exp_nat_mul]; congr 1; push_cast; ring
      have e4 : cexp (I * Real.pi * (((3 : ℕ) : ℤ) - 2 : ℤ) * x) = cexp (I * Real.pi * x) := by
        congr 1; push_cast; ring
      have e5 : cexp (I * Real.pi * (((1 : ℕ) : ℤ) - 2 : ℤ) * x) = cexp (-(I * Real.pi * x)) := by
        congr 1; push_cast; ring
      have e6 : cexp (I * Real.pi * (((2 : ℕ) : ℤ) - 2 : ℤ) * x) = 1 := by simp
      rw [e2, e3, e4, e5, e6]
      simp only [List.getD_cons_zero, List.getD_cons_succ]
      linear_combination (1 / 2) * e1
    rw [e, fourier_sum]
    simp [sum_range_succ]
  · have hn : (Tech.ofCoeffs 2 [[1, 0]]).eqv (Tech.ofCoeffs 2 [[1, 1]]) = false := by
      simp [Tech.eqv, Tech.ofCoeffs, Tech.make]
    unfold Tech.mul at hmul
    rw [if_neg (by simp [Tech.ofCoeffs, Tech.make]), if_neg (by simp [Tech.ofCoeffs, Tech.make]), hn,
      if_neg (by simp)] at hmul
    simp only [hcf, Bool.false_eq_true, if_false, Option.some.injEq] at hmul
    have hN : (Tech.ofCoeffs 2 [[1, 0]]).n + (Tech.ofCoeffs 2 [[1, 1]]).n - 1 = 3 := rfl
    rw [hN] at hmul
    have hlen : ∀ c ∈ (prodVals (Tech.ofCoeffs 2 [[1, 0]]) (Tech.ofCoeffs 2 [[1, 1]])).map vals2coeffs, c.length = 3 := by
      intro c hc
      have p1 := prolongCol_length [1, 0] (by simp) 3 (by simp)
      have p2 := prolongCol_length [1, 1] (by simp) 3 (by simp)
      simp [prodVals, Tech.ofCoeffs, Tech.make] at hc
      subst hc
      rw [vals2coeffs_length]
      have rl : ∀ r (v : List ℂ), (realIf r v).length = v.length := by
        intro r v; unfold realIf; split_ifs <;> simp
      simp [rl, coeffs2vals_length, p1, p2]
    obtain ⟨k1, k2, k3, s1, s2⟩ := simplifyCols_eval 3 (by omega) _ 1e-14 hlen
    have hl := (s2 0 (by simp [prodVals, Tech.ofCoeffs, Tech.make])).1
    have hk := k3 (by norm_num)
    have hcols : h.cols = (simplifyCols 3 ((prodVals (Tech.ofCoeffs 2 [[1, 0]]) (Tech.ofCoeffs 2 [[1, 1]])).map vals2coeffs) 1e-14).1 := by
      rw [← hmul]; rfl
    rw [hcols, fourier_odd _ (by omega), hl, if_pos (by omega), getD_ge' _ _ _ (by omega)]

/-! ## C63 -/

/-- C63: `simplify` on a happy object returns, for all columns, the symmetric partial sum of the
Fourier series with one common width: coefficients are kept or dropped in pairs, never altered; the
result is not longer, except by one when the length was even (the unpaired mode is split). -/
theorem C63_simplify (t : Tech) (hp : t.Proper) (hh : t.ishappy = true) :
    ∃ k, 1 ≤ k ∧ t.simplify.n = 2 * k - 1 ∧ t.simplify.n ≤ t.n + 1 ∧ (t.n % 2 = 1 → t.simplify.n ≤ t.n) ∧
      t.simplify.cols.length = t.cols.length ∧
      ∀ i < t.cols.length, (t.simplify.cols.getD i []).length = t.simplify.n ∧
        ∀ x, trigEval (t.simplify.cols.getD i []) x = partialSum (trigEval (t.cols.getD i [])) k x := by
  obtain ⟨k1, k2, k3, s1, s2⟩ := simplifyCols_eval t.n hp.pos t.cols t.eps hp.wf
  have hs : t.simplify = let r := simplifyCols t.n t.cols t.eps
      { t with n := 2 * r.2 - 1, cols := r.1, vals := r.1.map coeffs2vals } := by
    unfold Tech.simplify; rw [if_pos hh]
  rw [hs]
  exact ⟨_, k1, rfl, k2, k3, s1, s2⟩

/-- C63: if nothing is dropped, the function is unchanged; an unhappy object is returned as it is. -/
theorem C63_lossless (t : Tech) (hp : t.Proper) (x : ℝ) :
    (t.ishappy = false → t.simplify = t) ∧
    (t.ishappy = true → t.n ≤ t.simplify.n → series t.simplify x = series t x) := by
  constructor
  · intro h; unfold Tech.simplify; rw [if_neg (by simp [h])]
  intro hh hle
  obtain ⟨k, k1, hn, -, -, hl, hc⟩ := C63_simplify t hp hh
  unfold series
  apply ext_getD 0 (by simp [hl])
  intro i hi
  have hi' : i < t.cols.length := by simpa [hl] using hi
  have hcl : (t.cols.getD i []).length = t.n := by
    rw [getD_lt' _ _ _ hi']; exact hp.wf _ (List.getElem_mem hi')
  have hne : (t.cols.getD i []).length ≠ 0 := by rw [hcl]; exact hp.pos
  rw [getD_map_lt _ [] _ _ _ (by omega), getD_map_lt _ [] _ _ _ hi', (hc i hi').2]
  have hsl := splitEven_length _ hne
  have := partialSum_all (splitEven (t.cols.getD i [])) (splitEven_odd _ hne) k (by
    rw [hsl]; split_ifs <;> omega) x
  rw [splitEven_eval _ hne, show trigEval (splitEven (t.cols.getD i [])) = trigEval (t.cols.getD i []) from
    funext (splitEven_eval _ hne)] at this
  exact this

example : (Tech.ofCoeffs 2 [[1, 5]]).Proper ∧ (Tech.ofCoeffs 2 [[1, 5]]).ishappy = true :=
  ⟨ofCoeffs_proper _ (by norm_num) _ _ (by simp), rfl⟩

end Funpy.Props
