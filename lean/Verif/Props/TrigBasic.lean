import Verif.Lemmas.TrigTol
import Verif.Spec.Cheb

/-!
# C30 – C32, C59: evaluation, transforms and prolongation of periodic functions
-/

namespace Funpy.Props
open Spec Trig Finset Complex

/-- A well formed `trigtech`: at least one coefficient, all arrays of consistent shapes. -/
structure _root_.Funpy.Trig.Tech.Proper (t : Trig.Tech) : Prop where
  /-- non-empty columns -/
  pos : t.n ≠ 0
  /-- shape of `coeffs` -/
  wf : ∀ c ∈ t.cols, c.length = t.n
  /-- shape of `values` -/
  wfv : ∀ c ∈ t.vals, c.length = t.n
  /-- as many columns of values as of coefficients -/
  lv : t.vals.length = t.cols.length
  /-- one flag per column -/
  lr : t.isReal.length = t.cols.length

/-- The functions represented by the columns of `t`: their Fourier series at `x`. -/
noncomputable def series (t : Trig.Tech) (x : ℝ) : List ℂ := t.cols.map fun c => trigEval c x

/-- Column `i` of `t` is a function which the object does not flag as real, or which really is
real-valued. -/
def FlagExact (t : Trig.Tech) (i : ℕ) : Prop :=
  t.isReal.getD i false = true → ∀ y, (trigEval (t.cols.getD i []) y).im = 0

lemma make_proper (n : ℕ) (hn : n ≠ 0) (cols vals : List (List ℂ)) (eps : ℝ)
    (h : ∀ c ∈ cols, c.length = n) (hv : ∀ c ∈ vals, c.length = n) (hl : vals.length = cols.length) :
    (Tech.make n cols vals eps).Proper := by
  refine ⟨hn, h, ?_, ?_, ?_⟩
  · intro c hc
    simp only [Tech.make] at hc
    rw [List.mem_iff_getElem] at hc
    obtain ⟨i, hi, rfl⟩ := hc
    rw [List.getElem_zipWith]
    unfold realIf
    have : ∀ j (hj : j < vals.length), (vals[j]).length = n := fun j hj => hv _ (List.getElem_mem hj)
    split_ifs <;> simp [this, Tech.make]
  · simp [Tech.make, hl]
  · simp [Tech.make, hl]

lemma ofCoeffs_proper (n : ℕ) (hn : n ≠ 0) (cols : List (List ℂ)) (eps : ℝ)
    (h : ∀ c ∈ cols, c.length = n) : (Tech.ofCoeffs n cols eps).Proper := by
  apply make_proper n hn _ _ _ h _ (by simp)
  intro c hc
  obtain ⟨d, hd, rfl⟩ := List.mem_map.mp hc
  rw [coeffs2vals_length]; exact h d hd

/-! ## C30 -/

/-- C30: evaluating column `i` at `x` returns its Fourier series at `x`, whenever the column is not
flagged real or is real-valued - for all lengths, both parities, scalar and array-valued objects. -/
theorem C30_series (t : Tech) (hp : t.Proper) (x : ℝ) (i : ℕ) (hi : i < t.cols.length)
    (h : FlagExact t i) : (t.feval x).1.getD i 0 = trigEval (t.cols.getD i []) x := by
  have hci : t.cols.getD i [] = t.cols[i] := getD_lt' _ _ _ hi
  have hlen : (t.cols[i]).length ≠ 0 := by rw [hp.wf _ (List.getElem_mem hi)]; exact hp.pos
  have hri : t.isReal.getD i false = t.isReal[i]'(by rw [hp.lr]; exact hi) := getD_lt' _ _ _ _
  unfold FlagExact at h
  rw [hci, hri] at h
  rw [hci]
  unfold Tech.feval horner
  by_cases hall : t.isReal.all id = true
  · simp only [hall, if_true]
    rw [getD_lt' (List.map _ _) _ _ (by simpa using hi), List.getElem_map]
    apply real_exact _ hlen
    apply h
    rw [List.all_eq_true] at hall
    exact hall _ (List.getElem_mem _)
  · simp only [hall]
    rw [if_neg (by simp), getD_lt' (List.zipWith _ _ _) _ _ (by simp [hp.lr]; exact hi), List.getElem_zipWith,
      hornerCmplx_eq x _ hlen]
    split_ifs with hr
    · have := h hr x
      apply Complex.ext <;> simp [this]
    · rfl

/-- C30: all columns at once; the result has one entry per column. -/
theorem C30_all (t : Tech) (hp : t.Proper) (x : ℝ) (h : ∀ i < t.cols.length, FlagExact t i) :
    (t.feval x).1 = series t x := by
  have hl : (t.feval x).1.length = t.cols.length := by
    unfold Tech.feval horner
    split_ifs <;> simp [hp.lr]
  apply ext_getD 0 (by simp [hl, series])
  intro i hi
  rw [hl] at hi
  rw [C30_series t hp x i hi (h i hi), series, getD_lt' (List.map _ _) _ _ (by simpa using hi),
    getD_lt' _ _ _ hi, List.getElem_map]

/-- C30, without any assumption on the function: for an object built from arbitrary coefficients with
tolerance `eps`, evaluation differs from the series at most by the tolerance with which the object
decides that a column is real. -/
theorem C30_tolerance (n : ℕ) (hn : n ≠ 0) (cols : List (List ℂ)) (hw : ∀ c ∈ cols, c.length = n)
    (eps : ℝ) (he : 0 ≤ eps) (x : ℝ) (i : ℕ) (hi : i < cols.length) (M : ℝ)
    (hM : ∀ j < n, ‖trigEval (cols.getD i []) (equi n j)‖ ≤ M) :
    ‖((Tech.ofCoeffs n cols eps).feval x).1.getD i 0 - trigEval (cols.getD i []) x‖
      ≤ (2 * n + 1) * (3 * eps * max eps M) := by
  have hci : cols.getD i [] = cols[i] := getD_lt' _ _ _ hi
  have hlen := hw _ (List.getElem_mem hi)
  rw [hci] at hM ⊢
  have hM0 : 0 ≤ M := (norm_nonneg _).trans (hM 0 (by omega))
  have hb0 : 0 ≤ 3 * eps * max eps M := mul_nonneg (by linarith) (he.trans (le_max_left _ _))
  -- a flagged column has small imaginary grid values
  have hflag : getIsReal eps eps cols[i] (coeffs2vals cols[i]) = true →
      ∀ j < (cols[i]).length, |((coeffs2vals cols[i]).getD j 0).im| ≤ 3 * eps * max eps M := by
    intro hf j hj
    unfold getIsReal at hf
    rw [decide_eq_true_iff] at hf
    refine (im_le_supIm _ j (by rw [coeffs2vals_length]; exact hj)).trans (hf.trans ?_)
    apply mul_le_mul_of_nonneg_left _ (by linarith)
    exact max_le_max le_rfl (getVscale_le _ _ hM0 (by rw [hlen]; exact hM))
  have hr : (Tech.ofCoeffs n cols eps).isReal[i]'(by simp [Tech.ofCoeffs, Tech.make, hi])
      = getIsReal eps eps cols[i] (coeffs2vals cols[i]) := by
    simp [Tech.ofCoeffs, Tech.make]
  have hlr : (Tech.ofCoeffs n cols eps).isReal.length = cols.length := by
    simp [Tech.ofCoeffs, Tech.make]
  unfold Tech.feval horner
  by_cases hall : (Tech.ofCoeffs n cols eps).isReal.all id = true
  · simp only [hall, if_true]
    rw [getD_lt' (List.map _ _) _ _ (by simpa [Tech.ofCoeffs, Tech.make] using hi), List.getElem_map]
    have hf := hflag (by
      rw [← hr]; rw [List.all_eq_true] at hall; exact hall _ (List.getElem_mem _))
    have := real_tol cols[i] (by omega) _ hf x
    rw [hlen] at this
    exact this
  · simp only [hall]
    rw [if_neg (by simp), getD_lt' (List.zipWith _ _ _) _ _ (by
      rw [List.length_zipWith, hlr]; simpa [Tech.ofCoeffs, Tech.make] using hi), List.getElem_zipWith, hr]
    show ‖(if getIsReal eps eps cols[i] (coeffs2vals cols[i]) = true then
      (((hornerCmplx x cols[i]).re : ℝ) : ℂ) else hornerCmplx x cols[i]) - trigEval cols[i] x‖ ≤ _
    rw [hornerCmplx_eq x _ (by omega)]
    split_ifs with hf
    · have := re_tol cols[i] _ (hflag hf) x
      rw [hlen] at this
      refine this.trans ?_
      have : (0 : ℝ) ≤ n := by positivity
      nlinarith
    · simp only [sub_self, norm_zero]
      positivity

/-- C30 for `Fun` objects: on a domain `[a, b]` with `a < b` and for `x` in it, `f(x)` is the series at
the point of `[-1, 1]` corresponding to `x`; outside the domain the call is refused. -/
theorem C30_fun (f : TrigFun) (hp : f.onefun.Proper) (hd : f.dom.e0 < f.dom.e1)
    (h : ∀ i < f.onefun.cols.length, FlagExact f.onefun i) (x : ℝ) :
    (f.dom.e0 ≤ x ∧ x ≤ f.dom.e1 → (f.call x).map Prod.fst
      = some (series f.onefun ((2 * x - f.dom.e0 - f.dom.e1) / (f.dom.e1 - f.dom.e0)))) ∧
    (x < f.dom.e0 ∨ f.dom.e1 < x → f.call x = none) := by
  have hpos : 0 < f.dom.e1 - f.dom.e0 := by linarith
  unfold TrigFun.call Mapping.bwd Mapping.diff
  constructor
  · rintro ⟨h1, h2⟩
    simp only
    rw [if_pos]
    · rw [C30_all _ hp _ h]; rfl
    · constructor
      · rw [le_div_iff₀ hpos]; linarith
      · rw [div_le_iff₀ hpos]; linarith
  · intro hx
    simp only
    rw [if_neg]
    rintro ⟨h1, h2⟩
    rw [le_div_iff₀ hpos] at h1
    rw [div_le_iff₀ hpos] at h2
    rcases hx with hx | hx <;> linarith

/-- The hypotheses are met: `1 + exp(iπx)` is complex-valued, and an even-length real cosine. -/
example : (Tech.ofCoeffs 3 [[0, 1, 1]] 1e-10).Proper ∧ (Tech.ofCoeffs 2 [[1, 0]] 1e-10).Proper ∧
    FlagExact (Tech.ofCoeffs 2 [[1, 0]] 1e-10) 0 := by
  refine ⟨ofCoeffs_proper _ (by norm_num) _ _ (by simp), ofCoeffs_proper _ (by norm_num) _ _ (by simp), ?_⟩
  intro _ y
  show (trigEval [1, 0] y).im = 0
  simp only [trigEval, List.length_cons, List.length_nil, sum_range_succ, range_zero, sum_empty]
  simp [trigMode, Complex.cos_ofReal_im, ← Complex.ofReal_mul, ← Complex.ofReal_cos]

/-! ## C59: evaluation as a query -/

/-- C59 fails: the even-length real function `cos(πx)` (coefficients `[1, 0]`) evaluated twice at `0`
gives `1` and then `1/2` - evaluation overwrites the stored coefficient. -/
theorem C59_evaluation_mutates :
    let t := Tech.ofCoeffs 2 [[1, 0]] 1e-10
    (t.feval 0).1 = [1] ∧ ((t.feval 0).2.feval 0).1 = [(1 / 2 : ℂ)] := by
  have hv : coeffs2vals [1, 0] = [-1, 1] := by
    have e0 := trigEval_grid [1, 0] 0 (by simp)
    have e1 := trigEval_grid [1, 0] 1 (by simp)
    apply ext_getD 0 (by rw [coeffs2vals_length]; rfl)
    intro k hk
    rw [coeffs2vals_length] at hk
    have : k = 0 ∨ k = 1 := by simp at hk; omega
    rcases this with rfl | rfl
    · rw [← e0]
      simp [trigEval, trigMode, equi, sum_range_succ]
    · rw [← e1]
      simp [trigEval, trigMode, equi, sum_range_succ]
  have hr : (Tech.ofCoeffs 2 [[1, 0]] 1e-10).isReal = [true] := by
    simp only [Tech.ofCoeffs, Tech.make, List.map_cons, List.map_nil, List.zipWith_cons_cons,
      List.zipWith_nil_left, hv]
    unfold getIsReal
    have : supIm [-1, 1] = 0 := by simp [supIm]
    rw [this]
    simp only [List.cons.injEq, decide_eq_true_eq, and_true]
    have : (0 : ℝ) < max (1e-10) (getVscale [1, 0]) := lt_max_of_lt_left (by norm_num)
    positivity
  have e1 : hornerReal 0 [1, 0] = 1 := by
    rw [hornerReal_eq _ _ (by simp)]
    simp [hornerRealMut]; norm_num
  have e2 : hornerReal 0 [((1 / 2 : ℝ) : ℂ), 0] = 1 / 2 := by
    rw [hornerReal_eq _ _ (by simp)]
    simp [hornerRealMut]; norm_num
  have em : hornerRealMut [1, 0] = [((1 / 2 : ℝ) : ℂ), 0] := by
    simp [hornerRealMut]; norm_num
  have hcols : (Tech.ofCoeffs 2 [[1, 0]] 1e-10).cols = [[1, 0]] := rfl
  constructor
  · simp only [Tech.feval, horner, hr, hcols]
    simp [e1]
  · simp only [Tech.feval, horner, hr, hcols]
    simp only [List.all_cons, List.all_nil, id, Bool.and_true, if_true, List.map_cons, List.map_nil, em, e2]
    norm_num

/-- C59, what does hold: evaluation leaves the object unchanged if its length is odd or if at least one
column is not flagged real. -/
theorem C59_unchanged_partial (t : Tech) (hp : t.Proper) (x : ℝ)
    (h : t.n % 2 = 1 ∨ t.isReal.all id = false) : (t.feval x).2 = t := by
  unfold Tech.feval horner
  by_cases hall : t.isReal.all id = true
  · have hodd : t.n % 2 = 1 := by
      rcases h with h | h
      · exact h
      · rw [hall] at h; simp at h
    simp only [hall, if_true]
    have : t.cols.map hornerRealMut = t.cols := by
      conv_rhs => rw [← List.map_id t.cols]
      apply List.map_congr_left
      intro c hc
      unfold hornerRealMut
      rw [if_neg (by rw [hp.wf c hc]; omega)]
      rfl
    rw [this]
  · simp only [hall]
    simp

example : (Tech.ofCoeffs 3 [[0, 1, 1]] 1e-10).Proper ∧ (Tech.ofCoeffs 3 [[0, 1, 1]] 1e-10).n % 2 = 1 :=
  ⟨ofCoeffs_proper _ (by norm_num) _ _ (by simp), rfl⟩

/-! ## C31 -/

/-- C31: the transforms are mutually inverse, for every length (including 0 and 1). -/
theorem C31_inverse (a : List ℂ) : vals2coeffs (coeffs2vals a) = a ∧ coeffs2vals (vals2coeffs a) = a :=
  ⟨vals2coeffs_coeffs2vals a, coeffs2vals_vals2coeffs a⟩

/-- C31: the sampling points are the equispaced points `-1 + 2j/n`, and the values of a coefficient
column are its series at these points. -/
theorem C31_values (c : List ℂ) : Spec.IsVec (coeffs2vals c) c.length (fun j => trigEval c (equi c.length j)) ∧
    Spec.IsVec (trigpts c.length) c.length (equi c.length) where
  left := by
    refine ⟨coeffs2vals_length c, fun j hj => ?_⟩
    simp only []
    rw [trigEval_grid c j hj, List.getElem?_eq_getElem (by rw [coeffs2vals_length]; exact hj),
      getD_lt' _ _ _ (by rw [coeffs2vals_length]; exact hj)]
  right := by
    refine ⟨by simp [trigpts], fun j hj => ?_⟩
    simp [trigpts, equi, hj]
    ring

/-- C31: the series of the coefficients computed from sampled values interpolates these values. -/
theorem C31_interpolates (v : List ℂ) (j : ℕ) (hj : j < v.length) :
    trigEval (vals2coeffs v) (equi v.length j) = v.getD j 0 := by
  have := trigEval_grid (vals2coeffs v) j (by rw [vals2coeffs_length]; exact hj)
  rw [vals2coeffs_length, coeffs2vals_vals2coeffs] at this
  exact this

/-- C31: two series of the same length that agree on the grid are equal (so the interpolant is
unique). -/
theorem C31_unique (c d : List ℂ) (hl : c.length = d.length)
    (h : ∀ j < c.length, trigEval c (equi c.length j) = trigEval d (equi c.length j)) : c = d :=
  eq_of_grid c d hl h

example : (3 : ℕ) < ([1, 2, I, 4] : List ℂ).length := by simp

/-! ## C32 -/

/-- C32: prolonging a column to at least as many coefficients gives exactly the requested length and
the same function, for all parities of the two lengths. -/
theorem C32_column (c : List ℂ) (hc : c ≠ []) (N : ℕ) (h : c.length ≤ N) :
    (prolongCol c N).length = N ∧ ∀ x, trigEval (prolongCol c N) x = trigEval c x :=
  have h0 : c.length ≠ 0 := fun h => hc (List.length_eq_zero_iff.mp h)
  ⟨prolongCol_length c h0 N h, prolongCol_eval c h0 N h⟩

/-- C32 for objects: after `f.prolong(N)` with `N ≥ len(f)` the object has `N` coefficients per column,
represents the same functions, its flags are unchanged and evaluation returns what it returned before
(columns whose flag is exact). -/
theorem C32_prolong (t : Tech) (hp : t.Proper) (N : ℕ) (h : t.n ≤ N) :
    (t.prolong N).Proper ∧ (t.prolong N).n = N ∧ (t.prolong N).isReal = t.isReal ∧
    (∀ x, series (t.prolong N) x = series t x) ∧
    ((∀ i < t.cols.length, FlagExact t i) → ∀ x, ((t.prolong N).feval x).1 = (t.feval x).1) := by
  have hN : N ≠ 0 := by have := hp.pos; omega
  have hser : ∀ x, series (t.prolong N) x = series t x := by
    intro x
    unfold Tech.prolong
    split_ifs with h1
    · rfl
    · simp only [series, List.map_map]
      apply List.map_congr_left
      intro c hc
      have hl := hp.wf c hc
      exact prolongCol_eval c (by rw [hl]; exact hp.pos) N (by omega) x
  have hr : (t.prolong N).isReal = t.isReal := by
    unfold Tech.prolong; split_ifs <;> rfl
  have hlen : (t.prolong N).cols.length = t.cols.length := by
    unfold Tech.prolong; split_ifs <;> simp
  have hprop : (t.prolong N).Proper := by
    unfold Tech.prolong
    split_ifs with h1
    · exact hp
    · have hw : ∀ c ∈ (t.cols.map fun c => prolongCol c N), c.length = N := by
        intro c hc
        obtain ⟨d, hd, rfl⟩ := List.mem_map.mp hc
        have hl := hp.wf d hd
        exact prolongCol_length d (by rw [hl]; exact hp.pos) N (by omega)
      refine ⟨hN, hw, ?_, by simp [hp.lr], by simpa using hp.lr⟩
      intro c hc
      rw [List.mem_iff_getElem] at hc
      obtain ⟨i, hi, rfl⟩ := hc
      simp only [List.length_zipWith, List.length_map] at hi
      rw [List.getElem_zipWith]
      have := hw (prolongCol (t.cols[i]'(by omega)) N) (List.mem_map.mpr ⟨_, List.getElem_mem _, rfl⟩)
      unfold realIf
      split_ifs <;> simp [coeffs2vals_length, this]
  refine ⟨hprop, by unfold Tech.prolong; split_ifs with h1 <;> simp [h1], hr, hser, ?_⟩
  intro hf x
  rw [C30_all _ hprop x, C30_all _ hp x hf, hser]
  intro i hi hflag y
  rw [hr] at hflag
  rw [hlen] at hi
  have h1 := hf i hi hflag y
  have h2 := hser y
  have h3 : trigEval ((t.prolong N).cols.getD i []) y = trigEval (t.cols.getD i []) y := by
    have := congrArg (fun l => l.getD i 0) h2
    simp only [series] at this
    rw [getD_lt' (List.map _ _) _ _ (by simpa [hlen] using hi),
      getD_lt' (List.map _ _) _ _ (by simpa using hi), List.getElem_map, List.getElem_map] at this
    rw [getD_lt' _ _ _ (by omega), getD_lt' _ _ _ hi]
    exact this
  rw [h3]; exact h1

/-- C32, chopping: prolonging to a smaller odd length keeps exactly the coefficients of the wave
numbers `|w| ≤ (N-1)/2`. -/
theorem C32_chop_odd (c : List ℂ) (hc : c ≠ []) (N : ℕ) (hodd : N % 2 = 1) (h : N < c.length) :
    (prolongCol c N).length = N ∧
    ∀ k < N, (prolongCol c N).getD k 0 = c.getD (k + (c.length / 2 - N / 2)) 0 := by
  have h0 : c.length ≠ 0 := fun h => hc (List.length_eq_zero_iff.mp h)
  have hs := splitEven_length c h0
  have hso := splitEven_odd c h0
  have hlt : N < (splitEven c).length := by split_ifs at hs <;> omega
  have hd : (splitEven c).length - N = 2 * (((splitEven c).length - N) / 2) := by omega
  have hk : ((splitEven c).length - N + 1) / 2 = ((splitEven c).length - N) / 2 := by omega
  have heq : prolongCol c N = ((splitEven c).take ((splitEven c).length
      - ((splitEven c).length - N) / 2)).drop (((splitEven c).length - N) / 2) := by
    unfold prolongCol
    simp only []
    rw [if_neg (by omega), if_neg (by omega), if_neg (by omega)]
    simp only [chopTo, hk, lt_irrefl, if_false]
  have hlen : (prolongCol c N).length = N := by rw [heq]; simp; omega
  refine ⟨hlen, ?_⟩
  intro k hkN
  have hidx : ((splitEven c).length - N) / 2 + k = k + (c.length / 2 - N / 2) := by
    split_ifs at hs <;> omega
  rw [getD_lt' _ _ _ (by omega)]
  simp only [heq, List.getElem_drop, List.getElem_take]
  rw [← getD_lt' _ 0 _ _, hidx]
  by_cases he : c.length % 2 = 0
  · unfold splitEven
    rw [if_pos he]
    obtain ⟨q, hq⟩ : ∃ q, k + (c.length / 2 - N / 2) = q + 1 := ⟨k + (c.length / 2 - N / 2) - 1, by omega⟩
    rw [hq, List.getD_cons_succ, getD_append', if_pos (by simp; omega), getD_lt' _ _ _ (by simp; omega),
      getD_lt' _ _ _ (by omega), List.getElem_drop]
    congr 1; omega
  · unfold splitEven
    rw [if_neg he]

/-- C32, chopping to an even length: the coefficients of the wave numbers `|w| < N/2` are kept and the first
one (the coefficient of `cos(N/2 π x)`) is twice the coefficient of the wave number `-N/2`. -/
theorem C32_chop_even (c : List ℂ) (hc : c ≠ []) (N : ℕ) (h0N : 0 < N) (heven : N % 2 = 0) (h : N < c.length) :
    (prolongCol c N).length = N ∧
    (prolongCol c N).getD 0 0 = 2 * c.getD (c.length / 2 - N / 2) 0 ∧
    ∀ k < N, 0 < k → (prolongCol c N).getD k 0 = c.getD (k + (c.length / 2 - N / 2)) 0 := by
  have h0 : c.length ≠ 0 := fun h => hc (List.length_eq_zero_iff.mp h)
  have hs := splitEven_length c h0
  have hso := splitEven_odd c h0
  have hlt : N < (splitEven c).length := by split_ifs at hs <;> omega
  set L := (splitEven c).length with hL
  set r := ((splitEven c).take (L - (L - N + 1) / 2)).drop ((L - N) / 2) with hr
  have heq : prolongCol c N = r.set 0 (2 * r.getD 0 0) := by
    unfold prolongCol
    simp only []
    rw [if_neg (by omega), if_neg (by omega), if_neg (by omega)]
    simp only [chopTo]
    rw [if_pos (by omega)]
  have hrl : r.length = N := by simp [hr]; omega
  have hrg : ∀ k < N, r.getD k 0 = c.getD (k + (c.length / 2 - N / 2)) 0 := by
    intro k hk
    have hidx : (L - N) / 2 + k = k + (c.length / 2 - N / 2) := by
      split_ifs at hs <;> omega
    rw [getD_lt' _ _ _ (by omega)]
    simp only [hr, List.getElem_drop, List.getElem_take]
    rw [← getD_lt' _ 0 _ _, hidx]
    by_cases he : c.length % 2 = 0
    · unfold splitEven
      rw [if_pos he]
      obtain ⟨q, hq⟩ : ∃ q, k + (c.length / 2 - N / 2) = q + 1 := ⟨k + (c.length / 2 - N / 2) - 1, by omega⟩
      rw [hq, List.getD_cons_succ, getD_append', if_pos (by simp; omega), getD_lt' _ _ _ (by simp; omega),
        getD_lt' _ _ _ (by omega), List.getElem_drop]
      congr 1; omega
    · unfold splitEven
      rw [if_neg he]
  refine ⟨by rw [heq, List.length_set, hrl], ?_, ?_⟩
  · rw [heq, getD_set', if_pos ⟨rfl, by omega⟩, hrg 0 h0N, Nat.zero_add]
  · intro k hk hk0
    rw [heq, getD_set', if_neg (by rintro ⟨h, _⟩; omega), hrg k hk]

example : (prolongCol [1, 2, 3, 4, 5] 2).getD 0 0 = 2 * 2 := by
  have := (C32_chop_even [1, 2, 3, 4, 5] (by simp) 2 (by norm_num) (by norm_num) (by simp)).2.1
  rw [this]
  simp

/-- `prolong_coeffs` returns arrays of the wrong length: asked for `n+1` coefficients of an
even-length function it returns the `n` old ones. -/
theorem C32_prolong_coeffs_wrong_length (c : List ℂ) (hc : c ≠ []) (he : c.length % 2 = 0) :
    (prolongCoeffsCol c (c.length + 1)).length = c.length := by
  have h0 : c.length ≠ 0 := fun h => hc (List.length_eq_zero_iff.mp h)
  have hs := splitEven_length c h0
  rw [if_pos he] at hs
  unfold prolongCoeffsCol
  simp only [hs, if_true]

/-- In all other padding cases `prolong_coeffs` is right. -/
theorem C32_prolong_coeffs_partial (c : List ℂ) (hc : c ≠ []) (N : ℕ) (h : c.length ≤ N)
    (hN : c.length % 2 = 1 ∨ c.length + 1 < N) :
    (prolongCoeffsCol c N).length = N ∧ ∀ x, trigEval (prolongCoeffsCol c N) x = trigEval c x := by
  have h0 : c.length ≠ 0 := fun h => hc (List.length_eq_zero_iff.mp h)
  have hs := splitEven_length c h0
  unfold prolongCoeffsCol
  simp only []
  split_ifs with h1 h2
  · have : c.length % 2 = 1 := by split_ifs at hs <;> omega
    rw [if_neg (by omega)] at hs
    exact ⟨by omega, fun _ => rfl⟩
  · exact ⟨padTo_length _ _ (by omega), fun x => by
      rw [padTo_eval _ (splitEven_odd c h0) _ (by omega), splitEven_eval c h0]⟩
  · exfalso
    split_ifs at hs <;> omega

example : ([1, I, 3] : List ℂ) ≠ [] ∧ ([1, I, 3] : List ℂ).length % 2 = 1 ∧ ([1, I, 3] : List ℂ).length ≤ 8 := by
  simp

end Funpy.Props
