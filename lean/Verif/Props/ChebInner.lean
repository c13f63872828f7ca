import Verif.Lemmas.ChebInner
import Verif.Props.ChebTransform
import Verif.Props.ChebCalc
import Mathlib.Analysis.SpecialFunctions.Trigonometric.Chebyshev.Orthogonality

/-!
# C15 – C17, C57, C58: inner products and quadrature
-/

namespace Funpy.Props
open Spec Cheb Real Finset Polynomial Mapping MeasureTheory

/-! ## C15 -/

private lemma measureT_cheb (u v : List ℝ) :
    ∫ x, chebEval u x * chebEval v x ∂Chebyshev.measureT
      = π / 2 * (u.getD 0 0 * v.getD 0 0
          + ∑ k ∈ range (min u.length v.length), u.getD k 0 * v.getD k 0) := by
  have hint : ∀ i j : ℕ, Integrable (fun x => (Chebyshev.T ℝ (i : ℤ)).eval x * (Chebyshev.T ℝ (j : ℤ)).eval x)
      Chebyshev.measureT := fun i j => Chebyshev.integrable_measureT
    ((Polynomial.continuous _).mul (Polynomial.continuous _)).continuousOn
  have hT : ∀ i j : ℕ, ∫ x, (Chebyshev.T ℝ (i : ℤ)).eval x * (Chebyshev.T ℝ (j : ℤ)).eval x ∂Chebyshev.measureT
      = if i = j then (if i = 0 then π else π / 2) else 0 := by
    intro i j
    split_ifs with h h0
    · subst h h0; exact Chebyshev.integral_eval_T_real_mul_self_measureT_zero
    · subst h; exact Chebyshev.integral_T_real_mul_self_measureT_of_ne_zero h0
    · exact Chebyshev.integral_eval_T_real_mul_eval_T_real_measureT_of_ne h
  set N := min u.length v.length with hN
  have h1 : ∀ x, chebEval u x * chebEval v x = ∑ i ∈ range u.length, ∑ j ∈ range v.length,
      u.getD i 0 * v.getD j 0 * ((Chebyshev.T ℝ (i : ℤ)).eval x * (Chebyshev.T ℝ (j : ℤ)).eval x) := by
    intro x
    unfold chebEval
    rw [sum_mul_sum]
    apply sum_congr rfl; intro i _
    apply sum_congr rfl; intro j _
    ring
  simp only [h1]
  rw [integral_finsetSum]
  swap
  · intro i _
    exact integrable_finsetSum _ fun j _ => (hint i j).const_mul _
  have h2 : ∀ i ∈ range u.length, ∫ x, ∑ j ∈ range v.length,
      u.getD i 0 * v.getD j 0 * ((Chebyshev.T ℝ (i : ℤ)).eval x * (Chebyshev.T ℝ (j : ℤ)).eval x) ∂Chebyshev.measureT
      = u.getD i 0 * v.getD i 0 * (if i = 0 then π else π / 2) := by
    intro i _
    rw [integral_finsetSum _ fun j _ => (hint i j).const_mul _]
    simp only [integral_const_mul, hT]
    by_cases hi : i < v.length
    · rw [sum_eq_single i]
      · simp
      · intro j _ hj; rw [if_neg (fun h => hj h.symm), mul_zero]
      · intro h; exact absurd (mem_range.mpr hi) h
    · rw [getD_ge' v _ i (by omega), sum_eq_zero]
      · simp
      · intro j hj
        rw [if_neg, mul_zero]
        have := mem_range.mp hj; omega
  rw [sum_congr rfl h2]
  have h3 : ∑ i ∈ range u.length, u.getD i 0 * v.getD i 0 * (if i = 0 then π else π / 2)
      = ∑ i ∈ range N, u.getD i 0 * v.getD i 0 * (if i = 0 then π else π / 2) := by
    symm
    apply sum_subset
    · intro i hi; rw [mem_range] at *; omega
    · intro i hi hi'
      rw [mem_range] at *
      rw [getD_ge' v _ i (by omega)]; ring
  rw [h3]
  rcases Nat.eq_zero_or_pos N with h0 | hpos
  · rw [h0]
    have : u.getD 0 0 * v.getD 0 0 = 0 := by
      rcases (by omega : u.length = 0 ∨ v.length = 0) with h | h
      · rw [getD_ge' u _ 0 (by omega)]; ring
      · rw [getD_ge' v _ 0 (by omega)]; ring
    rw [this]; simp
  · rw [range_eq_Ico, sum_eq_sum_Ico_succ_bot hpos, sum_eq_sum_Ico_succ_bot hpos]
    have : ∀ i ∈ Ico (0 + 1) N, u.getD i 0 * v.getD i 0 * (if i = 0 then π else π / 2)
        = u.getD i 0 * v.getD i 0 * (π / 2) := by
      intro i hi
      rw [if_neg (by rw [mem_Ico] at hi; omega)]
    rw [sum_congr rfl this, ← sum_mul]
    simp
    ring

private lemma zipWith_sum (u v : List ℝ) :
    (List.zipWith (· * ·) u v).sum = ∑ k ∈ range (min u.length v.length), u.getD k 0 * v.getD k 0 := by
  rw [list_sum_eq, List.length_zipWith]
  apply sum_congr rfl
  intro k hk
  rw [mem_range, lt_min_iff] at hk
  rw [getD_lt' _ _ _ (by rw [List.length_zipWith]; omega), List.getElem_zipWith,
    getD_lt' _ _ _ hk.1, getD_lt' _ _ _ hk.2]

private lemma zipWith_congr_mem {α β γ : Type*} (f g : α → β → γ) (l : List α) (m : List β)
    (h : ∀ a ∈ l, ∀ b ∈ m, f a b = g a b) : List.zipWith f l m = List.zipWith g l m := by
  induction l generalizing m with
  | nil => simp
  | cons a l ih =>
    cases m with
    | nil => simp
    | cons b m =>
      simp only [List.zipWith_cons_cons]
      rw [h a (by simp) b (by simp), ih m fun a ha b hb => h a (by simp [ha]) b (by simp [hb])]

/-- C15: `innerw(f, g)` is, column by column, `∫_{-1}^1 f g / sqrt(1-x²)`. -/
theorem C15_integral (f g : Tech) (hf : f.Proper) (hg : g.Proper) :
    f.innerw g = List.zipWith
      (fun u v => ∫ x in (-1 : ℝ)..1, chebEval u x * chebEval v x / √(1 - x ^ 2))
      f.coeffs.cols g.coeffs.cols := by
  simp only [Tech.innerw, prolong, Arr.mapCols, List.zipWith_map]
  apply zipWith_congr_mem
  intro u hu v hv
  have hul := hf.wf u hu
  have hvl := hg.wf v hv
  have hn := hf.n_pos
  have hn' := hg.n_pos
  have hI := Chebyshev.integral_measureT (fun x => chebEval u x * chebEval v x)
  have hI2 : ∫ x in (-1 : ℝ)..1, chebEval u x * chebEval v x / √(1 - x ^ 2)
      = ∫ x in (-1 : ℝ)..1, chebEval u x * chebEval v x * √(1 - x ^ 2)⁻¹ := by
    congr 1
    ext x
    simp [div_eq_mul_inv, Real.sqrt_inv]
  rw [hI2, ← hI, measureT_cheb, zipWith_sum, prolongCol_length, prolongCol_length]
  have e1 : (max (((min f.coeffs.n g.coeffs.n : ℕ)) : ℤ) 0).toNat = min f.coeffs.n g.coeffs.n := by omega
  have hp : ∀ (c : List ℝ) (k : ℕ), k < min f.coeffs.n g.coeffs.n →
      (prolongCol c ((min f.coeffs.n g.coeffs.n : ℕ) : ℤ)).getD k 0 = c.getD k 0 := by
    intro c k hk
    rw [prolongCol_getD, if_pos (by omega)]
  rw [e1, min_self, hul, hvl, hp u 0 (by omega), hp v 0 (by omega)]
  have : ∀ k ∈ range (min f.coeffs.n g.coeffs.n),
      (prolongCol u ((min f.coeffs.n g.coeffs.n : ℕ) : ℤ)).getD k 0
        * (prolongCol v ((min f.coeffs.n g.coeffs.n : ℕ) : ℤ)).getD k 0
      = u.getD k 0 * v.getD k 0 := by
    intro k hk
    rw [hp u k (mem_range.mp hk), hp v k (mem_range.mp hk)]
  rw [sum_congr rfl this]
  ring

/-- C15: symmetry. -/
theorem C15_symm (f g : Tech) (hf : f.Proper) (hg : g.Proper) : f.innerw g = g.innerw f := by
  rw [C15_integral f g hf hg, C15_integral g f hg hf, List.zipWith_comm]
  congr 1
  ext u v
  congr 1
  ext x
  ring

/-- C15: bilinearity (with `C15_symm` in both arguments): if `s` represents `α f + β g`, then
`innerw(s, h)` is `α innerw(f, h) + β innerw(g, h)`, whatever the lengths of the four functions. -/
theorem C15_bilinear (f g s h : Tech) (hf : f.Proper) (hg : g.Proper) (hs : s.Proper) (hh : h.Proper)
    (hfg : f.coeffs.m = g.coeffs.m) (hfh : f.coeffs.m = h.coeffs.m) (α β : ℝ)
    (hadd : ∀ x, s.coeffs.cols.map (fun c => chebEval c x) =
      List.zipWith (fun p q => α * p + β * q) (f.coeffs.cols.map fun c => chebEval c x)
        (g.coeffs.cols.map fun c => chebEval c x)) :
    s.innerw h = List.zipWith (fun p q => α * p + β * q) (f.innerw h) (g.innerw h) := by
  have conv : ∀ u v : List ℝ, ∫ x in (-1 : ℝ)..1, chebEval u x * chebEval v x / √(1 - x ^ 2)
      = ∫ x, chebEval u x * chebEval v x ∂Chebyshev.measureT := by
    intro u v
    rw [Chebyshev.integral_measureT (fun x => chebEval u x * chebEval v x)]
    congr 1
    ext x
    simp [div_eq_mul_inv, Real.sqrt_inv]
  have hint : ∀ u v : List ℝ, Integrable (fun x => chebEval u x * chebEval v x)
      Chebyshev.measureT := by
    intro u v
    simp only [chebEval_eq_eval]
    exact Chebyshev.integrable_measureT
      ((Polynomial.continuous _).mul (Polynomial.continuous _)).continuousOn
  rw [C15_integral s h hs hh, C15_integral f h hf hh, C15_integral g h hg hh]
  simp only [conv]
  have hlen := congrArg List.length (hadd 0)
  simp only [List.length_map, List.length_zipWith] at hlen
  simp only [Arr.m] at hfg hfh
  apply List.ext_getElem
  · simp only [List.length_zipWith]; omega
  intro i h1 h2
  simp only [List.length_zipWith] at h1 h2
  simp only [List.getElem_zipWith]
  have e : ∀ x, chebEval (s.coeffs.cols[i]'(by omega)) x
      = α * chebEval (f.coeffs.cols[i]'(by omega)) x + β * chebEval (g.coeffs.cols[i]'(by omega)) x := by
    intro x
    have := congrArg (fun l => l[i]?) (hadd x)
    simpa [List.getElem?_map, show i < s.coeffs.cols.length by omega,
      show i < f.coeffs.cols.length by omega, show i < g.coeffs.cols.length by omega] using this
  rw [← MeasureTheory.integral_const_mul, ← MeasureTheory.integral_const_mul,
    ← MeasureTheory.integral_add ((hint _ _).const_mul _) ((hint _ _).const_mul _)]
  congr 1
  ext x
  rw [e x]
  ring

/-- The hypotheses of `C15_bilinear` are met: `3 = 1 * 1 + 1 * 2`, `5 T₁ = 2 T₁ + 3 T₁`, with different
lengths of the summands. -/
example (eps : ℝ) : ∃ f g s : Tech, f.Proper ∧ g.Proper ∧ s.Proper ∧ f.coeffs.m = g.coeffs.m ∧
    f.coeffs.n ≠ g.coeffs.n ∧
    ∀ x, s.coeffs.cols.map (fun c => chebEval c x) =
      List.zipWith (fun p q => (2 : ℝ) * p + 3 * q) (f.coeffs.cols.map fun c => chebEval c x)
        (g.coeffs.cols.map fun c => chebEval c x) := by
  refine ⟨{ coeffs := ⟨2, [[1, 1]]⟩, eps := eps }, { coeffs := ⟨1, [[1]]⟩, eps := eps },
    { coeffs := ⟨2, [[5, 2]]⟩, eps := eps }, ⟨?_, ?_⟩, ⟨?_, ?_⟩, ⟨?_, ?_⟩, rfl, ?_, ?_⟩
  all_goals try simp [Arr.WF, Arr.m]
  intro x
  simp [chebEval, Finset.sum_range_succ]
  ring

/-- C15: `innerw(f, f)` is non-negative in every column, and vanishes exactly for the columns that
are the zero function. -/
theorem C15_pos_def (f : Tech) (hf : f.Proper) :
    f.innerw f = f.coeffs.cols.map (fun u => ∫ x in (-1 : ℝ)..1, chebEval u x * chebEval u x / √(1 - x ^ 2)) ∧
    ∀ u ∈ f.coeffs.cols, 0 ≤ ∫ x in (-1 : ℝ)..1, chebEval u x * chebEval u x / √(1 - x ^ 2) ∧
      ((∫ x in (-1 : ℝ)..1, chebEval u x * chebEval u x / √(1 - x ^ 2)) = 0 ↔
        ∀ x, chebEval u x = 0) := by
  refine ⟨by rw [C15_integral f f hf hf, List.zipWith_self], ?_⟩
  intro u _
  have hI2 : ∫ x in (-1 : ℝ)..1, chebEval u x * chebEval u x / √(1 - x ^ 2)
      = π / 2 * (u.getD 0 0 * u.getD 0 0
          + ∑ k ∈ range (min u.length u.length), u.getD k 0 * u.getD k 0) := by
    rw [← measureT_cheb, Chebyshev.integral_measureT]
    congr 1
    ext x
    simp [div_eq_mul_inv, Real.sqrt_inv]
  rw [hI2, min_self]
  have h1 : 0 ≤ ∑ k ∈ range u.length, u.getD k 0 * u.getD k 0 :=
    sum_nonneg fun k _ => mul_self_nonneg _
  have h0 := mul_self_nonneg (u.getD 0 0)
  refine ⟨by positivity, ?_⟩
  constructor
  · intro h x
    have h2 : ∑ k ∈ range u.length, u.getD k 0 * u.getD k 0 = 0 := by
      have : (0 : ℝ) < π / 2 := by positivity
      nlinarith
    rw [sum_eq_zero_iff_of_nonneg fun k _ => mul_self_nonneg _] at h2
    apply sum_eq_zero
    intro k hk
    rw [mul_self_eq_zero.mp (h2 k hk), zero_mul]
  · intro h
    rw [← min_self u.length, ← measureT_cheb]
    simp [h]

/-- C15 on a domain: different domains are an error; otherwise the result is the integral in the
mapped variable, rescaled by half of the length of the domain. -/
theorem C15_fun (f g : ChebFun) (hf : f.onefun.Proper) (hg : g.onefun.Proper) :
    (f.dom ≠ g.dom → f.innerw g = none) ∧
    (f.dom = g.dom → f.innerw g = some (List.zipWith
      (fun u v => (∫ y in (-1 : ℝ)..1, chebEval u y * chebEval v y / √(1 - y ^ 2))
        * ((f.dom.e1 - f.dom.e0) / 2)) f.onefun.coeffs.cols g.onefun.coeffs.cols)) := by
  constructor
  · intro h; simp [ChebFun.innerw, h]
  · intro h
    simp only [ChebFun.innerw, if_pos h, C15_integral _ _ hf hg, List.map_zipWith, rescale_eq,
      Mapping.diff]

/-- non-vacuity of C15: two functions of different lengths -/
example : (⟨⟨3, [[1, 2, 3]]⟩, 1, 1, 10, true⟩ : Tech).Proper ∧
    (⟨⟨2, [[5, 7]]⟩, 1, 1, 10, true⟩ : Tech).Proper ∧
    (⟨⟨3, [[1, 2, 3]]⟩, 1, 1, 10, true⟩ : Tech).innerw ⟨⟨2, [[5, 7]]⟩, 1, 1, 10, true⟩ = [12 * π] := by
  refine ⟨⟨by simp [Arr.WF], by simp [Arr.m]⟩, ⟨by simp [Arr.WF], by simp [Arr.m]⟩, ?_⟩
  simp [Tech.innerw, prolong, prolongCol, Arr.mapCols]
  ring

/-! ## C16 -/

private lemma zip_quad (w x : List ℝ) (N : ℕ) (hw : w.length = N) (hx : x.length = N) (g : ℝ → ℝ) :
    (List.zipWith (· * ·) w (x.map g)).sum = ∑ j ∈ range N, w.getD j 0 * g (x.getD j 0) := by
  rw [zipWith_sum, List.length_map, hw, hx, min_self]
  apply sum_congr rfl
  intro j hj
  have hj := mem_range.mp hj
  rw [getD_lt' (x.map g) _ _ (by simp; omega), List.getElem_map, getD_lt' x _ _ (by omega)]

lemma quadwts_length (N : ℕ) : (quadwts N).length = N := by
  match N with
  | 0 => simp [quadwts]
  | 1 => simp [quadwts]
  | M + 2 => exact (quadwts_getD (M + 1) (by omega)).1

/-- C16: the rule with the `N` weights `quadwts(N)` at the `N` Chebyshev points integrates every
polynomial of degree `< N` exactly. -/
theorem C16_exact (N : ℕ) (hN : 0 < N) (p : ℝ[X]) (hp : p.degree < N) :
    (quadwts N).length = N ∧ (chebpts2 N).length = N ∧
    (List.zipWith (· * ·) (quadwts N) ((chebpts2 N).map fun x => p.eval x)).sum
      = ∫ x in (-1 : ℝ)..1, p.eval x := by
  refine ⟨quadwts_length N, chebpts2_length N, ?_⟩
  rw [zip_quad _ _ N (quadwts_length N) (chebpts2_length N)]
  obtain ⟨c, hc, rfl⟩ := exists_cheb N p hp
  simp only [← chebEval_eq_eval]
  exact quad_cheb N hN c hc.le

/-- C16: the weights sum to 2. -/
theorem C16_sum (N : ℕ) (hN : 0 < N) : (quadwts N).sum = 2 := by
  have h := (C16_exact N hN 1 (by rw [degree_one]; exact_mod_cast hN)).2.2
  simp only [eval_one] at h
  rw [zip_quad _ _ N (quadwts_length N) (chebpts2_length N)] at h
  rw [list_sum_eq, quadwts_length]
  simp only [mul_one] at h
  rw [h]; norm_num

/-- C16, weights beyond exactness degree do fail: the statement is sharp in `N` (two points do not
integrate `x²`), so the degree bound is not vacuous. -/
example : (List.zipWith (· * ·) (quadwts 2) ((chebpts2 2).map fun x => ((X : ℝ[X]) ^ 2).eval x)).sum ≠ 2 / 3 := by
  rw [zip_quad _ _ 2 (quadwts_length 2) (chebpts2_length 2)]
  have h := C16_exact 2 (by norm_num) 1 (by rw [degree_one]; norm_num)
  have h2 := h.2.2
  rw [zip_quad _ _ 2 (quadwts_length 2) (chebpts2_length 2)] at h2
  have e0 : (chebpts2 2).getD 0 0 = -1 := by
    have := chebpts2_getD 1 (by norm_num) 0 (by norm_num); simpa using this
  have e1 : (chebpts2 2).getD 1 0 = 1 := by
    have := chebpts2_getD 1 (by norm_num) 1 (by norm_num); simpa using this
  simp only [sum_range_succ, sum_range_zero, e0, e1, eval_one, eval_pow, eval_X] at h2 ⊢
  norm_num at h2 ⊢
  linarith

/-! ## C17 -/

private lemma wdot_eq (w u v : List ℝ) (N : ℕ) (hw : w.length = N) (hu : u.length = N) (hv : v.length = N) :
    wdot w u v = ∑ j ∈ range N, w.getD j 0 * (u.getD j 0 * v.getD j 0) := by
  unfold wdot
  rw [zipWith_sum, List.length_zipWith, hw, hu, hv, min_self, min_self]
  apply sum_congr rfl
  intro j hj
  have hj := mem_range.mp hj
  rw [getD_lt' (List.zipWith _ _ _) _ _ (by rw [List.length_zipWith]; omega), List.getElem_zipWith,
    ← getD_lt' u 0 j, ← getD_lt' w 0 j]
  ring

private lemma wdot_cheb (u v : List ℝ) (hu : u ≠ []) (hv : v ≠ []) :
    wdot (quadwts (u.length + v.length))
      (polyvalCol (prolongCol u ((u.length + v.length : ℕ) : ℤ)))
      (polyvalCol (prolongCol v ((u.length + v.length : ℕ) : ℤ)))
      = ∫ x in (-1 : ℝ)..1, chebEval u x * chebEval v x := by
  have hup := List.length_pos_iff.mpr hu
  have hvp := List.length_pos_iff.mpr hv
  set N := u.length + v.length with hN
  have hlen : ∀ c : List ℝ, (prolongCol c (N : ℤ)).length = N := by
    intro c; rw [prolongCol_length]; omega
  have hne : ∀ c : List ℝ, prolongCol c (N : ℤ) ≠ [] := by
    intro c h; have := hlen c; rw [h] at this; simp at this; omega
  have hval : ∀ c : List ℝ, c.length ≤ N → ∀ x, chebEval (prolongCol c (N : ℤ)) x = chebEval c x := by
    intro c hc x
    apply chebEval_congr_getD
    intro k
    rw [prolongCol_getD]
    split_ifs with h
    · rfl
    · rw [getD_ge' c _ _ (by omega)]
  rw [wdot_eq _ _ _ N (quadwts_length N) (by rw [polyvalCol_length, hlen])
    (by rw [polyvalCol_length, hlen])]
  have hg : ∀ c : List ℝ, c.length ≤ N → ∀ j ∈ range N,
      (polyvalCol (prolongCol c (N : ℤ))).getD j 0 = chebEval c ((chebpts2 N).getD j 0) := by
    intro c hc j hj
    have hj := mem_range.mp hj
    rw [polyvalCol_eq _ (hne c), hlen, getD_lt' _ _ _ (by simp [chebpts2_length]; omega),
      List.getElem_map, hval c hc, getD_lt' _ _ _ (by rw [chebpts2_length]; omega)]
  obtain ⟨h, hl, hp⟩ := Rep.mul (⟨u, rfl, rfl⟩ : Rep u.length (chebPoly u))
    (⟨v, rfl, rfl⟩ : Rep v.length (chebPoly v)) hup hvp
  have hmul : ∀ x, chebEval u x * chebEval v x = chebEval h x := by
    intro x; rw [chebEval_eq_eval, chebEval_eq_eval, chebEval_eq_eval, hp, eval_mul]
  simp only [hmul]
  rw [← quad_cheb N (by omega) h (by omega)]
  apply sum_congr rfl
  intro j hj
  rw [hg u (by omega) j hj, hg v (by omega) j hj, hmul]

private lemma inner_out (f g : Tech) (hf : f.Proper) (hg : g.Proper) :
    ((polyval (prolong f.coeffs ((f.coeffs.n + g.coeffs.n : ℕ) : ℤ))).cols.map fun u =>
      (polyval (prolong g.coeffs ((f.coeffs.n + g.coeffs.n : ℕ) : ℤ))).cols.map fun v =>
        wdot (quadwts (f.coeffs.n + g.coeffs.n)) u v)
      = f.coeffs.cols.map fun u => g.coeffs.cols.map fun v =>
          ∫ x in (-1 : ℝ)..1, chebEval u x * chebEval v x := by
  simp only [polyval, prolong, Arr.mapCols, List.map_map]
  apply List.map_congr_left
  intro u hu
  apply List.map_congr_left
  intro v hv
  simp only [Function.comp]
  have := wdot_cheb u v (hf.col_ne hu) (hg.col_ne hv)
  rw [hf.wf u hu, hg.wf v hv] at this
  exact this

/-- C17: `np.inner(f, g)` is the matrix of the integrals of the products of the columns over
`[-1,1]`, whether or not `f == g`. -/
theorem C17_tech (f g : Tech) (hf : f.Proper) (hg : g.Proper) :
    f.inner g = f.coeffs.cols.map fun u => g.coeffs.cols.map fun v =>
      ∫ x in (-1 : ℝ)..1, chebEval u x * chebEval v x := by
  simp only [Tech.inner]
  rw [inner_out f g hf hg]
  split_ifs with h
  · have hc : f.coeffs.cols = g.coeffs.cols := by
      simp only [Tech.eq, decide_eq_true_eq] at h
      exact h.2
    rw [← hc]
    apply List.ext_getElem
    · simp
    intro i h1 h2
    simp only [List.getElem_mapIdx, List.getElem_map]
    apply List.ext_getElem
    · simp
    intro j h3 h4
    simp only [List.getElem_mapIdx, List.getElem_map]
    split_ifs with hij
    · subst hij
      rw [sub_self, zero_add, abs_of_nonneg]
      apply intervalIntegral.integral_nonneg (by norm_num)
      intro x _
      exact mul_self_nonneg _
    · ring
  · rfl

/-- C17: the diagonal of `np.inner(f, f)` is non-negative. -/
theorem C17_diag_nonneg (f : Tech) (hf : f.Proper) (i : ℕ) :
    0 ≤ ((f.inner f).getD i []).getD i 0 := by
  rw [C17_tech f f hf hf]
  by_cases h : i < f.coeffs.cols.length
  · rw [getD_lt' (List.map _ _) _ _ (by simpa using h), List.getElem_map,
      getD_lt' (List.map _ _) _ _ (by simpa using h), List.getElem_map]
    apply intervalIntegral.integral_nonneg (by norm_num)
    intro x _
    exact mul_self_nonneg _
  · rw [getD_ge' (List.map _ _) [] _ (by simpa using h)]; simp

lemma integral_dom (e : Ends) (hd : e.e0 < e.e1) (F : ℝ → ℝ) :
    ∫ x in e.e0..e.e1, F (bwd e x) = (∫ y in (-1 : ℝ)..1, F y) * (Mapping.diff e / 2) := by
  have hpos : 0 < e.e1 - e.e0 := by linarith
  have hne : Mapping.diff e ≠ 0 := hpos.ne'
  simp only [bwd_eq]
  rw [intervalIntegral.integral_comp_mul_add (fun y => F y) (by positivity)]
  rw [← bwd_eq, ← bwd_eq]
  have h0 : bwd e e.e0 = -1 := by
    simp only [bwd, Mapping.diff]; field_simp; ring
  have h1 : bwd e e.e1 = 1 := by
    simp only [bwd, Mapping.diff]; field_simp; ring
  rw [h0, h1, smul_eq_mul, inv_div, mul_comm]

/-- C17 on a domain `[a,b]`: equal domains give the integrals over the domain, different domains the
`ValueError`. -/
theorem C17_fun (f g : ChebFun) (hf : f.onefun.Proper) (hg : g.onefun.Proper)
    (hd : f.dom.e0 < f.dom.e1) :
    (f.dom ≠ g.dom → f.inner g = none) ∧
    (f.dom = g.dom → f.inner g = some (f.onefun.coeffs.cols.map fun u => g.onefun.coeffs.cols.map fun v =>
      ∫ x in f.dom.e0..f.dom.e1, chebEval u (bwd f.dom x) * chebEval v (bwd g.dom x))) := by
  constructor
  · intro h; simp [ChebFun.inner, h]
  · intro h
    rw [ChebFun.inner, if_pos h, ← h]
    simp only [C17_tech _ _ hf hg, List.map_map]
    congr 1
    apply List.map_congr_left
    intro u _
    simp only [Function.comp, List.map_map]
    apply List.map_congr_left
    intro v _
    simp only [Function.comp]
    rw [integral_dom f.dom hd (fun y => chebEval u y * chebEval v y), rescale_eq]

/-- C17: `np.dot` is the sum over the columns of the integrals of `f_i g_i`. -/
theorem C17_dot (f g : Tech) (hf : f.Proper) (hg : g.Proper) (hm : f.coeffs.m = g.coeffs.m) :
    f.dot g = (List.zipWith (fun u v => ∫ x in (-1 : ℝ)..1, chebEval u x * chebEval v x)
      f.coeffs.cols g.coeffs.cols).sum := by
  simp only [Tech.dot, C17_tech f g hf hg]
  congr 1
  simp only [Arr.m] at hm
  apply List.ext_getElem
  · simp; omega
  intro i h1 h2
  simp only [List.getElem_mapIdx, List.getElem_map, List.getElem_zipWith]
  simp only [List.length_mapIdx, List.length_map] at h1
  rw [getD_lt' _ _ _ (by simp; omega), List.getElem_map]

/-- non-vacuity of C17 -/
example : (⟨⟨3, [[1, 2, 3], [0, 1, 0]]⟩, 1, 1, 10, true⟩ : Tech).Proper ∧
    (⟨⟨2, [[5, 7], [1, 1]]⟩, 1, 1, 10, true⟩ : Tech).Proper :=
  ⟨⟨by simp [Arr.WF], by simp [Arr.m]⟩, ⟨by simp [Arr.WF], by simp [Arr.m]⟩⟩

end Funpy.Props
