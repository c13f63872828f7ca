import Verif.Model.ChebRestrict
import Verif.Props.ChebCompose
import Mathlib.Analysis.SpecialFunctions.Integrals.Basic

/-!
# C91, C92: restriction to a subinterval, functionals
-/

namespace Funpy.Props
open Spec Cheb Real Finset Mapping

/-- An affine change of variables keeps the number of coefficients. -/
lemma affine_series (c : List ℝ) (n : ℕ) (hc : c.length = n) (hn : 0 < n) (a b : ℝ) :
    ∃ e : List ℝ, e.length = n ∧ ∀ y, chebEval e y = chebEval c (fwd ⟨a, b⟩ y) := by
  obtain ⟨q, hq, hqe⟩ := pull_poly ⟨a, b⟩ (chebPoly c)
  have h1 : (chebPoly c).natDegree < n := by
    rw [← hc]; exact natDegree_chebPoly_lt c (by intro h; rw [h] at hc; simp at hc; omega)
  have hdeg : q.degree < n := lt_of_le_of_lt Polynomial.degree_le_natDegree (by exact_mod_cast lt_of_le_of_lt hq h1)
  obtain ⟨e, he, hep⟩ := exists_cheb n q hdeg
  refine ⟨e, he, fun y => ?_⟩
  rw [chebEval_eq_eval, hep, hqe, chebEval_eq_eval]

/-- C91 (partial: functions with at least two columns and two coefficients, one subinterval; see the failures below):
`f.restrict([a,b])` is the function `t ↦ f((1-t)a/2 + (1+t)b/2)`, exactly. -/
theorem C91_restrict_partial (t : Tech) (ht : t.Proper) (hn : 1 < t.coeffs.n) (hm : 1 < t.coeffs.m) (a b : ℝ) (ha : -1 ≤ a) (hab : a < b)
    (hb : b ≤ 1) :
    ∃ r, t.restrict [a, b] = some r ∧ r.coeffs.m = t.coeffs.m ∧ r.coeffs.n = t.coeffs.n ∧ r.eps = t.eps ∧
      ∀ i (hi : i < t.coeffs.cols.length), ∃ d, r.coeffs.cols[i]? = some d ∧
        ∀ y, chebEval d y = chebEval t.coeffs.cols[i] ((1 - y) / 2 * a + (1 + y) / 2 * b) := by
  by_cases hs : ([a, b] : List ℝ) = [-1, 1]
  · refine ⟨t, ?_, rfl, rfl, rfl, fun i hi => ⟨_, List.getElem?_eq_getElem hi, fun y => ?_⟩⟩
    · rw [Tech.restrict, if_neg (by simp), if_neg, if_pos hs]
      simp only [List.getD_cons_zero, List.getD_cons_succ, listDiff, List.drop_succ_cons, List.drop_zero, List.zipWith_cons_cons,
        List.zipWith_nil_right, List.mem_singleton, exists_eq_left]
      push Not
      exact ⟨ha, hb, by linarith⟩
    · simp only [List.cons.injEq, and_true] at hs
      rw [hs.1, hs.2]; congr 1; ring
  · have hvals : (⟨t.coeffs.n, t.coeffs.cols.map fun c => (restrictGrid t.coeffs.n a b).map fun x => clenshawScalar x c⟩ : Arr ℝ)
        = sample (t.coeffs.cols.map fun c y => chebEval c (fwd ⟨a, b⟩ y)) (chebpts2 t.coeffs.n) := by
      simp only [sample, chebpts2_length, restrictGrid, List.map_map, Arr.mk.injEq, true_and]
      apply List.map_congr_left
      intro c hc
      apply List.map_congr_left
      intro x _
      simp only [Function.comp]
      rw [clenshaw_cheb _ c (ht.col_ne hc)]
      congr 1
      simp only [fwd]; norm_num; ring
    obtain ⟨r, hr, h1, _, _, _, h5⟩ := mk'_false (⟨t.coeffs.n, (t.coeffs.cols.map fun c y => chebEval c (fwd ⟨a, b⟩ y)).map
      fun f => interp f t.coeffs.n⟩ : Arr ℝ) (by
        apply Nat.mul_ne_zero
        · show t.coeffs.n ≠ 0; omega
        · simpa [Arr.m] using ht.m_ne) t.eps t.ishappy t.hscale t.maxLength
    refine ⟨r, ?_, ?_, ?_, h1, fun i hi => ?_⟩
    · rw [Tech.restrict, if_neg (by simp), if_neg, if_neg hs, if_neg (by omega), if_neg (by omega), if_neg (by simp)]
      · simp only [List.getD_cons_zero, List.getD_cons_succ]
        rw [hvals, polyfit_sample, hr]
      · simp only [List.getD_cons_zero, List.getD_cons_succ, listDiff, List.drop_succ_cons, List.drop_zero, List.zipWith_cons_cons,
          List.zipWith_nil_right, List.mem_singleton, exists_eq_left]
        push Not
        exact ⟨ha, hb, by linarith⟩
    · rw [h5]; simp [Arr.m]
    · rw [h5]
    · refine ⟨interp (fun y => chebEval t.coeffs.cols[i] (fwd ⟨a, b⟩ y)) t.coeffs.n, by rw [h5]; simp [hi], fun y => ?_⟩
      obtain ⟨e, he, hee⟩ := affine_series t.coeffs.cols[i] t.coeffs.n (ht.wf _ (List.getElem_mem hi)) (by omega) a b
      rw [chebEval_congr_getD _ e (interp_series e _ _ (by omega) he.le fun x _ => (hee x).symm), hee]
      congr 1
      simp only [fwd]; ring

/-- C91: invalid intervals are rejected. -/
theorem C91_rejects (t : Tech) (a b : ℝ) (h : a < -1 ∨ 1 < b ∨ b ≤ a) : t.restrict [a, b] = none := by
  rw [Tech.restrict, if_neg (by simp), if_pos]
  simp only [List.getD_cons_zero, List.getD_cons_succ, listDiff, List.drop_succ_cons, List.drop_zero, List.zipWith_cons_cons,
    List.zipWith_nil_right, List.mem_singleton, exists_eq_left]
  rcases h with h | h | h
  · exact Or.inl h
  · exact Or.inr (Or.inl h)
  · exact Or.inr (Or.inr (by linarith))

/-- C91, failure: restricting a scalar function to a proper subinterval always raises. -/
theorem C91_scalar_fails (t : Tech) (hm : t.coeffs.m = 1) (s : List ℝ) (hs : s ≠ [-1, 1]) : t.restrict s = none := by
  rw [Tech.restrict, if_neg hs]
  split_ifs <;> rfl

/-- C91, failure: splitting a function into several pieces always raises. -/
theorem C91_pieces_fails (t : Tech) (s : List ℝ) (hs : 2 < s.length) : t.restrict s = none := by
  have : s ≠ [-1, 1] := by intro h; rw [h] at hs; simp at hs
  rw [Tech.restrict, if_neg this]
  split_ifs <;> first | rfl | omega

example : ∃ r, Tech.restrict ⟨⟨2, [[0, 1], [1, 1]]⟩, 1 / 10 ^ 16, 1, 2 ^ 14 + 1, true⟩ [0, 1 / 2] = some r := by
  obtain ⟨r, hr, _⟩ := C91_restrict_partial ⟨⟨2, [[0, 1], [1, 1]]⟩, 1 / 10 ^ 16, 1, 2 ^ 14 + 1, true⟩
    ⟨by simp [Arr.WF], by simp [Arr.m]⟩ (by norm_num) (by simp [Arr.m]) 0 (1 / 2) (by norm_num) (by norm_num) (by norm_num)
  exact ⟨r, hr⟩

/-! ### Functionals -/

lemma functionalBlock_length (c : List ℝ) : (functionalBlock c).length = c.length := by
  simp only [functionalBlock, List.length_reverse, polyvalCol_length, List.length_zipWith, quadwts_length, min_self]

/-- The entries of the row vector are discrete moments. -/
lemma functionalBlock_getD (c : List ℝ) (hc : c ≠ []) (l : ℕ) (hl : l < c.length) :
    (functionalBlock c).getD l 0 = ∑ j ∈ range c.length, (quadwts c.length).getD j 0 *
      (chebEval c ((chebpts2 c.length).getD j 0) * (Polynomial.Chebyshev.T ℝ (l : ℤ)).eval ((chebpts2 c.length).getD j 0)) := by
  set n := c.length with hn
  have hn0 : 0 < n := List.length_pos_iff.mpr hc
  set row := List.zipWith (· * ·) (quadwts n) (polyvalCol c) with hrow
  have hrl : row.length = n := by simp [hrow, polyvalCol_length, quadwts_length, ← hn]
  have hrg : ∀ j, j < n → row.getD j 0 = (quadwts n).getD j 0 * chebEval c ((chebpts2 n).getD j 0) := by
    intro j hj
    have h1 : j < (quadwts n).length := by rw [quadwts_length]; exact hj
    have h2 : j < (polyvalCol c).length := by rw [polyvalCol_length]; exact hj
    have h3 : j < (chebpts2 n).length := by rw [chebpts2_length]; exact hj
    rw [getD_lt' row _ _ (by omega), getD_lt' (quadwts n) _ _ h1, getD_lt' (chebpts2 n) _ _ h3]
    simp only [hrow, List.getElem_zipWith, polyvalCol_eq c hc, List.getElem_map, ← hn]
  have hb : functionalBlock c = (polyvalCol row.reverse).reverse := rfl
  rw [hb]
  have hrr : row.reverse ≠ [] := by
    intro h; have := congrArg List.length h; simp [hrl] at this; omega
  by_cases h1 : n = 1
  · have hl0 : l = 0 := by omega
    subst hl0
    rw [h1] at hrl hrg ⊢
    obtain ⟨a, ha⟩ := List.length_eq_one_iff.mp hrl
    have := hrg 0 (by norm_num)
    rw [ha] at this ⊢
    simp only [List.getD_cons_zero] at this
    simp [polyvalCol, this]
  · obtain ⟨M, hM⟩ : ∃ M, n = M + 1 := ⟨n - 1, by omega⟩
    have hM0 : 0 < M := by omega
    rw [polyvalCol_eq _ hrr, List.length_reverse, hrl]
    rw [getD_reverse _ _ (by simp [chebpts2_length]; omega)]
    simp only [List.length_map, chebpts2_length]
    rw [getD_lt' _ _ _ (by simp [chebpts2_length]; omega), List.getElem_map, ← getD_lt' _ 0 _ (by rw [chebpts2_length]; omega)]
    rw [chebEval_eq_of_getD _ n (by simp [hrl]), hM, show M + 1 - 1 - l = M - l by omega, chebpts2_getD M hM0 _ (by omega)]
    rw [← sum_range_reflect]
    apply sum_congr rfl
    intro j hj
    have hj' : j ≤ M := by have := mem_range.mp hj; omega
    rw [show M + 1 - 1 - j = M - j by omega, getD_reverse _ _ (by omega), hrl, hM, show M + 1 - 1 - (M - j) = j by omega,
      hrg j (by omega), hM, mul_assoc]
    congr 2
    rw [chebpts2_getD M hM0 j hj', Polynomial.Chebyshev.T_real_cos, Polynomial.Chebyshev.T_real_cos]
    congr 1
    rw [show M - (M - l) = l by omega]
    push_cast
    ring

/-- One block against one column: the Clenshaw–Curtis sum of the product. -/
lemma functionalBlock_dot (c d : List ℝ) (hc : c ≠ []) (hd : d.length = c.length) :
    (List.zipWith (· * ·) (functionalBlock c) d).sum = ∑ j ∈ range c.length, (quadwts c.length).getD j 0 *
      (chebEval c ((chebpts2 c.length).getD j 0) * chebEval d ((chebpts2 c.length).getD j 0)) := by
  rw [list_sum_eq]
  simp only [List.length_zipWith, functionalBlock_length, hd, min_self]
  have : ∀ l ∈ range c.length, (List.zipWith (· * ·) (functionalBlock c) d).getD l 0
      = ∑ j ∈ range c.length, (quadwts c.length).getD j 0 * (chebEval c ((chebpts2 c.length).getD j 0)
        * (d.getD l 0 * (Polynomial.Chebyshev.T ℝ (l : ℤ)).eval ((chebpts2 c.length).getD j 0))) := by
    intro l hl
    have hl' := mem_range.mp hl
    rw [getD_lt' _ _ _ (by simp [functionalBlock_length, hd]; exact hl'), List.getElem_zipWith,
      ← getD_lt' (functionalBlock c) 0 _ (by rw [functionalBlock_length]; exact hl'), ← getD_lt' d 0 _ (by omega),
      functionalBlock_getD c hc l hl', sum_mul]
    apply sum_congr rfl
    intro j _
    ring
  rw [sum_congr rfl this, sum_comm]
  apply sum_congr rfl
  intro j _
  rw [← mul_sum, ← mul_sum, ← chebEval_eq_of_getD d c.length hd.le]


private lemma flat_dot (s : ℝ) : ∀ (cs ds : List (List ℝ)), cs.length = ds.length → (∀ c ∈ cs, c ≠ []) →
    (∀ n, (∀ c ∈ cs, c.length = n) → (∀ d ∈ ds, d.length = n) →
    ((cs.flatMap functionalBlock).map (· * s)).length = ds.flatten.length ∧
    (List.zipWith (· * ·) ((cs.flatMap functionalBlock).map (· * s)) ds.flatten).sum
      = (List.zipWith (fun c d => ∑ j ∈ range n, (quadwts n).getD j 0 *
        (chebEval c ((chebpts2 n).getD j 0) * chebEval d ((chebpts2 n).getD j 0))) cs ds).sum * s)
  | [], [], _, _ => by intro n _ _; simp
  | [], _ :: _, h, _ => by simp at h
  | _ :: _, [], h, _ => by simp at h
  | c :: cs, d :: ds, h, hne => by
    intro n hc hd
    obtain ⟨ih1, ih2⟩ := flat_dot s cs ds (by simpa using h) (fun c hc => hne c (by simp [hc])) n
      (fun c h => hc c (by simp [h])) (fun d h => hd d (by simp [h]))
    have hcn : c.length = n := hc c (by simp)
    have hdn : d.length = n := hd d (by simp)
    have hl : ((functionalBlock c).map (· * s)).length = d.length := by
      rw [List.length_map, functionalBlock_length, hcn, hdn]
    constructor
    · simp only [List.flatMap_cons, List.map_append, List.length_append, List.flatten_cons, ih1, hl]
    · simp only [List.flatMap_cons, List.map_append, List.flatten_cons, List.zipWith_cons_cons, List.sum_cons]
      rw [List.zipWith_append hl, List.sum_append, ih2, add_mul]
      congr 1
      have h1 := functionalBlock_dot c d (hne c (by simp)) (by omega)
      rw [hcn] at h1
      rw [← h1]
      have : ∀ (u v : List ℝ), (List.zipWith (· * ·) (u.map (· * s)) v).sum = (List.zipWith (· * ·) u v).sum * s := by
        intro u
        induction u with
        | nil => intro v; simp
        | cons a u ih =>
          intro v
          cases v with
          | nil => simp
          | cons b v =>
            simp only [List.map_cons, List.zipWith_cons_cons, List.sum_cons, ih]; ring
      exact this _ _

/-- C92: what applying `Functional(f)` to a function `g` with as many coefficients computes: the Clenshaw–Curtis sum for
the integral of `f·g`, over all columns. -/
theorem C92_quadrature (f g : ChebFun) (hf : f.onefun.Proper) (hg : g.onefun.Proper) (hn : g.onefun.coeffs.n = f.onefun.coeffs.n)
    (hm : f.onefun.coeffs.m = g.onefun.coeffs.m) :
    ChebFun.functionalDot (f.functional none).1 g = some ((List.zipWith (fun c d => ∑ j ∈ range f.onefun.coeffs.n,
      (quadwts f.onefun.coeffs.n).getD j 0 * (chebEval c ((chebpts2 f.onefun.coeffs.n).getD j 0)
        * chebEval d ((chebpts2 f.onefun.coeffs.n).getD j 0))) f.onefun.coeffs.cols g.onefun.coeffs.cols).sum
      * ((f.dom.e1 - f.dom.e0) / 2)) := by
  obtain ⟨h1, h2⟩ := flat_dot (0.5 * Mapping.diff f.dom) f.onefun.coeffs.cols g.onefun.coeffs.cols hm (fun c hc => hf.col_ne hc)
    f.onefun.coeffs.n hf.wf (fun d hd => by rw [hg.wf d hd, hn])
  refine (if_pos h1).trans ((congrArg some h2).trans ?_)
  congr 2
  simp only [Mapping.diff]; norm_num; ring

/-- C92 (partial: `n` must be at least the number of coefficients of the product; for smaller `n` the value is wrong, see
`C92_fails`): `np.dot(Functional(f, n=n), g)` for `g` with `n` coefficients is the integral of `f·g` over the domain, summed
over the columns; `f` itself keeps its values but is padded to `n` coefficients. -/
theorem C92_exact_partial (f g : ChebFun) (hf : f.onefun.Proper) (hg : g.onefun.Proper) (hdom : f.dom.e0 < f.dom.e1)
    (hm : f.onefun.coeffs.m = g.onefun.coeffs.m) (n : ℕ) (hn : f.onefun.coeffs.n + g.onefun.coeffs.n - 1 ≤ n) :
    ChebFun.functionalDot (f.functional (some n)).1 ⟨g.dom, { g.onefun with coeffs := prolong g.onefun.coeffs n }⟩
      = some (List.zipWith (fun c d => ∫ x in f.dom.e0..f.dom.e1, chebEval c (bwd f.dom x) * chebEval d (bwd f.dom x))
        f.onefun.coeffs.cols g.onefun.coeffs.cols).sum ∧
    (f.functional (some n)).2.onefun.coeffs.n = n ∧
    (f.functional (some n)).2.onefun.coeffs.cols.map (fun c => chebEval c) = f.onefun.coeffs.cols.map (fun c => chebEval c) := by
  have hfn := hf.n_pos
  have hgn := hg.n_pos
  have hprop : ∀ t : Tech, t.Proper → t.coeffs.n ≤ n → Tech.Proper { t with coeffs := prolong t.coeffs (n : ℤ) } := by
    intro t ht hle
    refine ⟨?_, ?_⟩
    · intro c hc
      obtain ⟨d, _, rfl⟩ := List.mem_map.mp hc
      rw [prolongCol_length]; rfl
    · apply Nat.mul_ne_zero
      · simp [prolong, Arr.mapCols]; omega
      · simpa [prolong, Arr.mapCols, Arr.m] using ht.m_ne
  have hev : ∀ t : Tech, t.Proper → t.coeffs.n ≤ n → ∀ c ∈ t.coeffs.cols, ∀ x, chebEval (prolongCol c (n : ℤ)) x = chebEval c x := by
    intro t ht hle c hc x
    apply chebEval_congr_getD
    intro k
    rw [prolongCol_getD]
    split_ifs with h
    · rfl
    · rw [getD_ge' _ _ _ (by rw [ht.wf c hc]; omega)]
  have hq := C92_quadrature ⟨f.dom, { f.onefun with coeffs := prolong f.onefun.coeffs n }⟩
    ⟨g.dom, { g.onefun with coeffs := prolong g.onefun.coeffs n }⟩ (hprop _ hf (by omega)) (hprop _ hg (by omega)) rfl
    (by simpa [prolong, Arr.mapCols, Arr.m] using hm)
  refine ⟨?_, by simp [ChebFun.functional, prolong, Arr.mapCols], ?_⟩
  · refine hq.trans ?_
    have hpn : (prolong f.onefun.coeffs (n : ℤ)).n = n := by simp [prolong, Arr.mapCols]
    simp only [hpn]
    congr 1
    simp only [prolong, Arr.mapCols, List.zipWith_map]
    have : ∀ cs ds : List (List ℝ), (∀ c ∈ cs, c ∈ f.onefun.coeffs.cols) → (∀ d ∈ ds, d ∈ g.onefun.coeffs.cols) →
        (List.zipWith (fun c d => ∑ j ∈ range n, (quadwts n).getD j 0 * (chebEval (prolongCol c (n : ℤ)) ((chebpts2 n).getD j 0)
          * chebEval (prolongCol d (n : ℤ)) ((chebpts2 n).getD j 0))) cs ds).sum * ((f.dom.e1 - f.dom.e0) / 2)
        = (List.zipWith (fun c d => ∫ x in f.dom.e0..f.dom.e1, chebEval c (bwd f.dom x) * chebEval d (bwd f.dom x)) cs ds).sum := by
      intro cs
      induction cs with
      | nil => intro ds _ _; simp
      | cons c cs ih =>
        intro ds hcs hds
        cases ds with
        | nil => simp
        | cons d ds =>
          simp only [List.zipWith_cons_cons, List.sum_cons, add_mul]
          rw [ih ds (fun c h => hcs c (by simp [h])) (fun d h => hds d (by simp [h]))]
          congr 1
          have hc := hcs c (by simp)
          have hd := hds d (by simp)
          rw [integral_dom f.dom hdom (fun y => chebEval c y * chebEval d y)]
          obtain ⟨e, he, hep⟩ := Rep.mul (⟨c, rfl, rfl⟩ : Rep c.length (chebPoly c)) (⟨d, rfl, rfl⟩ : Rep d.length (chebPoly d))
            (List.length_pos_iff.mpr (hf.col_ne hc)) (List.length_pos_iff.mpr (hg.col_ne hd))
          have hmul : ∀ x, chebEval c x * chebEval d x = chebEval e x := by
            intro x; rw [chebEval_eq_eval, chebEval_eq_eval, chebEval_eq_eval, hep, Polynomial.eval_mul]
          simp only [hmul]
          rw [← quad_cheb n (by omega) e (by rw [he, hf.wf c hc, hg.wf d hd]; exact hn)]
          simp only [hev f.onefun hf (by omega) c hc, hev g.onefun hg (by omega) d hd, hmul, Mapping.diff]
    exact this _ _ (fun _ h => h) (fun _ h => h)
  · simp only [ChebFun.functional, prolong, Arr.mapCols, List.map_map]
    apply List.map_congr_left
    intro c hc
    funext x
    exact hev f.onefun hf (by omega) c hc x

/-- C92, failure: `np.dot(Functional(f), f)` for `f(x) = x` on `[-1,1]` is `2`, the integral is `2/3`. -/
theorem C92_fails (f : ChebFun) (hd : f.dom = ⟨-1, 1⟩) (hc : f.onefun.coeffs = ⟨2, [[0, 1]]⟩) :
    ChebFun.functionalDot (f.functional none).1 f = some 2 ∧ (∀ x : ℝ, chebEval [(0 : ℝ), 1] x = x) ∧ ∫ x in (-1 : ℝ)..1, x * x = 2 / 3 := by
  have hp : f.onefun.Proper := ⟨by rw [hc]; simp [Arr.WF], by rw [hc]; simp [Arr.m]⟩
  have hv : ∀ x, chebEval [(0 : ℝ), 1] x = x := by intro x; simp [chebEval, sum_range_succ]
  refine ⟨?_, hv, ?_⟩
  · rw [C92_quadrature f f hp hp rfl rfl, hc, hd]
    have hx0 : (chebpts2 2).getD 0 0 = -1 := by rw [chebpts2_getD 1 (by norm_num) 0 (by norm_num)]; norm_num
    have hx1 : (chebpts2 2).getD 1 0 = 1 := by rw [chebpts2_getD 1 (by norm_num) 1 (by norm_num)]; norm_num
    have hw := C16_sum 2 (by norm_num)
    rw [list_sum_eq, quadwts_length, sum_range_succ, sum_range_succ, sum_range_zero, zero_add] at hw
    simp only [List.zipWith_cons_cons, List.zipWith_nil_right, List.sum_cons, List.sum_nil, hv, sum_range_succ, sum_range_zero, hx0, hx1]
    norm_num
    rw [← hw]
    simp only [List.getD_eq_getElem?_getD]
  · simp only [← pow_two]; rw [integral_pow]; norm_num

/-- C92, failure: a weighted functional of a scalar function with more than one coefficient cannot be applied. -/
theorem C92_weighted_fails (f g : ChebFun) (hf : f.onefun.Proper) (hm : f.onefun.coeffs.m = 1) (hn : 1 < f.onefun.coeffs.n) :
    ChebFun.weightedDot f g = none := by
  obtain ⟨c, hc⟩ := List.length_eq_one_iff.mp (show f.onefun.coeffs.cols.length = 1 from hm)
  have hl : c.length = f.onefun.coeffs.n := hf.wf c (by rw [hc]; simp)
  simp only [ChebFun.weightedDot]
  rw [if_pos]
  refine ⟨hm, ?_⟩
  rintro ⟨h, _⟩
  rw [hc] at h
  simp at h
  omega

example : ∃ v, ChebFun.functionalDot (ChebFun.functional ⟨⟨0, 1⟩, ⟨⟨2, [[0, 1]]⟩, 1 / 10 ^ 16, 1, 2 ^ 14 + 1, true⟩⟩ (some 3)).1
    ⟨⟨0, 1⟩, ⟨prolong ⟨2, [[0, 1]]⟩ 3, 1 / 10 ^ 16, 1, 2 ^ 14 + 1, true⟩⟩ = some v :=
  ⟨_, (C92_exact_partial ⟨⟨0, 1⟩, ⟨⟨2, [[0, 1]]⟩, 1 / 10 ^ 16, 1, 2 ^ 14 + 1, true⟩⟩
    ⟨⟨0, 1⟩, ⟨⟨2, [[0, 1]]⟩, 1 / 10 ^ 16, 1, 2 ^ 14 + 1, true⟩⟩ ⟨by simp [Arr.WF], by simp [Arr.m]⟩
    ⟨by simp [Arr.WF], by simp [Arr.m]⟩ (by norm_num) rfl 3 (by norm_num)).1⟩

end Funpy.Props
