import Verif.Lemmas.Tech
import Verif.Props.ChebBasic
import Verif.Props.ChebChop

/-!
# C08 – C11: differentiation and integration
-/

namespace Funpy.Props
open Spec Cheb Real Finset Polynomial Mapping

/-- The values at the domain point `x` of the columns of a `Fun` (specification: the Chebyshev
series on the reference interval, pulled back by the linear map). -/
noncomputable def vals (f : ChebFun) (x : ℝ) : List ℝ :=
  f.onefun.coeffs.cols.map fun c => chebEval c (bwd f.dom x)

/-- C02 on a domain: calling a `Fun` on points of its domain returns the `vals`. -/
theorem C02_fun_call (f : ChebFun) (hw : f.onefun.coeffs.WF) (hn : 0 < f.onefun.coeffs.n)
    (h : f.dom.e0 < f.dom.e1) (xs : List ℝ) (hne : xs ≠ [])
    (hx : ∀ x ∈ xs, f.dom.e0 ≤ x ∧ x ≤ f.dom.e1) :
    funCall f.dom (fun z => clenshaw z f.onefun.coeffs) xs = some (xs.map (vals f)) := by
  obtain ⟨v, hv⟩ := (C01_call f.dom h (fun z => clenshaw z f.onefun.coeffs) xs).mpr ⟨hne, hx⟩
  rw [hv]
  simp only [funCall] at hv
  split_ifs at hv
  rw [← Option.some.inj hv, C02_eval two_ne_zero _ hw hn, List.map_map]
  rfl

/-! ## C08 -/

/-- C08 on `[-1,1]`: for every order `k ≥ 1` the columns of `np.diff(t, n=k)` are exactly the `k`-th
derivatives of the columns of the simplified function (zero if `k` is at least their number of
coefficients), and all attributes are kept. -/
theorem C08_tech (t : Tech) (hw : t.coeffs.WF) (hs : t.coeffs.n * t.coeffs.m ≠ 0) (k : ℕ) (hk : 1 ≤ k) :
    ∃ d, t.diff k = some d ∧ d.coeffs.WF ∧ 0 < d.coeffs.n ∧ d.coeffs.m = t.coeffs.m ∧
      d.eps = t.eps ∧ d.hscale = t.hscale ∧ d.maxLength = t.maxLength ∧
      (t.ishappy = true → d.ishappy = true) ∧
      d.coeffs.cols.map chebPoly
        = (simplifyCoeffs t.coeffs t.eps).cols.map fun c => derivative^[k] (chebPoly c) := by
  have hn0 : t.coeffs.n ≠ 0 := fun h => hs (by rw [h, zero_mul])
  have hm0 : t.coeffs.m ≠ 0 := fun h => hs (by rw [h, mul_zero])
  set s := simplifyCoeffs t.coeffs t.eps with hsdef
  have hsw : s.WF := simplify_wf _ _
  have hsn : 0 < s.n := simplify_n_pos _ _
  have hsm : s.m = t.coeffs.m := simplify_m _ _
  simp only [Tech.diff, ← hsdef]
  split_ifs with h
  · obtain ⟨d, hd, h1, h2, h3, h4, h5⟩ := mk'_false
      (t.coeffs.mapCols t.coeffs.n fun c => List.replicate c.length 0)
      (by simpa [Arr.mapCols, Arr.m] using hs) t.eps t.ishappy t.hscale t.maxLength
    refine ⟨d, hd, ?_, ?_, ?_, h1, h2, h3, h4, ?_⟩
    · rw [h5]
      intro c hc
      obtain ⟨e, he, rfl⟩ := List.mem_map.mp hc
      rw [List.length_replicate, hw e he]; rfl
    · rw [h5]; exact Nat.pos_of_ne_zero hn0
    · rw [h5]; simp [Arr.mapCols, Arr.m]
    · rw [h5]
      simp only [Arr.mapCols, List.map_map]
      have hz : ∀ c ∈ s.cols, derivative^[k] (chebPoly c) = 0 := by
        intro c hc
        apply iterate_derivative_eq_zero
        have hl := hsw c hc
        have := natDegree_chebPoly_lt c (by intro h0; rw [h0] at hl; simp at hl; omega)
        omega
      rw [List.map_congr_left hz]
      have hz2 : ∀ c ∈ t.coeffs.cols, (chebPoly ∘ fun c : List ℝ => List.replicate c.length (0 : ℝ)) c = 0 :=
        fun c _ => chebPoly_replicate_zero _
      rw [List.map_congr_left hz2, List.map_const', List.map_const']
      have : t.coeffs.cols.length = s.cols.length := hsm.symm
      rw [this]
  · obtain ⟨b, hb, hbw, hbn, hbc⟩ := computeDerCoeffs_some s hsw (by omega)
    obtain ⟨e, he, hew, hen, hec⟩ := derLoop_some (k - 1) b hbw (by omega)
    have hem : e.m = t.coeffs.m := by
      have h1 := congrArg List.length hec
      have h2 := congrArg List.length hbc
      simp only [List.length_map] at h1 h2
      rw [← hsm]; simp only [Arr.m]; omega
    obtain ⟨d, hd, h1, h2, h3, h4, h5⟩ := mk'_false e
      (by rw [hem, hen, hbn]; exact Nat.mul_ne_zero (by omega) hm0) t.eps t.ishappy t.hscale t.maxLength
    refine ⟨d, ?_, by rw [h5]; exact hew, by rw [h5]; omega, by rw [h5]; exact hem, h1, h2, h3, h4, ?_⟩
    · rw [hb]; simp only [Option.bind_eq_bind, Option.bind_some]; rw [he]; exact hd
    · rw [h5, hec]
      have : (fun c => derivative^[k - 1] (chebPoly c))
          = (fun p => derivative^[k - 1] p) ∘ (chebPoly (R := ℝ)) := rfl
      rw [this, ← List.map_map, hbc, List.map_map]
      apply List.map_congr_left
      intro c _
      simp only [Function.comp]
      rw [← Function.iterate_succ_apply]
      congr 2
      omega

/-- C08: if simplification discards nothing, `np.diff(t, n=k)` is the `k`-th derivative of `t`
itself. -/
theorem C08_exact (t : Tech) (hw : t.coeffs.WF) (hs : t.coeffs.n * t.coeffs.m ≠ 0) (k : ℕ)
    (hk : 1 ≤ k) (hex : t.coeffs.n ≤ (simplifyCoeffs t.coeffs t.eps).n) :
    ∃ d, t.diff k = some d ∧ ∀ x, d.coeffs.cols.map (fun c => chebEval c x)
        = t.coeffs.cols.map fun c => iteratedDeriv k (chebEval c) x := by
  obtain ⟨d, hd, _, _, _, _, _, _, _, hp⟩ := C08_tech t hw hs k hk
  refine ⟨d, hd, fun x => ?_⟩
  have h1 : (fun c : List ℝ => chebEval c x) = (fun p : ℝ[X] => p.eval x) ∘ chebPoly := by
    funext c; exact chebEval_eq_eval c x
  rw [h1, ← List.map_map, hp, List.map_map, simplify_eq_prolong]
  simp only [prolong, Arr.mapCols, List.map_map]
  apply List.map_congr_left
  intro c hc
  simp only [Function.comp]
  have h2 : chebPoly (prolongCol c (keep t.coeffs t.eps : ℤ)) = chebPoly c := by
    apply chebPoly_congr_getD
    intro i
    rw [prolongCol_getD]
    split_ifs with h
    · rfl
    · rw [getD_ge' c _ _ (by rw [hw c hc]; rw [simplify_n] at hex; omega)]
  rw [h2]
  have h3 : chebEval c = fun x => (chebPoly c).eval (1 * x + 0) := by
    funext y; rw [chebEval_eq_eval]; simp
  rw [h3, iteratedDeriv_poly_affine]
  simp

/-- C08 on a domain: `np.diff(f, n=k)` is (up to the simplification of its result done by the
division by the chain-rule factor) the `k`-th derivative, with respect to the domain variable, of
the simplified `f`. -/
theorem C08_fun (f : ChebFun) (hd : f.dom.e0 < f.dom.e1) (hw : f.onefun.coeffs.WF)
    (hs : f.onefun.coeffs.n * f.onefun.coeffs.m ≠ 0) (k : ℕ) (hk : 1 ≤ k) :
    ∃ g, f.diff k = some g ∧ g.dom = f.dom ∧ ∃ r : Arr ℝ, r.WF ∧ 0 < r.n ∧ r.m = f.onefun.coeffs.m ∧
      (g.onefun.coeffs = r ∨ g.onefun.coeffs = simplifyCoeffs r f.onefun.eps) ∧
      ∀ x, r.cols.map (fun c => chebEval c (bwd f.dom x))
        = (simplifyCoeffs f.onefun.coeffs f.onefun.eps).cols.map fun c =>
            iteratedDeriv k (fun y => chebEval c (bwd f.dom y)) x := by
  obtain ⟨d, hd', hdw, hdn, hdm, heps, _, _, _, hp⟩ := C08_tech f.onefun hw hs k hk
  have hm0 : f.onefun.coeffs.m ≠ 0 := fun h => hs (by rw [h, mul_zero])
  set r := d.coeffs.mapCols d.coeffs.n fun c => c.map (· / f.rescale ^ k) with hr
  have hrm : r.m = f.onefun.coeffs.m := by rw [← hdm]; simp [hr, Arr.mapCols, Arr.m]
  obtain ⟨u, hu, hue, _, _, _, huc⟩ := mk'_some r
    (by rw [hrm]; exact Nat.mul_ne_zero (by simp only [hr, Arr.mapCols]; omega) hm0) d.eps d.ishappy
    true 1 (1 + 2 ^ 14)
  refine ⟨⟨f.dom, u⟩, ?_, rfl, r, ?_, hdn, hrm, ?_, ?_⟩
  · simp only [ChebFun.diff, hd', Option.bind_eq_bind, Option.bind_some, Tech.divScalar]
    rw [← hr, hu]; rfl
  · intro c hc
    obtain ⟨e, he, rfl⟩ := List.mem_map.mp hc
    rw [List.length_map, hdw e he]; rfl
  · rw [huc, heps]; split_ifs <;> simp
  · intro x
    have h1 : (fun c : List ℝ => chebEval c (bwd f.dom x))
        = (fun p : ℝ[X] => p.eval (bwd f.dom x)) ∘ chebPoly := by
      funext c; exact chebEval_eq_eval c _
    rw [h1, ← List.map_map]
    have h2 : r.cols.map chebPoly = d.coeffs.cols.map fun c => C (f.rescale ^ k)⁻¹ * chebPoly c := by
      simp only [hr, Arr.mapCols, List.map_map]
      exact List.map_congr_left fun c _ => chebPoly_map_div c _
    have h3 : (fun c : List ℝ => C (f.rescale ^ k)⁻¹ * chebPoly c)
        = (fun p => C (f.rescale ^ k)⁻¹ * p) ∘ chebPoly := rfl
    rw [h2, h3, ← List.map_map, hp, List.map_map, List.map_map]
    apply List.map_congr_left
    intro c _
    simp only [Function.comp, eval_mul, eval_C]
    have h4 : (fun y => chebEval c (bwd f.dom y)) = fun y => (chebPoly c).eval
        ((2 / Mapping.diff f.dom) * y + (-(f.dom.e0 + f.dom.e1) / Mapping.diff f.dom)) := by
      funext y; rw [chebEval_eq_eval, bwd_eq]
    rw [h4, iteratedDeriv_poly_affine, ← bwd_eq, rescale_eq, ← inv_pow, inv_div]

/-- `f(x) = T_0 + … + T_9` as a `chebtech` -/
noncomputable def tenOnes (eps : ℝ) : Tech := { coeffs := ⟨10, [List.replicate 10 1]⟩, eps := eps }

/-- The hypotheses of C08 (including exactness) hold for a ten coefficient function. -/
example : (tenOnes (1 / 10)).coeffs.WF ∧ (tenOnes (1 / 10)).coeffs.n * (tenOnes (1 / 10)).coeffs.m ≠ 0 ∧
    (tenOnes (1 / 10)).coeffs.n ≤ (simplifyCoeffs (tenOnes (1 / 10)).coeffs (tenOnes (1 / 10)).eps).n := by
  refine ⟨by simp [tenOnes, Arr.WF], by simp [tenOnes, Arr.m], ?_⟩
  have := C23_lengthens (1 / 10) (by norm_num)
  simp only [tenOnes] at this ⊢
  omega

example : derCol [5, 1, 2, 3] = [10, 8, 18] := by
  norm_num [derCol, cumAssign, sliceDown2, sliceDown2.go, List.range_succ,
    show Int.toNat 2 = 2 from rfl, List.replicate]

/-! ## C09 -/

/-- C09 is false of the code: whenever at least two coefficients survive simplification,
`np.diff(f, n=0)` returns the *first* derivative, because the first differentiation happens before
the loop. -/
theorem C09_order_zero_is_first (t : Tech) (h : 2 ≤ (simplifyCoeffs t.coeffs t.eps).n) :
    t.diff 0 = t.diff 1 := by
  simp only [Tech.diff]
  rw [if_neg (by omega), if_neg (by omega)]

/-- C09: ... and when only one coefficient survives it raises. -/
theorem C09_order_zero_raises (t : Tech) (h : (simplifyCoeffs t.coeffs t.eps).n = 1) :
    t.diff 0 = none := by
  simp only [Tech.diff]
  rw [if_neg (by omega)]
  simp [computeDerCoeffs, h]

/-- C09, concrete counterexample: for `f = T_0 + … + T_9` the result of order zero has the value
`285` at `x = 1`, while `f(1) = 10`. -/
theorem C09_order_zero_fails (eps : ℝ) (h : eps < 1) :
    ∃ d, (tenOnes eps).diff 0 = some d ∧
      d.coeffs.cols.map (fun c => chebEval c 1) = [285] ∧
      (tenOnes eps).coeffs.cols.map (fun c => chebEval c 1) = [10] := by
  have hn : (simplifyCoeffs (tenOnes eps).coeffs (tenOnes eps).eps).n = 11 := C23_lengthens eps h
  obtain ⟨d, hd, hv⟩ := C08_exact (tenOnes eps) (by simp [tenOnes, Arr.WF]) (by simp [tenOnes, Arr.m]) 1
    le_rfl (by rw [hn]; simp [tenOnes])
  refine ⟨d, by rw [C09_order_zero_is_first _ (by omega)]; exact hd, ?_, ?_⟩
  · rw [hv]
    simp only [tenOnes, List.map_cons, List.map_nil]
    have h3 : chebEval (List.replicate 10 (1 : ℝ)) = fun x => (chebPoly (List.replicate 10 1)).eval (1 * x + 0) := by
      funext y; rw [chebEval_eq_eval]; simp
    rw [h3, iteratedDeriv_poly_affine, Function.iterate_one]
    rw [derivative_chebPoly _ 9 (by simp)]
    simp [sum_range_succ, eval_add, List.replicate]
    norm_num
  · rw [← C03_rval]; norm_num [tenOnes, rval, List.replicate]

/-- C09, the part that holds: an order-zero difference that succeeds leaves the tolerance, scale and
length limit of the function alone.  Missing for the full property: the function itself. -/
theorem C09_attributes_partial (t : Tech) (hw : t.coeffs.WF) (hs : t.coeffs.n * t.coeffs.m ≠ 0) (d : Tech)
    (hd : t.diff 0 = some d) : d.eps = t.eps ∧ d.hscale = t.hscale ∧ d.maxLength = t.maxLength ∧
      d.coeffs.m = t.coeffs.m := by
  by_cases h : 2 ≤ (simplifyCoeffs t.coeffs t.eps).n
  · rw [C09_order_zero_is_first t h] at hd
    obtain ⟨e, he, _, _, h3, h4, h5, h6, _⟩ := C08_tech t hw hs 1 le_rfl
    rw [hd] at he
    obtain rfl := Option.some.inj he
    exact ⟨h4, h5, h6, h3⟩
  · have := simplify_n_pos t.coeffs t.eps
    rw [C09_order_zero_raises t (by omega)] at hd
    cases hd

/-! ## C10 -/

/-- C10 on `[-1,1]`: `np.sum` returns the integrals of the columns. -/
theorem C10_tech (t : Tech) (hw : t.coeffs.WF) (hn : 0 < t.coeffs.n) :
    t.sum = t.coeffs.cols.map fun c => ∫ x in (-1 : ℝ)..1, chebEval c x := by
  apply List.map_congr_left
  intro c hc
  have hl := hw c hc
  rw [integral_chebEval, sumCol_eq c (by intro h; rw [h] at hl; simp at hl; omega)]

/-- C10 on a domain: `np.sum(f)` returns the integrals of the columns over `[a,b]`. -/
theorem C10_fun (f : ChebFun) (hd : f.dom.e0 < f.dom.e1) (hw : f.onefun.coeffs.WF)
    (hn : 0 < f.onefun.coeffs.n) :
    f.sum = f.onefun.coeffs.cols.map fun c => ∫ x in f.dom.e0..f.dom.e1, chebEval c (bwd f.dom x) := by
  simp only [ChebFun.sum, C10_tech _ hw hn, List.map_map]
  apply List.map_congr_left
  intro c _
  have hpos : 0 < f.dom.e1 - f.dom.e0 := by linarith
  have hne : Mapping.diff f.dom ≠ 0 := hpos.ne'
  simp only [Function.comp, bwd_eq]
  rw [intervalIntegral.integral_comp_mul_add (fun y => chebEval c y) (by positivity)]
  rw [← bwd_eq, ← bwd_eq]
  have h0 : bwd f.dom f.dom.e0 = -1 := by
    simp only [bwd, Mapping.diff]; field_simp; ring
  have h1 : bwd f.dom f.dom.e1 = 1 := by
    simp only [bwd, Mapping.diff]; field_simp; ring
  rw [h0, h1, rescale_eq, smul_eq_mul, inv_div, mul_comm]

example : sumCol [1, 2, 3] = 0 := by norm_num [sumCol, List.range_succ]
example : sumCol [7] = 14 := by norm_num [sumCol]

/-! ## C11 -/

private lemma cumsum_some (t : Tech) (hw : t.coeffs.WF) (hs : t.coeffs.n * t.coeffs.m ≠ 0) :
    ∃ g s, t.cumsum = some g ∧ g.eps = t.eps ∧ g.coeffs.n = s.n ∧ s.WF ∧ 0 < s.n ∧
      s.cols.length = t.coeffs.cols.length ∧
      (s = t.coeffs.mapCols (t.coeffs.n + 1) cumCol ∨
        (g.ishappy = true ∧ s = simplifyCoeffs (t.coeffs.mapCols (t.coeffs.n + 1) cumCol) t.eps)) ∧
      g.coeffs.cols = s.cols.map fun c => c.set 0 (c.getD 0 0 - chebEval c (-1)) := by
  have hn0 : t.coeffs.n ≠ 0 := fun h => hs (by rw [h, zero_mul])
  have hm0 : t.coeffs.m ≠ 0 := fun h => hs (by rw [h, mul_zero])
  set b := t.coeffs.mapCols (t.coeffs.n + 1) cumCol with hb
  have hbm : b.m = t.coeffs.m := by simp [hb, Arr.mapCols, Arr.m]
  have hbw : b.WF := by
    intro c hc
    obtain ⟨e, he, rfl⟩ := List.mem_map.mp hc
    have hl := hw e he
    rw [cumCol_length e (by intro h; rw [h] at hl; simp at hl; omega), hl]; rfl
  obtain ⟨g, hg, h1, h2, h3, h4, h5⟩ := mk'_false b
    (by rw [hbm]; exact Nat.mul_ne_zero (Nat.succ_ne_zero _) hm0) t.eps t.ishappy t.hscale t.maxLength
  refine ⟨{ g.simplify with coeffs := ⟨g.simplify.coeffs.n, List.zipWith
      (fun c l => c.set 0 (c.getD 0 0 - l)) g.simplify.coeffs.cols (lval g.simplify.coeffs)⟩ },
    g.simplify.coeffs, ?_, ?_, rfl, ?_, ?_, ?_, ?_, ?_⟩
  · simp only [Tech.cumsum, Option.bind_eq_bind]; rw [← hb, hg]; rfl
  · simp only [Tech.simplify]; split_ifs <;> simp [h1]
  · simp only [Tech.simplify]; split_ifs
    · exact simplify_wf _ _
    · rw [h5]; exact hbw
  · simp only [Tech.simplify]; split_ifs
    · exact simplify_n_pos _ _
    · rw [h5]; simp [hb, Arr.mapCols]
  · simp only [Tech.simplify]; split_ifs
    · simp only [h5]; exact (simplify_m _ _).trans hbm
    · rw [h5]; exact hbm
  · simp only [Tech.simplify]; split_ifs with h
    · right; simp only [h5, h1]; exact ⟨h, trivial⟩
    · left; exact h5
  · simp only [C03_lval]
    exact zipWith_map_self _ _ _

private lemma chebEval_shift (c : List ℝ) (hc : c ≠ []) (l x : ℝ) :
    chebEval (c.set 0 (c.getD 0 0 - l)) x = chebEval c x - l := by
  have hpos := List.length_pos_iff.mpr hc
  unfold chebEval
  rw [List.length_set]
  obtain ⟨n, hn⟩ : ∃ n, c.length = n + 1 := ⟨c.length - 1, by omega⟩
  rw [hn, sum_range_succ', sum_range_succ']
  have h1 : ∀ k, (c.set 0 (c.getD 0 0 - l)).getD (k + 1) 0 = c.getD (k + 1) 0 := by
    intro k; rw [getD_set', if_neg (by omega)]
  have h2 : (c.set 0 (c.getD 0 0 - l)).getD 0 0 = c.getD 0 0 - l := by
    rw [getD_set', if_pos ⟨rfl, hpos⟩]
  simp only [h1, h2, Nat.cast_zero, Chebyshev.T_zero, eval_one]
  ring

/-- C11: the result of `np.cumsum` vanishes at the left end point, always. -/
theorem C11_left_zero (t : Tech) (hw : t.coeffs.WF) (hs : t.coeffs.n * t.coeffs.m ≠ 0) :
    ∃ g, t.cumsum = some g ∧ g.coeffs.cols.length = t.coeffs.cols.length ∧
      ∀ c ∈ g.coeffs.cols, chebEval c (-1) = 0 := by
  obtain ⟨g, s, hg, _, _, hsw, hsn, hsl, _, hc⟩ := cumsum_some t hw hs
  refine ⟨g, hg, by rw [hc, List.length_map, hsl], ?_⟩
  intro c hcm
  rw [hc] at hcm
  obtain ⟨e, he, rfl⟩ := List.mem_map.mp hcm
  have hl := hsw e he
  rw [chebEval_shift e (by intro h; rw [h] at hl; simp at hl; omega), sub_self]

private lemma integral_cum (c : List ℝ) (hc : c ≠ []) (x : ℝ) :
    ∫ y in (-1 : ℝ)..x, chebEval c y = chebEval (cumCol c) x := by
  have h : ∀ y, HasDerivAt (chebEval (cumCol c)) (chebEval c y) y := by
    intro y
    have h3 : chebEval (cumCol c) = fun x => (chebPoly (cumCol c)).eval x := by
      funext y; rw [chebEval_eq_eval]
    rw [h3, chebEval_eq_eval c y, ← derivative_cumCol c hc]
    exact (chebPoly (cumCol c)).hasDerivAt y
  rw [intervalIntegral.integral_eq_sub_of_hasDerivAt (fun y _ => h y), chebEval_cumCol_neg_one c hc,
    sub_zero]
  have h4 : chebEval c = fun x => (chebPoly c).eval x := by
    funext y; rw [chebEval_eq_eval]
  rw [h4]
  exact (chebPoly c).continuous.intervalIntegrable _ _

/-- C11: if simplification discards nothing (at least one coefficient more than the input is kept,
or the function is not happy), `np.cumsum(t)` is `x ↦ ∫_{-1}^x t`; in particular its derivative is
`t` and its right end value is the integral. -/
theorem C11_exact (t : Tech) (hw : t.coeffs.WF) (hs : t.coeffs.n * t.coeffs.m ≠ 0) :
    ∃ g, t.cumsum = some g ∧ ((t.coeffs.n < g.coeffs.n ∨ g.ishappy = false) → ∀ x,
      g.coeffs.cols.map (fun c => chebEval c x)
        = t.coeffs.cols.map fun c => ∫ y in (-1 : ℝ)..x, chebEval c y) := by
  obtain ⟨g, s, hg, _, hgn, hsw, hsn, hsl, hcase, hc⟩ := cumsum_some t hw hs
  refine ⟨g, hg, fun hex x => ?_⟩
  have hn0 : t.coeffs.n ≠ 0 := fun h => hs (by rw [h, zero_mul])
  have hne : ∀ c ∈ t.coeffs.cols, c ≠ [] := by
    intro c hc h
    have := hw c hc
    rw [h] at this; simp at this; omega
  have key : ∀ y, s.cols.map (fun c => chebEval c y) = t.coeffs.cols.map fun c => chebEval (cumCol c) y := by
    intro y
    rcases hcase with h | ⟨hh, h⟩
    · rw [h]; simp [Arr.mapCols, Function.comp_def]
    · have h1 : t.coeffs.n < s.n := by
        rcases hex with h1 | h1
        · omega
        · rw [hh] at h1; cases h1
      rw [h, C22_lossless]
      · simp [Arr.mapCols, Function.comp_def]
      · intro c hc
        obtain ⟨e, he, rfl⟩ := List.mem_map.mp hc
        rw [cumCol_length e (hne e he), hw e he]; rfl
      · rw [← h]; exact h1
  rw [hc, List.map_map]
  have h1 : s.cols.map ((fun c => chebEval c x) ∘ fun c => c.set 0 (c.getD 0 0 - chebEval c (-1)))
      = s.cols.map fun c => chebEval c x - chebEval c (-1) := by
    apply List.map_congr_left
    intro e he
    have hl := hsw e he
    exact chebEval_shift e (by intro h; rw [h] at hl; simp at hl; omega) _ _
  rw [h1]
  have h2 : s.cols.map (fun c => chebEval c x - chebEval c (-1))
      = List.zipWith (· - ·) (s.cols.map fun c => chebEval c x) (s.cols.map fun c => chebEval c (-1)) := by
    rw [List.zipWith_map, List.zipWith_self]
  rw [h2, key, key, List.zipWith_map, List.zipWith_self]
  apply List.map_congr_left
  intro c hcm
  rw [integral_cum c (hne c hcm), chebEval_cumCol_neg_one c (hne c hcm), sub_zero]

/-- C11: in general the antiderivative is off by at most `2 eps^(1/3)` per discarded coefficient on
`[-1,1]`. -/
theorem C11_error (t : Tech) (hw : t.coeffs.WF) (hs : t.coeffs.n * t.coeffs.m ≠ 0) (h0 : 0 < t.eps)
    (h1 : t.eps < 1) :
    ∃ g, t.cumsum = some g ∧ ∀ j (hj : j < t.coeffs.cols.length) x, |x| ≤ 1 →
      ∃ c, g.coeffs.cols[j]? = some c ∧
        |chebEval c x - ∫ y in (-1 : ℝ)..x, chebEval t.coeffs.cols[j] y|
          ≤ 2 * (((t.coeffs.n + 1 - g.coeffs.n : ℕ) : ℝ) * t.eps ^ ((1 : ℝ) / 3)) := by
  obtain ⟨g, s, hg, _, hgn, hsw, hsn, hsl, hcase, hc⟩ := cumsum_some t hw hs
  refine ⟨g, hg, fun j hj x hx => ?_⟩
  have hn0 : t.coeffs.n ≠ 0 := fun h => hs (by rw [h, zero_mul])
  have hne : ∀ c ∈ t.coeffs.cols, c ≠ [] := by
    intro c hc h
    have := hw c hc
    rw [h] at this; simp at this; omega
  have hjs : j < s.cols.length := by omega
  set e := s.cols[j] with he
  have hl := hsw e (List.getElem_mem hjs)
  have hene : e ≠ [] := by intro h; rw [h] at hl; simp at hl; omega
  refine ⟨e.set 0 (e.getD 0 0 - chebEval e (-1)), by rw [hc]; simp [hjs, he], ?_⟩
  rw [chebEval_shift e hene, integral_cum _ (hne _ (List.getElem_mem hj))]
  set b := t.coeffs.mapCols (t.coeffs.n + 1) cumCol with hb
  have hbw : b.WF := by
    intro c hc
    obtain ⟨e, he, rfl⟩ := List.mem_map.mp hc
    rw [cumCol_length e (hne e he), hw e he]; rfl
  have hjb : j < b.cols.length := by simpa [hb, Arr.mapCols] using hj
  have hbj : b.cols[j] = cumCol t.coeffs.cols[j] := by simp [hb, Arr.mapCols]
  have hz := chebEval_cumCol_neg_one _ (hne _ (List.getElem_mem hj))
  have hE : 0 ≤ ((t.coeffs.n + 1 - g.coeffs.n : ℕ) : ℝ) * t.eps ^ ((1 : ℝ) / 3) := by positivity
  rcases hcase with h | ⟨_, h⟩
  · have : e = cumCol t.coeffs.cols[j] := by rw [he, ← hbj]; simp only [h]
    rw [this, hz, sub_zero, sub_self, abs_zero]
    linarith
  · have hd : (simplifyCoeffs b t.eps).cols[j]? = some e := by rw [← h]; simp [hjs, he]
    have e1 := C22_error b hbw t.eps h0 h1 x hx j hjb e hd
    have e2 := C22_error b hbw t.eps h0 h1 (-1) (by simp) j hjb e hd
    rw [hbj] at e1 e2
    have hbn : b.n = t.coeffs.n + 1 := rfl
    rw [← h, ← hgn, hbn] at e1 e2
    rw [hz] at e2
    rw [abs_le] at e1 e2 ⊢
    constructor <;> linarith [e1.1, e1.2, e2.1, e2.2]

/-- C11 on a domain: up to the rescaling the result is that of the reference interval, so it
vanishes at the left end of the domain; when nothing is discarded it is `x ↦ ∫_a^x f`. -/
theorem C11_fun (f : ChebFun) (hd : f.dom.e0 < f.dom.e1) (hw : f.onefun.coeffs.WF)
    (hs : f.onefun.coeffs.n * f.onefun.coeffs.m ≠ 0) :
    ∃ g, f.cumsum = some g ∧ g.dom = f.dom ∧ (∀ v ∈ vals g f.dom.e0, v = 0) ∧
      ((f.onefun.coeffs.n < g.onefun.coeffs.n) → ∀ x,
        vals g x = f.onefun.coeffs.cols.map fun c =>
          ∫ y in f.dom.e0..x, chebEval c (bwd f.dom y)) := by
  obtain ⟨g, hg, hlen, hzero⟩ := C11_left_zero f.onefun hw hs
  obtain ⟨g', hg', hex⟩ := C11_exact f.onefun hw hs
  rw [hg] at hg'
  obtain rfl := Option.some.inj hg'
  obtain ⟨g2, s, hg2, _, hgn, _, hsn, hsl, _⟩ := cumsum_some f.onefun hw hs
  rw [hg] at hg2
  obtain rfl := Option.some.inj hg2
  have hm0 : f.onefun.coeffs.m ≠ 0 := fun h => hs (by rw [h, mul_zero])
  obtain ⟨u, hu, _, _, _, _, huc⟩ := mk'_false
    (g.coeffs.mapCols g.coeffs.n fun c => c.map (· * f.rescale))
    (by simp only [Arr.mapCols, Arr.m, List.length_map, hlen, hgn]
        exact Nat.mul_ne_zero (by omega) hm0) g.eps g.ishappy 1 (1 + 2 ^ 14)
  have hpos : 0 < f.dom.e1 - f.dom.e0 := by linarith
  have hne : Mapping.diff f.dom ≠ 0 := hpos.ne'
  have h0 : bwd f.dom f.dom.e0 = -1 := by
    simp only [bwd, Mapping.diff]; field_simp; ring
  have hv : ∀ x, vals ⟨f.dom, u⟩ x = (g.coeffs.cols.map fun c => chebEval c (bwd f.dom x)).map (· * f.rescale) := by
    intro x
    simp only [vals, huc, Arr.mapCols, List.map_map]
    apply List.map_congr_left
    intro c _
    simp only [Function.comp, chebEval_eq_eval, chebPoly_map_mul, eval_mul, eval_C]
    ring
  refine ⟨⟨f.dom, u⟩, ?_, rfl, ?_, ?_⟩
  · simp only [ChebFun.cumsum, hg, Option.bind_eq_bind, Option.bind_some, Tech.mulNum]
    rw [hu]; rfl
  · intro v hvm
    rw [hv, h0] at hvm
    obtain ⟨w, hw', rfl⟩ := List.mem_map.mp hvm
    obtain ⟨c, hc, rfl⟩ := List.mem_map.mp hw'
    rw [hzero c hc, zero_mul]
  · intro hlt x
    rw [hv, hex (Or.inl (by simpa [huc, Arr.mapCols] using hlt)), List.map_map]
    apply List.map_congr_left
    intro c _
    simp only [Function.comp, bwd_eq]
    rw [intervalIntegral.integral_comp_mul_add (fun y => chebEval c y) (by positivity)]
    rw [← bwd_eq, ← bwd_eq, h0, rescale_eq, smul_eq_mul, inv_div, mul_comm]

example : cumCol [1, 2, 3] = [-1 / 2 - 1 / 2 + 1 / 2, -1 / 2, 1 / 2, 1 / 2] := by
  norm_num [cumCol, List.range_succ]

end Funpy.Props
