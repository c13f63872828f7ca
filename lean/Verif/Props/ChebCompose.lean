import Verif.Model.ChebCompose
import Verif.Lemmas.ChebNearBest
import Verif.Props.ChebBasic
import Mathlib.Analysis.Complex.ExponentialBounds

/-!
# C87–C90: functions from callables, pointwise ufuncs and compositions
-/

namespace Funpy.Props
open Spec Cheb Real Finset Mapping

lemma ends_pos (dom : Ends) (hd : dom.e0 < dom.e1) : 0 < max |dom.e0| |dom.e1| := by
  by_contra h
  push Not at h
  have h1 := abs_nonpos_iff.mp ((le_max_left |dom.e0| |dom.e1|).trans h)
  have h2 := abs_nonpos_iff.mp ((le_max_right |dom.e0| |dom.e1|).trans h)
  linarith

lemma fwd_mem (dom : Ends) (hd : dom.e0 < dom.e1) (y : ℝ) (hy : |y| ≤ 1) : fwd dom y ∈ Set.Icc dom.e0 dom.e1 := by
  obtain ⟨h1, h2⟩ := abs_le.mp hy
  rw [← (C01_onto dom hd).2.2.2]
  exact ⟨y, ⟨h1, h2⟩, rfl⟩

lemma bwd_mem (dom : Ends) (hd : dom.e0 < dom.e1) (x : ℝ) (hx : x ∈ Set.Icc dom.e0 dom.e1) :
    |bwd dom x| ≤ 1 ∧ fwd dom (bwd dom x) = x := by
  refine ⟨?_, (C01_inverse dom hd).2 x⟩
  rw [← (C01_onto dom hd).2.2.2] at hx
  obtain ⟨y, ⟨h1, h2⟩, rfl⟩ := hx
  rw [(C01_inverse dom hd).1 y]
  exact abs_le.mpr ⟨h1, h2⟩

/-- pulling a polynomial back to `[-1,1]` -/
lemma pull_poly (dom : Ends) (p : Polynomial ℝ) :
    ∃ q : Polynomial ℝ, q.natDegree ≤ p.natDegree ∧ ∀ y, q.eval y = p.eval (fwd dom y) := by
  refine ⟨p.comp (Polynomial.C ((dom.e1 - dom.e0) / 2) * Polynomial.X + Polynomial.C ((dom.e1 + dom.e0) / 2)), ?_, ?_⟩
  · refine Polynomial.natDegree_comp_le.trans ?_
    exact (Nat.mul_le_mul_left _ Polynomial.natDegree_linear_le).trans (by simp)
  · intro y
    rw [Polynomial.eval_comp]
    congr 1
    simp only [Polynomial.eval_add, Polynomial.eval_mul, Polynomial.eval_C, Polynomial.eval_X, fwd]
    ring

/-- C87: `Fun(op=fs, domain=[a,b], eps=eps)`.  If the functions are bounded by `B` on the domain and `B·eps < 1`, the
construction succeeds with one column per function; there is a number `N ≥ 17` of sample points such that every column is
within `N (B·eps)^(1/3)` of the function at the `N` Chebyshev points of the domain, and within that plus `2N+1` times the
error of the best approximation by polynomials of degree below `N` on the whole domain. -/
theorem C87_near_best (fs : List (ℝ → ℝ)) (hfs : fs ≠ []) (dom : Ends) (hd : dom.e0 < dom.e1) (eps : ℝ) (h0 : 0 < eps)
    (B : ℝ) (hB1 : 1 ≤ B) (hB : max |dom.e0| |dom.e1| ≤ B) (hBe : B * eps < 1)
    (hbd : ∀ f ∈ fs, ∀ x ∈ Set.Icc dom.e0 dom.e1, |f x| ≤ B) :
    ∃ h N, ChebFun.ofCallable fs dom eps = some h ∧ h.dom = dom ∧ h.onefun.Proper ∧ h.onefun.eps = eps ∧
      h.onefun.coeffs.m = fs.length ∧ 17 ≤ N ∧ N ≤ 1 + 2 ^ 14 ∧
      ∀ i (hi : i < fs.length), ∃ d, h.onefun.coeffs.cols[i]? = some d ∧
        (∀ x ∈ (chebpts2 N).map (fwd dom), |chebEval d (bwd dom x) - fs[i] x| ≤ N * (B * eps) ^ ((1 : ℝ) / 3)) ∧
        ∀ p : Polynomial ℝ, p.natDegree < N → ∀ E, (∀ x ∈ Set.Icc dom.e0 dom.e1, |fs[i] x - p.eval x| ≤ E) →
          ∀ x ∈ Set.Icc dom.e0 dom.e1,
            |chebEval d (bwd dom x) - fs[i] x| ≤ N * (B * eps) ^ ((1 : ℝ) / 3) + (2 * N + 1) * E := by
  obtain ⟨t, N, ht, hp, he, hm, hN, hN', hcols⟩ := ofCallable_near (fs.map fun f y => f (fwd dom y)) (by simpa using hfs) eps
    (1 + 2 ^ 14) (max |dom.e0| |dom.e1|) (ends_pos dom hd) h0 (by norm_num) B hB1 hB hBe (by
      intro f hf x hx
      obtain ⟨g, hg, rfl⟩ := List.mem_map.mp hf
      exact hbd g hg _ (fwd_mem dom hd x hx))
  refine ⟨⟨dom, t⟩, N, by rw [ChebFun.ofCallable, ht]; rfl, rfl, hp, he, by simpa using hm, hN, hN', fun i hi => ?_⟩
  obtain ⟨d, hd1, hgrid, hbest⟩ := hcols i (by simpa using hi)
  refine ⟨d, hd1, ?_, ?_⟩
  · intro x hx
    obtain ⟨y, hy, rfl⟩ := List.mem_map.mp hx
    rw [(C01_inverse dom hd).1 y]
    simpa using hgrid y hy
  · intro p hp E hE x hx
    obtain ⟨q, hq, hqe⟩ := pull_poly dom p
    have := hbest q (lt_of_le_of_lt hq hp) E (by
      intro y hy
      simp only [List.getElem_map, hqe]
      exact hE _ (fwd_mem dom hd y hy)) (bwd dom x) (bwd_mem dom hd x hx).1
    simpa [(bwd_mem dom hd x hx).2] using this

/-- C87: polynomials of degree at most 16 are reproduced on the whole domain, up to the chopping error. -/
theorem C87_polynomial (p : Polynomial ℝ) (hp : p.natDegree ≤ 16) (dom : Ends) (hd : dom.e0 < dom.e1) (eps : ℝ) (h0 : 0 < eps)
    (B : ℝ) (hB1 : 1 ≤ B) (hB : max |dom.e0| |dom.e1| ≤ B) (hBe : B * eps < 1)
    (hbd : ∀ x ∈ Set.Icc dom.e0 dom.e1, |p.eval x| ≤ B) :
    ∃ h d, ChebFun.ofCallable [fun x => p.eval x] dom eps = some h ∧ h.dom = dom ∧ h.onefun.coeffs.cols = [d] ∧
      ∀ x ∈ Set.Icc dom.e0 dom.e1, |chebEval d (bwd dom x) - p.eval x| ≤ (1 + 2 ^ 14) * (B * eps) ^ ((1 : ℝ) / 3) := by
  obtain ⟨h, N, hh, hdom, -, -, hm, hN, hN', hc⟩ := C87_near_best [fun x => p.eval x] (by simp) dom hd eps h0 B hB1 hB hBe (by
    intro f hf; simp only [List.mem_singleton] at hf; subst hf; exact hbd)
  obtain ⟨d, hd1, -, hb⟩ := hc 0 (by simp)
  refine ⟨h, d, hh, hdom, ?_, fun x hx => ?_⟩
  · have hl : h.onefun.coeffs.cols.length = 1 := hm
    obtain ⟨a, ha⟩ := List.length_eq_one_iff.mp hl
    rw [ha] at hd1 ⊢
    simp at hd1; rw [hd1]
  · have := hb p (by omega) 0 (by intro x _; simp) x hx
    simp only [mul_zero, add_zero, List.getElem_cons_zero] at this
    refine this.trans (mul_le_mul_of_nonneg_right ?_ (by positivity))
    exact_mod_cast hN'

lemma rpow_small (a : ℝ) (b : ℝ) (hb : 0 ≤ b) (ha : 0 ≤ a) (h : a < b ^ 3) : a ^ ((1 : ℝ) / 3) < b := by
  have h1 : a ^ ((1 : ℝ) / 3) < (b ^ 3) ^ ((1 : ℝ) / 3) := rpow_lt_rpow ha h (by norm_num)
  have h2 : (b ^ 3) ^ ((1 : ℝ) / 3) = b := by
    rw [← rpow_natCast b 3, ← rpow_mul hb]; norm_num
  rwa [h2] at h1

/-- a concrete case: `x²` and `1 - x` on `[0, 2]` -/
example : ∃ h, ChebFun.ofCallable [fun x => x ^ 2, fun x => 1 - x] ⟨0, 2⟩ (1 / 10 ^ 16) = some h := by
  obtain ⟨h, _, hh, _⟩ := C87_near_best [fun x => x ^ 2, fun x => 1 - x] (by simp) ⟨0, 2⟩ (by norm_num) (1 / 10 ^ 16) (by norm_num)
    4 (by norm_num) (by norm_num) (by norm_num) (by
      intro f hf x hx
      simp only [Set.mem_Icc] at hx
      rcases List.mem_cons.mp hf with rfl | hf
      · rw [abs_le]; constructor <;> nlinarith [hx.1, hx.2]
      · simp only [List.mem_singleton] at hf; subst hf
        rw [abs_le]; constructor <;> linarith [hx.1, hx.2])
  exact ⟨h, hh⟩

/-- C88: a ufunc without special implementation (`np.exp(f)`, …) is the pointwise function: if `φ` is bounded by `B` on the
values of `f` and `maxLength ≥ 17`, the result exists, has the same domain and number of columns, agrees with `φ(f(x))` at
the `N ≥ 17` sample points up to the chopping error, and everywhere up to the chopping error and `2N+1` times the best
polynomial approximation error for `φ ∘ f`. -/
theorem C88_ufunc (φ : ℝ → ℝ) (f : ChebFun) (hf : f.onefun.Proper) (hd : f.dom.e0 < f.dom.e1) (h0 : 0 < f.onefun.eps)
    (hml : 17 ≤ f.onefun.maxLength) (B : ℝ) (hB1 : 1 ≤ B) (hBe : B * f.onefun.eps < 1)
    (hbd : ∀ c ∈ f.onefun.coeffs.cols, ∀ x ∈ Set.Icc f.dom.e0 f.dom.e1, |φ (chebEval c (bwd f.dom x))| ≤ B) :
    ∃ h N, f.ufunc1 φ = some h ∧ h.dom = f.dom ∧ h.onefun.Proper ∧ h.onefun.eps = f.onefun.eps ∧
      h.onefun.coeffs.m = f.onefun.coeffs.m ∧ 17 ≤ N ∧ N ≤ f.onefun.maxLength ∧
      ∀ i (hi : i < f.onefun.coeffs.cols.length), ∃ d, h.onefun.coeffs.cols[i]? = some d ∧
        (∀ x ∈ (chebpts2 N).map (fwd f.dom), |chebEval d (bwd f.dom x) - φ (chebEval f.onefun.coeffs.cols[i] (bwd f.dom x))|
          ≤ N * (B * f.onefun.eps) ^ ((1 : ℝ) / 3)) ∧
        ∀ p : Polynomial ℝ, p.natDegree < N → ∀ E,
          (∀ x ∈ Set.Icc f.dom.e0 f.dom.e1, |φ (chebEval f.onefun.coeffs.cols[i] (bwd f.dom x)) - p.eval x| ≤ E) →
          ∀ x ∈ Set.Icc f.dom.e0 f.dom.e1, |chebEval d (bwd f.dom x) - φ (chebEval f.onefun.coeffs.cols[i] (bwd f.dom x))|
            ≤ N * (B * f.onefun.eps) ^ ((1 : ℝ) / 3) + (2 * N + 1) * E := by
  have hfn : (f.onefun.coeffs.cols.map fun c x => φ (clenshawScalar x c)) = f.onefun.coeffs.cols.map fun c x => φ (chebEval c x) := by
    apply List.map_congr_left
    intro c hc
    funext x
    rw [clenshaw_cheb x c (hf.col_ne hc)]
  have hne : (f.onefun.coeffs.cols.map fun (c : List ℝ) (x : ℝ) => φ (chebEval c x)) ≠ [] := by
    intro h
    have := hf.m_ne
    simp only [List.map_eq_nil_iff] at h
    simp [Arr.m, h] at this
  obtain ⟨t, N, ht, hp, he, hm, hN, hN', hcols⟩ := ofCallable_near _ hne f.onefun.eps f.onefun.maxLength 1 one_pos h0 hml B hB1 hB1 hBe (by
      intro g hg x hx
      obtain ⟨c, hc, rfl⟩ := List.mem_map.mp hg
      have := hbd c hc _ (fwd_mem f.dom hd x hx)
      rwa [(C01_inverse f.dom hd).1 x] at this)
  refine ⟨⟨f.dom, t⟩, N, by rw [ChebFun.ufunc1, Tech.ufunc1, hfn, ht]; rfl, rfl, hp, he, by simpa [Arr.m] using hm, hN, hN',
    fun i hi => ?_⟩
  obtain ⟨d, hd1, hgrid, hbest⟩ := hcols i (by simpa using hi)
  refine ⟨d, hd1, ?_, ?_⟩
  · intro x hx
    obtain ⟨y, hy, rfl⟩ := List.mem_map.mp hx
    rw [(C01_inverse f.dom hd).1 y]
    simpa using hgrid y hy
  · intro p hp E hE x hx
    obtain ⟨q, hq, hqe⟩ := pull_poly f.dom p
    have := hbest q (lt_of_le_of_lt hq hp) E (by
      intro y hy
      simp only [List.getElem_map, hqe]
      have := hE _ (fwd_mem f.dom hd y hy)
      rwa [(C01_inverse f.dom hd).1 y] at this) (bwd f.dom x) (bwd_mem f.dom hd x hx).1
    simpa using this

/-- C88: the same for ufuncs of two arguments on functions with the same number of columns (stated on `[-1,1]`). -/
theorem C88_ufunc2 (φ : ℝ → ℝ → ℝ) (t s : Tech) (ht : t.Proper) (hs : s.Proper) (hms : t.coeffs.m = s.coeffs.m) (h0 : 0 < t.eps)
    (hml : 17 ≤ t.maxLength) (B : ℝ) (hB1 : 1 ≤ B) (hBe : B * t.eps < 1)
    (hbd : ∀ c ∈ t.coeffs.cols, ∀ d ∈ s.coeffs.cols, ∀ x, |x| ≤ 1 → |φ (chebEval c x) (chebEval d x)| ≤ B) :
    ∃ h N, t.ufunc2 φ s = some h ∧ h.Proper ∧ h.coeffs.m = t.coeffs.m ∧ 17 ≤ N ∧ N ≤ t.maxLength ∧
      ∀ i (hi : i < t.coeffs.cols.length) (hi' : i < s.coeffs.cols.length), ∃ d, h.coeffs.cols[i]? = some d ∧
        (∀ x ∈ chebpts2 N, |chebEval d x - φ (chebEval t.coeffs.cols[i] x) (chebEval s.coeffs.cols[i] x)|
          ≤ N * (B * t.eps) ^ ((1 : ℝ) / 3)) ∧
        ∀ p : Polynomial ℝ, p.natDegree < N → ∀ E,
          (∀ x, |x| ≤ 1 → |φ (chebEval t.coeffs.cols[i] x) (chebEval s.coeffs.cols[i] x) - p.eval x| ≤ E) →
          ∀ x, |x| ≤ 1 → |chebEval d x - φ (chebEval t.coeffs.cols[i] x) (chebEval s.coeffs.cols[i] x)|
            ≤ N * (B * t.eps) ^ ((1 : ℝ) / 3) + (2 * N + 1) * E := by
  have hlen : t.coeffs.cols.length = s.coeffs.cols.length := hms
  have hm0 : t.coeffs.cols.length ≠ 0 := ht.m_ne
  have hne : (List.zipWith (fun (c d : List ℝ) (x : ℝ) => φ (clenshawScalar x c) (clenshawScalar x d)) t.coeffs.cols s.coeffs.cols) ≠ [] := by
    intro h
    have := congrArg List.length h
    simp only [List.length_zipWith, List.length_nil] at this
    omega
  have hval : ∀ i (hi : i < (List.zipWith (fun (c d : List ℝ) (x : ℝ) => φ (clenshawScalar x c) (clenshawScalar x d))
      t.coeffs.cols s.coeffs.cols).length) x, (List.zipWith (fun (c d : List ℝ) (x : ℝ) => φ (clenshawScalar x c) (clenshawScalar x d))
      t.coeffs.cols s.coeffs.cols)[i] x = φ (chebEval (t.coeffs.cols[i]'(by simp at hi; omega)) x)
        (chebEval (s.coeffs.cols[i]'(by simp at hi; omega)) x) := by
    intro i hi x
    rw [List.getElem_zipWith, clenshaw_cheb x _ (ht.col_ne (List.getElem_mem _)), clenshaw_cheb x _ (hs.col_ne (List.getElem_mem _))]
  obtain ⟨h, N, hh, hp, _, hm, hN, hN', hcols⟩ := ofCallable_near _ hne t.eps t.maxLength 1 one_pos h0 hml B hB1 hB1 hBe (by
      intro g hg x hx
      obtain ⟨i, hi, rfl⟩ := List.mem_iff_getElem.mp hg
      rw [hval i hi x]
      exact hbd _ (List.getElem_mem _) _ (List.getElem_mem _) x hx)
  refine ⟨h, N, hh, hp, by rw [hm]; simp [Arr.m]; omega, hN, hN', fun i hi hi' => ?_⟩
  obtain ⟨d, hd1, hgrid, hbest⟩ := hcols i (by simp; omega)
  refine ⟨d, hd1, ?_, ?_⟩
  · intro x hx
    have := hgrid x hx
    rwa [hval] at this
  · intro p hp E hE x hx
    have := hbest p hp E (by intro y hy; rw [hval]; exact hE y hy) x hx
    rwa [hval] at this

/-- a concrete case: `exp` of the function `x` on `[0, 1]` -/
example : ∃ h, ChebFun.ufunc1 Real.exp ⟨⟨0, 1⟩, ⟨⟨2, [[1 / 2, 1 / 2]]⟩, 1 / 10 ^ 16, 1, 2 ^ 14 + 1, true⟩⟩ = some h := by
  obtain ⟨h, _, hh, _⟩ := C88_ufunc Real.exp ⟨⟨0, 1⟩, ⟨⟨2, [[1 / 2, 1 / 2]]⟩, 1 / 10 ^ 16, 1, 2 ^ 14 + 1, true⟩⟩
    ⟨by simp [Arr.WF], by simp [Arr.m]⟩ (by norm_num) (by norm_num) (by norm_num) 3 (by norm_num) (by norm_num) (by
      intro c hc x hx
      simp only [List.mem_singleton] at hc; subst hc
      simp only [Set.mem_Icc] at hx
      have : chebEval [(1 : ℝ) / 2, 1 / 2] (bwd ⟨0, 1⟩ x) = x := by
        simp [chebEval, sum_range_succ, bwd, Mapping.diff]; ring
      rw [this, abs_of_pos (exp_pos x)]
      calc exp x ≤ exp 1 := exp_le_exp.mpr hx.2
        _ ≤ 3 := by have := Real.exp_one_lt_d9; linarith)
  exact ⟨h, hh⟩


/-! ### Composition of functions on a domain -/

private lemma chebpts2_17_ends : (1 : ℝ) ∈ chebpts2 17 ∧ (-1 : ℝ) ∈ chebpts2 17 := by
  constructor
  · have h := chebpts2_getD 16 (by norm_num) 16 (by norm_num)
    rw [getD_lt' _ _ _ (by rw [chebpts2_length]; norm_num)] at h
    have : (chebpts2 17)[16]'(by rw [chebpts2_length]; norm_num) = 1 := by
      rw [h]; norm_num
    rw [← this]; exact List.getElem_mem _
  · have h := chebpts2_getD 16 (by norm_num) 0 (by norm_num)
    rw [getD_lt' _ _ _ (by rw [chebpts2_length]; norm_num)] at h
    have : (chebpts2 17)[0]'(by rw [chebpts2_length]; norm_num) = -1 := by
      rw [h]
      have : π * ((16 - 0 : ℕ) : ℝ) / 16 = π := by push_cast; ring
      norm_num
    rw [← this]; exact List.getElem_mem _

/-- `compose(f, op)` does not raise at the first sampling iff `[-1,1]` is contained in the domain. -/
lemma compose_guard (e : Ends) (hd : e.e0 < e.e1) :
    (∃ v, funCall e (fun z => z) (chebpts2 17) = some v) ↔ e.e0 ≤ -1 ∧ 1 ≤ e.e1 := by
  rw [C01_call e hd]
  constructor
  · rintro ⟨-, h⟩
    exact ⟨(h _ chebpts2_17_ends.2).1, (h _ chebpts2_17_ends.1).2⟩
  · rintro ⟨h1, h2⟩
    refine ⟨fun h => by have := chebpts2_17_ends.1; rw [h] at this; simp at this, fun x hx => ?_⟩
    have := abs_le.mp (chebpts2_mem_abs 17 (by norm_num) x hx)
    exact ⟨by linarith [this.1], by linarith [this.2]⟩

/-- C89: what `compose(f, op)` computes for a function whose domain contains `[-1,1]`: an approximation of
`op(f(y))` with `y = bwd(x)`, the position of `x` relative to the domain, instead of `op(f(x))`. -/
theorem C89_shifted (φ : ℝ → ℝ) (f : ChebFun) (hf : f.onefun.Proper) (hd : f.dom.e0 < f.dom.e1) (hl : f.dom.e0 ≤ -1) (hr : 1 ≤ f.dom.e1)
    (eps : ℝ) (h0 : 0 < eps) (B : ℝ) (hB1 : 1 ≤ B) (hB : max |f.dom.e0| |f.dom.e1| ≤ B) (hBe : B * eps < 1)
    (hbd : ∀ c ∈ f.onefun.coeffs.cols, ∀ y, |y| ≤ 1 → |φ (chebEval c (bwd f.dom y))| ≤ B) :
    ∃ h N, f.compose φ eps = some h ∧ h.dom = f.dom ∧ h.onefun.Proper ∧ h.onefun.coeffs.m = f.onefun.coeffs.m ∧ 17 ≤ N ∧
      N ≤ 1 + 2 ^ 14 ∧
      ∀ i (hi : i < f.onefun.coeffs.cols.length), ∃ d, h.onefun.coeffs.cols[i]? = some d ∧
        ∀ p : Polynomial ℝ, p.natDegree < N → ∀ E,
          (∀ y, |y| ≤ 1 → |φ (chebEval f.onefun.coeffs.cols[i] (bwd f.dom y)) - p.eval y| ≤ E) →
          ∀ x ∈ Set.Icc f.dom.e0 f.dom.e1,
            |chebEval d (bwd f.dom x) - φ (chebEval f.onefun.coeffs.cols[i] (bwd f.dom (bwd f.dom x)))|
            ≤ N * (B * eps) ^ ((1 : ℝ) / 3) + (2 * N + 1) * E := by
  obtain ⟨v, hv⟩ := (compose_guard f.dom hd).mpr ⟨hl, hr⟩
  have hfn : (f.onefun.coeffs.cols.map fun c y => φ (clenshawScalar (bwd f.dom y) c))
      = f.onefun.coeffs.cols.map fun c y => φ (chebEval c (bwd f.dom y)) := by
    apply List.map_congr_left
    intro c hc
    funext x
    rw [clenshaw_cheb _ c (hf.col_ne hc)]
  have hne : (f.onefun.coeffs.cols.map fun (c : List ℝ) (y : ℝ) => φ (chebEval c (bwd f.dom y))) ≠ [] := by
    intro h
    have := hf.m_ne
    simp only [List.map_eq_nil_iff] at h
    simp [Arr.m, h] at this
  obtain ⟨t, N, ht, hp, he, hm, hN, hN', hcols⟩ := ofCallable_near _ hne eps (1 + 2 ^ 14) _ (ends_pos f.dom hd) h0 (by norm_num) B hB1 hB hBe (by
      intro g hg x hx
      obtain ⟨c, hc, rfl⟩ := List.mem_map.mp hg
      exact hbd c hc x hx)
  refine ⟨⟨f.dom, t⟩, N, by rw [ChebFun.compose, hv, Option.bind_some, hfn, ht]; rfl, rfl, hp, by simpa [Arr.m] using hm, hN, hN',
    fun i hi => ?_⟩
  obtain ⟨d, hd1, _, hbest⟩ := hcols i (by simpa using hi)
  refine ⟨d, hd1, fun p hp E hE x hx => ?_⟩
  have := hbest p hp E (by intro y hy; simpa using hE y hy) (bwd f.dom x) (bwd_mem f.dom hd x hx).1
  simpa using this

/-- C89 (partial: functions on `[-1,1]` only; on other domains the code is wrong, see `C89_raises_fails` and
`C89_fails`): `compose(f, op)` is the pointwise composition, up to the chopping error and `2N+1` times the best polynomial
approximation error. -/
theorem C89_unit_partial (φ : ℝ → ℝ) (f : ChebFun) (hf : f.onefun.Proper) (hd : f.dom = ⟨-1, 1⟩)
    (eps : ℝ) (h0 : 0 < eps) (B : ℝ) (hB1 : 1 ≤ B) (hBe : B * eps < 1)
    (hbd : ∀ c ∈ f.onefun.coeffs.cols, ∀ y, |y| ≤ 1 → |φ (chebEval c y)| ≤ B) :
    ∃ h N, f.compose φ eps = some h ∧ h.dom = f.dom ∧ h.onefun.Proper ∧ h.onefun.coeffs.m = f.onefun.coeffs.m ∧ 17 ≤ N ∧
      N ≤ 1 + 2 ^ 14 ∧
      ∀ i (hi : i < f.onefun.coeffs.cols.length), ∃ d, h.onefun.coeffs.cols[i]? = some d ∧
        ∀ p : Polynomial ℝ, p.natDegree < N → ∀ E,
          (∀ x, |x| ≤ 1 → |φ (chebEval f.onefun.coeffs.cols[i] x) - p.eval x| ≤ E) →
          ∀ x, |x| ≤ 1 → |chebEval d x - φ (chebEval f.onefun.coeffs.cols[i] x)|
            ≤ N * (B * eps) ^ ((1 : ℝ) / 3) + (2 * N + 1) * E := by
  have hb : ∀ x, bwd f.dom x = x := by intro x; rw [hd]; simp only [bwd, Mapping.diff]; ring
  obtain ⟨h, N, h1, h2, h3, h4, h5, h6, h7⟩ := C89_shifted φ f hf (by rw [hd]; norm_num) (by rw [hd]) (by rw [hd]) eps h0 B hB1
    (by rw [hd]; norm_num; exact hB1) hBe (by intro c hc y hy; rw [hb]; exact hbd c hc y hy)
  refine ⟨h, N, h1, h2, h3, h4, h5, h6, fun i hi => ?_⟩
  obtain ⟨d, hd1, hd2⟩ := h7 i hi
  refine ⟨d, hd1, fun p hp E hE x hx => ?_⟩
  have := hd2 p hp E (by intro y hy; rw [hb]; exact hE y hy) x (by rw [hd]; exact abs_le.mp hx)
  rwa [hb, hb] at this

/-- C89: `compose` raises for every function whose domain does not contain `[-1,1]`, e.g. on `[0,1]`. -/
theorem C89_raises_fails (φ : ℝ → ℝ) (f : ChebFun) (hd : f.dom.e0 < f.dom.e1) (h : -1 < f.dom.e0 ∨ f.dom.e1 < 1) (eps : ℝ) :
    f.compose φ eps = none := by
  have : funCall f.dom (fun z => z) (chebpts2 17) = none := by
    rcases hc : funCall f.dom (fun z => z) (chebpts2 17) with _ | v
    · rfl
    · have := (compose_guard f.dom hd).mp ⟨v, hc⟩
      rcases h with h | h
      · linarith [this.1]
      · linarith [this.2]
  rw [ChebFun.compose, this]; rfl

/-- C89: on `[-2,2]` the composition of the function `x` with the identity is about `x/2`: at the right end point the
result is below `3/2` instead of `2`. -/
theorem C89_fails (eps : ℝ) (h0 : 0 < eps) (h1 : eps < 1 / 10 ^ 15) (f : ChebFun) (hdom : f.dom = ⟨-2, 2⟩)
    (hc : f.onefun.coeffs = ⟨2, [[0, 2]]⟩) :
    (∀ x, chebEval [0, 2] (bwd f.dom x) = x) ∧
    ∃ h d, f.compose (fun y => y) eps = some h ∧ h.dom = f.dom ∧ h.onefun.coeffs.cols = [d] ∧
      chebEval d (bwd f.dom 2) < 3 / 2 := by
  have hb : ∀ x, bwd f.dom x = x / 2 := by intro x; rw [hdom]; simp only [bwd, Mapping.diff]; ring
  have hv : ∀ x, chebEval [(0 : ℝ), 2] x = 2 * x := by intro x; simp [chebEval, sum_range_succ]
  refine ⟨fun x => by rw [hb, hv]; ring, ?_⟩
  have hp : f.onefun.Proper := ⟨by rw [hc]; simp [Arr.WF], by rw [hc]; simp [Arr.m]⟩
  obtain ⟨h, N, e1, e2, e3, e4, e5, e6, e7⟩ := C89_shifted (fun y => y) f hp (by rw [hdom]; norm_num) (by rw [hdom]; norm_num)
    (by rw [hdom]; norm_num) eps h0 2 (by norm_num) (by rw [hdom]; norm_num) (by norm_num at h1 ⊢; linarith) (by
      intro c hc' y hy
      rw [hc] at hc'
      simp only [List.mem_singleton] at hc'; subst hc'
      rw [hb, hv]
      have : 2 * (y / 2) = y := by ring
      rw [this]; linarith)
  obtain ⟨d, hd1, hd2⟩ := e7 0 (by rw [hc]; simp)
  refine ⟨h, d, e1, e2, ?_, ?_⟩
  · have hl : h.onefun.coeffs.cols.length = 1 := by rw [hc] at e4; exact e4
    obtain ⟨a, ha⟩ := List.length_eq_one_iff.mp hl
    rw [ha] at hd1 ⊢
    simp at hd1; rw [hd1]
  · have h0' : f.onefun.coeffs.cols[0]'(by rw [hc]; simp) = [0, 2] := by simp [hc]
    have := hd2 Polynomial.X (by rw [Polynomial.natDegree_X]; omega) 0 (by
      intro y _
      rw [h0', hb, hv, Polynomial.eval_X]; norm_num; ring) 2 (by rw [hdom]; norm_num)
    rw [h0', hb 2, hb, hv] at this
    rw [hb 2]
    have hN : (N : ℝ) ≤ 1 + 2 ^ 14 := by exact_mod_cast e6
    have hs : (2 * eps) ^ ((1 : ℝ) / 3) < 1 / 2 ^ 16 := rpow_small _ _ (by positivity) (by linarith) (by norm_num at h1 ⊢; linarith)
    have h2 : N * (2 * eps) ^ ((1 : ℝ) / 3) ≤ (1 + 2 ^ 14) * (1 / 2 ^ 16) :=
      mul_le_mul hN hs.le (by positivity) (by positivity)
    have h3 := (abs_le.mp this).2
    norm_num at h2 h3 ⊢
    linarith

example : ChebFun.compose Real.exp (1 / 10 ^ 16) ⟨⟨0, 1⟩, ⟨⟨1, [[1]]⟩, 1 / 10 ^ 16, 1, 2 ^ 14 + 1, true⟩⟩ = none :=
  C89_raises_fails _ _ (by norm_num) (Or.inl (by norm_num)) _

end Funpy.Props
