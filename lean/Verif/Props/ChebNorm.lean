import Verif.Model.ChebNorm
import Verif.Props.ChebInner
import Verif.Lemmas.ChebAdapt
import Verif.Props.ChebRoots
import Mathlib.Algebra.QuadraticDiscriminant

/-!
# C84 – C86: norms, minimum and maximum
-/

namespace Funpy.Props
open Spec Cheb Real Finset Mapping MeasureTheory

/-! ## C84: the norms computed from inner products -/

private lemma dot_fun (f g : ChebFun) (hf : f.onefun.Proper) (hg : g.onefun.Proper) (hd : f.dom.e0 < f.dom.e1)
    (hm : f.onefun.coeffs.m = g.onefun.coeffs.m) (h : f.dom = g.dom) :
    f.dot g = some (List.zipWith (fun u v => ∫ x in f.dom.e0..f.dom.e1,
      chebEval u (bwd f.dom x) * chebEval v (bwd f.dom x)) f.onefun.coeffs.cols g.onefun.coeffs.cols).sum := by
  rw [ChebFun.dot, if_pos h, C17_dot _ _ hf hg hm]
  congr 1
  rw [← List.map_id' (List.zipWith _ _ _), ← List.sum_map_mul_right, List.map_zipWith]
  congr 2
  ext u v
  rw [integral_dom f.dom hd (fun y => chebEval u y * chebEval v y)]
  simp only [ChebFun.rescale]
  ring_nf

/-- C84: `normh(f)` is the L² norm of `f` on its domain: the square root of the sum over the columns of
`∫_a^b f_j(x)² dx`. -/
theorem C84_normh (f : ChebFun) (hf : f.onefun.Proper) (hd : f.dom.e0 < f.dom.e1) :
    f.normh = some √((f.onefun.coeffs.cols.map fun u => ∫ x in f.dom.e0..f.dom.e1, chebEval u (bwd f.dom x) ^ 2).sum) := by
  rw [ChebFun.normh, dot_fun f f hf hf hd rfl rfl, List.zipWith_self]
  simp only [Option.map_some, pow_two]

/-- C84: `norm(f, p=2, weighted=True)` is the Chebyshev weighted L² norm of the function on `[-1,1]`, times the square
root of half the length of the domain. -/
theorem C84_weighted (eig : List ℝ → List ℂ) (fuel : ℕ) (f : ChebFun) (hf : f.onefun.Proper) :
    f.norm eig fuel (.fin 2) true = some √((f.onefun.coeffs.cols.map fun u =>
      (∫ y in (-1 : ℝ)..1, chebEval u y ^ 2 / √(1 - y ^ 2)) * ((f.dom.e1 - f.dom.e0) / 2)).sum) := by
  simp only [ChebFun.norm, (C15_fun f f hf hf).2 rfl, List.zipWith_self]
  norm_num
  rw [sqrt_eq_rpow]
  simp only [pow_two]

/-- C84: index and weight checks: a non-positive index is rejected, and a weighted norm exists for `p = 2` only. -/
theorem C84_rejects (eig : List ℝ → List ℂ) (fuel : ℕ) (f : ChebFun) :
    (∀ p : ℤ, p ≤ 0 → ∀ w, f.norm eig fuel (.fin p) w = none ∧ f.norm2 p w = none) ∧
    (∀ p : ℤ, p ≠ 2 → f.norm eig fuel (.fin p) true = none ∧ f.norm2 p true = none) ∧
    f.norm eig fuel .inf true = none ∧ (∀ p k w, k < 0 → f.wkpnorm p k w = none) := by
  refine ⟨fun p hp w => ?_, fun p hp => ?_, rfl, fun p k w hk => ?_⟩
  · simp [ChebFun.norm, ChebFun.norm2, hp]
  · constructor
    · simp only [ChebFun.norm, if_neg hp, if_true]
      split_ifs <;> rfl
    · simp only [ChebFun.norm2, if_neg hp, if_true]
      split_ifs <;> rfl
  · simp [ChebFun.wkpnorm, hk]

private lemma cont_col (e : Ends) (u : List ℝ) : Continuous fun x => chebEval u (bwd e x) := by
  have h1 : Continuous (fun y => chebEval u y) := by
    unfold chebEval
    exact continuous_finsetSum _ fun k _ => continuous_const.mul (Polynomial.continuous _)
  have h2 : Continuous (bwd e) := by
    unfold bwd; fun_prop
  exact h1.comp h2

private lemma integral_sq_eq_zero (e : Ends) (hd : e.e0 < e.e1) (u : List ℝ) :
    (∫ x in e.e0..e.e1, chebEval u (bwd e x) ^ 2 = 0) ↔ ∀ x ∈ Set.Icc e.e0 e.e1, chebEval u (bwd e x) = 0 := by
  constructor
  · intro h x hx
    by_contra hne
    have hpos : 0 < ∫ x in e.e0..e.e1, chebEval u (bwd e x) ^ 2 :=
      intervalIntegral.integral_pos hd ((cont_col e u).pow 2).continuousOn (fun x _ => sq_nonneg _)
        ⟨x, hx, by positivity⟩
    linarith
  · intro h
    rw [intervalIntegral.integral_congr (g := fun _ => (0 : ℝ))]
    · simp
    · intro x hx
      rw [Set.uIcc_of_le hd.le] at hx
      simp [h x hx]

private lemma sum_eq_zero_list (l : List ℝ) (h : ∀ a ∈ l, 0 ≤ a) : l.sum = 0 ↔ ∀ a ∈ l, a = 0 := by
  induction l with
  | nil => simp
  | cons a l ih =>
    have h1 : 0 ≤ l.sum := List.sum_nonneg fun x hx => h x (by simp [hx])
    have h2 := h a (by simp)
    rw [List.sum_cons]
    constructor
    · intro h0
      have ha : a = 0 := by linarith
      have hl : l.sum = 0 := by linarith
      rw [ih (fun x hx => h x (by simp [hx]))] at hl
      intro b hb
      rcases List.mem_cons.mp hb with rfl | hb
      · exact ha
      · exact hl b hb
    · intro h0
      rw [h0 a (by simp), (ih (fun x hx => h x (by simp [hx]))).mpr (fun b hb => h0 b (by simp [hb])), add_zero]

/-- C84: `normh` vanishes exactly for functions all of whose columns are zero on the whole domain. -/
theorem C84_definite (f : ChebFun) (hf : f.onefun.Proper) (hd : f.dom.e0 < f.dom.e1) :
    ∃ v, f.normh = some v ∧ 0 ≤ v ∧
      (v = 0 ↔ ∀ u ∈ f.onefun.coeffs.cols, ∀ x ∈ Set.Icc f.dom.e0 f.dom.e1, chebEval u (bwd f.dom x) = 0) := by
  refine ⟨_, C84_normh f hf hd, sqrt_nonneg _, ?_⟩
  have hnn : ∀ a ∈ f.onefun.coeffs.cols.map fun u => ∫ x in f.dom.e0..f.dom.e1, chebEval u (bwd f.dom x) ^ 2, 0 ≤ a := by
    intro a ha
    obtain ⟨u, _, rfl⟩ := List.mem_map.mp ha
    exact intervalIntegral.integral_nonneg hd.le fun x _ => sq_nonneg _
  rw [sqrt_eq_zero (List.sum_nonneg hnn), sum_eq_zero_list _ hnn]
  constructor
  · intro h u hu
    exact (integral_sq_eq_zero f.dom hd u).mp (h _ (List.mem_map.mpr ⟨u, hu, rfl⟩))
  · intro h a ha
    obtain ⟨u, hu, rfl⟩ := List.mem_map.mp ha
    exact (integral_sq_eq_zero f.dom hd u).mpr (h u hu)

private lemma quad_list (e : Ends) (hd : e.e0 < e.e1) (t : ℝ) : ∀ (us vs : List (List ℝ)), us.length = vs.length →
    0 ≤ (List.map (fun u => ∫ x in e.e0..e.e1, chebEval u (bwd e x) ^ 2) us).sum * (t * t)
      + 2 * (List.zipWith (fun u v => ∫ x in e.e0..e.e1, chebEval u (bwd e x) * chebEval v (bwd e x)) us vs).sum * t
      + (List.map (fun u => ∫ x in e.e0..e.e1, chebEval u (bwd e x) ^ 2) vs).sum
  | [], [], _ => by simp
  | u :: us, v :: vs, h => by
    have ih := quad_list e hd t us vs (by simpa using h)
    simp only [List.map_cons, List.sum_cons, List.zipWith_cons_cons]
    have hi : ∀ F : ℝ → ℝ, Continuous F → IntervalIntegrable F volume e.e0 e.e1 := fun F hF => hF.intervalIntegrable _ _
    have hu := cont_col e u
    have hv := cont_col e v
    have h2 : 0 ≤ ∫ x in e.e0..e.e1, (t * chebEval u (bwd e x) + chebEval v (bwd e x)) ^ 2 :=
      intervalIntegral.integral_nonneg hd.le fun x _ => sq_nonneg _
    have h3 : ∫ x in e.e0..e.e1, (t * chebEval u (bwd e x) + chebEval v (bwd e x)) ^ 2
        = (t * t) * (∫ x in e.e0..e.e1, chebEval u (bwd e x) ^ 2)
          + (2 * t) * (∫ x in e.e0..e.e1, chebEval u (bwd e x) * chebEval v (bwd e x))
          + ∫ x in e.e0..e.e1, chebEval v (bwd e x) ^ 2 := by
      rw [← intervalIntegral.integral_const_mul, ← intervalIntegral.integral_const_mul,
        ← intervalIntegral.integral_add (hi _ (by fun_prop)) (hi _ (by fun_prop)),
        ← intervalIntegral.integral_add (hi _ (by fun_prop)) (hi _ (by fun_prop))]
      congr 1
      ext x
      ring
    rw [h3] at h2
    linarith

/-- C84: the Cauchy–Schwarz inequality for `np.dot` and `normh`. -/
theorem C84_cauchy_schwarz (f g : ChebFun) (hf : f.onefun.Proper) (hg : g.onefun.Proper) (hd : f.dom.e0 < f.dom.e1)
    (hm : f.onefun.coeffs.m = g.onefun.coeffs.m) (h : f.dom = g.dom) :
    ∃ s a b, f.dot g = some s ∧ f.normh = some a ∧ g.normh = some b ∧ |s| ≤ a * b := by
  refine ⟨_, _, _, dot_fun f g hf hg hd hm h, C84_normh f hf hd, C84_normh g hg (h ▸ hd), ?_⟩
  rw [← h]
  have hq := fun t => quad_list f.dom hd t f.onefun.coeffs.cols g.onefun.coeffs.cols hm
  have hdis := discrim_le_zero hq
  simp only [discrim] at hdis
  rw [← sqrt_mul']
  · apply abs_le_sqrt
    nlinarith
  · apply List.sum_nonneg
    intro a ha
    obtain ⟨u, _, rfl⟩ := List.mem_map.mp ha
    exact intervalIntegral.integral_nonneg hd.le fun x _ => sq_nonneg _

/-- The hypotheses of C84 are met by `f = 1 + 2x` on `[0, 3]`. -/
example : (⟨⟨0, 3⟩, ⟨⟨2, [[1, 2]]⟩, 1, 1, 10, true⟩⟩ : ChebFun).onefun.Proper ∧
    (⟨⟨0, 3⟩, ⟨⟨2, [[1, 2]]⟩, 1, 1, 10, true⟩⟩ : ChebFun).dom.e0 < (⟨⟨0, 3⟩, ⟨⟨2, [[1, 2]]⟩, 1, 1, 10, true⟩⟩ : ChebFun).dom.e1 :=
  ⟨⟨by simp [Arr.WF], by simp [Arr.m]⟩, by norm_num⟩

/-! ## C85: the p-norms computed through the pointwise power -/

lemma clenshaw_cheb (x : ℝ) (c : List ℝ) (hc : c ≠ []) : clenshawScalar x c = chebEval c x := by
  exact clenshawScalar_eq (by norm_num) x c hc

lemma firstN_ge_self (k : ℕ) (hk : 2 ≤ k) : k ≤ firstN k := by
  have := Nat.le_pow_clog (b := 2) (by norm_num) (k - 1)
  simp only [firstN]; omega

lemma firstN_le (k q : ℕ) (h : k ≤ 2 ^ q + 1) : firstN k ≤ 2 ^ q + 1 := by
  have : Nat.clog 2 (k - 1) ≤ q := Nat.clog_le_of_le_pow (by have := Nat.one_le_two_pow (n := q); omega)
  have := Nat.pow_le_pow_right (n := 2) (by norm_num) this
  simp only [firstN]; omega

lemma sizeSeq_mono (ms j : ℕ) : sizeSeq .nested ms 0 ≤ sizeSeq .nested ms j := by
  induction j with
  | zero => exact le_rfl
  | succ j ih =>
    have := sizeSeq_ge .nested ms j
    simp only [sizeSeq, nextSize] at *
    omega

/-- C85: `f ** p` for `p ≥ 2`: the result is defined, and every column is the interpolant of the pointwise power of
that column on a Chebyshev grid of `N ≥ n` points, with coefficients of modulus at most `(B eps)^(1/3)` dropped, where
`B` bounds the values of the power on the domain. -/
theorem C85_power (t : Tech) (ht : t.Proper) (p : ℕ) (hp : p ≠ 1) (B : ℝ) (hB : 1 ≤ B) (h0 : 0 < t.eps)
    (hBe : B * t.eps < 1) (hbd : ∀ c ∈ t.coeffs.cols, ∀ x, |x| ≤ 1 → |chebEval c x ^ p| ≤ B) :
    ∃ g N, t.power p = some g ∧ g.Proper ∧ g.coeffs.m = t.coeffs.m ∧ g.eps = t.eps ∧ min (1 + 2 ^ 14) t.coeffs.n ≤ N ∧ 9 ≤ N ∧
      N ≤ 1 + 2 ^ 14 ∧
      ∀ i (hi : i < t.coeffs.cols.length), ∃ d, g.coeffs.cols[i]? = some d ∧
        Chopped ((B * t.eps) ^ ((1 : ℝ) / 3)) (interp (fun x => chebEval t.coeffs.cols[i] x ^ p) N) d := by
  have hfn : (t.coeffs.cols.map fun c x => clenshawScalar x c ^ p) = t.coeffs.cols.map fun c x => chebEval c x ^ p := by
    apply List.map_congr_left
    intro c hc
    funext x
    rw [clenshaw_cheb x c (ht.col_ne hc)]
  have hne : (t.coeffs.cols.map fun (c : List ℝ) (x : ℝ) => chebEval c x ^ p) ≠ [] := by
    intro h
    have := ht.m_ne
    simp only [List.map_eq_nil_iff] at h
    simp [Arr.m, h] at this
  have hms : max 9 (min (1 + 2 ^ 14) t.coeffs.n) ≤ 2 ^ 14 + 1 := by omega
  obtain ⟨g, hg, hgp, he, _, _, hm, j, hj, _, hcols⟩ := ofCallable_spec
    (t.coeffs.cols.map fun (c : List ℝ) (x : ℝ) => chebEval c x ^ p) hne t.eps (1 + 2 ^ 14) t.coeffs.n h0
    (by have := firstN_le _ 14 hms; omega) B hB hBe (by
      intro f hf
      obtain ⟨c, hc, rfl⟩ := List.mem_map.mp hf
      exact hbd c hc)
  have hN := sizeSeq_mono (max 9 (min (1 + 2 ^ 14) t.coeffs.n)) j
  have hN0 : max 9 (min (1 + 2 ^ 14) t.coeffs.n) ≤ sizeSeq .nested (max 9 (min (1 + 2 ^ 14) t.coeffs.n)) 0 :=
    firstN_ge_self _ (by omega)
  refine ⟨g, _, by rw [Tech.power, if_neg hp, hfn, hg], hgp, by rw [hm]; simp [Arr.m], he, by omega, by omega, hj, ?_⟩
  intro i hi
  obtain ⟨d, hd, hch⟩ := hcols i (by simpa using hi)
  refine ⟨d, hd, ?_⟩
  simpa using hch

private lemma sum_err (l l' : List ℝ) (hl : l.length = l'.length) (b : ℝ)
    (h : ∀ i, i < l.length → |l.getD i 0 - l'.getD i 0| ≤ b) : |l.sum - l'.sum| ≤ l.length * b := by
  rw [list_sum_eq, list_sum_eq l', ← hl, ← sum_sub_distrib]
  refine (abs_sum_le_sum_abs _ _).trans ((sum_le_sum fun i hi => h i (mem_range.mp hi)).trans ?_)
  rw [sum_const, card_range, nsmul_eq_mul]

private lemma int_err (e : Ends) (hd : e.e0 < e.e1) (d : List ℝ) (F : ℝ → ℝ) (hF : Continuous F) (b : ℝ)
    (h : ∀ y, |y| ≤ 1 → |chebEval d y - F y| ≤ b) :
    |(∫ x in e.e0..e.e1, chebEval d (bwd e x)) - ∫ x in e.e0..e.e1, F (bwd e x)| ≤ b * (e.e1 - e.e0) := by
  have hbc : Continuous (bwd e) := by unfold bwd; fun_prop
  have h2 : Continuous fun x => F (bwd e x) := hF.comp hbc
  rw [← intervalIntegral.integral_sub ((cont_col e d).intervalIntegrable _ _) (h2.intervalIntegrable _ _)]
  have := intervalIntegral.norm_integral_le_of_norm_le_const (a := e.e0) (b := e.e1) (C := b)
    (f := fun x => chebEval d (bwd e x) - F (bwd e x)) (by
      intro x hx
      rw [Set.uIoc_of_le hd.le] at hx
      apply h
      rw [bwd, abs_le]
      have hpos : 0 < Mapping.diff e := by simp only [Mapping.diff]; linarith
      rw [le_div_iff₀ hpos, div_le_iff₀ hpos]
      simp only [Mapping.diff]
      constructor <;> linarith [hx.1, hx.2])
  rwa [abs_of_pos (by linarith : 0 < e.e1 - e.e0), norm_eq_abs] at this

/-- The interpolant of the `p`-th power of a series with `n` terms on more than `p (n - 1)` points is that power. -/
lemma interp_power (c : List ℝ) (hc : c ≠ []) (p N : ℕ) (h : p * (c.length - 1) < N) (x : ℝ) :
    chebEval (interp (fun x => chebEval c x ^ p) N) x = chebEval c x ^ p := by
  have hdeg : ((chebPoly c) ^ p).degree < N := by
    rcases eq_or_ne ((chebPoly c) ^ p) 0 with h0 | h0
    · rw [h0, Polynomial.degree_zero]; exact WithBot.bot_lt_coe _
    · rw [Polynomial.degree_eq_natDegree h0]
      have h1 := Polynomial.natDegree_pow_le (p := chebPoly c) (n := p)
      have h2 := natDegree_chebPoly_lt c hc
      have h3 : p * (chebPoly c).natDegree ≤ p * (c.length - 1) := Nat.mul_le_mul_left _ (by omega)
      exact_mod_cast (by omega : ((chebPoly c) ^ p).natDegree < N)
  obtain ⟨q, hq, hqe⟩ := exists_cheb N _ hdeg
  have hval : ∀ x, chebEval c x ^ p = chebEval q x := by
    intro x
    rw [chebEval_eq_eval q x, hqe, Polynomial.eval_pow, ← chebEval_eq_eval]
  rw [hval x]
  apply chebEval_congr_getD
  exact interp_series q _ N (by omega) hq.le (fun x _ => hval x)

/-- C85, even `p`: `norm(f, p)` is defined for every function; if the adaptive construction of `f ** p` stopped on a
grid of `N > p (n - 1)` points (`n` the number of coefficients of `f`), then `norm(f, p) ** p` differs from the sum
over the columns of `∫_a^b f_j(x)^p dx` by at most `m (b - a) N (B eps)^(1/3)`, where `B` bounds `|f_j|^p`.  Missing for
the full property: nothing makes the construction stop on a grid that is large enough, see `C85_norm_fails`. -/
theorem C85_norm_even_partial (eig : List ℝ → List ℂ) (fuel : ℕ) (f : ChebFun) (hf : f.onefun.Proper) (hd : f.dom.e0 < f.dom.e1)
    (p : ℕ) (hp0 : 0 < p) (hp : p % 2 = 0) (B : ℝ) (hB : 1 ≤ B) (h0 : 0 < f.onefun.eps) (hBe : B * f.onefun.eps < 1)
    (hbd : ∀ c ∈ f.onefun.coeffs.cols, ∀ x, |x| ≤ 1 → |chebEval c x ^ p| ≤ B) :
    ∃ v N, f.norm eig fuel (.fin p) false = some v ∧ 0 ≤ v ∧ min (1 + 2 ^ 14) f.onefun.coeffs.n ≤ N ∧ 9 ≤ N ∧
      (p * (f.onefun.coeffs.n - 1) < N →
        |v ^ p - (f.onefun.coeffs.cols.map fun u => ∫ x in f.dom.e0..f.dom.e1, chebEval u (bwd f.dom x) ^ p).sum|
          ≤ f.onefun.coeffs.m * ((N * (B * f.onefun.eps) ^ ((1 : ℝ) / 3)) * (f.dom.e1 - f.dom.e0))) := by
  obtain ⟨g, N, hg, hgp, hgm, -, hN1, hN2, -, hcols⟩ := C85_power f.onefun hf p (by omega) B hB h0 hBe hbd
  have hδ : 0 ≤ (B * f.onefun.eps) ^ ((1 : ℝ) / 3) := by positivity
  set S := (ChebFun.sum ⟨f.dom, g⟩).sum with hS
  refine ⟨|S| ^ (1 / ((p : ℤ) : ℝ)), N, ?_, by positivity, hN1, hN2, ?_⟩
  · simp only [ChebFun.norm]
    rw [if_neg (by omega), if_neg (by omega)]
    simp only [Bool.false_eq_true, if_false, ChebFun.normDetail, Int.toNat_natCast]
    rw [if_neg (by omega), if_neg (by omega), ChebFun.power, hg]
    rfl
  · intro hlt
    have hvp : (|S| ^ (1 / ((p : ℤ) : ℝ))) ^ p = |S| := by
      rw [← rpow_natCast, ← rpow_mul (abs_nonneg _)]
      have : (1 / ((p : ℤ) : ℝ)) * (p : ℝ) = 1 := by
        push_cast
        field_simp
      rw [this, rpow_one]
    rw [hvp]
    set T := (f.onefun.coeffs.cols.map fun u => ∫ x in f.dom.e0..f.dom.e1, chebEval u (bwd f.dom x) ^ p).sum with hT
    have hTn : 0 ≤ T := by
      apply List.sum_nonneg
      intro a ha
      obtain ⟨u, _, rfl⟩ := List.mem_map.mp ha
      exact intervalIntegral.integral_nonneg hd.le fun x _ => (Nat.even_iff.mpr hp).pow_nonneg _
    have habs : |(|S| - T)| ≤ |S - T| := by
      conv_lhs => rw [← abs_of_nonneg hTn]
      exact abs_abs_sub_abs_le S T
    refine habs.trans ?_
    have hSl : S = (g.coeffs.cols.map fun c => ∫ x in f.dom.e0..f.dom.e1, chebEval c (bwd f.dom x)).sum := by
      rw [hS, C10_fun ⟨f.dom, g⟩ hd hgp.wf hgp.n_pos]
    have hlen : g.coeffs.cols.length = f.onefun.coeffs.cols.length := hgm
    rw [hSl, hT]
    refine (sum_err _ _ (by simpa using hlen) (N * (B * f.onefun.eps) ^ ((1 : ℝ) / 3) * (f.dom.e1 - f.dom.e0)) ?_).trans
      (le_of_eq ?_)
    · intro i hi
      simp only [List.length_map] at hi
      have hi' : i < f.onefun.coeffs.cols.length := by omega
      rw [getD_lt' (List.map _ _) _ _ (by simpa using hi), getD_lt' (List.map _ _) _ _ (by simpa using hi'),
        List.getElem_map, List.getElem_map]
      obtain ⟨d, hdd, hch⟩ := hcols i hi'
      rw [List.getElem?_eq_getElem hi, Option.some.injEq] at hdd
      rw [hdd]
      have hu := List.getElem_mem hi'
      set u := f.onefun.coeffs.cols[i] with huu
      have hul := hf.wf u hu
      have hcont : Continuous fun y => chebEval u y ^ p := by
        apply Continuous.pow
        unfold chebEval
        exact continuous_finsetSum _ fun k _ => continuous_const.mul (Polynomial.continuous _)
      refine int_err f.dom hd d (fun y => chebEval u y ^ p) hcont _ ?_
      intro y hy
      have := hch.error hδ y hy
      rw [interp_power u (hf.col_ne hu) p N (by rw [hul]; exact hlt), interp_length] at this
      exact this
    · simp only [List.length_map, hlen, Arr.m]

/-- The envelope of a unit vector is found to be a plateau at once. -/
lemma chop_unit (tol : ℝ) (h0 : 0 < tol) (h1 : tol < 1) : standardChop (1 :: List.replicate 16 (0 : ℝ)) tol = 0 := by
  have hptol : 0 < tol ^ ((7 : ℝ) / 6) := rpow_pos_of_pos h0 _
  have hptol1 : tol ^ ((7 : ℝ) / 6) < 1 := rpow_lt_one h0.le h1 (by norm_num)
  have hlt : logb 10 tol < 0 := logb_neg (by norm_num) h0 h1
  have hlp : logb 10 (tol ^ ((7 : ℝ) / 6)) = 7 / 6 * logb 10 tol := logb_rpow_eq_mul_logb_of_pos h0
  have henv : envelope ((1 :: List.replicate 16 (0 : ℝ)).map abs) = 1 :: List.replicate 16 0 := by
    simp [List.replicate, envelope]
  simp only [standardChop, standardChopAbs]
  rw [if_neg (not_le.mpr h1), henv, if_neg (by simp), if_neg (by simp), normalizeInPlace_eq _ (by simp)]
  have hscan : scan ((1 :: List.replicate 16 (0 : ℝ)).set 0 1) tol ((1 :: List.replicate 16 (0 : ℝ)).map abs).length
      (((1 :: List.replicate 16 (0 : ℝ)).map abs).length - 1) 1 = .found 0 6 := by
    simp [scan, List.replicate, roundIdx]
  rw [hscan]
  simp [chopStep3, List.replicate, List.range_succ, hptol1.le, not_le.mpr hptol, argmin, linspace0, hlp]
  split_ifs <;> rfl

/-- The coefficients of `T_16`. -/
def t16 : List ℝ := List.replicate 16 0 ++ [1]

lemma t16_eval (x : ℝ) : chebEval t16 x = (Polynomial.Chebyshev.T ℝ 16).eval x := by
  simp [chebEval, t16, sum_range_succ, List.replicate]

lemma t16_grid (x : ℝ) (hx : x ∈ chebpts2 17) : chebEval t16 x ^ 2 = 1 := by
  obtain ⟨k, hk, rfl⟩ := List.mem_iff_getElem.mp hx
  rw [chebpts2_length] at hk
  have := chebpts2_getD 16 (by norm_num) k (by omega)
  rw [getD_lt' _ _ _ (by rw [chebpts2_length]; omega)] at this
  rw [this, t16_eval]
  rw [Polynomial.Chebyshev.T_real_cos]
  have h16 : ((16 : ℤ) : ℝ) * (π * ((16 - k : ℕ) : ℝ) / ((16 : ℕ) : ℝ)) = ((16 - k : ℕ) : ℝ) * π := by
    push_cast; ring
  rw [h16, cos_nat_mul_pi, ← pow_mul, mul_comm, pow_mul]
  norm_num

/-- `T_16` on `[-1, 1]` with accuracy parameter `eps`. -/
noncomputable def fT16 (eps : ℝ) : ChebFun := ⟨⟨-1, 1⟩, ⟨⟨17, [t16]⟩, eps, 1, 1 + 2 ^ 14, true⟩⟩

lemma fT16_power (eps : ℝ) (h0 : 0 < eps) (h1 : eps < 1) :
    ∃ g, (fT16 eps).onefun.power 2 = some g ∧ g.Proper ∧ ∃ d, g.coeffs.cols = [d] ∧ ∀ x, chebEval d x = 1 := by
  have hc : ∀ x, clenshawScalar x t16 = chebEval t16 x := fun x => clenshaw_cheb x t16 (by simp [t16])
  have hT : ∀ x, |x| ≤ 1 → |chebEval t16 x ^ 2| ≤ 1 := by
    intro x hx
    rw [t16_eval, abs_pow]
    exact pow_le_one₀ (abs_nonneg _) (Polynomial.Chebyshev.abs_eval_T_real_le_one 16 hx)
  have hms : max 9 (min (1 + 2 ^ 14) 17) = 17 := by norm_num
  have hf : firstN 17 = 17 := by simp [firstN, Nat.clog_pow 2 4 (by norm_num), show (16 : ℕ) = 2 ^ 4 by norm_num]
  obtain ⟨g, hg, hgp, -, -, -, hm, j, -, hun, hcols⟩ := ofCallable_spec [fun x => chebEval t16 x ^ 2] (by simp) eps (1 + 2 ^ 14) 17 h0
    (by rw [hms, hf]; norm_num) 1 le_rfl (by rw [one_mul]; exact h1) (by
      intro f hf
      rw [List.mem_singleton] at hf
      subst hf
      exact hT)
  rw [hms] at hun hcols
  have hint : interp (fun x => chebEval t16 x ^ 2) 17 = 1 :: List.replicate 16 0 := by
    apply ext_getD 0
    · rw [interp_length]; simp
    · intro k hk
      rw [interp_length] at hk
      rw [interp_series [1] _ 17 (by norm_num) (by simp) (by
        intro x hx
        rw [t16_grid x hx]
        simp [chebEval])]
      rcases k with _ | k
      · rfl
      · rw [getD_ge' [1] _ _ (by simp), List.getD_cons_succ, getD_replicate']
  have hj : j = 0 := by
    by_contra hj
    have := hun 0 (by omega)
    rw [show sizeSeq .nested 17 0 = 17 from hf] at this
    have hv : vscale (⟨17, [1 :: List.replicate 16 0]⟩ : Arr ℝ) = [1] := by
      have h2 : (⟨17, [1 :: List.replicate 16 0]⟩ : Arr ℝ) = polyfit (sample [fun x => chebEval t16 x ^ 2] (chebpts2 17)) := by
        rw [polyfit_sample]; simp [hint]
      rw [vscale, if_neg (by norm_num), h2, C07_val_fit _ (sample_wf _ _) (by show 0 < (chebpts2 17).length; rw [chebpts2_length]; norm_num)]
      have hmap : (chebpts2 17).map (fun x => chebEval t16 x ^ 2) = List.replicate 17 1 := by
        rw [List.map_congr_left (g := fun _ => (1 : ℝ)) fun x hx => t16_grid x hx, List.map_const', chebpts2_length]
      simp only [sample, List.map_cons, List.map_nil, List.cons.injEq, and_true, hmap]
      simp [maxAbs, List.replicate]
    simp only [fitted, polyfit_sample, List.map_cons, List.map_nil, hint, Tech.happy, happinessCheck, hv, happinessCheck.go] at this
    rw [if_neg (by norm_num)] at this
    simp only [List.map_cons, List.map_nil, max_self, one_mul, happinessCheck.go, chop_unit eps h0 h1] at this
    norm_num at this
  subst hj
  obtain ⟨d, hd, hch⟩ := hcols 0 (by simp)
  rw [show sizeSeq .nested 17 0 = 17 from hf] at hch
  simp only [List.getElem_cons_zero, hint, one_mul] at hch
  refine ⟨g, ?_, hgp, d, ?_, ?_⟩
  · rw [Tech.power, if_neg (by norm_num)]
    simp only [fT16, List.map_cons, List.map_nil, hc]
    exact hg
  · have : g.coeffs.cols.length = 1 := hm
    obtain ⟨e, he⟩ := List.length_eq_one_iff.mp this
    rw [he] at hd ⊢
    simpa using hd
  · intro x
    have hδ : eps ^ ((1 : ℝ) / 3) < 1 := rpow_lt_one h0.le h1 (by norm_num)
    rw [chebEval_congr_getD d [1]]
    · simp [chebEval]
    · intro l
      rcases l with _ | l
      · rcases hch 0 with h | ⟨_, h⟩
        · rw [h]; rfl
        · simp at h; linarith
      · rw [getD_ge' [1] _ _ (by simp)]
        have hz : (1 :: List.replicate 16 (0 : ℝ)).getD (l + 1) 0 = 0 := by
          rw [List.getD_cons_succ, getD_replicate']
        rcases hch (l + 1) with h | ⟨h, _⟩
        · rw [h, hz]
        · exact h

/-- C85, failure: the 2-norm of `T_16` on `[-1, 1]`.  `f ** 2` is first sampled on `f.n = 17` points, where `T_16²` is
one, so the constant function one is accepted and `norm(f)` is `√2`; the true norm, also returned by `normh`,
is smaller (whatever the accuracy parameter). -/
theorem C85_norm_fails (eig : List ℝ → List ℂ) (fuel : ℕ) (eps : ℝ) (h0 : 0 < eps) (h1 : eps < 1) :
    ∃ f : ChebFun, f.onefun.Proper ∧ f.dom = ⟨-1, 1⟩ ∧ f.onefun.eps = eps ∧
      f.onefun.coeffs.cols = [List.replicate 16 0 ++ [1]] ∧
      f.norm eig fuel (.fin 2) false = some √2 ∧
      √(∫ x in (-1 : ℝ)..1, (Polynomial.Chebyshev.T ℝ 16).eval x ^ 2) < √2 ∧
      f.normh = some √(∫ x in (-1 : ℝ)..1, (Polynomial.Chebyshev.T ℝ 16).eval x ^ 2) := by
  have hp : (fT16 eps).onefun.Proper := ⟨by simp [fT16, Arr.WF, t16], by simp [fT16, Arr.m]⟩
  have hd : (fT16 eps).dom.e0 < (fT16 eps).dom.e1 := by simp [fT16]
  have hb : ∀ x, bwd (⟨-1, 1⟩ : Ends) x = x := by intro x; simp only [bwd, Mapping.diff]; ring
  refine ⟨fT16 eps, hp, rfl, rfl, rfl, ?_, ?_, ?_⟩
  · obtain ⟨g, hg, hgp, d, hgd, hd1⟩ := fT16_power eps h0 h1
    have hs : ChebFun.sum ⟨(fT16 eps).dom, g⟩ = [2] := by
      rw [C10_fun ⟨(fT16 eps).dom, g⟩ hd hgp.wf hgp.n_pos]
      simp only [hgd, List.map_cons, List.map_nil, hd1, List.cons.injEq, and_true]
      simp [fT16]; norm_num
    simp only [ChebFun.norm]
    rw [if_neg (by norm_num), if_neg (by norm_num)]
    simp only [Bool.false_eq_true, if_false, ChebFun.normDetail, show Int.toNat 2 = 2 from rfl]
    rw [if_neg (by norm_num), if_neg (by norm_num), ChebFun.power, hg]
    simp only [Option.map_some, hs]
    norm_num [sqrt_eq_rpow]
  · apply sqrt_lt_sqrt (intervalIntegral.integral_nonneg (by norm_num) fun x _ => sq_nonneg _)
    have hcT : Continuous fun x => (Polynomial.Chebyshev.T ℝ 16).eval x ^ 2 := (Polynomial.continuous _).pow 2
    have hlt : ∫ x in (-1 : ℝ)..1, (Polynomial.Chebyshev.T ℝ 16).eval x ^ 2 < ∫ _ in (-1 : ℝ)..1, (1 : ℝ) := by
      apply intervalIntegral.integral_lt_integral_of_continuousOn_of_le_of_exists_lt (by norm_num)
        hcT.continuousOn continuousOn_const
      · intro x hx
        have := Polynomial.Chebyshev.abs_eval_T_real_le_one 16 (x := x) (abs_le.mpr ⟨hx.1.le, hx.2⟩)
        rw [← sq_abs]
        exact pow_le_one₀ (abs_nonneg _) this
      · refine ⟨cos (π / 32), ⟨neg_one_le_cos _, cos_le_one _⟩, ?_⟩
        rw [Polynomial.Chebyshev.T_real_cos, show ((16 : ℤ) : ℝ) * (π / 32) = π / 2 by push_cast; ring, cos_pi_div_two]
        norm_num
    refine hlt.trans_le ?_
    simp; norm_num
  · rw [C84_normh _ hp hd]
    simp only [fT16, List.map_cons, List.map_nil, List.sum_cons, List.sum_nil, add_zero, hb, t16_eval]

/-- C85, failure: `abs(f)` raises for every function with more than 513 coefficients, so there is no `norm(f, p)` for
odd `p` either: the first grid would have 1025 points, more than the `maxLength` of 1024 passed by `absolute`. -/
theorem C85_abs_long_fails (eig : List ℝ → List ℂ) (fuel : ℕ) (f : ChebFun) (hn : 513 < f.onefun.coeffs.n) :
    f.absolute = none ∧ ∀ p : ℤ, 0 < p → p % 2 = 1 → f.norm eig fuel (.fin p) false = none := by
  have ha : f.absolute = none := by
    have hf : 1024 < firstN (max 9 (min (2 ^ 10) f.onefun.coeffs.n)) := by
      have h1 : 513 ≤ max 9 (min (2 ^ 10) f.onefun.coeffs.n) - 1 := by omega
      have h2 : 9 < Nat.clog 2 (max 9 (min (2 ^ 10) f.onefun.coeffs.n) - 1) := by
        apply (Nat.lt_clog_iff_pow_lt (by norm_num)).mpr
        omega
      have := Nat.pow_le_pow_right (n := 2) (by norm_num) h2
      simp only [firstN]
      omega
    simp only [ChebFun.absolute, Tech.absolute, ofCallable]
    rw [C24_too_short .nested _ _ _ rfl _ (by simpa using hf)]
    simp [Tech.mk']
  refine ⟨ha, fun p hp hodd => ?_⟩
  simp only [ChebFun.norm]
  rw [if_neg (by omega)]
  have hd : f.normDetail p.toNat = none := by
    simp only [ChebFun.normDetail]
    split_ifs
    · simp [ha]
    · simp [ha]
    · omega
  simp [hd]

/-- C85, `p = 1`: for a function with at most 513 coefficients none of whose columns changes sign, `norm(f, 1)` differs
from the sum of the `∫_a^b |f_j(x)| dx` by at most `1024 m (b - a) (B eps)^(1/3)`, where `B` bounds the values of `f`. -/
theorem C85_norm_one_partial (eig : List ℝ → List ℂ) (fuel : ℕ) (f : ChebFun) (hf : f.onefun.Proper) (hd : f.dom.e0 < f.dom.e1)
    (hn : f.onefun.coeffs.n ≤ 513) (B : ℝ) (hB : 1 ≤ B) (h0 : 0 < f.onefun.eps) (hBe : B * f.onefun.eps < 1)
    (hbd : ∀ c ∈ f.onefun.coeffs.cols, ∀ x, |x| ≤ 1 → |chebEval c x| ≤ B)
    (hsign : ∀ c ∈ f.onefun.coeffs.cols, (∀ x, |x| ≤ 1 → 0 ≤ chebEval c x) ∨ (∀ x, |x| ≤ 1 → chebEval c x ≤ 0)) :
    ∃ v, f.norm eig fuel (.fin 1) false = some v ∧
      |v - (f.onefun.coeffs.cols.map fun u => ∫ x in f.dom.e0..f.dom.e1, |chebEval u (bwd f.dom x)|).sum|
        ≤ f.onefun.coeffs.m * ((1024 * (B * f.onefun.eps) ^ ((1 : ℝ) / 3)) * (f.dom.e1 - f.dom.e0)) := by
  have hδ : 0 ≤ (B * f.onefun.eps) ^ ((1 : ℝ) / 3) := by positivity
  have hfn : (f.onefun.coeffs.cols.map fun c x => |clenshawScalar x c|) = f.onefun.coeffs.cols.map fun c x => |chebEval c x| := by
    apply List.map_congr_left
    intro c hc
    funext x
    rw [clenshaw_cheb x c (hf.col_ne hc)]
  have hne : (f.onefun.coeffs.cols.map fun (c : List ℝ) (x : ℝ) => |chebEval c x|) ≠ [] := by
    intro h
    have := hf.m_ne
    simp only [List.map_eq_nil_iff] at h
    simp [Arr.m, h] at this
  have hms : max 9 (min (2 ^ 10) f.onefun.coeffs.n) ≤ 2 ^ 9 + 1 := by omega
  obtain ⟨g, hg, hgp, -, -, -, hm, j, hj, -, hcols⟩ := ofCallable_spec
    (f.onefun.coeffs.cols.map fun (c : List ℝ) (x : ℝ) => |chebEval c x|) hne f.onefun.eps (2 ^ 10) f.onefun.coeffs.n h0
    (by have := firstN_le _ 9 hms; omega) B hB hBe (by
      intro F hF
      obtain ⟨c, hc, rfl⟩ := List.mem_map.mp hF
      intro x hx
      rw [abs_abs]
      exact hbd c hc x hx)
  have hNm := sizeSeq_mono (max 9 (min (2 ^ 10) f.onefun.coeffs.n)) j
  have hN0 : max 9 (min (2 ^ 10) f.onefun.coeffs.n) ≤ sizeSeq .nested (max 9 (min (2 ^ 10) f.onefun.coeffs.n)) 0 :=
    firstN_ge_self _ (by omega)
  set N := sizeSeq .nested (max 9 (min (2 ^ 10) f.onefun.coeffs.n)) j with hN
  have hlen : g.coeffs.cols.length = f.onefun.coeffs.cols.length := by simpa [Arr.m] using hm
  have hsum := C10_fun ⟨f.dom, g⟩ hd hgp.wf hgp.n_pos
  refine ⟨(ChebFun.sum ⟨f.dom, g⟩).sum, ?_, ?_⟩
  · simp only [ChebFun.norm]
    rw [if_neg (by norm_num)]
    simp only [Bool.false_eq_true, if_false, ChebFun.normDetail, show Int.toNat 1 = 1 from rfl, if_true, ChebFun.absolute,
      Tech.absolute, hfn, hg, Option.map_some]
  · rw [hsum]
    refine (sum_err _ _ (by simpa using hlen) ((1024 * (B * f.onefun.eps) ^ ((1 : ℝ) / 3)) * (f.dom.e1 - f.dom.e0)) ?_).trans
      (le_of_eq ?_)
    · intro i hi
      simp only [List.length_map] at hi
      have hi' : i < f.onefun.coeffs.cols.length := by omega
      rw [getD_lt' (List.map _ _) _ _ (by simpa using hi), getD_lt' (List.map _ _) _ _ (by simpa using hi'),
        List.getElem_map, List.getElem_map]
      obtain ⟨d, hdd, hch⟩ := hcols i (by simpa using hi')
      rw [List.getElem?_eq_getElem hi, Option.some.injEq] at hdd
      rw [hdd]
      simp only [List.getElem_map] at hch
      have hu := List.getElem_mem hi'
      set u := f.onefun.coeffs.cols[i] with huu
      have hul := hf.wf u hu
      have hcu : Continuous fun y => chebEval u y := by
        unfold chebEval
        exact continuous_finsetSum _ fun k _ => continuous_const.mul (Polynomial.continuous _)
      refine int_err f.dom hd d (fun y => |chebEval u y|) hcu.abs _ ?_
      intro y hy
      have herr := hch.error hδ y hy
      rw [interp_length] at herr
      have hval : chebEval (interp (fun x => |chebEval u x|) N) y = |chebEval u y| := by
        rcases hsign u hu with hs | hs
        · rw [abs_of_nonneg (hs y hy)]
          exact chebEval_congr_getD _ _ (interp_series u _ N (by omega) (by rw [hul]; omega) (fun x hx =>
            abs_of_nonneg (hs x (chebpts2_mem_abs N (by omega) x hx)))) y
        · rw [abs_of_nonpos (hs y hy)]
          have hneg : ∀ x, -chebEval u x = chebEval (u.map (-·)) x := by
            intro x
            rw [chebEval, chebEval, List.length_map, ← sum_neg_distrib]
            apply sum_congr rfl
            intro k hk
            rw [getD_lt' (List.map _ u) _ _ (by simpa using hk), List.getElem_map, getD_lt' u _ _ (by simpa using hk)]
            ring
          rw [hneg]
          exact chebEval_congr_getD _ _ (interp_series (u.map (-·)) _ N (by omega) (by rw [List.length_map, hul]; omega) (fun x hx => by
            rw [abs_of_nonpos (hs x (chebpts2_mem_abs N (by omega) x hx)), hneg])) y
      rw [hval] at herr
      refine herr.trans (mul_le_mul_of_nonneg_right ?_ hδ)
      exact_mod_cast (show N ≤ 1024 from hj)
    · simp only [List.length_map, hlen, Arr.m]

/-- The hypotheses of C85 are met by `f = 2 + x` on `[0, 3]`, with `B = 9` for `p = 2`. -/
example : let f : ChebFun := ⟨⟨0, 3⟩, ⟨⟨2, [[2, 1]]⟩, 1 / 1000, 1, 10, true⟩⟩
    f.onefun.Proper ∧ f.dom.e0 < f.dom.e1 ∧ 0 < f.onefun.eps ∧ 9 * f.onefun.eps < 1 ∧
    (∀ c ∈ f.onefun.coeffs.cols, ∀ x, |x| ≤ 1 → |chebEval c x ^ 2| ≤ 9) ∧
    ∀ c ∈ f.onefun.coeffs.cols, ∀ x, |x| ≤ 1 → 0 ≤ chebEval c x := by
  refine ⟨⟨by simp [Arr.WF], by simp [Arr.m]⟩, by norm_num, by norm_num, by norm_num, ?_, ?_⟩
  · intro c hc x hx
    simp only [List.mem_singleton] at hc
    subst hc
    obtain ⟨h1, h2⟩ := abs_le.mp hx
    have : chebEval [2, 1] x = 2 + x := by simp [chebEval, sum_range_succ]
    rw [this, abs_of_nonneg (sq_nonneg _)]
    nlinarith
  · intro c hc x hx
    simp only [List.mem_singleton] at hc
    subst hc
    obtain ⟨h1, h2⟩ := abs_le.mp hx
    have : chebEval [2, 1] x = 2 + x := by simp [chebEval, sum_range_succ]
    rw [this]; linarith

end Funpy.Props
