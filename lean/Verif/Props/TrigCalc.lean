import Verif.Lemmas.TrigCalc
import Verif.Lemmas.ListAux2
import Verif.Props.TrigBasic

/-!
# C33 – C36, C60: calculus, shifts and inner products of periodic functions
-/

namespace Funpy.Props
open Spec Trig Finset Complex ComplexConjugate

private lemma bwd_affine (d : Ends) (h : d.e0 < d.e1) (x : ℝ) :
    Mapping.bwd d x = (0.5 * Mapping.diff d)⁻¹ * x + (-(d.e0 + d.e1) / (d.e1 - d.e0)) := by
  have : d.e1 - d.e0 ≠ 0 := by linarith
  unfold Mapping.bwd Mapping.diff
  field_simp
  ring

private lemma bwd_e0 (d : Ends) (h : d.e0 < d.e1) : Mapping.bwd d d.e0 = -1 := by
  have : d.e1 - d.e0 ≠ 0 := by linarith
  unfold Mapping.bwd Mapping.diff; field_simp; ring

private lemma bwd_e1 (d : Ends) (h : d.e0 < d.e1) : Mapping.bwd d d.e1 = 1 := by
  have : d.e1 - d.e0 ≠ 0 := by linarith
  unfold Mapping.bwd Mapping.diff; field_simp; ring

/-! ## C33 -/

/-- C33: `np.sum(f)` is, column by column, the integral over `[-1, 1]` of the function returned by
evaluation - for every object, whatever its flags. -/
theorem C33_tech (t : Tech) (hp : t.Proper) (i : ℕ) (hi : i < t.cols.length) :
    t.sum.getD i 0 = ∫ x in (-1 : ℝ)..1, (t.feval x).1.getD i 0 := by
  have hlen := hp.wf _ (List.getElem_mem hi)
  have hne : (t.cols[i]).length ≠ 0 := by rw [hlen]; exact hp.pos
  have hidx : (t.n + 2) / 2 - 1 = (t.cols[i]).length / 2 := by omega
  have hr : i < t.isReal.length := by rw [hp.lr]; exact hi
  have hs : t.sum.getD i 0 = if t.isReal[i] then ((((2 * (t.cols[i]).getD ((t.cols[i]).length / 2) 0)).re : ℝ) : ℂ)
      else 2 * (t.cols[i]).getD ((t.cols[i]).length / 2) 0 := by
    unfold Tech.sum
    rw [getD_lt' (List.zipWith _ _ _) _ _ (by simp; omega), List.getElem_zipWith]
    simp only [hidx]
  rw [hs]
  by_cases hall : t.isReal.all id = true
  · have hri : t.isReal[i] = true := by
      rw [List.all_eq_true] at hall; exact hall _ (List.getElem_mem _)
    rw [if_pos hri, ← integral_hornerReal _ hne]
    congr 1
    funext x
    unfold Tech.feval horner
    simp only [hall, if_true]
    rw [getD_lt' (List.map _ _) _ _ (by simpa using hi), List.getElem_map]
  · have hx : ∀ x, (t.feval x).1.getD i 0 = if t.isReal[i] then (((trigEval t.cols[i] x).re : ℝ) : ℂ)
        else trigEval t.cols[i] x := by
      intro x
      unfold Tech.feval horner
      simp only [hall]
      rw [if_neg (by simp), getD_lt' (List.zipWith _ _ _) _ _ (by simp; omega), List.getElem_zipWith,
        hornerCmplx_eq x _ hne]
    simp only [hx]
    split_ifs with h
    · rw [integral_re _ (continuous_trigEval _), integral_trigEval _ hne]
    · rw [integral_trigEval _ hne]

/-- C33 on a domain: `np.sum(f)` is the integral over `[a, b]`. -/
theorem C33_fun (f : TrigFun) (hd : f.dom.e0 < f.dom.e1) (hp : f.onefun.Proper) (i : ℕ)
    (hi : i < f.onefun.cols.length) :
    f.sum.getD i 0
      = ∫ x in f.dom.e0..f.dom.e1, (f.onefun.feval (Mapping.bwd f.dom x)).1.getD i 0 := by
  have hpos : 0 < f.dom.e1 - f.dom.e0 := by linarith
  have hsc : 0 < 0.5 * Mapping.diff f.dom := by unfold Mapping.diff; linarith
  have hsl : i < f.onefun.sum.length := by
    unfold Tech.sum; simp [hp.lr]; exact hi
  simp only [bwd_affine f.dom hd]
  rw [intervalIntegral.integral_comp_mul_add (fun y => (f.onefun.feval y).1.getD i 0)
    (inv_ne_zero hsc.ne')]
  rw [← bwd_affine f.dom hd, ← bwd_affine f.dom hd, bwd_e0 f.dom hd, bwd_e1 f.dom hd, ← C33_tech _ hp i hi,
    inv_inv]
  unfold TrigFun.sum TrigFun.rescale
  rw [getD_lt' (List.map _ _) _ _ (by simpa using hsl), List.getElem_map, getD_lt' _ _ _ hsl,
    mul_comm, Complex.real_smul]

example : (Tech.ofCoeffs 3 [[0, 1, 1], [1, 5, 1]] 1e-10).Proper :=
  ofCoeffs_proper _ (by norm_num) _ _ (by simp)

/-! ## C34 -/

/-- C34: the coefficients returned by `np.diff(f, n=p)` represent the `p`-th derivative if the length
is odd, or `p` is even, or the unpaired mode of an even-length function vanishes.  (For `p = 0` this
is `f` itself.) -/
theorem C34_tech_partial (t : Tech) (hp : t.Proper) (p : ℕ)
    (h : t.n % 2 = 1 ∨ p % 2 = 0 ∨ ∀ c ∈ t.cols, c.getD 0 0 = 0) (x : ℝ) :
    (t.diff p).Proper ∧
    series (t.diff p) x = t.cols.map fun c => iteratedDeriv p (trigEval c) x := by
  constructor
  · apply ofCoeffs_proper _ hp.pos
    intro c hc
    obtain ⟨d, hd, rfl⟩ := List.mem_map.mp hc
    rw [diffCol_length]; exact hp.wf d hd
  · simp only [series, Tech.diff, Tech.ofCoeffs, Tech.make, List.map_map]
    apply List.map_congr_left
    intro c hc
    have hl := hp.wf c hc
    have := diffCol_eval p c (by rw [hl]; exact hp.pos) (by
      rcases h with h | h | h
      · left; omega
      · exact Or.inr (Or.inl h)
      · exact Or.inr (Or.inr (h c hc))) 1 0 x
    simp only [one_mul, add_zero, ofReal_one, one_pow] at this
    exact this.symm

/-- C34 on a domain `[a, b]`: the chain-rule factor is applied. -/
theorem C34_fun_partial (f : TrigFun) (hd : f.dom.e0 < f.dom.e1) (hp : f.onefun.Proper) (p : ℕ)
    (h : f.onefun.n % 2 = 1 ∨ p % 2 = 0 ∨ ∀ c ∈ f.onefun.cols, c.getD 0 0 = 0) (x : ℝ) :
    (f.diff p).dom = f.dom ∧
    series (f.diff p).onefun (Mapping.bwd f.dom x)
      = f.onefun.cols.map fun c => iteratedDeriv p (fun y => trigEval c (Mapping.bwd f.dom y)) x := by
  refine ⟨rfl, ?_⟩
  simp only [series, TrigFun.diff, Tech.diff, Tech.ofCoeffs, Tech.ofBoth, Tech.make, List.map_map]
  apply List.map_congr_left
  intro c hc
  have hl := hp.wf c hc
  have key := diffCol_eval p c (by rw [hl]; exact hp.pos) (by
      rcases h with h | h | h
      · left; omega
      · exact Or.inr (Or.inl h)
      · exact Or.inr (Or.inr (h c hc))) (0.5 * Mapping.diff f.dom)⁻¹
        (-(f.dom.e0 + f.dom.e1) / (f.dom.e1 - f.dom.e0)) x
  have hfun : (fun y => trigEval c (Mapping.bwd f.dom y)) = fun y : ℝ => trigEval c
      ((0.5 * Mapping.diff f.dom)⁻¹ * y + -(f.dom.e0 + f.dom.e1) / (f.dom.e1 - f.dom.e0)) := by
    funext y; rw [bwd_affine f.dom hd]
  rw [hfun, key, ← bwd_affine f.dom hd]
  simp only [Function.comp, trigEval, List.length_map, TrigFun.rescale]
  rw [mul_sum]
  apply sum_congr rfl
  intro k hk
  have hk' := mem_range.mp hk
  rw [getD_lt' (List.map _ _) _ _ (by simpa using hk'), List.getElem_map, getD_lt' _ _ _ hk']
  simp only [ofReal_pow, ofReal_inv, inv_pow]
  ring

/-- C34 fails for even lengths and odd order: differentiating `cos(πx)` stored with two coefficients
gives a function with value `-iπ` at `0`, where the derivative is `0`. -/
theorem C34_even_length_fails :
    let t := Tech.ofCoeffs 2 [[1, 0]] 1e-10
    series t 0 = [1] ∧ series (t.diff 1) 0 = [-(I * Real.pi)] ∧
      (∀ x : ℝ, trigEval [1, 0] x = Real.cos (Real.pi * x)) ∧ iteratedDeriv 1 (trigEval [1, 0]) 0 = 0 := by
  have hc : ∀ x : ℝ, trigEval [1, 0] x = Real.cos (Real.pi * x) := by
    intro x; simp [trigEval, trigMode, sum_range_succ]
  refine ⟨?_, ?_, hc, ?_⟩
  · simp [series, Tech.ofCoeffs, Tech.make, hc]
  · simp only [series, Tech.diff, Tech.ofCoeffs, Tech.make, List.map_cons, List.map_nil, trigEval,
      diffCol_length]
    simp [sum_range_succ, trigMode, diffCol]
  · have e : trigEval [1, 0] = fun x : ℝ => ((Real.cos (Real.pi * x) : ℝ) : ℂ) := funext hc
    rw [iteratedDeriv_one, e]
    have h1 : HasDerivAt (fun x : ℝ => Real.cos (Real.pi * x)) (-Real.sin (Real.pi * 0) * (Real.pi * 1)) 0 :=
      ((hasDerivAt_id (0 : ℝ)).const_mul Real.pi).cos
    have := h1.ofReal_comp.deriv
    rw [this]; simp

example : (Tech.ofCoeffs 3 [[1, 2, 3]] 1e-10).Proper ∧ (Tech.ofCoeffs 3 [[1, 2, 3]] 1e-10).n % 2 = 1 :=
  ⟨ofCoeffs_proper _ (by norm_num) _ _ (by simp), rfl⟩

/-! ## C35 -/

/-- C35: a function whose mean (in any column) exceeds the tolerance is refused. -/
theorem C35_mean_refused (t : Tech) (c : List ℂ) (hc : c ∈ t.cols)
    (h : 10 * t.vscale * t.eps < ‖c.getD (t.n / 2) 0‖) : t.cumsum = none := by
  unfold Tech.cumsum
  rw [if_pos ⟨c, hc, h⟩]

private lemma cumScaled_length (c : List ℂ) (hc : c.length ≠ 0) :
    (cumScaled c).length = if c.length % 2 = 0 then c.length + 1 else c.length := by
  unfold cumScaled cumMut
  by_cases h : c.length % 2 = 0 <;> simp [h]

/-- C35, what holds: for an odd-length function with mean within the tolerance, every coefficient of
the result except the one of wave number `1` is the one of the antiderivative: `c_w/(iπw)` (and `0`
for the constant). -/
theorem C35_modes_partial (t : Tech) (hp : t.Proper) (hodd : t.n % 2 = 1) (h1 : t.n ≠ 1)
    (hmean : ∀ c ∈ t.cols, ‖c.getD (t.n / 2) 0‖ ≤ 10 * t.vscale * t.eps) :
    ∃ g f', t.cumsum = some (g, f') ∧ g.n = t.n ∧ g.cols.length = t.cols.length ∧
      ∀ i < t.cols.length, ∀ k < t.n, wave t.n k ≠ 1 →
        (g.cols.getD i []).getD k 0 = if wave t.n k = 0 then 0
          else (t.cols.getD i []).getD k 0 / (I * Real.pi * wave t.n k) := by
  unfold Tech.cumsum
  rw [if_neg (by push Not; exact hmean), if_neg h1]
  simp only [hodd, one_ne_zero, if_false]
  refine ⟨_, _, rfl, rfl, by simp [Tech.ofCoeffs, Tech.make], ?_⟩
  intro i hi k hk hw
  simp only [Tech.ofCoeffs, Tech.make]
  have hl := hp.wf _ (List.getElem_mem hi)
  rw [getD_lt' (List.map _ _) _ _ (by simpa using hi), List.getElem_map, List.getElem_map,
    getD_lt' _ _ _ hi, getD_set', if_neg (by rintro ⟨h, _⟩; apply hw; unfold wave; omega)]
  set c := t.cols[i] with hc
  have hco : ¬ (c.length % 2 = 0) := by omega
  have hidx : ((c.length + 1) / 2) ≠ k := by
    intro h; apply hw; unfold wave; omega
  unfold cumScaled cumMut
  simp only [hco, if_false]
  rw [getD_lt' _ _ _ (by simp; omega)]
  simp only [List.getElem_mapIdx]
  rw [← getD_lt' _ 0 _ _, getD_set', if_neg (by tauto)]
  have hkw : ((k : ℤ) - ((c.length / 2 : ℕ) : ℤ)) = wave t.n k := by unfold wave; rw [hl]
  rw [hkw]
  by_cases hz : wave t.n k = 0
  · rw [if_pos hz, if_pos (by unfold wave at hz; omega), mul_zero]
  · rw [if_neg hz, if_neg (by unfold wave at hz; omega)]
    have hpi : (Real.pi : ℂ) ≠ 0 := by exact_mod_cast Real.pi_ne_zero
    have hw' : (wave t.n k : ℂ) ≠ 0 := by exact_mod_cast hz
    field_simp
    linear_combination (c.getD k 0) * I_sq * (-1)

private lemma sin2_cumsum : ∃ g f', (Tech.ofCoeffs 5 [[I / 2, 0, 0, 0, -I / 2]] 1e-10).cumsum = some (g, f') ∧
    g.cols = ([[-1 / (4 * (Real.pi : ℂ)), 0, 0, 1 / (2 * (Real.pi : ℂ)), -1 / (4 * (Real.pi : ℂ))]] : List (List ℂ)) := by
  unfold Tech.cumsum
  rw [if_neg, if_neg (by simp [Tech.ofCoeffs, Tech.make])]
  · refine ⟨_, _, rfl, ?_⟩
    have hpi : (Real.pi : ℂ) ≠ 0 := by exact_mod_cast Real.pi_ne_zero
    simp [Tech.ofCoeffs, Tech.make, cumScaled, cumMut, List.mapIdx, List.mapIdx.go]
    refine ⟨?_, ?_, ?_⟩
    · field_simp; linear_combination 4 * I_sq
    · field_simp; norm_num
    · field_simp; norm_num
  · push Not
    intro c hc
    simp [Tech.ofCoeffs, Tech.make] at hc
    subst hc
    simp [Tech.ofCoeffs, Tech.make]
    positivity

/-- C35 fails: for the mean-zero function `sin(2πx)` the result is not the antiderivative vanishing at
`-1`: at `-1` it has the value `-1/π`, and it is not even real: at `1/2` its imaginary part is
`1/(2π)`. -/
theorem C35_fails :
    (∀ x : ℝ, trigEval [I / 2, 0, 0, 0, -I / 2] x = Real.sin (2 * Real.pi * x)) ∧
    ∃ g f', (Tech.ofCoeffs 5 [[I / 2, 0, 0, 0, -I / 2]] 1e-10).cumsum = some (g, f') ∧
      series g (-1) = [((-1 / Real.pi : ℝ) : ℂ)] ∧ (series g (1 / 2)).map Complex.im = [1 / (2 * Real.pi)] := by
  constructor
  · intro x
    rw [trigEval_odd _ (by simp)]
    simp only [sum_range_succ, List.length_cons, List.length_nil, range_zero, sum_empty, wave]
    simp
    rw [Complex.sin]
    have e1 : cexp (-(2 * (Real.pi : ℂ) * x) * I) = cexp (-(I * Real.pi * 2 * x)) := by congr 1; ring
    have e2 : cexp (2 * (Real.pi : ℂ) * x * I) = cexp (I * Real.pi * 2 * x) := by congr 1; ring
    rw [e1, e2]; ring
  · obtain ⟨g, f', h, hg⟩ := sin2_cumsum
    have hpi : (Real.pi : ℂ) ≠ 0 := by exact_mod_cast Real.pi_ne_zero
    refine ⟨g, f', h, ?_, ?_⟩
    · simp only [series, hg, List.map_cons, List.map_nil]
      rw [trigEval_odd _ (by simp)]
      simp only [sum_range_succ, List.length_cons, List.length_nil, range_zero, sum_empty, wave]
      have e1 : cexp (I * Real.pi * 2) = 1 := by
        rw [Complex.exp_eq_one_iff]; exact ⟨1, by push_cast; ring⟩
      have e2 : cexp (-(I * Real.pi)) = -1 := by
        rw [Complex.exp_neg, mul_comm, Complex.exp_pi_mul_I]; norm_num
      have e3 : cexp (-(I * Real.pi * 2)) = 1 := by rw [Complex.exp_neg, e1, inv_one]
      norm_num [e1, e2, e3]
      field_simp
      norm_num
    · simp only [series, hg, List.map_cons, List.map_nil]
      rw [trigEval_odd _ (by simp)]
      simp only [sum_range_succ, List.length_cons, List.length_nil, range_zero, sum_empty, wave]
      have e1 : cexp (I * Real.pi) = -1 := by rw [mul_comm, Complex.exp_pi_mul_I]
      have e2 : cexp (I * Real.pi * 2⁻¹) = I := by
        rw [show I * (Real.pi : ℂ) * 2⁻¹ = (Real.pi / 2 : ℝ) * I by push_cast; ring, Complex.exp_mul_I]
        rw [← ofReal_cos, ← ofReal_sin, Real.cos_pi_div_two, Real.sin_pi_div_two]; simp
      have e3 : cexp (-(I * Real.pi)) = -1 := by rw [Complex.exp_neg, e1]; norm_num
      have q1 : -(I * (Real.pi : ℂ) * 2 * (1 / 2)) = -(I * Real.pi) := by ring
      have q2 : I * (Real.pi : ℂ) * 2 * (1 / 2) = I * Real.pi := by ring
      have q3 : I * (Real.pi : ℂ) * (1 / 2) = I * Real.pi * 2⁻¹ := by ring
      have q4 : (-1 / (4 * (Real.pi : ℂ))) = ((-1 / (4 * Real.pi) : ℝ) : ℂ) := by push_cast; ring
      norm_num
      rw [q1, q2, q3, e1, e2, e3, q4, ofReal_im]
      simp

/-- C35 also fails to be a query: for odd lengths it deletes the mode of wave number `1` of its
*argument*. -/
theorem C35_mutates_argument :
    ∃ g f', (Tech.ofCoeffs 3 [[I / 2, 0, -I / 2]] 1e-10).cumsum = some (g, f') ∧
      f'.cols = [[I / 2, 0, 0]] := by
  unfold Tech.cumsum
  rw [if_neg, if_neg (by simp [Tech.ofCoeffs, Tech.make])]
  · exact ⟨_, _, rfl, by simp [Tech.ofCoeffs, Tech.make, cumMut]⟩
  · push Not
    intro c hc
    simp [Tech.ofCoeffs, Tech.make] at hc
    subst hc
    simp [Tech.ofCoeffs, Tech.make]
    positivity

example : (Tech.ofCoeffs 3 [[I / 2, 0, -I / 2]] 1e-10).Proper ∧ (Tech.ofCoeffs 3 [[I / 2, 0, -I / 2]] 1e-10).n % 2 = 1 :=
  ⟨ofCoeffs_proper _ (by norm_num) _ _ (by simp), rfl⟩

/-! ## C36 -/

/-- C36 on `[-1, 1]`: `circshift(f, a)` represents `x ↦ f(x - a)` (periodically continued) for odd
lengths, and for even lengths without the unpaired mode. -/
theorem C36_tech_partial (t : Tech) (hp : t.Proper) (a : ℝ)
    (h : t.n % 2 = 1 ∨ ∀ c ∈ t.cols, c.getD 0 0 = 0) (x : ℝ) :
    series (t.circshift a) x = series t (x - a) := by
  unfold Tech.circshift
  split_ifs with ha
  · rw [ha, sub_zero]
  · simp only [series, Tech.ofBoth, Tech.make, List.map_map]
    apply List.map_congr_left
    intro c hc
    have hl := hp.wf c hc
    exact shiftCol_eval a c (by
      rcases h with h | h
      · left; omega
      · exact Or.inr (h c hc)) x

/-- C36 on a domain `[a, b]`: `np.roll(f, s)(x) = f(x - s (b-a)/2)`. -/
theorem C36_fun_partial (f : TrigFun) (hd : f.dom.e0 < f.dom.e1) (hp : f.onefun.Proper) (s : ℝ)
    (h : f.onefun.n % 2 = 1 ∨ ∀ c ∈ f.onefun.cols, c.getD 0 0 = 0) (x : ℝ) :
    (f.roll s).dom = f.dom ∧ series (f.roll s).onefun (Mapping.bwd f.dom x)
      = series f.onefun (Mapping.bwd f.dom (x - s * ((f.dom.e1 - f.dom.e0) / 2))) := by
  refine ⟨rfl, ?_⟩
  simp only [TrigFun.roll]
  rw [C36_tech_partial _ hp s h]
  congr 1
  have : f.dom.e1 - f.dom.e0 ≠ 0 := by linarith
  unfold Mapping.bwd Mapping.diff
  field_simp
  ring

/-- C36 as stated holds when the domain has length 2. -/
theorem C36_length_two_partial (f : TrigFun) (hd : f.dom.e1 = f.dom.e0 + 2) (hp : f.onefun.Proper) (s : ℝ)
    (h : f.onefun.n % 2 = 1 ∨ ∀ c ∈ f.onefun.cols, c.getD 0 0 = 0) (x : ℝ) :
    series (f.roll s).onefun (Mapping.bwd f.dom x) = series f.onefun (Mapping.bwd f.dom (x - s)) := by
  rw [(C36_fun_partial f (by linarith) hp s h x).2, hd]
  congr 2
  ring

/-- C36 fails on other domains: on `[0, 4]`, rolling `exp(iπ(x-2)/2)` by `1` gives a function with value
`1` at `4`, whereas `f(4 - 1) = i`. -/
theorem C36_domain_fails :
    let f : TrigFun := ⟨⟨0, 4⟩, Tech.ofCoeffs 3 [[0, 0, 1]] 1e-10⟩
    series (f.roll 1).onefun (Mapping.bwd f.dom 4) = [1] ∧
      series f.onefun (Mapping.bwd f.dom (4 - 1)) = [I] := by
  have hp : (Tech.ofCoeffs 3 [[0, 0, 1]] 1e-10).Proper := ofCoeffs_proper _ (by norm_num) _ _ (by simp)
  have hs : ∀ y : ℝ, series (Tech.ofCoeffs 3 [[0, 0, 1]] 1e-10) y = [cexp (I * Real.pi * y)] := by
    intro y
    show [trigEval [0, 0, 1] y] = _
    rw [trigEval_odd _ (by simp)]
    simp only [sum_range_succ, List.length_cons, List.length_nil, range_zero, sum_empty, wave]
    norm_num
  constructor
  · rw [(C36_fun_partial ⟨⟨0, 4⟩, Tech.ofCoeffs 3 [[0, 0, 1]] 1e-10⟩ (by norm_num) hp 1 (Or.inl rfl) 4).2, hs]
    norm_num [Mapping.bwd, Mapping.diff]
  · rw [hs]
    norm_num [Mapping.bwd, Mapping.diff]
    rw [show I * (Real.pi : ℂ) * (1 / 2) = (Real.pi / 2 : ℝ) * I by push_cast; ring, Complex.exp_mul_I]
    rw [← ofReal_cos, ← ofReal_sin, Real.cos_pi_div_two, Real.sin_pi_div_two]; simp

/-- C36 fails for even lengths: shifting `cos(πx)` (two coefficients) by `1/2` gives a function with
value `i` at `0` instead of `cos(-π/2) = 0`. -/
theorem C36_even_length_fails :
    series ((Tech.ofCoeffs 2 [[1, 0]] 1e-10).circshift (1 / 2)) 0 = [I] ∧
      series (Tech.ofCoeffs 2 [[1, 0]] 1e-10) (0 - 1 / 2) = [0] := by
  constructor
  · unfold Tech.circshift
    rw [if_neg (by norm_num)]
    simp only [series, Tech.ofCoeffs, Tech.ofBoth, Tech.make, List.map_cons, List.map_nil, trigEval,
      shiftCol_length]
    simp only [List.length_cons, List.length_nil, sum_range_succ, range_zero, sum_empty]
    rw [shiftCol_getD _ _ _ (by simp), shiftCol_getD _ _ _ (by simp)]
    simp [trigMode, wave]
    rw [show I * (Real.pi : ℂ) * 2⁻¹ = (Real.pi / 2 : ℝ) * I by push_cast; ring, Complex.exp_mul_I]
    rw [← ofReal_cos, ← ofReal_sin, Real.cos_pi_div_two, Real.sin_pi_div_two]; simp
  · show [trigEval [1, 0] (0 - 1 / 2)] = _
    have : Real.cos (Real.pi * (0 - 1 / 2)) = 0 := by
      rw [show Real.pi * (0 - 1 / 2) = -(Real.pi / 2) by ring, Real.cos_neg, Real.cos_pi_div_two]
    have h2 : trigEval [1, 0] (0 - 1 / 2) = ((Real.cos (Real.pi * (0 - 1 / 2)) : ℝ) : ℂ) := by
      simp only [trigEval, trigMode, sum_range_succ, List.length_cons, List.length_nil, range_zero, sum_empty]
      simp
    rw [h2, this]; simp

example : (⟨⟨3, 5⟩, Tech.ofCoeffs 3 [[0, 0, 1]] 1e-10⟩ : TrigFun).dom.e1 = 3 + 2 := by norm_num

/-! ## C60: inner products -/

private lemma split_half (c : List ℂ) (hc : c.length ≠ 0) : (splitEven c).length / 2 = c.length / 2 := by
  rw [splitEven_length c hc]; split_ifs <;> omega

private lemma inner_entry (f g : Tech) (hf : f.Proper) (hg : g.Proper) (i j : ℕ) (hi : i < f.cols.length)
    (hj : j < g.cols.length) (ef : FlagExact f i) (eg : FlagExact g j) :
    ((List.range (f.n + g.n)).map fun k =>
      (realIf (f.isReal.getD i false) (coeffs2vals (prolongCol (f.cols.getD i []) (f.n + g.n)))).getD k 0 *
      ((quadwts (f.n + g.n)).getD k 0 : ℝ) *
      conj ((realIf (g.isReal.getD j false) (coeffs2vals (prolongCol (g.cols.getD j []) (f.n + g.n)))).getD k 0)).sum
      = ∫ x in (-1 : ℝ)..1, trigEval (f.cols.getD i []) x * conj (trigEval (g.cols.getD j []) x) := by
  set N := f.n + g.n with hN
  set c := f.cols.getD i [] with hcdef
  set d := g.cols.getD j [] with hddef
  have hcl : c.length = f.n := by rw [hcdef, getD_lt' _ _ _ hi]; exact hf.wf _ (List.getElem_mem hi)
  have hdl : d.length = g.n := by rw [hddef, getD_lt' _ _ _ hj]; exact hg.wf _ (List.getElem_mem hj)
  have hf0 := hf.pos
  have hg0 := hg.pos
  have val : ∀ (r : Bool) (e : List ℂ), e.length ≠ 0 → e.length ≤ N →
      (r = true → ∀ y, (trigEval e y).im = 0) → ∀ k < N,
      (realIf r (coeffs2vals (prolongCol e N))).getD k 0 = trigEval e (equi N k) := by
    intro r e he heN hr k hk
    have hpl := prolongCol_length e he N heN
    have hv : (coeffs2vals (prolongCol e N)).getD k 0 = trigEval e (equi N k) := by
      rw [← trigEval_grid _ _ (by omega), hpl, prolongCol_eval e he N heN]
    unfold realIf
    split_ifs with h
    · have := getD_map' (fun z : ℂ => ((z.re : ℝ) : ℂ)) 0 (coeffs2vals (prolongCol e N)) k
      rw [zero_re, ofReal_zero] at this
      rw [this, hv]
      have := hr h (equi N k)
      apply Complex.ext <;> simp [this]
    · exact hv
  have hw : ∀ k < N, (quadwts N).getD k 0 = 2 / (N : ℝ) := by
    intro k hk
    unfold quadwts
    rw [getD_lt' _ _ _ (by simpa using hk)]; simp
  rw [sum_map_range]
  have := quad_prod (splitEven c) (splitEven d) (splitEven_odd c (by omega)) (splitEven_odd d (by omega)) N
    (by rw [split_half c (by omega), split_half d (by omega)]; omega)
  simp only [splitEven_eval c (by omega), splitEven_eval d (by omega)] at this
  rw [← this]
  apply sum_congr rfl
  intro k hk
  have hk' := mem_range.mp hk
  rw [val _ c (by omega) (by omega) ef k hk', val _ d (by omega) (by omega) eg k hk', hw k hk']
  push_cast; ring


/-- C60: entry `(i, j)` of `np.inner(f, g)` is `∫_{-1}^{1} f_i conj(g_j)`, for columns whose
reality flag is exact (`FlagExact`: the flag is off, or the column really is real valued). -/
theorem C60_tech (f g : Tech) (hf : f.Proper) (hg : g.Proper) (i j : ℕ) (hi : i < f.cols.length)
    (hj : j < g.cols.length) (ef : FlagExact f i) (eg : FlagExact g j) :
    ((f.inner g).getD i []).getD j 0
      = ∫ x in (-1 : ℝ)..1, trigEval (f.cols.getD i []) x * conj (trigEval (g.cols.getD j []) x) := by
  have key := inner_entry f g hf hg i j hi hj ef eg
  have hfl : i < f.isReal.length := by rw [hf.lr]; exact hi
  have hgl : j < g.isReal.length := by rw [hg.lr]; exact hj
  have hreal : f.isReal.all id = true → g.isReal.all id = true →
      (∫ x in (-1 : ℝ)..1, trigEval (f.cols.getD i []) x * conj (trigEval (g.cols.getD j []) x)).im = 0 := by
    intro h1 h2
    rw [List.all_eq_true] at h1 h2
    have r1 := ef (by rw [getD_lt' _ _ _ hfl]; exact h1 _ (List.getElem_mem _))
    have r2 := eg (by rw [getD_lt' _ _ _ hgl]; exact h2 _ (List.getElem_mem _))
    have : (fun x : ℝ => trigEval (f.cols.getD i []) x * conj (trigEval (g.cols.getD j []) x))
        = fun x : ℝ => (((trigEval (f.cols.getD i []) x).re * (trigEval (g.cols.getD j []) x).re : ℝ) : ℂ) := by
      funext x
      have a1 := r1 x
      have a2 := r2 x
      apply Complex.ext
      · rw [ofReal_re, mul_re, conj_re, conj_im, a1, a2]; ring
      · rw [ofReal_im, mul_im, conj_re, conj_im, a1, a2]; ring
    rw [this, intervalIntegral.integral_ofReal, ofReal_im]
  unfold Tech.inner
  simp only []
  have hz : ∀ (r : List Bool) (c : List (List ℂ)) (k : ℕ), k < r.length → k < c.length →
      k < (List.zipWith (fun r c => realIf r (coeffs2vals (prolongCol c (f.n + g.n)))) r c).length := by
    intro r c k h1 h2; simp; omega
  split_ifs with hall
  · rw [getD_map_lt _ [] _ _ _ (by rw [List.length_map]; exact hz _ _ _ hfl hi),
      getD_map_lt _ [] _ _ _ (hz _ _ _ hfl hi),
      getD_map_lt _ 0 _ _ _ (by rw [List.length_map]; exact hz _ _ _ hgl hj),
      getD_map_lt _ [] _ _ _ (hz _ _ _ hgl hj),
      getD_zipWith_lt _ false [] _ _ _ _ hfl hi, getD_zipWith_lt _ false [] _ _ _ _ hgl hj, key]
    rw [Bool.and_eq_true] at hall
    have := hreal hall.1 hall.2
    apply Complex.ext
    · rw [ofReal_re]
    · rw [ofReal_im, this]
  · rw [getD_map_lt _ [] _ _ _ (hz _ _ _ hfl hi), getD_map_lt _ [] _ _ _ (hz _ _ _ hgl hj),
      getD_zipWith_lt _ false [] _ _ _ _ hfl hi, getD_zipWith_lt _ false [] _ _ _ _ hgl hj, key]

/-- C60 on a domain: `np.inner(f, g)` is the `L²` inner product over `[a, b]`; functions on different
domains are refused. -/
theorem C60_fun (f g : TrigFun) (hf : f.onefun.Proper) (hg : g.onefun.Proper) (hd : f.dom.e0 < f.dom.e1) :
    (f.dom ≠ g.dom → f.inner g = none) ∧
    (f.dom = g.dom → ∃ M, f.inner g = some M ∧
      ∀ i < f.onefun.cols.length, ∀ j < g.onefun.cols.length, FlagExact f.onefun i → FlagExact g.onefun j →
        (M.getD i []).getD j 0 = ∫ x in f.dom.e0..f.dom.e1,
          trigEval (f.onefun.cols.getD i []) (Mapping.bwd f.dom x)
            * conj (trigEval (g.onefun.cols.getD j []) (Mapping.bwd f.dom x))) := by
  constructor
  · intro h; unfold TrigFun.inner; rw [if_neg h]
  intro h
  unfold TrigFun.inner
  rw [if_pos h]
  refine ⟨_, rfl, ?_⟩
  intro i hi j hj ef eg
  have hsc : 0 < 0.5 * Mapping.diff f.dom := by unfold Mapping.diff; linarith
  simp only [bwd_affine f.dom hd]
  rw [intervalIntegral.integral_comp_mul_add (fun y => trigEval (f.onefun.cols.getD i []) y
    * conj (trigEval (g.onefun.cols.getD j []) y)) (inv_ne_zero hsc.ne')]
  rw [← bwd_affine f.dom hd, ← bwd_affine f.dom hd, bwd_e0 f.dom hd, bwd_e1 f.dom hd,
    ← C60_tech _ _ hf hg i j hi hj ef eg, inv_inv, Complex.real_smul]
  have hl : i < (f.onefun.inner g.onefun).length := by
    unfold Tech.inner; simp only []; split_ifs <;> simp [hf.lr, hi]
  have hl2 : j < ((f.onefun.inner g.onefun).getD i []).length := by
    have : ((f.onefun.inner g.onefun).getD i []).length = g.onefun.cols.length := by
      rw [getD_lt' _ _ _ hl]
      unfold Tech.inner; simp only []; split_ifs <;> simp [hg.lr]
    omega
  rw [getD_map_lt _ [] _ _ _ hl, getD_map_lt _ 0 _ _ _ hl2, mul_comm]
  rfl

/-- `cos(πx)` meets the hypotheses of C60. -/
example : (Tech.ofCoeffs 3 [[1 / 2, 0, 1 / 2]] 1e-10).Proper ∧ FlagExact (Tech.ofCoeffs 3 [[1 / 2, 0, 1 / 2]] 1e-10) 0 := by
  refine ⟨ofCoeffs_proper _ (by norm_num) _ _ (by simp), ?_⟩
  intro _ y
  have : (Tech.ofCoeffs 3 [[1 / 2, 0, 1 / 2]] 1e-10).cols.getD 0 [] = [1 / 2, 0, 1 / 2] := rfl
  rw [this, trigEval_odd _ (by simp)]
  simp only [sum_range_succ, List.length_cons, List.length_nil, range_zero, sum_empty, wave]
  simp [Complex.exp_im, -one_div]

end Funpy.Props
