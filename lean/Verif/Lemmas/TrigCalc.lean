import Verif.Lemmas.TrigTol
import Mathlib.Analysis.SpecialFunctions.Integrals.Basic
import Mathlib.Analysis.Calculus.IteratedDeriv.Lemmas

namespace Funpy.Trig
open Finset Complex Spec ComplexConjugate

lemma trigEval_odd (c : List ℂ) (h : c.length % 2 = 1) (x : ℝ) :
    trigEval c x = ∑ k ∈ range c.length, c.getD k 0 * cexp (I * Real.pi * (wave c.length k) * x) := by
  unfold trigEval
  apply sum_congr rfl
  intro k _
  rw [trigMode, if_neg (by omega)]

/-! ### integrals -/

lemma integral_mode (w : ℤ) :
    ∫ x in (-1 : ℝ)..1, cexp (I * Real.pi * w * x) = if w = 0 then 2 else 0 := by
  split_ifs with h
  · subst h; simp; norm_num
  · have hc : (I * Real.pi * w : ℂ) ≠ 0 := by
      simp [Real.pi_ne_zero, h]
    rw [integral_exp_mul_complex hc]
    have : cexp (I * Real.pi * w * (1 : ℝ)) = cexp (I * Real.pi * w * (-1 : ℝ)) := by
      rw [Complex.exp_eq_exp_iff_exists_int]
      exact ⟨w, by push_cast; ring⟩
    rw [this, sub_self, zero_div]

lemma continuous_mode (w : ℂ) : Continuous fun x : ℝ => cexp (I * Real.pi * w * x) := by
  fun_prop

lemma continuous_trigMode (n k : ℕ) : Continuous (trigMode n k) := by
  unfold trigMode
  split_ifs
  · fun_prop
  · fun_prop

lemma continuous_trigEval (c : List ℂ) : Continuous (trigEval c) := by
  unfold trigEval
  have := continuous_trigMode
  fun_prop

lemma integral_trigMode (n k : ℕ) (hn : n ≠ 0) :
    ∫ x in (-1 : ℝ)..1, trigMode n k x = if k = n / 2 then 2 else 0 := by
  unfold trigMode
  by_cases h : n % 2 = 0 ∧ k = 0
  · simp only [h, and_self, if_true]
    rw [if_neg (by omega)]
    simp only [cos_eq_exp]
    rw [intervalIntegral.integral_div, intervalIntegral.integral_add
      ((continuous_mode _).intervalIntegrable _ _) ((continuous_mode _).intervalIntegrable _ _),
      integral_mode, integral_mode, if_neg (by omega), if_neg (by omega)]
    simp
  · simp only [h, if_false]
    rw [integral_mode]
    congr 1
    unfold wave
    apply propext; omega

lemma integral_trigEval (c : List ℂ) (hc : c.length ≠ 0) :
    ∫ x in (-1 : ℝ)..1, trigEval c x = 2 * c.getD (c.length / 2) 0 := by
  unfold trigEval
  rw [intervalIntegral.integral_finsetSum]
  · simp only [intervalIntegral.integral_const_mul, integral_trigMode _ _ hc]
    rw [sum_eq_single (c.length / 2)]
    · rw [if_pos rfl]; ring
    · intro k _ hk; rw [if_neg hk, mul_zero]
    · intro h; exact absurd (mem_range.mpr (by omega)) h
  · intro k _
    exact ((continuous_trigMode _ _).const_mul _ |>.intervalIntegrable _ _)

lemma integral_re (f : ℝ → ℂ) (hf : Continuous f) :
    ∫ x in (-1 : ℝ)..1, (((f x).re : ℝ) : ℂ) = (((∫ x in (-1 : ℝ)..1, f x).re : ℝ) : ℂ) := by
  have h := Complex.reCLM.intervalIntegral_comp_comm (hf.intervalIntegrable (μ := MeasureTheory.volume) (-1) 1)
  have h2 := @intervalIntegral.integral_ofReal (-1) 1 MeasureTheory.volume (fun x => (f x).re)
  rw [h2]
  congr 1

lemma integral_hornerReal (c : List ℂ) (hc : c.length ≠ 0) :
    ∫ x in (-1 : ℝ)..1, ((hornerReal x c : ℝ) : ℂ) = ((((2 * c.getD (c.length / 2) 0).re : ℝ)) : ℂ) := by
  set m := c.length / 2
  set G : ℝ → ℂ := fun x => c.getD m 0 + 2 * ∑ j ∈ range m, (hornerRealMut c).getD (m - (j + 1)) 0 *
          cexp (I * Real.pi * ((-((j + 1 : ℕ) : ℤ) : ℤ) : ℂ) * x) with hG
  have hGc : Continuous G := by
    simp only [hG]; fun_prop
  have h1 : ∀ x, hornerReal x c = (G x).re := by
    intro x
    rw [hornerReal_eq x c hc]
    simp only [hG, add_re]
    congr 1
    rw [show ((2 : ℂ)) = ((2 : ℝ) : ℂ) by norm_num, Complex.re_ofReal_mul]
    congr 2
    apply sum_congr rfl
    intro j _
    rw [cexp_neg_pow]
    congr 2
    push_cast; ring
  simp only [h1]
  rw [integral_re G hGc]
  congr 2
  simp only [hG]
  rw [intervalIntegral.integral_add (by simp) (by
    apply Continuous.intervalIntegrable; fun_prop), intervalIntegral.integral_const_mul,
    intervalIntegral.integral_finsetSum]
  · simp only [intervalIntegral.integral_const_mul, integral_mode]
    rw [sum_eq_zero]
    · simp; norm_num
    · intro j _; rw [if_neg (by omega), mul_zero]
  · intro j _
    apply Continuous.intervalIntegrable; fun_prop

/-! ### derivatives -/

lemma iteratedDeriv_expSum (n : ℕ) (a b : ℕ → ℂ) (s t : ℝ) (p : ℕ) :
    iteratedDeriv p (fun x : ℝ => ∑ k ∈ range n, a k * cexp (b k * ((s * x + t : ℝ) : ℂ)))
      = fun x : ℝ => ∑ k ∈ range n, a k * (b k * s) ^ p * cexp (b k * ((s * x + t : ℝ) : ℂ)) := by
  induction p with
  | zero => simp
  | succ p ih =>
    rw [iteratedDeriv_succ, ih]
    funext x
    have hd : HasDerivAt (fun x : ℝ => ∑ k ∈ range n, a k * (b k * s) ^ p * cexp (b k * ((s * x + t : ℝ) : ℂ)))
        (∑ k ∈ range n, a k * (b k * s) ^ (p + 1) * cexp (b k * ((s * x + t : ℝ) : ℂ))) x := by
      apply HasDerivAt.fun_sum
      intro k _
      have h0 : HasDerivAt (fun x : ℝ => ((s * x + t : ℝ) : ℂ)) (s : ℂ) x := by
        have : HasDerivAt (fun x : ℝ => s * x + t) s x := by
          simpa using ((hasDerivAt_id x).const_mul s).add_const t
        exact this.ofReal_comp
      have h1 := ((h0.const_mul (b k)).cexp).const_mul (a k * (b k * s) ^ p)
      refine h1.congr_deriv ?_
      rw [pow_succ]; ring

    exact hd.deriv

lemma diffCol_length (p : ℕ) (c : List ℂ) : (diffCol p c).length = c.length := by simp [diffCol]

lemma diffCol_getD (p : ℕ) (c : List ℂ) (k : ℕ) (hk : k < c.length) :
    (diffCol p c).getD k 0 = c.getD k 0 * (I * Real.pi * (wave c.length k : ℂ)) ^ p := by
  rw [getD_lt' _ _ _ (by rw [diffCol_length]; exact hk), getD_lt' _ _ _ hk]
  simp only [diffCol, List.getElem_mapIdx]
  congr 4
  unfold wave
  split_ifs <;> omega

/-- the derivative of an odd-length series, composed with an affine map -/
lemma diffCol_odd (p : ℕ) (c : List ℂ) (h : c.length % 2 = 1) (s t x : ℝ) :
    iteratedDeriv p (fun x : ℝ => trigEval c (s * x + t)) x = (s : ℂ) ^ p * trigEval (diffCol p c) (s * x + t) := by
  have e : (fun x : ℝ => trigEval c (s * x + t)) = fun x : ℝ => ∑ k ∈ range c.length,
      c.getD k 0 * cexp ((I * Real.pi * (wave c.length k)) * ((s * x + t : ℝ) : ℂ)) := by
    funext x; exact trigEval_odd c h _
  rw [e, iteratedDeriv_expSum, trigEval_odd _ (by rw [diffCol_length]; exact h), diffCol_length, mul_sum]
  apply sum_congr rfl
  intro k hk
  rw [diffCol_getD _ _ _ (mem_range.mp hk), mul_pow]
  ring

lemma diffCol_split (p : ℕ) (c : List ℂ) (hc : c.length ≠ 0)
    (h : p % 2 = 0 ∨ c.getD 0 0 = 0) : diffCol p (splitEven c) = splitEven (diffCol p c) := by
  by_cases he : c.length % 2 = 0
  swap
  · unfold splitEven; rw [if_neg he, if_neg (by rw [diffCol_length]; exact he)]
  have hsl := splitEven_length c hc
  rw [if_pos he] at hsl
  have hsl' : (splitEven (diffCol p c)).length = c.length + 1 := by
    rw [splitEven_length _ (by rw [diffCol_length]; exact hc), diffCol_length, if_pos he]
  apply ext_getD 0 (by rw [diffCol_length, hsl, hsl'])
  intro k hk
  rw [diffCol_length, hsl] at hk
  rw [diffCol_getD _ _ _ (by omega), hsl]
  obtain ⟨q, hq⟩ : ∃ q, c.length = q + 1 := ⟨c.length - 1, by omega⟩
  have hw : wave (c.length + 1) k = wave c.length k := by unfold wave; omega
  rw [hw]
  unfold splitEven
  rw [if_pos he, if_pos (by rw [diffCol_length]; exact he)]
  rcases Nat.eq_zero_or_pos k with rfl | hk0
  · simp only [getD_cons_zero']
    rw [diffCol_getD _ _ _ (by omega)]; ring
  · obtain ⟨j, rfl⟩ : ∃ j, k = j + 1 := ⟨k - 1, by omega⟩
    simp only [List.getD_cons_succ]
    rw [getD_append', getD_append']
    simp only [List.length_drop, diffCol_length]
    by_cases hj : j < c.length - 1
    · rw [if_pos hj, if_pos hj, getD_lt' (c.drop 1) _ _ (by simp; omega),
        getD_lt' ((diffCol p c).drop 1) _ _ (by simp [diffCol_length]; omega), List.getElem_drop, List.getElem_drop,
        ← getD_lt' _ 0 _ _, ← getD_lt' _ 0 _ _, diffCol_getD _ _ _ (by omega)]
      rw [show 1 + j = j + 1 by ring]
    · rw [if_neg hj, if_neg hj, show j - (c.length - 1) = 0 by omega]
      simp only [getD_cons_zero']
      rw [diffCol_getD _ _ _ (by omega)]
      have hw1 : wave c.length (j + 1) = - wave c.length 0 := by unfold wave; omega
      rw [hw1]
      rcases h with h | h
      · push_cast
        rw [show I * (Real.pi : ℂ) * -(wave c.length 0 : ℂ) = -(I * Real.pi * (wave c.length 0 : ℂ)) by ring,
          Even.neg_pow (Nat.even_iff.mpr h)]
        ring
      · rw [h]; ring

lemma diffCol_eval (p : ℕ) (c : List ℂ) (hc : c.length ≠ 0)
    (h : c.length % 2 = 1 ∨ p % 2 = 0 ∨ c.getD 0 0 = 0) (s t x : ℝ) :
    iteratedDeriv p (fun x : ℝ => trigEval c (s * x + t)) x
      = (s : ℂ) ^ p * trigEval (diffCol p c) (s * x + t) := by
  by_cases ho : c.length % 2 = 1
  · exact diffCol_odd p c ho s t x
  have h' : p % 2 = 0 ∨ c.getD 0 0 = 0 := by tauto
  have := diffCol_odd p (splitEven c) (splitEven_odd c hc) s t x
  rw [diffCol_split p c hc h', splitEven_eval _ (by rw [diffCol_length]; exact hc)] at this
  simp only [splitEven_eval c hc] at this
  exact this

/-! ### shifts -/

lemma shiftCol_length (a : ℝ) (c : List ℂ) : (shiftCol a c).length = c.length := by simp [shiftCol]

lemma shiftCol_getD (a : ℝ) (c : List ℂ) (k : ℕ) (hk : k < c.length) :
    (shiftCol a c).getD k 0 = c.getD k 0 * cexp (-(I * Real.pi * (wave c.length k : ℂ) * a)) := by
  rw [getD_lt' _ _ _ (by rw [shiftCol_length]; exact hk), getD_lt' _ _ _ hk]
  simp only [shiftCol, List.getElem_mapIdx]
  rw [← Complex.exp_int_mul]
  congr 2
  have : ((if c.length % 2 = 1 then -(((c.length - 1) / 2 : ℕ) : ℤ) else -((c.length / 2 : ℕ) : ℤ)) + k : ℤ)
      = wave c.length k := by unfold wave; split_ifs <;> omega
  rw [this]; ring

lemma shiftCol_eval (a : ℝ) (c : List ℂ) (h : c.length % 2 = 1 ∨ c.getD 0 0 = 0) (x : ℝ) :
    trigEval (shiftCol a c) x = trigEval c (x - a) := by
  unfold trigEval
  rw [shiftCol_length]
  apply sum_congr rfl
  intro k hk
  rw [shiftCol_getD _ _ _ (mem_range.mp hk)]
  by_cases h0 : c.length % 2 = 0 ∧ k = 0
  · rcases h with h | h
    · omega
    · rw [h0.2, h]; simp
  · rw [trigMode, if_neg h0, trigMode, if_neg h0, mul_assoc, ← Complex.exp_add]
    congr 2
    push_cast; ring

/-! ### quadrature -/

lemma quad_mode (N : ℕ) (w : ℤ) (hw : |w| < N) :
    ∑ j ∈ range N, (2 / (N : ℂ)) * cexp (I * Real.pi * w * (equi N j : ℝ))
      = ∫ x in (-1 : ℝ)..1, cexp (I * Real.pi * w * x) := by
  have hN : N ≠ 0 := by rintro rfl; simp at hw; exact absurd hw (by simp)
  have hN' : (N : ℂ) ≠ 0 := by exact_mod_cast hN
  rw [integral_mode, ← mul_sum]
  simp only [grid_exp N hN]
  rw [← mul_sum, sum_rou N hN]
  by_cases h : w = 0
  · subst h; simp [hN']
  · rw [if_neg h, if_neg]
    · simp
    · intro hd
      exact h (Int.eq_zero_of_abs_lt_dvd hd hw)

/-- The trapezoidal rule is exact on products of two series without aliasing. -/
lemma quad_prod (c d : List ℂ) (hc : c.length % 2 = 1) (hd : d.length % 2 = 1) (N : ℕ)
    (hN : c.length / 2 + d.length / 2 < N) :
    ∑ j ∈ range N, (2 / (N : ℂ)) * (trigEval c (equi N j) * conj (trigEval d (equi N j)))
      = ∫ x in (-1 : ℝ)..1, trigEval c x * conj (trigEval d x) := by
  have key : ∀ x : ℝ, trigEval c x * conj (trigEval d x) = ∑ k ∈ range c.length, ∑ l ∈ range d.length,
      (c.getD k 0 * conj (d.getD l 0)) *
        cexp (I * Real.pi * ((wave c.length k - wave d.length l : ℤ) : ℂ) * x) := by
    intro x
    rw [trigEval_odd c hc, trigEval_odd d hd, map_sum, sum_mul_sum]
    apply sum_congr rfl; intro k _
    apply sum_congr rfl; intro l _
    rw [map_mul, ← Complex.exp_conj, mul_mul_mul_comm, ← Complex.exp_add]
    congr 2
    simp
    ring
  simp only [key]
  rw [intervalIntegral.integral_finsetSum]
  · simp only [mul_sum]
    rw [sum_comm]
    apply sum_congr rfl
    intro k hk
    rw [intervalIntegral.integral_finsetSum]
    · rw [sum_comm]
      apply sum_congr rfl
      intro l hl
      rw [intervalIntegral.integral_const_mul, ← quad_mode N, mul_sum]
      · apply sum_congr rfl; intro j _; ring
      · have := mem_range.mp hk; have := mem_range.mp hl
        unfold wave
        rw [abs_lt]; constructor <;> omega
    · intro l _
      apply Continuous.intervalIntegrable; fun_prop
  · intro k _
    apply Continuous.intervalIntegrable; fun_prop

end Funpy.Trig
