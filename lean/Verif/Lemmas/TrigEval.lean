import Verif.Lemmas.TrigTransform

namespace Funpy.Trig
open Finset Complex Spec ComplexConjugate

lemma trigMode_grid (n : ℕ) (hn : n ≠ 0) (k j : ℕ) :
    trigMode n k (equi n j) = (-1) ^ wave n k * rou n (wave n k * j) := by
  unfold trigMode
  split_ifs with h
  · obtain ⟨he, rfl⟩ := h
    obtain ⟨m, rfl⟩ : ∃ m, n = 2 * m := ⟨n / 2, by omega⟩
    have hm : 2 * m / 2 = m := by omega
    have hw : wave (2 * m) 0 = -(m : ℤ) := by simp [wave]
    have hm0 : (m : ℝ) ≠ 0 := by have : m ≠ 0 := by omega
                                 exact_mod_cast this
    have e1 : ((2 * m / 2 : ℕ) : ℝ) * Real.pi * equi (2 * m) j = ((j : ℤ) - m : ℤ) * Real.pi := by
      rw [hm, equi]; push_cast; field_simp; ring
    rw [e1, Real.cos_int_mul_pi, hw]
    have hr : rou (2 * m) (-(m : ℤ) * j) = (-1) ^ (j : ℤ) := by
      rw [rou, show ((-1 : ℂ)) ^ (j : ℤ) = ((-1) ^ (j : ℤ))⁻¹ by
        rcases neg_one_zpow_cases j with h | h <;> rw [h] <;> norm_num]
      rw [← Complex.exp_pi_mul_I, ← Complex.exp_int_mul, ← Complex.exp_neg]
      congr 1
      have : (m : ℂ) ≠ 0 := by exact_mod_cast hm0
      push_cast; field_simp
    rw [hr, ← zpow_add₀ (by norm_num)]
    push_cast
    congr 1
    ring
  · exact grid_exp n hn _ j

lemma trigEval_grid (c : List ℂ) (j : ℕ) (hj : j < c.length) :
    trigEval c (equi c.length j) = (coeffs2vals c).getD j 0 := by
  rw [coeffs2vals_getD c j hj, trigEval]
  apply sum_congr rfl
  intro k _
  rw [trigMode_grid _ (by omega), mul_assoc]

lemma coeffs2vals_vals2coeffs (v : List ℂ) : coeffs2vals (vals2coeffs v) = v := by
  apply ext_getD 0 (by rw [coeffs2vals_length, vals2coeffs_length])
  intro j hj
  rw [coeffs2vals_length, vals2coeffs_length] at hj
  have hn : v.length ≠ 0 := by omega
  have hn' : (v.length : ℂ) ≠ 0 := by exact_mod_cast hn
  rw [coeffs2vals_getD _ _ (by rw [vals2coeffs_length]; exact hj), vals2coeffs_length]
  have h1 : ∀ k ∈ range v.length, (vals2coeffs v).getD k 0 * (-1) ^ wave v.length k *
      rou v.length (wave v.length k * j)
      = (∑ i ∈ range v.length, v.getD i 0 * (rou v.length (-((v.length / 2 : ℕ) : ℤ) * (j - i))
          * rou v.length (((j : ℤ) - i) * k))) / v.length := by
    intro k hk
    rw [vals2coeffs_getD _ _ (mem_range.mp hk)]
    rw [show ∀ a b r : ℂ, a * b * a * r = (a * a) * (b * r) from fun a b r => by ring, neg_one_zpow_sq,
      one_mul, div_mul_eq_mul_div, sum_mul]
    congr 1
    apply sum_congr rfl
    intro i _
    rw [mul_assoc, ← rou_add, ← rou_add]
    congr 2
    unfold wave
    ring
  rw [sum_congr rfl h1, ← sum_div, sum_comm, div_eq_iff hn']
  simp only [← mul_sum, sum_rou _ hn]
  rw [sum_eq_single j]
  · simp [rou_zero]
  · intro i hi hij
    rw [mem_range] at hi
    rw [if_neg, mul_zero, mul_zero]
    intro hd
    have := Int.eq_zero_of_abs_lt_dvd hd (by rw [abs_lt]; constructor <;> omega)
    omega
  · intro h; exact absurd (mem_range.mpr hj) h

lemma vals2coeffs_coeffs2vals (c : List ℂ) : vals2coeffs (coeffs2vals c) = c := by
  apply ext_getD 0 (by rw [vals2coeffs_length, coeffs2vals_length])
  intro k hk
  rw [vals2coeffs_length, coeffs2vals_length] at hk
  have hn : c.length ≠ 0 := by omega
  have hn' : (c.length : ℂ) ≠ 0 := by exact_mod_cast hn
  rw [vals2coeffs_getD _ _ (by rw [coeffs2vals_length]; exact hk), coeffs2vals_length]
  have h1 : ∀ j ∈ range c.length, (coeffs2vals c).getD j 0 * rou c.length (-(wave c.length k * j))
      = ∑ i ∈ range c.length, c.getD i 0 * (-1) ^ wave c.length i * rou c.length (((i : ℤ) - k) * j) := by
    intro j hj
    rw [coeffs2vals_getD _ _ (mem_range.mp hj), sum_mul]
    apply sum_congr rfl
    intro i _
    rw [mul_assoc, ← rou_add]
    congr 2
    unfold wave
    ring
  rw [sum_congr rfl h1, sum_comm]
  simp only [← mul_sum, sum_rou _ hn]
  rw [sum_eq_single k]
  · rw [sub_self, if_pos (dvd_zero _), mul_div_assoc, div_self hn', mul_one, mul_comm (c.getD k 0),
      ← mul_assoc, neg_one_zpow_sq, one_mul]
  · intro i hi hij
    rw [mem_range] at hi
    rw [if_neg, mul_zero]
    intro hd
    have := Int.eq_zero_of_abs_lt_dvd hd (by rw [abs_lt]; constructor <;> omega)
    omega
  · intro h; exact absurd (mem_range.mpr hk) h

/-- A series is determined by its values on its own grid. -/
lemma eq_of_grid (c d : List ℂ) (hl : c.length = d.length)
    (h : ∀ j < c.length, trigEval c (equi c.length j) = trigEval d (equi c.length j)) : c = d := by
  rw [← vals2coeffs_coeffs2vals c, ← vals2coeffs_coeffs2vals d]
  congr 1
  apply ext_getD 0 (by rw [coeffs2vals_length, coeffs2vals_length, hl])
  intro j hj
  rw [coeffs2vals_length] at hj
  rw [← trigEval_grid c j hj, ← trigEval_grid d j (by omega), ← hl]
  exact h j hj

/-! ### Horner -/

lemma hornerLoop_eq (z : ℂ) (c : List ℂ) (j : ℕ) (q : ℂ) :
    hornerLoop z c j q = ∑ i ∈ range j, c.getD (i + 1) 0 * z ^ i + z ^ j * q := by
  induction j generalizing q with
  | zero => simp [hornerLoop]
  | succ j ih => rw [hornerLoop, ih, sum_range_succ]; ring

lemma cexp_wave (n k : ℕ) (x : ℝ) :
    cexp (I * Real.pi * (wave n k) * x)
      = cexp (-(I * Real.pi * (n / 2 : ℕ) * x)) * cexp (I * Real.pi * x) ^ k := by
  rw [← Complex.exp_nat_mul, ← Complex.exp_add]
  congr 1
  unfold wave
  rw [Int.cast_sub, Int.cast_natCast, Int.cast_natCast]
  ring

lemma hornerCmplx_eq (x : ℝ) (c : List ℂ) (hc : c.length ≠ 0) : hornerCmplx x c = trigEval c x := by
  unfold hornerCmplx trigEval
  set n := c.length with hn
  by_cases h1 : n = 1
  · simp [h1, trigMode, wave]
  simp only [h1, if_false]
  set z := cexp (I * Real.pi * x) with hz
  have hq : hornerLoop z c (n - 2) (c.getD (n - 1) 0) = ∑ i ∈ range (n - 1), c.getD (i + 1) 0 * z ^ i := by
    rw [hornerLoop_eq]
    obtain ⟨m, hm⟩ : ∃ m, n = m + 2 := ⟨n - 2, by omega⟩
    rw [hm, show m + 2 - 1 = m + 1 by omega, sum_range_succ, show m + 2 - 2 = m by omega]
    ring
  rw [hq]
  obtain ⟨m, hm⟩ : ∃ m, n = m + 1 := ⟨n - 1, by omega⟩
  have hm1 : n - 1 = m := by omega
  rw [hm1, hm, sum_range_succ', ← hm]
  split_ifs with h2
  · have e : ((m / 2 : ℕ)) = n / 2 := by omega
    have hmode : ∀ k, trigMode n k x = cexp (-(I * Real.pi * (n / 2 : ℕ) * x)) * z ^ k := by
      intro k
      rw [trigMode, if_neg (by omega), cexp_wave, hz]
    rw [e]
    simp only [hmode]
    rw [pow_zero, mul_add, mul_sum, mul_sum, add_comm]
    congr 1
    · apply sum_congr rfl; intro i _; ring
    · ring
  · congr 1
    · rw [mul_sum]
      apply sum_congr rfl
      intro i _
      rw [trigMode, if_neg (by omega), cexp_wave, ← hz, pow_succ]
      have : cexp (-(I * Real.pi * ((n / 2 : ℕ) - 1) * x)) = cexp (-(I * Real.pi * (n / 2 : ℕ) * x)) * z := by
        rw [hz, ← Complex.exp_add]; congr 1; ring
      rw [this]; ring
    · rw [trigMode, if_pos ⟨by omega, rfl⟩]; ring

lemma realLoop_eq (u v : ℝ) (a b : ℕ → ℝ) (j : ℕ) (s : ℝ × ℝ) :
    (((realLoop u v a b j s).1 : ℂ) + (realLoop u v a b j s).2 * I)
      = ∑ i ∈ range j, ((a (i + 1) : ℂ) + b (i + 1) * I) * ((u : ℂ) - v * I) ^ i
        + ((u : ℂ) - v * I) ^ j * (s.1 + s.2 * I) := by
  induction j generalizing s with
  | zero => simp [realLoop]
  | succ j ih =>
    obtain ⟨co, si⟩ := s
    rw [realLoop, ih, sum_range_succ, pow_succ]
    push_cast
    linear_combination ((u : ℂ) - v * I) ^ j * (v * si : ℂ) * I_sq

/-- `horner_*_real` in closed form: real part of the constant term plus twice the real part of the
negative half of the series. -/
lemma hornerReal_eq (x : ℝ) (c : List ℂ) (hc : c.length ≠ 0) :
    hornerReal x c = (c.getD (c.length / 2) 0).re
      + 2 * (∑ j ∈ range (c.length / 2), (hornerRealMut c).getD (c.length / 2 - (j + 1)) 0 *
          cexp (-(I * Real.pi * x)) ^ (j + 1)).re := by
  unfold hornerReal
  set N := c.length with hN
  have hn1 : (N + 2) / 2 - 1 = N / 2 := by omega
  have hn2 : (N + 2) / 2 - 2 = N / 2 - 1 := by omega
  have ha0 : ((hornerRealMut c).getD (N / 2) 0).re = (c.getD (N / 2) 0).re := by
    unfold hornerRealMut
    split_ifs with h
    · rw [getD_set', if_neg (by omega)]
    · rfl
  simp only [hn1, hn2, Nat.sub_zero, ha0]
  by_cases h1 : N = 1
  · simp [h1]
  simp only [h1, if_false]
  congr 2
  obtain ⟨m, hm⟩ : ∃ m, N / 2 = m + 1 := ⟨N / 2 - 1, by omega⟩
  rw [hm, show m + 1 - 1 = m by omega]
  set c' := hornerRealMut c
  set a : ℕ → ℝ := fun j => (c'.getD (m + 1 - j) 0).re with ha
  set b : ℕ → ℝ := fun j => (c'.getD (m + 1 - j) 0).im with hb
  set u := Real.cos (Real.pi * x)
  set v := Real.sin (Real.pi * x)
  have hz : cexp (-(I * Real.pi * x)) = (u : ℂ) - v * I := by
    rw [show -(I * (Real.pi : ℂ) * x) = (-(Real.pi * x : ℝ) : ℝ) * I by push_cast; ring,
      Complex.exp_ofReal_mul_I, Real.cos_neg, Real.sin_neg]
    rw [ofReal_neg]; ring
  have hab : ∀ j, (a j : ℂ) + b j * I = c'.getD (m + 1 - j) 0 := fun j => Complex.re_add_im _
  have key := realLoop_eq u v a b m (a (m + 1), b (m + 1))
  simp only [hab] at key
  have key2 : ((realLoop u v a b m (a (m + 1), b (m + 1))).1 : ℂ)
      + (realLoop u v a b m (a (m + 1), b (m + 1))).2 * I
      = ∑ i ∈ range (m + 1), c'.getD (m + 1 - (i + 1)) 0 * ((u : ℂ) - v * I) ^ i := by
    rw [key, sum_range_succ, mul_comm (((u : ℂ) - v * I) ^ m)]
  set s := realLoop u v a b m (a (m + 1), b (m + 1))
  have h2 : (u * s.1 + v * s.2 : ℝ) = (((u : ℂ) - v * I) * ((s.1 : ℂ) + s.2 * I)).re := by
    simp
  rw [h2, key2, hz, mul_sum]
  congr 1
  apply sum_congr rfl
  intro i _
  rw [pow_succ]; ring

end Funpy.Trig
