import Verif.Lemmas.TrigProlong
import Verif.Model.TrigTech

namespace Funpy.Trig
open Finset Complex Spec ComplexConjugate

lemma norm_neg_one_zpow (w : ℤ) : ‖((-1 : ℂ)) ^ w‖ = 1 := by
  rcases neg_one_zpow_cases w with h | h <;> rw [h] <;> simp

lemma norm_rou (n : ℕ) (z : ℤ) : ‖rou n z‖ = 1 := by
  unfold rou
  rw [show (2 * Real.pi * I * z / n : ℂ) = ((2 * Real.pi * z / n : ℝ) : ℂ) * I by push_cast; ring]
  exact Complex.norm_exp_ofReal_mul_I _

lemma norm_trigMode_le (n k : ℕ) (x : ℝ) : ‖trigMode n k x‖ ≤ 1 := by
  unfold trigMode
  split_ifs
  · rw [Complex.norm_real]; exact Real.abs_cos_le_one _
  · rw [show (I * Real.pi * (wave n k) * x : ℂ) = ((Real.pi * wave n k * x : ℝ) : ℂ) * I by push_cast; ring]
    exact (Complex.norm_exp_ofReal_mul_I _).le

lemma norm_vals2coeffs_le (v : List ℂ) (δ : ℝ) (h : ∀ j < v.length, ‖v.getD j 0‖ ≤ δ) (k : ℕ)
    (hk : k < v.length) : ‖(vals2coeffs v).getD k 0‖ ≤ δ := by
  have hn : 0 < (v.length : ℝ) := by exact_mod_cast (by omega : 0 < v.length)
  rw [vals2coeffs_getD v k hk, norm_mul, norm_neg_one_zpow, one_mul, norm_div, Complex.norm_natCast,
    div_le_iff₀ hn]
  refine (norm_sum_le _ _).trans ?_
  refine (sum_le_card_nsmul _ _ δ ?_).trans ?_
  · intro j hj
    rw [norm_mul, norm_rou, mul_one]
    exact h j (mem_range.mp hj)
  · simp [mul_comm]

lemma norm_trigEval_le (q : List ℂ) (δ : ℝ) (h : ∀ k < q.length, ‖q.getD k 0‖ ≤ δ) (x : ℝ) :
    ‖trigEval q x‖ ≤ q.length * δ := by
  unfold trigEval
  refine (norm_sum_le _ _).trans ?_
  refine (sum_le_card_nsmul _ _ δ ?_).trans (by simp)
  intro k hk
  rw [norm_mul]
  have h1 := h k (mem_range.mp hk)
  calc ‖q.getD k 0‖ * ‖trigMode q.length k x‖ ≤ ‖q.getD k 0‖ * 1 :=
        mul_le_mul_of_nonneg_left (norm_trigMode_le _ _ _) (norm_nonneg _)
    _ ≤ δ := by rw [mul_one]; exact h1

/-- splitting a column into the coefficients of its real and imaginary grid values -/
lemma split_reim (c : List ℂ) : ∃ p q : List ℂ, p.length = c.length ∧ q.length = c.length ∧ Herm p ∧
    Herm q ∧ (∀ k, c.getD k 0 = p.getD k 0 + I * q.getD k 0) ∧
    (∀ δ, (∀ j < c.length, |((coeffs2vals c).getD j 0).im| ≤ δ) → ∀ k < c.length, ‖q.getD k 0‖ ≤ δ) := by
  set v := coeffs2vals c with hv
  have hvl : v.length = c.length := coeffs2vals_length c
  set vr := v.map fun z => ((z.re : ℝ) : ℂ) with hvr
  set vi := v.map fun z => ((z.im : ℝ) : ℂ) with hvi
  have hrl : vr.length = c.length := by simp [hvr, hvl]
  have hil : vi.length = c.length := by simp [hvi, hvl]
  have gr : ∀ j, vr.getD j 0 = (((v.getD j 0).re : ℝ) : ℂ) := fun j => by
    have := getD_map' (fun z : ℂ => ((z.re : ℝ) : ℂ)) 0 v j
    rwa [zero_re, ofReal_zero] at this
  have gi : ∀ j, vi.getD j 0 = (((v.getD j 0).im : ℝ) : ℂ) := fun j => by
    have := getD_map' (fun z : ℂ => ((z.im : ℝ) : ℂ)) 0 v j
    rwa [zero_im, ofReal_zero] at this
  refine ⟨vals2coeffs vr, vals2coeffs vi, by rw [vals2coeffs_length, hrl], by rw [vals2coeffs_length, hil],
    herm_of_real _ fun j _ => by rw [gr]; simp, herm_of_real _ fun j _ => by rw [gi]; simp, ?_, ?_⟩
  · intro k
    by_cases hk : k < c.length
    · rw [← vals2coeffs_coeffs2vals c, ← hv, vals2coeffs_getD _ _ (by omega), vals2coeffs_getD _ _ (by omega),
        vals2coeffs_getD _ _ (by omega), hrl, hil, hvl]
      rw [mul_left_comm I, ← mul_add, ← mul_div_assoc I, ← add_div, mul_sum, ← sum_add_distrib]
      congr 2
      apply sum_congr rfl
      intro j _
      rw [gr, gi, ← mul_assoc, ← add_mul]
      congr 1
      rw [mul_comm I]
      exact (Complex.re_add_im _).symm
    · rw [getD_ge' _ _ _ (by omega), getD_ge' _ _ _ (by rw [vals2coeffs_length]; omega),
        getD_ge' _ _ _ (by rw [vals2coeffs_length]; omega)]
      simp
  · intro δ h k hk
    apply norm_vals2coeffs_le _ _ _ _ (by omega)
    intro j hj
    rw [gi, Complex.norm_real]
    exact h j (by omega)

lemma trigEval_split (c p q : List ℂ) (hp : p.length = c.length) (hq : q.length = c.length)
    (h : ∀ k, c.getD k 0 = p.getD k 0 + I * q.getD k 0) (x : ℝ) :
    trigEval c x = trigEval p x + I * trigEval q x := by
  unfold trigEval
  rw [hp, hq, mul_sum, ← sum_add_distrib]
  apply sum_congr rfl
  intro k _
  rw [h]; ring

lemma re_tol (c : List ℂ) (δ : ℝ) (h : ∀ j < c.length, |((coeffs2vals c).getD j 0).im| ≤ δ) (x : ℝ) :
    ‖(((trigEval c x).re : ℝ) : ℂ) - trigEval c x‖ ≤ c.length * δ := by
  obtain ⟨p, q, hp, hq, Hp, Hq, hs, hb⟩ := split_reim c
  have e := trigEval_split c p q hp hq hs x
  have p1 := Complex.conj_eq_iff_im.mp (herm_trigEval p Hp x)
  have q1 := Complex.conj_eq_iff_im.mp (herm_trigEval q Hq x)
  have him : (trigEval c x).im = (trigEval q x).re := by rw [e]; simp [p1]
  have : (((trigEval c x).re : ℝ) : ℂ) - trigEval c x = -(I * trigEval q x) := by
    apply Complex.ext
    · simp [q1]
    · simp [him]
  rw [this, norm_neg, norm_mul, Complex.norm_I, one_mul, ← hq]
  exact norm_trigEval_le q δ (by rw [hq]; exact hb δ h) x

lemma hornerRealMut_length (c : List ℂ) : (hornerRealMut c).length = c.length := by
  unfold hornerRealMut; split_ifs
  · simp
  · rfl

lemma real_tol (c : List ℂ) (hc : c.length ≠ 0) (δ : ℝ)
    (h : ∀ j < c.length, |((coeffs2vals c).getD j 0).im| ≤ δ) (x : ℝ) :
    ‖((hornerReal x c : ℝ) : ℂ) - trigEval c x‖ ≤ (2 * c.length + 1) * δ := by
  obtain ⟨p, q, hp, hq, Hp, Hq, hs, hb⟩ := split_reim c
  have e := trigEval_split c p q hp hq hs x
  have hbq := hb δ h
  have hδ : 0 ≤ δ := (abs_nonneg _).trans (h 0 (by omega))
  set m := c.length / 2 with hm
  -- correction of each used entry
  have hmut : ∀ i, ∃ r : ℂ, (hornerRealMut c).getD i 0 = (hornerRealMut p).getD i 0 + r ∧ ‖r‖ ≤ δ := by
    intro i
    by_cases hi : i < c.length
    · by_cases h0 : c.length % 2 = 0 ∧ i = 0
      · obtain ⟨h0, rfl⟩ := h0
        refine ⟨(((0.5 * (I * q.getD 0 0).re : ℝ)) : ℂ), ?_, ?_⟩
        · unfold hornerRealMut
          rw [if_pos h0, if_pos (by rw [hp]; exact h0), getD_set', if_pos ⟨rfl, by omega⟩, getD_set',
            if_pos ⟨rfl, by omega⟩, hs]
          simp only [add_re]; push_cast; ring
        · rw [Complex.norm_real, Real.norm_eq_abs, abs_mul]
          have := Complex.abs_re_le_norm (I * q.getD 0 0)
          rw [norm_mul, Complex.norm_I, one_mul] at this
          have h2 := hbq 0 hi
          have h3 : |(0.5 : ℝ)| = 1 / 2 := by rw [abs_of_nonneg] <;> norm_num
          rw [h3]
          have := abs_nonneg (I * q.getD 0 0).re
          linarith
      · refine ⟨I * q.getD i 0, ?_, ?_⟩
        · unfold hornerRealMut
          by_cases h1 : c.length % 2 = 0
          · rw [if_pos h1, if_pos (by rw [hp]; exact h1), getD_set', if_neg (by omega), getD_set',
              if_neg (by omega), hs]
          · rw [if_neg h1, if_neg (by rw [hp]; exact h1), hs]
        · rw [norm_mul, Complex.norm_I, one_mul]; exact hbq i hi
    · refine ⟨0, ?_, by simpa using hδ⟩
      rw [getD_ge' _ _ _ (by rw [hornerRealMut_length]; omega),
        getD_ge' _ _ _ (by rw [hornerRealMut_length]; omega), add_zero]
  choose r hr hrb using hmut
  have e2 : hornerReal x c = hornerReal x p + ((I * q.getD m 0).re
      + 2 * (∑ j ∈ range m, r (m - (j + 1)) * cexp (-(I * Real.pi * x)) ^ (j + 1)).re) := by
    rw [hornerReal_eq x c hc, hornerReal_eq x p (by omega), hp, ← hm]
    simp only [hr, add_mul, sum_add_distrib, add_re, hs]
    ring
  have e3 := hornerReal_herm x p (by omega) Hp
  have hdiff : ((hornerReal x c : ℝ) : ℂ) - trigEval c x = (((I * q.getD m 0).re
      + 2 * (∑ j ∈ range m, r (m - (j + 1)) * cexp (-(I * Real.pi * x)) ^ (j + 1)).re : ℝ) : ℂ)
      - I * trigEval q x := by
    rw [e2, ofReal_add, e3, e]; ring
  rw [hdiff]
  refine (norm_sub_le _ _).trans ?_
  have t2 : ‖I * trigEval q x‖ ≤ c.length * δ := by
    rw [norm_mul, Complex.norm_I, one_mul, ← hq]
    exact norm_trigEval_le q δ (by rw [hq]; exact hbq) x
  have hexp : ∀ j : ℕ, ‖cexp (-(I * Real.pi * x)) ^ (j + 1)‖ = 1 := by
    intro j
    rw [norm_pow, show (-(I * Real.pi * x) : ℂ) = ((-(Real.pi * x) : ℝ) : ℂ) * I by push_cast; ring,
      Complex.norm_exp_ofReal_mul_I, one_pow]
  have t3 : ‖∑ j ∈ range m, r (m - (j + 1)) * cexp (-(I * Real.pi * x)) ^ (j + 1)‖ ≤ m * δ := by
    refine (norm_sum_le _ _).trans ?_
    refine (sum_le_card_nsmul _ _ δ ?_).trans (by simp)
    intro j _
    rw [norm_mul, hexp, mul_one]; exact hrb _
  have t4 : |(I * q.getD m 0).re| ≤ δ := by
    refine (Complex.abs_re_le_norm _).trans ?_
    rw [norm_mul, Complex.norm_I, one_mul]
    exact hbq m (by omega)
  have t5 := (Complex.abs_re_le_norm (∑ j ∈ range m, r (m - (j + 1)) *
    cexp (-(I * Real.pi * x)) ^ (j + 1))).trans t3
  have t6 : ‖((((I * q.getD m 0).re
      + 2 * (∑ j ∈ range m, r (m - (j + 1)) * cexp (-(I * Real.pi * x)) ^ (j + 1)).re : ℝ)) : ℂ)‖
      ≤ δ + 2 * (m * δ) := by
    rw [Complex.norm_real, Real.norm_eq_abs]
    refine (abs_add_le _ _).trans ?_
    rw [abs_mul, abs_two]
    linarith
  have hm2 : (2 * m : ℝ) ≤ c.length := by exact_mod_cast (by omega : 2 * m ≤ c.length)
  nlinarith

lemma real_exact (c : List ℂ) (hc : c.length ≠ 0) (h : ∀ y, (trigEval c y).im = 0) (x : ℝ) :
    ((hornerReal x c : ℝ) : ℂ) = trigEval c x := by
  have := real_tol c hc 0 (fun j hj => by rw [← trigEval_grid c j hj, h]; simp) x
  rw [mul_zero, norm_le_zero_iff, sub_eq_zero] at this
  exact this

lemma le_foldl_max (l : List ℝ) (a : ℝ) : a ≤ l.foldl max a ∧ ∀ b ∈ l, b ≤ l.foldl max a := by
  induction l generalizing a with
  | nil => simp
  | cons b l ih =>
    obtain ⟨h1, h2⟩ := ih (max a b)
    simp only [List.foldl_cons, List.mem_cons]
    refine ⟨(le_max_left _ _).trans h1, ?_⟩
    rintro d (rfl | hd)
    · exact (le_max_right _ _).trans h1
    · exact h2 d hd

lemma foldl_max_le' (l : List ℝ) (a M : ℝ) (ha : a ≤ M) (h : ∀ b ∈ l, b ≤ M) : l.foldl max a ≤ M := by
  induction l generalizing a with
  | nil => simpa
  | cons b l ih =>
    simp only [List.foldl_cons]
    exact ih _ (max_le ha (h b (by simp))) fun d hd => h d (by simp [hd])

lemma im_le_supIm (v : List ℂ) (j : ℕ) (hj : j < v.length) : |(v.getD j 0).im| ≤ supIm v := by
  rw [getD_lt' _ _ _ hj]
  exact (le_foldl_max _ 0).2 _ (List.mem_map.mpr ⟨_, List.getElem_mem hj, rfl⟩)

lemma getVscale_le (c : List ℂ) (M : ℝ) (hM : 0 ≤ M)
    (h : ∀ j < c.length, ‖trigEval c (equi c.length j)‖ ≤ M) : getVscale c ≤ M := by
  unfold getVscale
  split_ifs with h1
  · have := h 0 (by omega)
    rw [trigEval_grid c 0 (by omega), coeffs2vals, if_pos (by omega)] at this
    exact this
  · apply foldl_max_le' _ _ _ hM
    intro b hb
    obtain ⟨z, hz, rfl⟩ := List.mem_map.mp hb
    obtain ⟨j, hj, rfl⟩ := List.mem_iff_getElem.mp hz
    rw [coeffs2vals_length] at hj
    have := h j hj
    rwa [trigEval_grid c j hj, getD_lt' _ _ _ (by rw [coeffs2vals_length]; exact hj)] at this

end Funpy.Trig
