import Verif.Model.TrigTransform
import Verif.Model.TrigEval
import Verif.Spec.Trig
import Verif.Lemmas.FFT

namespace Funpy.Trig
open Finset Complex Spec ComplexConjugate

lemma fftshift_length (a : List ℂ) : (fftshift a).length = a.length := by simp [fftshift]
lemma ifftshift_length (a : List ℂ) : (ifftshift a).length = a.length := by simp [ifftshift]
lemma applyFix_length (a : List ℂ) : (applyFix a).length = a.length := by simp [applyFix]

lemma evenOddFix_eq (n k : ℕ) : evenOddFix n k = (-1) ^ wave n k := by
  unfold evenOddFix wave
  split_ifs with h
  · congr 1
    omega
  · congr 1
    omega

lemma applyFix_getD (c : List ℂ) (k : ℕ) (hk : k < c.length) :
    (applyFix c).getD k 0 = (-1) ^ wave c.length k * c.getD k 0 := by
  rw [getD_lt' _ _ _ (by rw [applyFix_length]; exact hk), getD_lt' _ _ _ hk]
  simp only [applyFix, List.getElem_mapIdx, evenOddFix_eq]

/-- the value `exp(iπ w x_j)` on the grid -/
lemma grid_exp (n : ℕ) (hn : n ≠ 0) (w : ℤ) (j : ℕ) :
    cexp (I * Real.pi * w * (equi n j : ℝ)) = (-1) ^ w * rou n (w * j) := by
  have hn' : (n : ℂ) ≠ 0 := by exact_mod_cast hn
  have h1 : ((-1 : ℂ)) ^ w = cexp (-(I * Real.pi * w)) := by
    rw [← Complex.exp_pi_mul_I, ← Complex.exp_int_mul, Complex.exp_neg]
    have : cexp (I * Real.pi * w) * cexp (I * Real.pi * w) = 1 := by
      rw [← Complex.exp_add, Complex.exp_eq_one_iff]; exact ⟨w, by ring⟩
    rw [eq_comm, inv_eq_of_mul_eq_one_left, show (w : ℂ) * (Real.pi * I) = I * Real.pi * w by ring]
    exact this
  rw [h1, rou, ← Complex.exp_add, equi]
  congr 1
  push_cast
  field_simp

lemma rou_mod (n : ℕ) (hn : n ≠ 0) (a b : ℤ) (h : (n : ℤ) ∣ a - b) : rou n a = rou n b := by
  obtain ⟨k, hk⟩ := h
  rw [show a = b + n * k by omega, rou_periodic n hn]

lemma rou_ne_zero (n : ℕ) (z : ℤ) : rou n z ≠ 0 := Complex.exp_ne_zero _

lemma conj_rou (n : ℕ) (z : ℤ) : conj (rou n z) = rou n (-z) := by
  unfold rou
  rw [← Complex.exp_conj]
  congr 1
  simp [Complex.conj_ofNat]

lemma neg_one_zpow_ne (w : ℤ) : ((-1 : ℂ)) ^ w ≠ 0 := zpow_ne_zero _ (by norm_num)
lemma neg_one_zpow_sq (w : ℤ) : ((-1 : ℂ)) ^ w * (-1) ^ w = 1 := by
  rw [← zpow_add₀ (by norm_num)]
  exact Even.neg_one_zpow ⟨w, rfl⟩

lemma neg_one_zpow_conj (w : ℤ) : conj (((-1 : ℂ)) ^ w) = (-1) ^ w := by simp

/-- `(-1)^w` is real -/
lemma neg_one_zpow_cases (w : ℤ) : ((-1 : ℂ)) ^ w = 1 ∨ ((-1 : ℂ)) ^ w = -1 := by
  rcases Int.even_or_odd w with h | h
  · exact Or.inl h.neg_one_zpow
  · exact Or.inr h.neg_one_zpow

lemma mod_shift (n i : ℕ) (hi : i < n) :
    (n : ℤ) ∣ (((i + (n - n / 2)) % n : ℕ) : ℤ) - wave n i := by
  unfold wave
  have h2 : ((i + (n - n / 2) : ℕ) : ℤ) = (i : ℤ) + n - (n / 2 : ℕ) := by omega
  rw [Int.natCast_mod, h2, Int.emod_def]
  refine ⟨1 - ((i : ℤ) + n - (n / 2 : ℕ)) / (n : ℤ), ?_⟩
  ring

/-- Unsymmetrized coefficients: the centred DFT. -/
lemma raw_coeffs (v : List ℂ) (k : ℕ) (hk : k < v.length) :
    ((fftshift (fft v)).map fun a => (1 / (v.length : ℂ)) * a).getD k 0
      = (∑ j ∈ range v.length, v.getD j 0 * rou v.length (-(wave v.length k * j))) / v.length := by
  have hn : v.length ≠ 0 := by omega
  rw [getD_lt' (List.map _ _) _ _ (by simp [fftshift_length, fft_length]; exact hk), List.getElem_map,
    ← getD_lt' _ 0 _ _, fftshift, getD_map_range, if_pos (by rw [fft_length]; exact hk), fft_length,
    fft_getD _ _ (Nat.mod_lt _ (by omega)), one_div, mul_comm, ← div_eq_mul_inv]
  congr 1
  apply sum_congr rfl
  intro j _
  congr 1
  apply rou_mod _ hn
  have := mod_shift v.length k hk
  rw [show -((j : ℤ) * ((k + (v.length - v.length / 2)) % v.length : ℕ)) - -(wave v.length k * j)
    = -((((k + (v.length - v.length / 2)) % v.length : ℕ) - wave v.length k) * (j : ℤ)) by ring]
  exact (Dvd.dvd.mul_right this _).neg_right

/-- Unsymmetrized values. -/
lemma raw_vals (c : List ℂ) (j : ℕ) (hj : j < c.length) :
    (ifft (ifftshift ((applyFix c).map fun a => (c.length : ℂ) * a))).getD j 0
      = ∑ k ∈ range c.length, c.getD k 0 * (-1) ^ wave c.length k * rou c.length (wave c.length k * j) := by
  have hn : c.length ≠ 0 := by omega
  have hn' : (c.length : ℂ) ≠ 0 := by exact_mod_cast hn
  set n := c.length with hnd
  rw [ifft_getD _ _ (by rw [ifftshift_length]; simp [applyFix_length]; omega), ifftshift_length,
    List.length_map, applyFix_length, ← hnd, div_eq_iff hn', sum_mul]
  -- reindex: position i holds coefficient (i + n/2) % n
  refine sum_nbij' (fun i => (i + n / 2) % n) (fun k => (k + (n - n / 2)) % n) ?_ ?_ ?_ ?_ ?_
  · intro i _; exact mem_range.mpr (Nat.mod_lt _ (by omega))
  · intro i _; exact mem_range.mpr (Nat.mod_lt _ (by omega))
  · intro i hi
    have := mem_range.mp hi
    rw [Nat.mod_add_mod, show i + n / 2 + (n - n / 2) = i + n by omega, Nat.add_mod_right,
      Nat.mod_eq_of_lt this]
  · intro i hi
    have := mem_range.mp hi
    rw [Nat.mod_add_mod, show i + (n - n / 2) + n / 2 = i + n by omega, Nat.add_mod_right,
      Nat.mod_eq_of_lt this]
  · intro i hi
    have hi' := mem_range.mp hi
    have hk : (i + n / 2) % n < n := Nat.mod_lt _ (by omega)
    rw [ifftshift, getD_map_range, if_pos (by simp [applyFix_length]; omega), List.length_map,
      applyFix_length, ← hnd, getD_lt' (List.map _ _) _ _ (by simp [applyFix_length]; omega),
      List.getElem_map, ← getD_lt' _ 0 _ _, applyFix_getD _ _ (by omega), ← hnd,
      show rou n (↑j * ↑i) = rou n (wave n ((i + n / 2) % n) * j) from ?_]
    · ring
    · apply rou_mod _ hn
      have : (n : ℤ) ∣ (i : ℤ) - wave n ((i + n / 2) % n) := by
        unfold wave
        push_cast
        rw [Int.emod_def]
        refine ⟨((i : ℤ) + (n : ℤ) / 2) / (n : ℤ), ?_⟩
        ring
      rw [show (j : ℤ) * i - wave n ((i + n / 2) % n) * j = (i - wave n ((i + n / 2) % n)) * (j : ℤ) by
        ring]
      exact Dvd.dvd.mul_right this _

/-- reflection of a sum over a period -/
lemma sum_reflect (n : ℕ) (g : ℕ → ℂ) :
    ∑ j ∈ range n, g ((n - j) % n) = ∑ j ∈ range n, g j := by
  rcases Nat.eq_zero_or_pos n with rfl | hn
  · simp
  have key : ∀ j < n, (n - (n - j) % n) % n = j := by
    intro j hj
    rcases Nat.eq_zero_or_pos j with rfl | h0
    · simp
    · rw [Nat.mod_eq_of_lt (show n - j < n by omega), show n - (n - j) = j by omega,
        Nat.mod_eq_of_lt hj]
  refine sum_nbij' (fun j => (n - j) % n) (fun j => (n - j) % n) ?_ ?_ ?_ ?_ ?_
  · intro i _; exact mem_range.mpr (Nat.mod_lt _ hn)
  · intro i _; exact mem_range.mpr (Nat.mod_lt _ hn)
  · intro i hi; exact key i (mem_range.mp hi)
  · intro i hi; exact key i (mem_range.mp hi)
  · intro i _; rfl

lemma rou_reflect (n : ℕ) (hn : n ≠ 0) (w : ℤ) (j : ℕ) (hj : j < n) :
    rou n (w * ((n - j) % n : ℕ)) = rou n (-(w * j)) := by
  apply rou_mod _ hn
  rcases Nat.eq_zero_or_pos j with rfl | h0
  · simp
  · rw [Nat.mod_eq_of_lt (show n - j < n by omega), Nat.cast_sub (by omega)]
    exact ⟨w, by ring⟩

lemma ext_getD_reflect (v : List ℂ) (j : ℕ) (hj : j < v.length) :
    (v ++ [v.getD 0 0]).getD (v.length - j) 0 = v.getD ((v.length - j) % v.length) 0 := by
  rw [getD_append']
  rcases Nat.eq_zero_or_pos j with rfl | h0
  · simp
  · rw [if_pos (by omega), Nat.mod_eq_of_lt (by omega)]

lemma isHerm_iff (v : List ℂ) :
    isHerm (v ++ [v.getD 0 0]) = true ↔
      ∀ j < v.length, v.getD j 0 = conj (v.getD ((v.length - j) % v.length) 0) := by
  unfold isHerm
  rw [decide_eq_true_iff]
  simp only [List.length_append, List.length_singleton, Nat.add_sub_cancel]
  constructor
  · intro h j hj
    have := h j (by omega)
    rw [ext_getD_reflect v j hj, getD_append', if_pos hj, sub_eq_zero] at this
    exact this
  · intro h j hj
    by_cases hj' : j < v.length
    · rw [ext_getD_reflect v j hj', getD_append', if_pos hj', sub_eq_zero]
      exact h j hj'
    · obtain rfl : j = v.length := by omega
      rw [getD_append', if_neg (by omega), getD_append']
      by_cases h0 : 0 < v.length
      · rw [if_pos (by omega), sub_eq_zero]
        have := h 0 h0
        simpa using this
      · have : v = [] := List.length_eq_zero_iff.mp (by omega)
        subst this; simp

lemma isSkew_iff (v : List ℂ) :
    isSkew (v ++ [v.getD 0 0]) = true ↔
      ∀ j < v.length, v.getD j 0 = -conj (v.getD ((v.length - j) % v.length) 0) := by
  unfold isSkew
  rw [decide_eq_true_iff]
  simp only [List.length_append, List.length_singleton, Nat.add_sub_cancel]
  constructor
  · intro h j hj
    have := h j (by omega)
    rw [ext_getD_reflect v j hj, getD_append', if_pos hj, add_eq_zero_iff_eq_neg] at this
    exact this
  · intro h j hj
    by_cases hj' : j < v.length
    · rw [ext_getD_reflect v j hj', getD_append', if_pos hj', add_eq_zero_iff_eq_neg]
      exact h j hj'
    · obtain rfl : j = v.length := by omega
      rw [getD_append', if_neg (by omega), getD_append']
      by_cases h0 : 0 < v.length
      · rw [if_pos (by omega), add_eq_zero_iff_eq_neg]
        have := h 0 h0
        simpa using this
      · have : v = [] := List.length_eq_zero_iff.mp (by omega)
        subst this; simp

/-- The centred DFT of hermitian (`s = 1`) or skew (`s = -1`) data is real (imaginary). -/
lemma raw_conj (v : List ℂ) (s : ℂ)
    (h : ∀ j < v.length, v.getD j 0 = s * conj (v.getD ((v.length - j) % v.length) 0))
    (hs : conj s * s = 1) (k : ℕ) :
    conj (∑ j ∈ range v.length, v.getD j 0 * rou v.length (-(wave v.length k * j)))
      = conj s * ∑ j ∈ range v.length, v.getD j 0 * rou v.length (-(wave v.length k * j)) := by
  by_cases hn : v.length = 0
  · simp [hn]
  rw [map_sum, ← sum_reflect, mul_sum]
  apply sum_congr rfl
  intro j hj
  rw [map_mul, conj_rou, neg_neg, rou_reflect _ hn _ _ (mem_range.mp hj), ← mul_assoc]
  congr 1
  rw [h j (mem_range.mp hj), ← mul_assoc, hs, one_mul]

lemma real_of_conj {z : ℂ} (h : conj z = z) : ((z.re : ℝ) : ℂ) = z :=
  Complex.conj_eq_iff_re.mp h

lemma imag_of_conj {z : ℂ} (h : conj z = -z) : I * ((z.im : ℝ) : ℂ) = z := by
  apply Complex.ext
  · have := congrArg Complex.re h
    simp at this ⊢
    linarith
  · simp

/-- **The forward transform**: entry `k` is the discrete Fourier coefficient on the grid. -/
lemma vals2coeffs_getD (v : List ℂ) (k : ℕ) (hk : k < v.length) :
    (vals2coeffs v).getD k 0 = (-1) ^ wave v.length k *
      ((∑ j ∈ range v.length, v.getD j 0 * rou v.length (-(wave v.length k * j))) / v.length) := by
  unfold vals2coeffs
  by_cases h1 : v.length ≤ 1
  · have hl : v.length = 1 := by omega
    obtain rfl : k = 0 := by omega
    simp [hl, wave, rou]
  simp only [h1, if_false]
  set c := (fftshift (fft v)).map fun a => (1 / (v.length : ℂ)) * a with hc
  have hcl : c.length = v.length := by simp [hc, fftshift_length, fft_length]
  have hcg := raw_coeffs v
  rw [← hc] at hcg
  have hH : isHerm (v ++ [v.getD 0 0]) = true → c.map (fun a => ((a.re : ℝ) : ℂ)) = c := by
    intro h
    rw [isHerm_iff] at h
    apply ext_getD 0 (by simp)
    intro i hi
    rw [List.length_map, hcl] at hi
    rw [getD_lt' (List.map _ _) _ _ (by simp; omega), List.getElem_map, ← getD_lt' _ 0 _ _, hcg i hi]
    apply real_of_conj
    rw [map_div₀, raw_conj v 1 (by simpa using h) (by simp) i]
    simp
  have hS : isSkew (v ++ [v.getD 0 0]) = true → c.map (fun a => I * ((a.im : ℝ) : ℂ)) = c := by
    intro h
    rw [isSkew_iff] at h
    apply ext_getD 0 (by simp)
    intro i hi
    rw [List.length_map, hcl] at hi
    rw [getD_lt' (List.map _ _) _ _ (by simp; omega), List.getElem_map, ← getD_lt' _ 0 _ _, hcg i hi]
    apply imag_of_conj
    rw [map_div₀, raw_conj v (-1) (by simpa using h) (by simp) i]
    simp [neg_div]
  have e1 : (if isHerm (v ++ [v.getD 0 0]) = true then c.map (fun a => ((a.re : ℝ) : ℂ)) else c) = c := by
    split_ifs with h
    · exact hH h
    · rfl
  rw [e1]
  have e2 : (if isSkew (v ++ [v.getD 0 0]) = true then c.map (fun a => I * ((a.im : ℝ) : ℂ)) else c) = c := by
    split_ifs with h
    · exact hS h
    · rfl
  rw [e2, applyFix_getD _ _ (by omega), hcl, hcg k hk]

lemma vals2coeffs_length (v : List ℂ) : (vals2coeffs v).length = v.length := by
  unfold vals2coeffs
  by_cases h1 : v.length ≤ 1
  · simp [h1]
  simp only [h1, if_false]
  rw [applyFix_length]
  split_ifs <;> simp [fftshift_length, fft_length]

/-- **The backward transform**. -/
lemma coeffs2vals_getD (c : List ℂ) (j : ℕ) (hj : j < c.length) :
    (coeffs2vals c).getD j 0
      = ∑ k ∈ range c.length, c.getD k 0 * (-1) ^ wave c.length k * rou c.length (wave c.length k * j) := by
  unfold coeffs2vals
  by_cases h1 : c.length ≤ 1
  · have hl : c.length = 1 := by omega
    obtain rfl : j = 0 := by omega
    simp [hl, wave, rou]
  simp only [h1, if_false]
  set v := ifft (ifftshift ((applyFix c).map fun a => (c.length : ℂ) * a)) with hv
  have hvl : v.length = c.length := by
    simp [hv, ifft_length, ifftshift_length, applyFix_length]
  have hvg := raw_vals c
  rw [← hv] at hvg
  have hn : c.length ≠ 0 := by omega
  -- symmetry of the raw values
  have key : ∀ s : ℂ, (∀ k < c.length, conj ((applyFix c).getD k 0) = s * (applyFix c).getD k 0) →
      ∀ j < c.length, conj (v.getD ((c.length - j) % c.length) 0) = s * v.getD j 0 := by
    intro s hs j hj
    rw [hvg j hj, hvg _ (Nat.mod_lt _ (by omega)), map_sum, mul_sum]
    apply sum_congr rfl
    intro k hk
    have := hs k (mem_range.mp hk)
    rw [applyFix_getD _ _ (mem_range.mp hk)] at this
    rw [rou_reflect _ hn _ _ hj, map_mul, conj_rou, neg_neg, mul_comm (c.getD k 0), this]
    ring
  have hH : (applyFix c).all (fun a => decide (a.im = 0)) = true →
      (List.range c.length).map (fun j => ((v ++ [v.getD 0 0]).getD j 0
        + conj ((v ++ [v.getD 0 0]).getD (c.length - j) 0)) / 2) = v := by
    intro h
    apply ext_getD 0 (by simp [hvl])
    intro i hi
    simp at hi
    rw [getD_map_range, if_pos hi, getD_append', if_pos (by omega), ← hvl, ext_getD_reflect v i (by omega),
      hvl, key 1 _ i hi]
    · ring
    · intro k hk
      rw [one_mul, Complex.conj_eq_iff_im]
      rw [List.all_eq_true] at h
      have := h _ (List.getElem_mem (show k < (applyFix c).length by rw [applyFix_length]; exact hk))
      rw [getD_lt' _ _ _ (by rw [applyFix_length]; exact hk)]
      simpa using this
  have hS : (applyFix c).all (fun a => decide (a.re = 0)) = true →
      (List.range c.length).map (fun j => ((v ++ [v.getD 0 0]).getD j 0
        - conj ((v ++ [v.getD 0 0]).getD (c.length - j) 0)) / 2) = v := by
    intro h
    apply ext_getD 0 (by simp [hvl])
    intro i hi
    simp at hi
    rw [getD_map_range, if_pos hi, getD_append', if_pos (by omega), ← hvl, ext_getD_reflect v i (by omega),
      hvl, key (-1) _ i hi]
    · ring
    · intro k hk
      rw [List.all_eq_true] at h
      have := h _ (List.getElem_mem (show k < (applyFix c).length by rw [applyFix_length]; exact hk))
      rw [getD_lt' _ _ _ (by rw [applyFix_length]; exact hk)]
      have h0 : ((applyFix c)[k]'(by rw [applyFix_length]; exact hk)).re = 0 := by simpa using this
      apply Complex.ext <;> simp [h0]
  have e1 : (if (applyFix c).all (fun a => decide (a.im = 0)) = true then
      (List.range c.length).map (fun j => ((v ++ [v.getD 0 0]).getD j 0
        + conj ((v ++ [v.getD 0 0]).getD (c.length - j) 0)) / 2) else v) = v := by
    split_ifs with h
    · exact hH h
    · rfl
  rw [e1]
  split_ifs with h
  · rw [hS h, hvg j hj]
  · rw [hvg j hj]

lemma coeffs2vals_length (c : List ℂ) : (coeffs2vals c).length = c.length := by
  unfold coeffs2vals
  by_cases h1 : c.length ≤ 1
  · simp [h1]
  simp only [h1, if_false]
  split_ifs <;> simp [ifft_length, ifftshift_length, applyFix_length]

end Funpy.Trig
