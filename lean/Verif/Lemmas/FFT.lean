import Verif.Model.FFT
import Verif.Lemmas.ListAux
import Mathlib.RingTheory.RootsOfUnity.Complex
import Mathlib.Algebra.Field.GeomSum
import Mathlib.Algebra.BigOperators.Field
import Mathlib.Algebra.BigOperators.Ring.Finset

namespace Funpy
open Finset Complex

/-- `exp(2πi z / n)` -/
noncomputable def rou (n : ℕ) (z : ℤ) : ℂ := cexp (2 * Real.pi * I * z / n)

lemma rou_add (n : ℕ) (a b : ℤ) : rou n (a + b) = rou n a * rou n b := by
  unfold rou; rw [← Complex.exp_add]; congr 1; push_cast; ring

lemma rou_zero (n : ℕ) : rou n 0 = 1 := by simp [rou]

lemma rou_mul_self (n : ℕ) (hn : n ≠ 0) (k : ℤ) : rou n (n * k) = 1 := by
  unfold rou
  have : (n : ℂ) ≠ 0 := by exact_mod_cast hn
  rw [Complex.exp_eq_one_iff]
  exact ⟨k, by push_cast; field_simp⟩

lemma rou_eq_one_iff (n : ℕ) (hn : n ≠ 0) (z : ℤ) : rou n z = 1 ↔ (n : ℤ) ∣ z := by
  have hn' : (n : ℂ) ≠ 0 := by exact_mod_cast hn
  constructor
  · intro h
    rw [rou, Complex.exp_eq_one_iff] at h
    obtain ⟨k, hk⟩ := h
    refine ⟨k, ?_⟩
    have h2 : (2 * Real.pi * I : ℂ) ≠ 0 := by simp [Real.pi_ne_zero, I_ne_zero]
    rw [div_eq_iff hn'] at hk
    have : (2 * Real.pi * I : ℂ) * z = (2 * Real.pi * I) * (n * k) := by rw [hk]; ring
    have := mul_left_cancel₀ h2 this
    exact_mod_cast this
  · rintro ⟨k, rfl⟩; exact rou_mul_self n hn k

lemma rou_pow (n : ℕ) (z : ℤ) (k : ℕ) : rou n z ^ k = rou n (z * k) := by
  unfold rou; rw [← Complex.exp_nat_mul]; congr 1; push_cast; ring

lemma rou_periodic (n : ℕ) (hn : n ≠ 0) (a k : ℤ) : rou n (a + n * k) = rou n a := by
  rw [rou_add, rou_mul_self n hn, mul_one]

/-- Orthogonality of the characters. -/
lemma sum_rou (n : ℕ) (hn : n ≠ 0) (z : ℤ) :
    ∑ k ∈ range n, rou n (z * k) = if (n : ℤ) ∣ z then (n : ℂ) else 0 := by
  simp only [← rou_pow]
  split_ifs with h
  · rw [(rou_eq_one_iff n hn z).mpr h]; simp
  · have h1 : rou n z ≠ 1 := fun h' => h ((rou_eq_one_iff n hn z).mp h')
    rw [geom_sum_eq h1, rou_pow, mul_comm, rou_mul_self n hn, sub_self, zero_div]

lemma fft_length (x : List ℂ) : (fft x).length = x.length := by simp [fft]
lemma ifft_length (x : List ℂ) : (ifft x).length = x.length := by simp [ifft]

lemma fft_getD (x : List ℂ) (k : ℕ) (hk : k < x.length) :
    (fft x).getD k 0 = ∑ j ∈ range x.length, x.getD j 0 * rou x.length (-(j * k)) := by
  rw [fft, getD_map_range, if_pos hk]
  apply sum_congr rfl
  intro j _
  unfold rou
  congr 2
  push_cast; ring

lemma ifft_getD (x : List ℂ) (k : ℕ) (hk : k < x.length) :
    (ifft x).getD k 0 = (∑ j ∈ range x.length, x.getD j 0 * rou x.length (k * j)) / x.length := by
  rw [ifft, getD_map_range, if_pos hk]
  congr 1
  apply sum_congr rfl
  intro j _
  unfold rou
  congr 2
  push_cast; ring

/-- `ifft(fft(x)) = x`. -/
lemma ifft_fft (x : List ℂ) : ifft (fft x) = x := by
  by_cases h0 : x.length = 0
  · have : x = [] := List.length_eq_zero_iff.mp h0
    subst this; rfl
  apply ext_getD 0
  · rw [ifft_length, fft_length]
  intro k hk
  rw [ifft_length, fft_length] at hk
  have hn' : (x.length : ℂ) ≠ 0 := by exact_mod_cast h0
  rw [ifft_getD _ _ (by rw [fft_length]; exact hk), fft_length, div_eq_iff hn']
  have h1 : ∀ j ∈ range x.length, (fft x).getD j 0 * rou x.length (k * j)
      = ∑ i ∈ range x.length, x.getD i 0 * rou x.length (((k : ℤ) - i) * j) := by
    intro j hj
    rw [fft_getD _ _ (mem_range.mp hj), sum_mul]
    apply sum_congr rfl
    intro i _
    rw [mul_assoc, ← rou_add]
    congr 2; ring
  rw [sum_congr rfl h1, sum_comm]
  simp only [← mul_sum, sum_rou _ h0]
  rw [sum_eq_single k]
  · simp
  · intro i hi hik
    rw [mem_range] at hi
    rw [if_neg, mul_zero]
    intro hd
    have := Int.eq_zero_of_abs_lt_dvd hd (by rw [abs_lt]; constructor <;> omega)
    omega
  · intro h; exact absurd (mem_range.mpr hk) h

/-- `fft(ifft(x)) = x`. -/
lemma fft_ifft (x : List ℂ) : fft (ifft x) = x := by
  by_cases h0 : x.length = 0
  · have : x = [] := List.length_eq_zero_iff.mp h0
    subst this; rfl
  apply ext_getD 0
  · rw [fft_length, ifft_length]
  intro k hk
  rw [fft_length, ifft_length] at hk
  have hn' : (x.length : ℂ) ≠ 0 := by exact_mod_cast h0
  rw [fft_getD _ _ (by rw [ifft_length]; exact hk), ifft_length]
  have h1 : ∀ j ∈ range x.length, (ifft x).getD j 0 * rou x.length (-(j * k))
      = (∑ i ∈ range x.length, x.getD i 0 * rou x.length (((i : ℤ) - k) * j)) / x.length := by
    intro j hj
    rw [ifft_getD _ _ (mem_range.mp hj), div_mul_eq_mul_div, sum_mul]
    congr 1
    apply sum_congr rfl
    intro i _
    rw [mul_assoc, ← rou_add]
    congr 2; ring
  rw [sum_congr rfl h1, ← sum_div, sum_comm]
  simp only [← mul_sum, sum_rou _ h0]
  rw [sum_eq_single k]
  · simp [hn']
  · intro i hi hik
    rw [mem_range] at hi
    rw [if_neg, mul_zero]
    intro hd
    have := Int.eq_zero_of_abs_lt_dvd hd (by rw [abs_lt]; constructor <;> omega)
    omega
  · intro h; exact absurd (mem_range.mpr hk) h

end Funpy
