import Verif.Lemmas.TrigEval

namespace Funpy.Trig
open Finset Complex Spec ComplexConjugate

/-- index of the complex conjugate mode -/
def mirror (n k : ℕ) : ℕ := if n % 2 = 0 ∧ k = 0 then 0 else 2 * (n / 2) - k

/-- hermitian coefficients: the series is real -/
def Herm (c : List ℂ) : Prop := ∀ k < c.length, conj (c.getD k 0) = c.getD (mirror c.length k) 0

lemma mirror_lt (n k : ℕ) (hk : k < n) : mirror n k < n := by
  unfold mirror; split_ifs <;> omega

lemma mirror_mirror (n k : ℕ) (hk : k < n) : mirror n (mirror n k) = k := by
  unfold mirror; split_ifs <;> omega

lemma wave_mirror (n k : ℕ) (hk : k < n) (h : ¬ (n % 2 = 0 ∧ k = 0)) :
    wave n (mirror n k) = - wave n k := by
  unfold mirror wave; rw [if_neg h]; omega

lemma conj_trigMode (n k : ℕ) (hk : k < n) (x : ℝ) :
    conj (trigMode n k x) = trigMode n (mirror n k) x := by
  by_cases h : n % 2 = 0 ∧ k = 0
  · rw [trigMode, if_pos h, trigMode, if_pos ⟨h.1, by unfold mirror; rw [if_pos h]⟩, conj_ofReal]
  · rw [trigMode, if_neg h, trigMode, if_neg, wave_mirror n k hk h, ← Complex.exp_conj]
    · congr 1
      simp
    · rintro ⟨h1, h2⟩
      unfold mirror at h2; rw [if_neg h] at h2; omega

lemma herm_trigEval (c : List ℂ) (h : Herm c) (x : ℝ) : conj (trigEval c x) = trigEval c x := by
  unfold trigEval
  rw [map_sum]
  refine sum_nbij' (fun k => mirror c.length k) (fun k => mirror c.length k) ?_ ?_ ?_ ?_ ?_
  · intro k hk; exact mem_range.mpr (mirror_lt _ _ (mem_range.mp hk))
  · intro k hk; exact mem_range.mpr (mirror_lt _ _ (mem_range.mp hk))
  · intro k hk; exact mirror_mirror _ _ (mem_range.mp hk)
  · intro k hk; exact mirror_mirror _ _ (mem_range.mp hk)
  · intro k hk
    rw [map_mul, h k (mem_range.mp hk), conj_trigMode _ _ (mem_range.mp hk)]

/-- Real data have hermitian coefficients. -/
lemma herm_of_real (v : List ℂ) (h : ∀ j < v.length, (v.getD j 0).im = 0) : Herm (vals2coeffs v) := by
  intro k hk
  rw [vals2coeffs_length] at hk ⊢
  have hn : v.length ≠ 0 := by omega
  rw [vals2coeffs_getD _ _ hk, vals2coeffs_getD _ _ (mirror_lt _ _ hk), map_mul, map_div₀,
    neg_one_zpow_conj, map_sum, conj_natCast]
  have hs : ((-1 : ℂ)) ^ wave v.length (mirror v.length k) = (-1) ^ wave v.length k := by
    by_cases h0 : v.length % 2 = 0 ∧ k = 0
    · unfold mirror; rw [if_pos h0, h0.2]
    · rw [wave_mirror _ _ hk h0, zpow_neg]
      rcases neg_one_zpow_cases (wave v.length k) with h | h <;> rw [h] <;> norm_num
  rw [hs]
  congr 2
  apply sum_congr rfl
  intro j hj
  rw [map_mul, Complex.conj_eq_iff_im.mpr (h j (mem_range.mp hj)), conj_rou, neg_neg]
  congr 1
  apply rou_mod _ hn
  by_cases h0 : v.length % 2 = 0 ∧ k = 0
  · unfold mirror wave; rw [if_pos h0, h0.2]
    refine ⟨-j, ?_⟩
    have : (v.length : ℤ) = 2 * (v.length / 2 : ℕ) := by omega
    rw [this]; push_cast; ring
  · rw [wave_mirror _ _ hk h0]; simp

lemma sum_center_odd (m : ℕ) (f : ℕ → ℂ) :
    ∑ k ∈ range (2 * m + 1), f k
      = f m + ∑ j ∈ range m, (f (m - (j + 1)) + f (m + (j + 1))) := by
  rw [show 2 * m + 1 = m + (1 + m) by ring, sum_range_add, sum_add_distrib, ← sum_range_reflect]
  rw [show ∑ x ∈ range (1 + m), f (m + x) = ∑ x ∈ range (m + 1), f (m + x) by rw [add_comm],
    sum_range_succ']
  have : ∀ j ∈ range m, f (m - 1 - j) = f (m - (j + 1)) := by
    intro j _; congr 1; omega
  rw [sum_congr rfl this]
  simp only [add_zero]
  ring

lemma sum_center_even (m : ℕ) (hm : 0 < m) (f : ℕ → ℂ) :
    ∑ k ∈ range (2 * m), f k
      = f m + ∑ j ∈ range (m - 1), (f (m - (j + 1)) + f (m + (j + 1))) + f 0 := by
  obtain ⟨p, rfl⟩ : ∃ p, m = p + 1 := ⟨m - 1, by omega⟩
  rw [show 2 * (p + 1) = 2 * p + 1 + 1 by ring, sum_range_succ', sum_center_odd p (fun k => f (k + 1))]
  congr 1
  congr 1
  rw [show p + 1 - 1 = p by omega]
  apply sum_congr rfl
  intro j hj
  have := mem_range.mp hj
  congr 2 <;> omega

lemma cexp_neg_pow (x : ℝ) (j : ℕ) : cexp (-(I * Real.pi * x)) ^ j = cexp (-(I * Real.pi * j * x)) := by
  rw [← Complex.exp_nat_mul]; congr 1; ring

lemma conj_cexp_pow (x : ℝ) (j : ℕ) :
    conj (cexp (-(I * Real.pi * x)) ^ j) = cexp (I * Real.pi * j * x) := by
  rw [cexp_neg_pow, ← Complex.exp_conj]; congr 1; simp

lemma two_re (z : ℂ) : ((2 * z.re : ℝ) : ℂ) = z + conj z := by
  rw [Complex.add_conj]

/-- On hermitian coefficients the real evaluation is the series. -/
lemma hornerReal_herm (x : ℝ) (c : List ℂ) (hc : c.length ≠ 0) (h : Herm c) :
    ((hornerReal x c : ℝ) : ℂ) = trigEval c x := by
  rw [hornerReal_eq x c hc, ofReal_add, two_re, map_sum, ← sum_add_distrib]
  unfold trigEval
  have hconst : ((c.getD (c.length / 2) 0).re : ℂ) = c.getD (c.length / 2) 0 := by
    apply Complex.conj_eq_iff_re.mp
    rw [h _ (by omega)]
    unfold mirror
    rw [if_neg (by omega)]
    congr 1
    omega
  rw [hconst]
  have hmode0 : trigMode c.length (c.length / 2) x = 1 := by
    rw [trigMode, if_neg (by omega)]; simp [wave]
  rcases Nat.even_or_odd' c.length with ⟨m, hm | hm⟩
  · -- even
    have hm2 : c.length / 2 = m := by omega
    have hm0 : 0 < m := by omega
    have hpair : ∀ j < m - 1, (hornerRealMut c).getD (m - (j + 1)) 0 * cexp (-(I * Real.pi * x)) ^ (j + 1)
        + conj ((hornerRealMut c).getD (m - (j + 1)) 0 * cexp (-(I * Real.pi * x)) ^ (j + 1))
        = c.getD (m - (j + 1)) 0 * trigMode c.length (m - (j + 1)) x
          + c.getD (m + (j + 1)) 0 * trigMode c.length (m + (j + 1)) x := by
      intro j hj
      have e1 : (hornerRealMut c).getD (m - (j + 1)) 0 = c.getD (m - (j + 1)) 0 := by
        unfold hornerRealMut
        rw [if_pos (by omega), getD_set', if_neg (by omega)]
      have e2 : conj (c.getD (m - (j + 1)) 0) = c.getD (m + (j + 1)) 0 := by
        rw [h _ (by omega)]
        unfold mirror
        rw [if_neg (by omega)]
        congr 1
        omega
      have w1 : wave c.length (m - (j + 1)) = -((j + 1 : ℕ) : ℤ) := by unfold wave; omega
      have w2 : wave c.length (m + (j + 1)) = ((j + 1 : ℕ) : ℤ) := by unfold wave; omega
      rw [e1, map_mul, e2, conj_cexp_pow, cexp_neg_pow, trigMode, if_neg (by omega), trigMode,
        if_neg (by omega), w1, w2]
      congr 3
      push_cast; ring
    have hnyq : (hornerRealMut c).getD (m - (m - 1 + 1)) 0 * cexp (-(I * Real.pi * x)) ^ (m - 1 + 1)
        + conj ((hornerRealMut c).getD (m - (m - 1 + 1)) 0 * cexp (-(I * Real.pi * x)) ^ (m - 1 + 1))
        = c.getD 0 0 * trigMode c.length 0 x := by
      have e1 : (hornerRealMut c).getD (m - (m - 1 + 1)) 0 = ((0.5 * (c.getD 0 0).re : ℝ) : ℂ) := by
        unfold hornerRealMut
        rw [if_pos (by omega), getD_set', if_pos ⟨by omega, by omega⟩]
      have e2 : ((c.getD 0 0).re : ℂ) = c.getD 0 0 := by
        apply Complex.conj_eq_iff_re.mp
        rw [h _ (by omega)]
        unfold mirror
        rw [if_pos ⟨by omega, rfl⟩]
      rw [e1, map_mul, conj_cexp_pow, cexp_neg_pow, conj_ofReal, trigMode, if_pos ⟨by omega, rfl⟩, hm2,
        ofReal_mul, e2, show m - 1 + 1 = m by omega, ofReal_cos, Complex.cos]
      have a1 : cexp (((m : ℝ) * Real.pi * x : ℝ) * I) = cexp (I * Real.pi * m * x) := by
        congr 1; push_cast; ring
      have a2 : cexp (-((m : ℝ) * Real.pi * x : ℝ) * I) = cexp (-(I * Real.pi * m * x)) := by
        congr 1; push_cast; ring
      rw [a1, a2]
      push_cast
      ring
    rw [hm2, hm, sum_center_even m hm0, ← hm, ← hm2, hmode0, mul_one, hm2, add_assoc]
    congr 1
    obtain ⟨p, hp⟩ : ∃ p, m = p + 1 := ⟨m - 1, by omega⟩
    have hp1 : m - 1 = p := by omega
    rw [show range m = range (p + 1) by rw [hp], sum_range_succ, hp1]
    rw [hp1] at hnyq hpair
    rw [hnyq]
    congr 1
    exact sum_congr rfl fun j hj => hpair j (mem_range.mp hj)
  · have hm2 : c.length / 2 = m := by omega
    rw [hm2, hm, sum_center_odd m, ← hm, ← hm2, hmode0, mul_one, hm2]
    congr 1
    apply sum_congr rfl
    intro j hj
    have hj' := mem_range.mp hj
    have e1 : (hornerRealMut c).getD (m - (j + 1)) 0 = c.getD (m - (j + 1)) 0 := by
      unfold hornerRealMut
      rw [if_neg (by omega)]
    have e2 : conj (c.getD (m - (j + 1)) 0) = c.getD (m + (j + 1)) 0 := by
      rw [h _ (by omega)]
      unfold mirror
      rw [if_neg (by omega)]
      congr 1
      omega
    have w1 : wave c.length (m - (j + 1)) = -((j + 1 : ℕ) : ℤ) := by unfold wave; omega
    have w2 : wave c.length (m + (j + 1)) = ((j + 1 : ℕ) : ℤ) := by unfold wave; omega
    rw [e1, map_mul, e2, conj_cexp_pow, cexp_neg_pow, trigMode, if_neg (by omega), trigMode,
      if_neg (by omega), w1, w2]
    congr 3
    push_cast; ring

end Funpy.Trig
