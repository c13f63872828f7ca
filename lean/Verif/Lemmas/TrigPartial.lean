import Verif.Lemmas.TrigChop

/-! Partial sums of trigonometric polynomials. -/

namespace Funpy.Trig
open Finset Complex Spec ComplexConjugate

lemma partialSum_succ (F : ℝ → ℂ) (k : ℕ) (hk : 1 ≤ k) (x : ℝ) :
    partialSum F (k + 1) x = partialSum F k x + (fourier F k * cexp (I * Real.pi * (k : ℤ) * x)
      + fourier F (-k) * cexp (I * Real.pi * ((-(k : ℤ) : ℤ) : ℂ) * x)) := by
  unfold partialSum
  have : Ioo (-((k + 1 : ℕ) : ℤ)) ((k + 1 : ℕ) : ℤ) = insert (k : ℤ) (insert (-(k : ℤ)) (Ioo (-(k : ℤ)) k)) := by
    ext w; simp only [mem_Ioo, mem_insert]; push_cast; omega
  rw [this, sum_insert (by simp; omega), sum_insert (by simp)]
  push_cast
  ring

lemma norm_mode (w : ℤ) (x : ℝ) : ‖cexp (I * Real.pi * w * x)‖ = 1 := by
  rw [show (I * Real.pi * w * x : ℂ) = ((Real.pi * w * x : ℝ) : ℂ) * I by push_cast; ring]
  exact Complex.norm_exp_ofReal_mul_I _

lemma partialSum_dist (F : ℝ → ℂ) (k : ℕ) (hk : 1 ≤ k) (x : ℝ) : ∀ d : ℕ,
    ‖partialSum F (k + d) x - partialSum F k x‖ ≤ ∑ w ∈ Ico k (k + d), (‖fourier F w‖ + ‖fourier F (-w)‖)
  | 0 => by simp
  | d + 1 => by
    have ih := partialSum_dist F k hk x d
    rw [show k + (d + 1) = (k + d) + 1 by ring, sum_Ico_succ_top (by omega), partialSum_succ F (k + d) (by omega)]
    have e : ∀ a b c e : ℂ, a + (b + c) - e = (a - e) + (b + c) := by intros; ring
    rw [e]
    refine (norm_add_le _ _).trans (add_le_add ih ((norm_add_le _ _).trans ?_))
    rw [norm_mul, norm_mul]
    have h1 := norm_mode ((k + d : ℕ) : ℤ) x
    have h2 := norm_mode (-((k + d : ℕ) : ℤ)) x
    push_cast at h1 h2 ⊢
    rw [h1, h2, mul_one, mul_one]

/-- Fourier coefficients beyond the length vanish. -/
lemma fourier_big (c : List ℂ) (hc : c.length ≠ 0) (w : ℤ) (hw : ((c.length / 2 : ℕ) : ℤ) < |w|) :
    fourier (trigEval c) w = 0 := by
  have hl := splitEven_length c hc
  have ho := splitEven_odd c hc
  rw [show trigEval c = trigEval (splitEven c) from (funext (splitEven_eval c hc)).symm, fourier_odd _ ho]
  have hh : (splitEven c).length / 2 = c.length / 2 := by split_ifs at hl <;> omega
  rw [hh]
  split_ifs with h
  · apply getD_ge'
    rcases abs_cases w with h1 | h1 <;> split_ifs at hl <;> omega
  · rfl

/-- The distance of a trigonometric polynomial to its partial sums. -/
lemma partialSum_error (c : List ℂ) (hc : c.length ≠ 0) (k : ℕ) (hk : 1 ≤ k) (x : ℝ) :
    ‖trigEval c x - partialSum (trigEval c) k x‖
      ≤ ∑ w ∈ Ico k (c.length / 2 + 1), (‖fourier (trigEval c) w‖ + ‖fourier (trigEval c) (-w)‖) := by
  have hl := splitEven_length c hc
  have ho := splitEven_odd c hc
  have hall : ∀ m, c.length / 2 < m → partialSum (trigEval c) m x = trigEval c x := by
    intro m hm
    have := partialSum_all (splitEven c) ho m (by split_ifs at hl <;> omega) x
    rwa [show trigEval (splitEven c) = trigEval c from funext (splitEven_eval c hc)] at this
  rcases le_or_gt k (c.length / 2 + 1) with h | h
  · have := partialSum_dist (trigEval c) k hk x (c.length / 2 + 1 - k)
    rw [show k + (c.length / 2 + 1 - k) = c.length / 2 + 1 by omega, hall _ (by omega)] at this
    exact this
  · rw [hall k (by omega), sub_self, norm_zero]
    exact sum_nonneg fun _ _ => by positivity

/-- Chopping to an odd length: the Fourier coefficients. -/
lemma chop_fourier (c d : List ℂ) (K : ℕ) (hK : 2 * K + 1 < c.length) (hd : d.length = 2 * K + 1)
    (hg : ∀ j < 2 * K + 1, d.getD j 0 = c.getD (j + (c.length / 2 - K)) 0) (w : ℤ) :
    fourier (trigEval d) w = if |w| ≤ K then fourier (trigEval c) w else 0 := by
  have hc : c.length ≠ 0 := by omega
  have hl := splitEven_length c hc
  have ho := splitEven_odd c hc
  split_ifs with h
  · have hw := abs_le.mp h
    rw [show trigEval c = trigEval (splitEven c) from (funext (splitEven_eval c hc)).symm, fourier_odd _ ho,
      fourier_odd d (by omega)]
    have hh : (splitEven c).length / 2 = c.length / 2 := by split_ifs at hl <;> omega
    rw [hh, hd, if_pos (by omega), if_pos (by omega), hg _ (by omega)]
    have e : (w + ((2 * K + 1) / 2 : ℕ)).toNat + (c.length / 2 - K) = (w + (c.length / 2 : ℕ)).toNat := by omega
    rw [e]
    set q := (w + (c.length / 2 : ℕ)).toNat with hq
    by_cases he : c.length % 2 = 0
    · have hq1 : 1 ≤ q := by omega
      obtain ⟨r, hr⟩ : ∃ r, q = r + 1 := ⟨q - 1, by omega⟩
      unfold splitEven
      rw [if_pos he, hr, List.getD_cons_succ, getD_append', if_pos (by simp; omega), getD_lt' _ _ _ (by omega),
        getD_lt' _ _ _ (by simp; omega), List.getElem_drop]
      congr 1; omega
    · unfold splitEven
      rw [if_neg he]
  · apply fourier_big d (by omega)
    rw [hd]; push Not at h; omega

/-- Partial sums of a chopped polynomial are partial sums of the polynomial. -/
lemma partialSum_chop (F G : ℝ → ℂ) (K : ℕ) (h : ∀ w : ℤ, fourier G w = if |w| ≤ K then fourier F w else 0) (k : ℕ)
    (hk : k ≤ K + 1) (x : ℝ) : partialSum G k x = partialSum F k x := by
  unfold partialSum
  apply sum_congr rfl
  intro w hw
  rw [h w, if_pos]
  have := mem_Ioo.mp hw
  rw [abs_le]; omega

/-- The Fourier coefficients of a real function. -/
lemma fourier_conj (F : ℝ → ℂ) (hF : ∀ x, conj (F x) = F x) (w : ℤ) : conj (fourier F w) = fourier F (-w) := by
  unfold fourier
  rw [map_div₀]
  have h2 : conj (2 : ℂ) = 2 := by simpa using Complex.conj_ofReal 2
  rw [h2, intervalIntegral.intervalIntegral_eq_integral_uIoc, intervalIntegral.intervalIntegral_eq_integral_uIoc,
    if_pos (by norm_num : (-1 : ℝ) ≤ 1)]
  simp only [one_smul]
  rw [← integral_conj]
  congr 2
  funext x
  rw [map_mul, hF, ← Complex.exp_conj]
  congr 2
  simp

lemma partialSum_real (F : ℝ → ℂ) (hF : ∀ x, conj (F x) = F x) (k : ℕ) (x : ℝ) :
    conj (partialSum F k x) = partialSum F k x := by
  unfold partialSum
  rw [map_sum]
  refine sum_nbij' (fun w => -w) (fun w => -w) ?_ ?_ ?_ ?_ ?_
  · intro w hw; have := mem_Ioo.mp hw; rw [mem_Ioo]; omega
  · intro w hw; have := mem_Ioo.mp hw; rw [mem_Ioo]; omega
  · intro w _; simp
  · intro w _; simp
  · intro w _
    rw [map_mul, fourier_conj F hF, ← Complex.exp_conj]
    congr 2
    simp

/-- Fourier coefficients of an even-length series. -/
lemma fourier_even (c : List ℂ) (m : ℕ) (hm : m ≠ 0) (hc : c.length = 2 * m) (w : ℤ) :
    (|w| < m → fourier (trigEval c) w = c.getD (w + m).toNat 0) ∧
    (|w| = m → fourier (trigEval c) w = c.getD 0 0 / 2) := by
  have h0 : c.length ≠ 0 := by omega
  have hl := splitEven_length c h0
  have ho := splitEven_odd c h0
  rw [if_pos (by omega)] at hl
  have hh : (splitEven c).length / 2 = m := by omega
  have hs : splitEven c = (0.5 * c.getD 0 0) :: (c.drop 1 ++ [0.5 * c.getD 0 0]) := by
    unfold splitEven; rw [if_pos (by omega)]
  rw [show trigEval c = trigEval (splitEven c) from (funext (splitEven_eval c h0)).symm, fourier_odd _ ho, hh]
  constructor
  · intro h
    have := abs_lt.mp h
    rw [if_pos (by omega), hs]
    obtain ⟨r, hr⟩ : ∃ r, (w + (m : ℤ)).toNat = r + 1 := ⟨(w + (m : ℤ)).toNat - 1, by omega⟩
    rw [hr, List.getD_cons_succ, getD_append', if_pos (by simp; omega), getD_lt' _ _ _ (by simp; omega),
      getD_lt' _ _ _ (by omega), List.getElem_drop]
    congr 1; omega
  · intro h
    rcases abs_eq (by omega : (0 : ℤ) ≤ m) |>.mp h with rfl | rfl
    · rw [if_pos (by omega), hs, show ((m : ℤ) + m).toNat = (2 * m - 1) + 1 by omega, List.getD_cons_succ, getD_append',
        if_neg (by simp; omega)]
      have : 2 * m - 1 - (c.drop 1).length = 0 := by simp; omega
      rw [this]
      norm_num; ring
    · rw [if_pos (by omega), hs, show (-(m : ℤ) + m).toNat = 0 by omega, List.getD_cons_zero]
      norm_num; ring

end Funpy.Trig
