import Verif.Lemmas.TrigReal

namespace Funpy.Trig
open Finset Complex Spec ComplexConjugate

lemma splitEven_length (c : List ℂ) (hc : c.length ≠ 0) :
    (splitEven c).length = if c.length % 2 = 0 then c.length + 1 else c.length := by
  unfold splitEven
  split_ifs with h
  · simp; omega
  · rfl

lemma splitEven_odd (c : List ℂ) (hc : c.length ≠ 0) : (splitEven c).length % 2 = 1 := by
  rw [splitEven_length c hc]; split_ifs <;> omega

lemma cos_eq_exp (m : ℕ) (x : ℝ) : ((Real.cos (m * Real.pi * x) : ℝ) : ℂ)
    = (cexp (I * Real.pi * ((m : ℤ) : ℂ) * x) + cexp (I * Real.pi * ((-(m : ℤ) : ℤ) : ℂ) * x)) / 2 := by
  rw [ofReal_cos, Complex.cos]
  congr 2
  · congr 1; push_cast; ring
  · congr 1; push_cast; ring

lemma splitEven_eval (c : List ℂ) (hc : c.length ≠ 0) (x : ℝ) :
    trigEval (splitEven c) x = trigEval c x := by
  by_cases h : c.length % 2 = 0
  swap
  · unfold splitEven; rw [if_neg h]
  have hl : (splitEven c).length = c.length + 1 := by rw [splitEven_length c hc, if_pos h]
  obtain ⟨m, hm⟩ : ∃ m, c.length = 2 * m := ⟨c.length / 2, by omega⟩
  obtain ⟨p, hp⟩ : ∃ p, c.length = p + 1 := ⟨c.length - 1, by omega⟩
  have g0 : (splitEven c).getD 0 0 = 0.5 * c.getD 0 0 := by
    unfold splitEven; rw [if_pos h]; rfl
  have gl : (splitEven c).getD (p + 1) 0 = 0.5 * c.getD 0 0 := by
    unfold splitEven; rw [if_pos h, List.getD_cons_succ, getD_append', if_neg (by simp; omega)]
    simp only [List.length_drop]
    rw [show p - (c.length - 1) = 0 by omega]; rfl
  have gm : ∀ k < p, (splitEven c).getD (k + 1) 0 = c.getD (k + 1) 0 := by
    intro k hk
    unfold splitEven; rw [if_pos h, List.getD_cons_succ, getD_append', if_pos (by simp; omega),
      getD_lt' _ _ _ (by simp; omega), getD_lt' _ _ _ (by omega), List.getElem_drop]
    congr 1; omega
  unfold trigEval
  rw [hl, hp, sum_range_succ, sum_range_succ', sum_range_succ', g0, gl, ← hp]
  have hmid : ∀ k ∈ range p, (splitEven c).getD (k + 1) 0 * trigMode (c.length + 1) (k + 1) x
      = c.getD (k + 1) 0 * trigMode c.length (k + 1) x := by
    intro k hk
    rw [gm k (mem_range.mp hk), trigMode, if_neg (by omega), trigMode, if_neg (by omega)]
    have : wave (c.length + 1) (k + 1) = wave c.length (k + 1) := by unfold wave; omega
    rw [this]
  rw [sum_congr rfl hmid, add_assoc]
  congr 1
  have w0 : wave (c.length + 1) 0 = -(m : ℤ) := by unfold wave; omega
  have w1 : wave (c.length + 1) c.length = (m : ℤ) := by unfold wave; omega
  rw [trigMode, if_neg (by omega), trigMode, if_neg (by omega), trigMode, if_pos ⟨h, rfl⟩, w0, w1,
    show c.length / 2 = m by omega, cos_eq_exp]
  ring

lemma padTo_length (c : List ℂ) (N : ℕ) (h : c.length ≤ N) : (padTo c N).length = N := by
  simp [padTo]; omega

lemma padTo_eval (c : List ℂ) (hodd : c.length % 2 = 1) (N : ℕ) (h : c.length ≤ N) (x : ℝ) :
    trigEval (padTo c N) x = trigEval c x := by
  unfold trigEval
  rw [padTo_length c N h]
  set d := N - c.length with hd
  have hN : N = (d + 1) / 2 + c.length + d / 2 := by omega
  rw [show range N = range ((d + 1) / 2 + c.length + d / 2) by rw [← hN], sum_range_add, sum_range_add]
  have z1 : ∀ k ∈ range ((d + 1) / 2), (padTo c N).getD k 0 * trigMode N k x = 0 := by
    intro k hk
    have := mem_range.mp hk
    simp only [padTo, ← hd]
    rw [getD_append', if_pos (by simp; omega), getD_append', if_pos (by simpa using this),
      getD_replicate', zero_mul]
  have z2 : ∀ k ∈ range (d / 2), (padTo c N).getD ((d + 1) / 2 + c.length + k) 0
      * trigMode N ((d + 1) / 2 + c.length + k) x = 0 := by
    intro k hk
    simp only [padTo, ← hd]
    rw [getD_append', if_neg (by simp), getD_replicate', zero_mul]
  rw [sum_congr rfl z1, sum_congr rfl z2]
  simp only [sum_const_zero, zero_add, add_zero]
  apply sum_congr rfl
  intro k hk
  have hk' := mem_range.mp hk
  have e : (padTo c N).getD ((d + 1) / 2 + k) 0 = c.getD k 0 := by
    simp only [padTo, ← hd]
    rw [getD_append', if_pos (by simp; omega), getD_append', if_neg (by simp)]
    congr 1
    simp
  rw [e, trigMode, if_neg (by omega), trigMode, if_neg (by omega)]
  have : wave N ((d + 1) / 2 + k) = wave c.length k := by unfold wave; omega
  rw [this]

lemma prolongCol_length (c : List ℂ) (hc : c.length ≠ 0) (N : ℕ) (h : c.length ≤ N) :
    (prolongCol c N).length = N := by
  unfold prolongCol
  have hl := splitEven_length c hc
  simp only []
  split_ifs with h1 h2 h3
  · exact h1.symm
  · exact h2.symm
  · exact padTo_length _ _ (by omega)
  · exfalso
    split_ifs at hl <;> omega

lemma prolongCol_eval (c : List ℂ) (hc : c.length ≠ 0) (N : ℕ) (h : c.length ≤ N) (x : ℝ) :
    trigEval (prolongCol c N) x = trigEval c x := by
  unfold prolongCol
  have hl := splitEven_length c hc
  simp only []
  split_ifs with h1 h2 h3
  · rfl
  · exact splitEven_eval c hc x
  · rw [padTo_eval _ (splitEven_odd c hc) _ (by omega), splitEven_eval c hc]
  · exfalso
    split_ifs at hl <;> omega

end Funpy.Trig
