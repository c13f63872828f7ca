import Verif.Model.Tools
import Verif.Lemmas.ListAux
import Mathlib.Data.List.GetD
import Mathlib.Data.Nat.Bitwise
import Mathlib.Tactic

/-!
# C48: numeric helpers
-/

namespace Funpy.Props

open Funpy.Tools

theorem testBit_top {n k : ℕ} (h1 : 2 ^ k ≤ n) (h2 : n < 2 ^ (k + 1)) : n.testBit k = true := by
  rw [Nat.testBit_eq_decide_div_mod_eq, decide_eq_true_iff]
  have : n / 2 ^ k = 1 := by
    apply Nat.div_eq_of_lt_le
    · simpa using h1
    · rw [pow_succ] at h2; omega
  rw [this]

theorem and_pred {n k : ℕ} (h1 : 2 ^ k ≤ n) (h2 : n < 2 ^ (k + 1)) :
    (n &&& (n - 1) ≠ 0 → 2 ^ k ≤ n &&& (n - 1) ∧ n &&& (n - 1) < n) ∧ (n &&& (n - 1) = 0 → n = 2 ^ k) := by
  have key : n ≠ 2 ^ k → 2 ^ k ≤ n &&& (n - 1) := by
    intro hne
    have hb : (n &&& (n - 1)).testBit k = true := by
      rw [Nat.testBit_and, testBit_top h1 h2, testBit_top (n := n - 1) (by omega) (by omega)]; rfl
    exact Nat.ge_two_pow_of_testBit hb
  have hpos : 0 < 2 ^ k := by positivity
  constructor
  · intro hnz
    have hle : n &&& (n - 1) ≤ n - 1 := Nat.and_le_right
    refine ⟨?_, by omega⟩
    by_cases hne : n = 2 ^ k
    · exfalso; apply hnz
      rw [hne, Nat.and_two_pow_sub_one_eq_mod]
      simp
    · exact key hne
  · intro hz
    by_contra hne
    have := key hne
    omega

theorem clearBits_spec (fuel n k : ℕ) (hf : n - 2 ^ k < fuel) (h1 : 2 ^ k ≤ n) (h2 : n < 2 ^ (k + 1)) :
    clearBits fuel n = 2 ^ k := by
  induction fuel generalizing n with
  | zero => omega
  | succ fuel ih =>
    obtain ⟨ha, hb⟩ := and_pred h1 h2
    simp only [clearBits]
    split_ifs with h
    · obtain ⟨h3, h4⟩ := ha h
      exact ih _ (by omega) h3 (by omega)
    · exact hb (not_not.mp h)

/-- C48: `findNextPowerOf2(n)` is the least power of two that is at least `n`, for `n ≥ 2`. -/
theorem C48_pow2 (n : ℤ) (hn : 2 ≤ n) :
    ∃ k : ℕ, findNextPowerOf2 n = 2 ^ k ∧ n ≤ 2 ^ k ∧ ∀ j : ℕ, n ≤ 2 ^ j → (2 : ℤ) ^ k ≤ 2 ^ j := by
  obtain ⟨m, rfl⟩ : ∃ m : ℕ, n = (m : ℤ) + 1 := ⟨(n - 1).toNat, by omega⟩
  have hm : 1 ≤ m := by omega
  set k := Nat.log 2 m
  have h1 : 2 ^ k ≤ m := Nat.pow_log_le_self 2 (by omega)
  have h2 : m < 2 ^ (k + 1) := Nat.lt_pow_succ_log_self (by norm_num) m
  have hpos : 0 < 2 ^ k := by positivity
  have hc := clearBits_spec m m k (by omega) h1 h2
  refine ⟨k + 1, ?_, ?_, ?_⟩
  · rw [findNextPowerOf2, if_neg (by omega)]
    have : ((m : ℤ) + 1 - 1).toNat = m := by omega
    simp only [this, hc, Nat.shiftLeft_eq]
    push_cast
    ring
  · have : m + 1 ≤ 2 ^ (k + 1) := h2
    exact_mod_cast this
  · intro j hj
    have hj' : m + 1 ≤ 2 ^ j := by exact_mod_cast hj
    have : 2 ^ k < 2 ^ j := by omega
    have hkj : k < j := (Nat.pow_lt_pow_iff_right (by norm_num)).mp this
    exact_mod_cast Nat.pow_le_pow_right (by norm_num) hkj

/-- C48: for `n ≤ 1` it returns 2. -/
theorem C48_pow2_small (n : ℤ) (hn : n ≤ 1) : findNextPowerOf2 n = 2 := by rw [findNextPowerOf2, if_pos hn]

/-- C48: the bit-clearing loop terminates: with the fuel used by the model its exit test holds. -/
theorem C48_pow2_terminates (m : ℕ) (hm : 1 ≤ m) : clearBits m m &&& (clearBits m m - 1) = 0 := by
  have h1 : 2 ^ Nat.log 2 m ≤ m := Nat.pow_log_le_self 2 (by omega)
  have h2 : m < 2 ^ (Nat.log 2 m + 1) := Nat.lt_pow_succ_log_self (by norm_num) m
  have hpos : 0 < 2 ^ Nat.log 2 m := by positivity
  rw [clearBits_spec m m _ (by omega) h1 h2, Nat.and_two_pow_sub_one_eq_mod]
  simp

example : findNextPowerOf2 5 = 8 ∧ findNextPowerOf2 8 = 8 ∧ findNextPowerOf2 9 = 16 ∧ findNextPowerOf2 100 = 128 := by decide

/-- C48: `round_up(x, d)` for `d > 0` is the least integer multiple of `d` that is at least `x`. -/
theorem C48_round_up (x d : ℝ) (hd : 0 < d) :
    (∃ z : ℤ, roundUp x d = z * d) ∧ x ≤ roundUp x d ∧ ∀ z : ℤ, x ≤ z * d → roundUp x d ≤ z * d := by
  refine ⟨⟨_, rfl⟩, ?_, ?_⟩
  · have := Int.le_ceil (x / d)
    rw [div_le_iff₀ hd] at this
    exact this
  · intro z hz
    have : ⌈x / d⌉ ≤ z := by rw [Int.ceil_le, div_le_iff₀ hd]; exact hz
    have h2 : ((⌈x / d⌉ : ℤ) : ℝ) ≤ z := by exact_mod_cast this
    exact mul_le_mul_of_nonneg_right h2 hd.le

/-- C48: `secant` returns the zero of the line through `(s1, d1)` and `(s2, d2)`, and only that. -/
theorem C48_secant (s1 d1 s2 d2 : ℝ) (hs : s1 ≠ s2) (hd : d1 ≠ d2) (s : ℝ) :
    d1 + (d2 - d1) / (s2 - s1) * (s - s1) = 0 ↔ s = secant s1 d1 s2 d2 := by
  have h1 : s2 - s1 ≠ 0 := sub_ne_zero.mpr hs.symm
  have h2 : d2 - d1 ≠ 0 := sub_ne_zero.mpr hd.symm
  rw [secant]
  constructor
  · intro h
    field_simp at h ⊢
    linear_combination h
  · intro h
    rw [h]
    field_simp
    ring

/-- C48: for an affine function with nonzero slope one secant step finds its zero. -/
theorem C48_secant_affine (a b s1 s2 : ℝ) (ha : a ≠ 0) (hs : s1 ≠ s2) :
    a * secant s1 (a * s1 + b) s2 (a * s2 + b) + b = 0 := by
  rw [secant]
  have h2 : a * s2 + b - (a * s1 + b) ≠ 0 := by
    have : a * s2 + b - (a * s1 + b) = a * (s2 - s1) := by ring
    rw [this]; exact mul_ne_zero ha (sub_ne_zero.mpr hs.symm)
  field_simp
  ring

theorem nearest_fold (value : ℝ) (pre : List ℝ) (xs : List ℝ) (i : ℕ) (hi : i < pre.length)
    (hmin : ∀ j < pre.length, |pre.getD i 0 - value| ≤ |pre.getD j 0 - value|)
    (hfirst : ∀ j < i, |pre.getD i 0 - value| < |pre.getD j 0 - value|) :
    let r := (xs.foldl (fun (s : ℕ × ℝ × ℕ) y =>
      if |y - value| < s.2.1 then (s.2.2, |y - value|, s.2.2 + 1) else (s.1, s.2.1, s.2.2 + 1))
      (i, |pre.getD i 0 - value|, pre.length)).1
    r < (pre ++ xs).length ∧ (∀ j < (pre ++ xs).length, |(pre ++ xs).getD r 0 - value| ≤ |(pre ++ xs).getD j 0 - value|) ∧
      ∀ j < r, |(pre ++ xs).getD r 0 - value| < |(pre ++ xs).getD j 0 - value| := by
  induction xs generalizing pre i with
  | nil => simpa using ⟨hi, by simpa using hmin, by simpa using hfirst⟩
  | cons y ys ih =>
    simp only [List.foldl_cons]
    have happ : pre ++ y :: ys = (pre ++ [y]) ++ ys := by simp
    have hlast : (pre ++ [y]).getD pre.length 0 = y := by
      rw [List.getD_append_right _ _ _ _ le_rfl]; simp
    have hold : ∀ j < pre.length, (pre ++ [y]).getD j 0 = pre.getD j 0 := fun j hj => List.getD_append _ _ _ _ hj
    rw [happ]
    split_ifs with h
    · have := ih (pre ++ [y]) pre.length (by simp) (by
        intro j hj
        rw [hlast]
        rcases Nat.lt_or_ge j pre.length with h1 | h1
        · rw [hold j h1]; exact le_trans h.le (hmin j h1)
        · have : j = pre.length := by simp at hj; omega
          rw [this, hlast]) (by
        intro j hj
        rw [hlast, hold j hj]
        exact lt_of_lt_of_le h (hmin j hj))
      rw [hlast] at this
      simpa using this
    · have := ih (pre ++ [y]) i (by simp; omega) (by
        intro j hj
        rw [hold i hi]
        rcases Nat.lt_or_ge j pre.length with h1 | h1
        · rw [hold j h1]; exact hmin j h1
        · have : j = pre.length := by simp at hj; omega
          rw [this, hlast]; exact not_lt.mp h) (by
        intro j hj
        rw [hold i hi, hold j (by omega)]
        exact hfirst j hj)
      rw [hold i hi] at this
      simpa using this

/-- C48: `find_nearest_idx` returns the first index of an entry nearest to the value; it raises only for an empty array. -/
theorem C48_nearest_idx (a : List ℝ) (v : ℝ) (ha : a ≠ []) :
    ∃ i, findNearestIdx a v = some i ∧ i < a.length ∧ (∀ j < a.length, |a.getD i 0 - v| ≤ |a.getD j 0 - v|) ∧
      ∀ j < i, |a.getD i 0 - v| < |a.getD j 0 - v| := by
  rcases a with - | ⟨x, xs⟩
  · exact absurd rfl ha
  · have := nearest_fold v [x] xs 0 (by simp) (by intro j hj; simp at hj; subst hj; exact le_rfl) (by intro j hj; omega)
    exact ⟨_, rfl, this⟩

/-- C48: `find_nearest` returns an entry of the array nearest to the value. -/
theorem C48_nearest (a : List ℝ) (v : ℝ) (ha : a ≠ []) :
    ∃ x, findNearest a v = some x ∧ x ∈ a ∧ ∀ y ∈ a, |x - v| ≤ |y - v| := by
  obtain ⟨i, h1, h2, h3, -⟩ := C48_nearest_idx a v ha
  refine ⟨a.getD i 0, by rw [findNearest, h1]; rfl, ?_, ?_⟩
  · rw [List.getD_eq_getElem _ _ h2]; exact List.getElem_mem h2
  · intro y hy
    obtain ⟨j, hj, rfl⟩ := List.getElem_of_mem hy
    have := h3 j hj
    rwa [List.getD_eq_getElem _ _ hj] at this

/-- C48: `moving_average(a, n)` has one entry per window and entry `j` is the mean of `a[j], ..., a[j+n-1]`. -/
theorem C48_moving_average (a : List ℝ) (n : ℕ) (hn : 1 ≤ n) :
    (movingAverage a n).length = a.length + 1 - n ∧
    ∀ j, j + n ≤ a.length → (movingAverage a n).getD j 0 = (∑ k ∈ Finset.range n, a.getD (j + k) 0) / n := by
  have hlen : (cumsum a).length = a.length := by simp [cumsum]
  have hcs : ∀ i < a.length, (cumsum a).getD i 0 = ∑ k ∈ Finset.range (i + 1), a.getD k 0 := by
    intro i hi
    rw [cumsum, getD_map_range, if_pos hi]
    have : ∀ m ≤ a.length, (a.take m).sum = ∑ k ∈ Finset.range m, a.getD k 0 := by
      intro m
      induction m with
      | zero => simp
      | succ m ih =>
        intro hm
        rw [Finset.sum_range_succ, ← ih (by omega), List.take_succ_eq_append_getElem (by omega), List.sum_append,
          List.getD_eq_getElem _ _ (by omega)]
        simp
    exact this _ (by omega)
  have hl2 : (List.take n (cumsum a) ++ List.zipWith (· - ·) ((cumsum a).drop n)
      ((cumsum a).take ((cumsum a).length - n))).length = a.length := by
    simp [hlen]; omega
  constructor
  · simp only [movingAverage, List.length_map, List.length_drop]
    rw [hl2]; omega
  · intro j hj
    simp only [movingAverage]
    rw [List.getD_eq_getElem _ _ (by simp only [List.length_map, List.length_drop]; rw [hl2]; omega), List.getElem_map,
      List.getElem_drop]
    congr 1
    rcases Nat.eq_zero_or_pos j with rfl | hpos
    · rw [List.getElem_append_left (by simp [hlen]; omega), List.getElem_take,
        ← List.getD_eq_getElem _ 0 (by omega), hcs _ (by omega)]
      rw [show n - 1 + 0 + 1 = n by omega]
      simp
    · rw [List.getElem_append_right (by simp [hlen]; omega), List.getElem_zipWith, List.getElem_drop, List.getElem_take]
      have e1 : (List.take n (cumsum a)).length = n := by simp [hlen]; omega
      have hA : (cumsum a)[n + (n - 1 + j - (List.take n (cumsum a)).length)]'(by rw [e1]; omega)
          = ∑ k ∈ Finset.range (n + j), a.getD k 0 := by
        rw [← List.getD_eq_getElem _ 0, hcs _ (by rw [e1]; omega)]
        congr 2
        rw [e1]; omega
      have hB : (cumsum a)[(n - 1 + j - (List.take n (cumsum a)).length)]'(by rw [e1]; omega)
          = ∑ k ∈ Finset.range j, a.getD k 0 := by
        rw [← List.getD_eq_getElem _ 0, hcs _ (by rw [e1]; omega)]
        congr 2
        rw [e1]; omega
      rw [hA, hB, add_comm n j, Finset.sum_range_add, add_sub_cancel_left]

example : movingAverage [1, 2, 6] 2 = [3/2, 4] := by
  norm_num [movingAverage, cumsum, List.range_succ]

end Funpy.Props
