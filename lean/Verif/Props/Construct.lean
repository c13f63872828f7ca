import Verif.Model.Construct
import Verif.Props.ChebTransform
import Verif.Props.TrigBasic
import Mathlib.Analysis.SpecialFunctions.Trigonometric.Chebyshev.RootsExtrema

/-!
# C147: constant and random functions
-/

namespace Funpy.Props
namespace Cst
end Cst
open Spec Cheb Construct Finset Cst

/-! ### Specification -/

/-- All `m` columns have `n` coefficients, and the series `ev` of every column is the constant `v`. -/
def Cst.IsConst {R V : Type} (ev : List R → ℝ → V) (cols : List (List R)) (n m : ℕ) (v : V) : Prop :=
  cols.length = m ∧ ∀ c ∈ cols, c.length = n ∧ ∀ x, ev c x = v

/-! ### Proofs -/

lemma Cst.chebEval_const (v : ℝ) (n : ℕ) (x : ℝ) : chebEval (v :: List.replicate n 0) x = v := by
  unfold chebEval
  rw [sum_eq_single 0]
  · simp
  · intro k _ hk
    obtain ⟨j, rfl⟩ : ∃ j, k = j + 1 := ⟨k - 1, by omega⟩
    have : (v :: List.replicate n (0 : ℝ)).getD (j + 1) 0 = 0 := by
      rw [List.getD_cons_succ]
      by_cases h : j < n
      · rw [getD_lt' _ _ _ (by simpa using h), List.getElem_replicate]
      · simp [List.getD, List.getElem?_eq_none (by simpa using h : (List.replicate n (0 : ℝ)).length ≤ j)]
    rw [this, zero_mul]
  · simp

lemma Cst.mode_center (n : ℕ) (hn : 0 < n) (x : ℝ) : trigMode n (n / 2) x = 1 := by
  have hw : wave n (n / 2) = 0 := by unfold wave; omega
  unfold trigMode
  split_ifs with h
  · exfalso
    omega
  · rw [hw]
    simp

lemma Cst.trigEval_const (v : ℂ) (n : ℕ) (hn : 0 < n) (x : ℝ) : trigEval ((List.replicate n 0).set (n / 2) v) x = v := by
  unfold trigEval
  have hl : ((List.replicate n (0 : ℂ)).set (n / 2) v).length = n := by simp
  rw [hl, sum_eq_single (n / 2)]
  · rw [mode_center n hn, mul_one, getD_lt' _ _ _ (by rw [hl]; omega), List.getElem_set_self]
  · intro k hk hkn
    rw [getD_lt' _ _ _ (by rw [hl]; exact Finset.mem_range.mp hk), List.getElem_set_of_ne (by omega), List.getElem_replicate, zero_mul]
  · intro h
    exact absurd (Finset.mem_range.mpr (by omega)) h

/-- C147: `zeros(n)` are `n` functions which are zero everywhere, `ones(n)` are `n` functions which are one everywhere, of both types. -/
theorem C147_constants (n : ℕ) :
    IsConst chebEval (zeros n) 1 n 0 ∧ IsConst chebEval (ones n) 1 n 1 ∧ IsConst trigEval (zeros n) 1 n 0 ∧ IsConst trigEval (ones n) 1 n 1 := by
  have h1 : ∀ v : ℝ, ∀ x, chebEval [v] x = v := fun v x => chebEval_const v 0 x
  have h2 : ∀ v : ℂ, ∀ x, trigEval [v] x = v := fun v x => trigEval_const v 1 one_pos x
  refine ⟨⟨by simp [zeros], ?_⟩, ⟨by simp [ones], ?_⟩, ⟨by simp [zeros], ?_⟩, ⟨by simp [ones], ?_⟩⟩ <;> intro c hc <;>
    obtain rfl := List.eq_of_mem_replicate hc
  · exact ⟨rfl, h1 0⟩
  · exact ⟨rfl, h1 1⟩
  · exact ⟨rfl, h2 0⟩
  · exact ⟨rfl, h2 1⟩

/-- C147: `zeros_like(f)` and `ones_like(f)` have the size, the number of columns and the type of `f`, and are zero and one everywhere. -/
theorem C147_like (n m : ℕ) (hn : 0 < n) (v : ℝ) : IsConst chebEval (likeCheb v n m) n m v ∧ IsConst trigEval (likeTrig v n m) n m v := by
  constructor
  · refine ⟨by simp [likeCheb], fun c hc => ?_⟩
    obtain rfl := List.eq_of_mem_replicate hc
    obtain ⟨k, rfl⟩ : ∃ k, n = k + 1 := ⟨n - 1, by omega⟩
    have h : polyvalCol (v :: List.replicate k 0) = List.replicate (k + 1) v := by
      rw [polyvalCol_eq _ (by simp)]
      apply List.ext_getElem
      · simp [chebpts2_length]
      · intro i h1 h2
        rw [List.getElem_map, List.getElem_replicate, chebEval_const]
    rw [← h, polyfit_polyval_col _ (by simp)]
    exact ⟨by simp, fun x => chebEval_const v k x⟩
  · refine ⟨by simp [likeTrig], fun c hc => ?_⟩
    obtain rfl := List.eq_of_mem_replicate hc
    have h : Trig.coeffs2vals ((List.replicate n 0).set (n / 2) (v : ℂ)) = List.replicate n (v : ℂ) := by
      obtain ⟨h1, h2⟩ := (C31_values ((List.replicate n 0).set (n / 2) (v : ℂ))).1
      apply List.ext_getElem
      · rw [h1]
        simp
      · intro i k1 k2
        have h3 := h2 i (by rw [← h1]; exact k1)
        rw [List.getElem?_eq_getElem k1] at h3
        rw [Option.some.inj h3]
        simp only [trigEval_const _ n hn, List.getElem_replicate]
    rw [← h, (C31_inverse _).1]
    exact ⟨by simp, fun x => trigEval_const _ n hn x⟩

/-- C147: all coefficients of `random(n, m, scale)` are at most `scale` in absolute value, for every outcome of the random numbers, and the functions are bounded by `n scale`. -/
theorem C147_random (n m : ℕ) (scale : ℝ) (r : ℕ → ℕ → ℝ) (hr : ∀ i j, 0 ≤ r i j ∧ r i j ≤ 1) :
    (random n m scale r).length = m ∧ ∀ c ∈ random n m scale r, c.length = n ∧ (∀ z ∈ c, |z| ≤ |scale|) ∧
      ∀ x, -1 ≤ x → x ≤ 1 → |chebEval c x| ≤ n * |scale| := by
  refine ⟨by simp [random], fun c hc => ?_⟩
  obtain ⟨j, _, rfl⟩ := List.mem_map.mp hc
  have hz : ∀ i, |scale * (1 - 2 * r i j)| ≤ |scale| := by
    intro i
    rw [abs_mul]
    have : |1 - 2 * r i j| ≤ 1 := by
      rw [abs_le]
      constructor <;> linarith [(hr i j).1, (hr i j).2]
    nlinarith [abs_nonneg scale]
  refine ⟨by simp, fun z hz' => ?_, fun x h1 h2 => ?_⟩
  · obtain ⟨i, _, rfl⟩ := List.mem_map.mp hz'
    exact hz i
  · unfold chebEval
    rw [List.length_map, List.length_range]
    refine (abs_sum_le_sum_abs _ _).trans ?_
    have : ∀ k ∈ Finset.range n, |((List.range n).map fun i => scale * (1 - 2 * r i j)).getD k 0 * (Polynomial.Chebyshev.T ℝ k).eval x| ≤ |scale| := by
      intro k hk
      have hk' := Finset.mem_range.mp hk
      rw [getD_lt' _ _ _ (by simpa using hk'), List.getElem_map, List.getElem_range, abs_mul]
      have hT : |(Polynomial.Chebyshev.T ℝ k).eval x| ≤ 1 := Polynomial.Chebyshev.abs_eval_T_real_le_one k (abs_le.mpr ⟨h1, h2⟩)
      calc _ ≤ |scale| * 1 := mul_le_mul (hz k) hT (abs_nonneg _) (abs_nonneg _)
        _ = |scale| := mul_one _
    refine (sum_le_sum this).trans ?_
    simp

/-- C147, failure: the coefficients of `random_decay` do not decay: only the random part is divided, so that for every outcome of the random numbers every coefficient but the first is at
least half the scale, and the value at the right end is at least `(n - 4) scale`. -/
theorem C147_decay_fails (n m : ℕ) (scale : ℝ) (hs : 0 < scale) (r : ℕ → ℕ → ℝ) (hr : ∀ i j, 0 ≤ r i j ∧ r i j ≤ 1) :
    ∀ c ∈ randomDecay n m scale r, c.length = n ∧ (∀ k, 0 < k → k < n → scale / 2 ≤ c.getD k 0) ∧ (n - 4) * scale ≤ chebEval c 1 := by
  intro c hc
  obtain ⟨j, _, rfl⟩ := List.mem_map.mp hc
  have hg : ∀ k < n, ((List.range n).map fun i : ℕ => scale * (1 - 2 * (r i j / (1 + (i : ℝ)) ^ 2))).getD k 0 = scale * (1 - 2 * (r k j / (1 + (k : ℝ)) ^ 2)) := by
    intro k hk
    rw [getD_lt' _ _ _ (by simpa using hk), List.getElem_map, List.getElem_range]
  have hle : ∀ k, r k j / (1 + (k : ℝ)) ^ 2 ≤ 1 / (1 + (k : ℝ)) ^ 2 := fun k => div_le_div_of_nonneg_right (hr k j).2 (by positivity)
  refine ⟨by simp, fun k hk hkn => ?_, ?_⟩
  · rw [hg k hkn]
    have h1 : (1 : ℝ) / (1 + (k : ℝ)) ^ 2 ≤ 1 / 4 := by
      have : (1 : ℝ) ≤ k := by exact_mod_cast hk
      rw [div_le_div_iff₀ (by positivity) (by norm_num)]
      nlinarith
    nlinarith [hle k]
  · unfold chebEval
    rw [List.length_map, List.length_range]
    have h1 : ∀ k ∈ Finset.range n, scale * (1 - 2 * (1 / (1 + (k : ℝ)) ^ 2)) ≤
        ((List.range n).map fun i : ℕ => scale * (1 - 2 * (r i j / (1 + (i : ℝ)) ^ 2))).getD k 0 * (Polynomial.Chebyshev.T ℝ k).eval 1 := by
      intro k hk
      rw [hg k (Finset.mem_range.mp hk), Polynomial.Chebyshev.T_eval_one, mul_one]
      nlinarith [hle k]
    refine le_trans ?_ (sum_le_sum h1)
    rw [← mul_sum, sum_sub_distrib, ← mul_sum, sum_const, card_range, nsmul_eq_mul, mul_one]
    have h2 : ∀ n : ℕ, ∑ k ∈ Finset.range (n + 1), 1 / (1 + (k : ℝ)) ^ 2 ≤ 2 - 1 / ((n : ℝ) + 1) := by
      intro n
      induction n with
      | zero => norm_num
      | succ n ih =>
        rw [sum_range_succ]
        push_cast at ih ⊢
        have : 1 / (1 + ((n : ℝ) + 1)) ^ 2 ≤ 1 / ((n : ℝ) + 1) - 1 / ((n : ℝ) + 1 + 1) := by
          rw [div_sub_div _ _ (by positivity) (by positivity), div_le_div_iff₀ (by positivity) (by positivity)]
          have : (0 : ℝ) ≤ n := Nat.cast_nonneg n
          nlinarith
        linarith
    have h3 : ∑ k ∈ Finset.range n, 1 / (1 + (k : ℝ)) ^ 2 ≤ 2 := by
      rcases n with _ | n
      · simp
      · have : (0 : ℝ) ≤ 1 / ((n : ℝ) + 1) := by positivity
        linarith [h2 n]
    have h4 : scale * (2 * ∑ k ∈ Finset.range n, 1 / (1 + (k : ℝ)) ^ 2) ≤ scale * 4 := mul_le_mul_of_nonneg_left (by linarith) hs.le
    rw [mul_sub]
    linarith

/-- Non-vacuity: a realisation of two random functions with three coefficients -/
example : random 3 2 2 (fun i j => if i = j then 1 else 1 / 2) = [[-2, 0, 0], [0, -2, 0]] ∧ likeCheb 0 1 2 = [[0], [0]] := by
  constructor
  · norm_num [random, List.range_succ]
  · simp [likeCheb, polyfitCol, List.replicate]

end Funpy.Props
