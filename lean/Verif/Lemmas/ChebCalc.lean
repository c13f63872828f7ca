import Verif.Model.ChebTech
import Verif.Lemmas.ChebSimplify
import Mathlib.RingTheory.Polynomial.Chebyshev
import Mathlib.Analysis.Calculus.Deriv.Polynomial
import Mathlib.MeasureTheory.Integral.IntervalIntegral.FundThmCalculus
import Mathlib.Topology.Algebra.Polynomial
import Mathlib.Tactic.LinearCombination

namespace Funpy.Cheb
open Finset Real Polynomial Spec

section cumAssign
variable {R : Type*} [AddCommMonoid R]

lemma cumAssign_go (v : List R) (s : ℕ) : ∀ (acc : R) (out : List R), s < out.length →
    let r := ((sliceDown2.go s).foldl
      (fun (p : R × List R) i => (p.1 + v.getD i 0, p.2.set i (p.1 + v.getD i 0))) (acc, out)).2
    r.length = out.length ∧
    (∀ k, (s < k ∨ k % 2 ≠ s % 2) → r.getD k 0 = out.getD k 0) ∧
    r.getD s 0 = acc + v.getD s 0 ∧
    (∀ k, k + 2 ≤ s → k % 2 = s % 2 → r.getD k 0 = r.getD (k + 2) 0 + v.getD k 0) := by
  induction s using sliceDown2.go.induct with
  | case1 =>
    intro acc out h
    simp only [sliceDown2.go, List.foldl_cons, List.foldl_nil]
    refine ⟨by simp, ?_, ?_, ?_⟩
    · intro k hk; rw [getD_set']; rw [if_neg (by omega)]
    · rw [getD_set', if_pos ⟨rfl, h⟩]
    · intro k hk; omega
  | case2 =>
    intro acc out h
    simp only [sliceDown2.go, List.foldl_cons, List.foldl_nil]
    refine ⟨by simp, ?_, ?_, ?_⟩
    · intro k hk; rw [getD_set']; rw [if_neg (by omega)]
    · rw [getD_set', if_pos ⟨rfl, h⟩]
    · intro k hk; omega
  | case3 i ih =>
    intro acc out h
    simp only [sliceDown2.go, List.foldl_cons]
    obtain ⟨h1, h2, h3, h4⟩ := ih (acc + v.getD (i + 2) 0) (out.set (i + 2) (acc + v.getD (i + 2) 0))
      (by simp; omega)
    have hi2 := h2 (i + 2) (Or.inl (by omega))
    rw [getD_set', if_pos ⟨rfl, h⟩] at hi2
    refine ⟨by rw [h1]; simp, ?_, hi2, ?_⟩
    · intro k hk
      rw [h2 k (by omega), getD_set', if_neg (by omega)]
    · intro k hk hp
      by_cases hki : k = i
      · subst hki
        rw [h3, hi2]
      · exact h4 k (by omega) (by omega)

end cumAssign

lemma sliceDown2_top (n : ℕ) (hn : 2 ≤ n) : sliceDown2 (n - 1) ((n : ℤ) - 2) = sliceDown2.go (n - 2) := by
  unfold sliceDown2
  simp only
  rw [if_neg (by omega), if_neg (by omega)]
  congr 1
  omega

lemma sliceDown2_next (n : ℕ) (hn : 2 ≤ n) :
    sliceDown2 (n - 1) ((n : ℤ) - 3) = sliceDown2.go (n - 3) := by
  unfold sliceDown2
  simp only
  split_ifs with h1 h2
  · omega
  · congr 1; omega
  · omega
  · congr 1; omega

lemma two_pass {R : Type*} [AddCommMonoid R] (v : List R) (n : ℕ) (hn : 2 ≤ n) (hv : v.length = n - 1) :
    let r := cumAssign v (sliceDown2.go (n - 3)) (cumAssign v (sliceDown2.go (n - 2))
      (List.replicate (n - 1) 0))
    r.length = n - 1 ∧ ∀ k, r.getD k 0 = r.getD (k + 2) 0 + v.getD k 0 := by
  obtain ⟨a1, a2, a3, a4⟩ := cumAssign_go v (n - 2) 0 (List.replicate (n - 1) 0) (by simp; omega)
  set r1 := cumAssign v (sliceDown2.go (n - 2)) (List.replicate (n - 1) 0) with hr1
  change r1.length = _ at a1
  change ∀ k, _ → r1.getD k 0 = _ at a2
  change r1.getD _ 0 = _ at a3
  change ∀ k, _ → _ → r1.getD k 0 = r1.getD (k + 2) 0 + _ at a4
  rw [List.length_replicate] at a1
  obtain ⟨b1, b2, b3, b4⟩ := cumAssign_go v (n - 3) 0 r1 (by omega)
  set r := cumAssign v (sliceDown2.go (n - 3)) r1 with hr
  change r.length = _ at b1
  change ∀ k, _ → r.getD k 0 = _ at b2
  change r.getD _ 0 = _ at b3
  change ∀ k, _ → _ → r.getD k 0 = r.getD (k + 2) 0 + _ at b4
  refine ⟨by rw [b1, a1], ?_⟩
  intro k
  have hz : ∀ j, n - 1 ≤ j → r.getD j 0 = 0 := fun j hj => getD_ge' _ _ _ (by omega)
  have hvz : ∀ j, n - 1 ≤ j → v.getD j 0 = 0 := fun j hj => getD_ge' _ _ _ (by omega)
  by_cases h1 : n - 1 ≤ k
  · rw [hz k h1, hz (k + 2) (by omega), hvz k h1, add_zero]
  by_cases h2 : k = n - 2
  · subst h2
    rw [hz (n - 2 + 2) (by omega), zero_add]
    by_cases h3 : n = 2
    · subst h3; rw [b3, zero_add]
    · rw [b2 _ (by omega), a3, zero_add]
  by_cases h3 : k = n - 3
  · subst h3
    rw [b3, zero_add, hz _ (by omega), zero_add]
  by_cases h4 : k % 2 = (n - 3) % 2
  · exact b4 k (by omega) h4
  · rw [b2 k (Or.inr h4), b2 (k + 2) (by omega)]
    exact a4 k (by omega) (by omega)

lemma derCol_length (c : List ℝ) (hn : 2 ≤ c.length) : (derCol c).length = c.length - 1 := by
  simp only [derCol]
  rw [sliceDown2_top _ hn, sliceDown2_next _ hn, List.length_set]
  exact (two_pass _ _ hn (by simp)).1

/-- The recurrence satisfied by the derivative coefficients. -/
lemma derCol_rec (c : List ℝ) (hn : 2 ≤ c.length) (k : ℕ) :
    (if k = 0 then 2 else 1) * (derCol c).getD k 0
      = (derCol c).getD (k + 2) 0 + 2 * ((k : ℝ) + 1) * c.getD (k + 1) 0 := by
  simp only [derCol]
  rw [sliceDown2_top _ hn, sliceDown2_next _ hn]
  set v := (List.range (c.length - 1)).map fun k : ℕ => 2 * ((k : ℝ) + 1) * c.getD (k + 1) 0 with hv
  obtain ⟨h1, h2⟩ := two_pass v c.length hn (by simp [v])
  set r := cumAssign v (sliceDown2.go (c.length - 3)) (cumAssign v (sliceDown2.go (c.length - 2))
      (List.replicate (c.length - 1) 0)) with hr
  have hvk : v.getD k 0 = 2 * ((k : ℝ) + 1) * c.getD (k + 1) 0 := by
    rw [hv, getD_map_range]
    split_ifs with h
    · rfl
    · rw [getD_ge' c _ _ (by omega), mul_zero]
  rw [getD_set', getD_set', if_neg (by omega : ¬ (0 = k + 2 ∧ _)), ← hvk, ← h2 k]
  by_cases hk : k = 0
  · subst hk
    rw [if_pos rfl, if_pos ⟨rfl, by omega⟩]; ring
  · rw [if_neg hk, if_neg (by omega), one_mul]

lemma two_T_eq (k : ℕ) : (2 : ℝ[X]) * Chebyshev.T ℝ ((k + 2 : ℕ) : ℤ)
    = Chebyshev.U ℝ ((k + 2 : ℕ) : ℤ) - Chebyshev.U ℝ (k : ℤ) := by
  have := Chebyshev.two_mul_T_eq_U_sub_U ℝ (k : ℤ)
  push_cast
  exact this

/-- Abel summation for the conversion from `T` to `U`. -/
lemma abel_TU (d v : ℕ → ℝ)
    (h : ∀ k, (if k = 0 then 2 else 1) * d k = d (k + 2) + v k) (N : ℕ) :
    ∑ k ∈ range (N + 2), C (2 * d k) * Chebyshev.T ℝ (k : ℤ)
      = (∑ k ∈ range (N + 2), C (v k) * Chebyshev.U ℝ (k : ℤ))
        + C (d (N + 2)) * Chebyshev.U ℝ (N : ℤ) + C (d (N + 3)) * Chebyshev.U ℝ ((N + 1 : ℕ) : ℤ) := by
  induction N with
  | zero =>
    have h0 := h 0
    have h1 := h 1
    simp only [if_true, one_ne_zero, if_false, one_mul] at h0 h1
    simp only [zero_add, sum_range_succ, sum_range_zero, Nat.cast_zero, Nat.cast_one,
      Chebyshev.T_zero, Chebyshev.T_one, Chebyshev.U_zero, Chebyshev.U_one, mul_one]
    rw [h0, h1]
    simp only [C_add, C_mul, map_ofNat]
    ring
  | succ N ih =>
    rw [sum_range_succ, ih, sum_range_succ (fun k => C (v k) * Chebyshev.U ℝ (k : ℤ)) (N + 2)]
    have h2 := h (N + 2)
    simp only [Nat.add_eq_zero_iff, OfNat.ofNat_ne_zero, and_false, if_false, one_mul] at h2
    have hT := two_T_eq N
    rw [C_mul, map_ofNat, show (2 : ℝ[X]) * C (d (N + 2)) * Chebyshev.T ℝ ((N + 2 : ℕ) : ℤ)
      = C (d (N + 2)) * (2 * Chebyshev.T ℝ ((N + 2 : ℕ) : ℤ)) by ring, hT]
    have h3 : C (d (N + 2)) = C (d (N + 4)) + C (v (N + 2)) := by rw [← C_add, ← h2]
    rw [mul_sub, show N + 1 + 1 = N + 2 from rfl, show N + 1 + 2 = N + 3 from rfl,
      show N + 1 + 3 = N + 4 from rfl]
    linear_combination Chebyshev.U ℝ ((N + 2 : ℕ) : ℤ) * h3

lemma derivative_chebPoly (c : List ℝ) (N : ℕ) (hN : c.length ≤ N + 1) :
    derivative (chebPoly c) = ∑ k ∈ range N, C (((k : ℝ) + 1) * c.getD (k + 1) 0) * Chebyshev.U ℝ (k : ℤ) := by
  rw [chebPoly_eq_of_getD c (N + 1) hN, derivative_sum, sum_range_succ']
  simp only [derivative_C_mul, Chebyshev.T_derivative_eq_U]
  simp only [Nat.cast_zero, Int.cast_zero, zero_mul, mul_zero, add_zero]
  apply sum_congr rfl
  intro k _
  simp only [C_mul, C_add, map_natCast, C_1]
  push_cast
  rw [add_sub_cancel_right]
  ring

/-- `derCol` computes the Chebyshev coefficients of the derivative. -/
lemma chebPoly_derCol (c : List ℝ) (hn : 2 ≤ c.length) :
    chebPoly (derCol c) = derivative (chebPoly c) := by
  have hlen := derCol_length c hn
  have key := abel_TU (fun k => (derCol c).getD k 0) (fun k => 2 * ((k : ℝ) + 1) * c.getD (k + 1) 0)
    (derCol_rec c hn) c.length
  rw [getD_ge' (derCol c) _ (c.length + 2) (by omega), getD_ge' (derCol c) _ (c.length + 3) (by omega)]
    at key
  simp only [C_0, zero_mul, add_zero] at key
  rw [derivative_chebPoly c (c.length + 2) (by omega),
    chebPoly_eq_of_getD (derCol c) (c.length + 2) (by omega)]
  have h2 : (2 : ℝ[X]) ≠ 0 := two_ne_zero
  apply mul_left_cancel₀ h2
  rw [mul_sum, mul_sum]
  have e1 : ∀ k ∈ range (c.length + 2), (2 : ℝ[X]) * (C ((derCol c).getD k 0) * Chebyshev.T ℝ (k : ℤ))
      = C (2 * (derCol c).getD k 0) * Chebyshev.T ℝ (k : ℤ) := by
    intro k _; rw [C_mul, map_ofNat]; ring
  have e2 : ∀ k ∈ range (c.length + 2),
      (2 : ℝ[X]) * (C (((k : ℝ) + 1) * c.getD (k + 1) 0) * Chebyshev.U ℝ (k : ℤ))
      = C (2 * ((k : ℝ) + 1) * c.getD (k + 1) 0) * Chebyshev.U ℝ (k : ℤ) := by
    intro k _; rw [mul_assoc 2 ((k : ℝ) + 1), C_mul (a := 2), map_ofNat]; ring
  rw [sum_congr rfl e1, sum_congr rfl e2, key]

lemma computeDerCoeffs_some (a : Arr ℝ) (hw : a.WF) (hn : 2 ≤ a.n) :
    ∃ b, computeDerCoeffs a = some b ∧ b.WF ∧ b.n = a.n - 1 ∧
      b.cols.map chebPoly = a.cols.map fun c => derivative (chebPoly c) := by
  refine ⟨_, by rw [computeDerCoeffs, if_neg (by omega)], ?_, rfl, ?_⟩
  · intro c hc
    obtain ⟨d, hd, rfl⟩ := List.mem_map.mp hc
    have := hw d hd
    rw [derCol_length d (by omega), this]; rfl
  · simp only [Arr.mapCols, List.map_map]
    apply List.map_congr_left
    intro c hc
    exact chebPoly_derCol c (by rw [hw c hc]; exact hn)

lemma derLoop_some (k : ℕ) : ∀ (a : Arr ℝ), a.WF → k < a.n →
    ∃ b, derLoop k a = some b ∧ b.WF ∧ b.n = a.n - k ∧
      b.cols.map chebPoly = a.cols.map fun c => derivative^[k] (chebPoly c) := by
  induction k with
  | zero => intro a hw _; exact ⟨a, rfl, hw, rfl, by simp⟩
  | succ k ih =>
    intro a hw hk
    obtain ⟨b, hb, hbw, hbn, hbc⟩ := computeDerCoeffs_some a hw (by omega)
    obtain ⟨d, hd, hdw, hdn, hdc⟩ := ih b hbw (by omega)
    refine ⟨d, by rw [derLoop, hb]; exact hd, hdw, by omega, ?_⟩
    rw [hdc]
    have : (fun c => derivative^[k] (chebPoly c)) = (fun p => derivative^[k] p) ∘ (chebPoly (R := ℝ)) := rfl
    rw [this, ← List.map_map, hbc, List.map_map]
    apply List.map_congr_left
    intro c _
    simp [Function.iterate_succ]

/-! ### integration -/

/-- `∫_{-1}^1 T_k`. -/
noncomputable def intT (k : ℕ) : ℝ := if k % 2 = 1 then 0 else 2 / (1 - (k : ℝ) ^ 2)

lemma integral_poly_of_deriv (p q : ℝ[X]) (h : derivative q = p) :
    ∫ x in (-1 : ℝ)..1, p.eval x = q.eval 1 - q.eval (-1) := by
  apply intervalIntegral.integral_eq_sub_of_hasDerivAt (f := fun x => q.eval x)
    (f' := fun x => p.eval x)
  · intro x _
    rw [← h]
    exact q.hasDerivAt x
  · exact p.continuous.intervalIntegrable _ _

lemma integral_T (k : ℕ) : ∫ x in (-1 : ℝ)..1, (Chebyshev.T ℝ (k : ℤ)).eval x = intT k := by
  match k with
  | 0 =>
    rw [integral_poly_of_deriv _ X (by simp)]
    simp [intT]; norm_num
  | 1 =>
    rw [integral_poly_of_deriv _ (C (1 / 2) * X ^ 2) (by
      simp only [derivative_C_mul, derivative_X_pow, Nat.cast_one, Chebyshev.T_one]
      rw [← mul_assoc, ← C_mul]; norm_num)]
    simp [intT]
  | k + 2 =>
    have hk1 : (k : ℝ) + 1 ≠ 0 := by positivity
    have hk3 : (k : ℝ) + 3 ≠ 0 := by positivity
    have hder : derivative (C (1 / (2 * ((k : ℝ) + 3))) * Chebyshev.T ℝ ((k + 3 : ℕ) : ℤ)
        - C (1 / (2 * ((k : ℝ) + 1))) * Chebyshev.T ℝ ((k + 1 : ℕ) : ℤ))
        = Chebyshev.T ℝ ((k + 2 : ℕ) : ℤ) := by
      rw [derivative_sub, derivative_C_mul, derivative_C_mul, Chebyshev.T_derivative_eq_U,
        Chebyshev.T_derivative_eq_U]
      have hT := two_T_eq k
      have c1 : C (1 / (2 * ((k : ℝ) + 3))) * (((k + 3 : ℕ) : ℤ) : ℝ[X]) = C (1 / 2) := by
        have : (((k + 3 : ℕ) : ℤ) : ℝ[X]) = C ((k : ℝ) + 3) := by
          rw [C_add, map_natCast, map_ofNat]; push_cast; rfl
        rw [this, ← C_mul]; congr 1; field_simp
      have c2 : C (1 / (2 * ((k : ℝ) + 1))) * (((k + 1 : ℕ) : ℤ) : ℝ[X]) = C (1 / 2) := by
        have : (((k + 1 : ℕ) : ℤ) : ℝ[X]) = C ((k : ℝ) + 1) := by simp
        rw [this, ← C_mul]; congr 1; field_simp
      rw [← mul_assoc, ← mul_assoc, c1, c2, ← mul_sub,
        show (((k + 3 : ℕ) : ℤ) - 1) = ((k + 2 : ℕ) : ℤ) by push_cast; ring,
        show (((k + 1 : ℕ) : ℤ) - 1) = (k : ℤ) by push_cast; ring, ← hT, ← mul_assoc]
      rw [show (C (1 / 2) : ℝ[X]) * 2 = 1 by
        rw [← map_ofNat C 2, ← C_mul]; norm_num, one_mul]
    rw [integral_poly_of_deriv _ _ hder]
    simp only [eval_sub, eval_mul, eval_C, Chebyshev.T_eval_one]
    rw [T_neg_one_pow, T_neg_one_pow, Chebyshev.T_eval_one, Chebyshev.T_eval_one]
    have h13 : (1 : ℝ) - ((k + 2 : ℕ) : ℝ) ^ 2 = -(((k : ℝ) + 1) * ((k : ℝ) + 3)) := by push_cast; ring
    simp only [intT, h13]
    rcases Nat.even_or_odd k with he | ho
    · have h1 : Odd (k + 1) := he.add_one
      have h3 : Odd (k + 3) := by rw [Nat.odd_iff]; rw [Nat.even_iff] at he; omega
      rw [if_neg (by rw [Nat.even_iff] at he; omega), h1.neg_one_pow, h3.neg_one_pow]
      field_simp
      ring
    · have h1 : Even (k + 1) := ho.add_one
      have h3 : Even (k + 3) := by rw [Nat.even_iff]; rw [Nat.odd_iff] at ho; omega
      rw [if_pos (by rw [Nat.odd_iff] at ho; omega), h1.neg_one_pow, h3.neg_one_pow]
      ring

lemma integral_chebEval (c : List ℝ) :
    ∫ x in (-1 : ℝ)..1, chebEval c x = ∑ k ∈ range c.length, c.getD k 0 * intT k := by
  unfold chebEval
  rw [intervalIntegral.integral_finsetSum]
  · apply sum_congr rfl
    intro k _
    rw [intervalIntegral.integral_const_mul, integral_T]
  · intro k _
    exact ((Chebyshev.T ℝ (k : ℤ)).continuous.const_mul _).intervalIntegrable _ _

lemma sumCol_eq (c : List ℝ) (hc : c ≠ []) :
    sumCol c = ∑ k ∈ range c.length, c.getD k 0 * intT k := by
  have hpos := List.length_pos_iff.mpr hc
  simp only [sumCol]
  split_ifs with h1
  · rw [h1]; simp [intT]; ring
  · rw [list_sum_eq]
    have hl : ([2, 0] ++ (List.range (c.length - 2)).map fun i : ℕ => (2 : ℝ) / (1 - ((i : ℝ) + 2) ^ 2)).length
        = c.length := by simp; omega
    rw [List.length_zipWith, hl, List.length_map, List.length_range, min_self]
    apply sum_congr rfl
    intro k hk
    rw [mem_range] at hk
    rw [getD_lt' _ _ _ (by simp; omega), List.getElem_zipWith]
    simp only [List.getElem_map, List.getElem_range]
    match k with
    | 0 => simp [intT]; ring
    | 1 => simp [intT]
    | k + 2 =>
      simp only [intT, List.cons_append, List.nil_append, List.getElem_cons_succ, List.getElem_map,
        List.getElem_range]
      split_ifs with h
      · ring
      · push_cast; ring

/-! ### antiderivative -/

lemma cumCol_length (c : List ℝ) (hc : c ≠ []) : (cumCol c).length = c.length + 1 := by
  have hpos := List.length_pos_iff.mpr hc
  simp [cumCol]; omega

lemma getD_pad (c : List ℝ) (k : ℕ) : (c ++ [0, 0]).getD k 0 = c.getD k 0 := by
  rw [getD_append']
  split_ifs with h
  · rfl
  · rw [getD_ge' c _ _ (by omega)]
    match k - c.length with
    | 0 => rfl
    | 1 => rfl
    | j + 2 => rfl

lemma cumCol_getD_succ (c : List ℝ) (hc : c ≠ []) (k : ℕ) :
    (if k = 0 then 2 else 1) * c.getD k 0
      = c.getD (k + 2) 0 + 2 * ((k : ℝ) + 1) * (cumCol c).getD (k + 1) 0 := by
  have hpos := List.length_pos_iff.mpr hc
  simp only [cumCol, getD_pad]
  match k with
  | 0 =>
    rw [List.getD_cons_succ, List.getD_cons_zero]
    simp
    ring
  | k + 1 =>
    rw [List.getD_cons_succ, List.getD_cons_succ, getD_map_range]
    rw [if_neg (by omega)]
    have : (k : ℝ) + 2 ≠ 0 := by positivity
    split_ifs with h
    · push_cast; field_simp; ring
    · rw [getD_ge' c _ _ (by omega), getD_ge' c _ (k + 1 + 2) (by omega)]; ring

lemma cumCol_getD_zero (c : List ℝ) :
    (cumCol c).getD 0 0 = ∑ j ∈ range c.length, (-1) ^ j * (cumCol c).getD (j + 1) 0 := by
  simp only [cumCol]
  rw [List.getD_cons_zero, list_sum_eq, List.length_map, List.length_range]
  apply sum_congr rfl
  intro j hj
  rw [mem_range] at hj
  rw [getD_map_range, if_pos hj, List.getD_cons_succ]
  congr 1
  split_ifs with h
  · rw [(Nat.odd_iff.mpr h).neg_one_pow]
  · rw [(Nat.even_iff.mpr (by omega)).neg_one_pow]

/-- The antiderivative coefficients vanish at `-1`. -/
lemma chebEval_cumCol_neg_one (c : List ℝ) (hc : c ≠ []) : chebEval (cumCol c) (-1) = 0 := by
  rw [← chebEval_negOdd, chebEval_one, list_sum_eq, negOdd_length, cumCol_length c hc,
    sum_range_succ']
  simp only [negOdd_getD, pow_zero, one_mul]
  rw [cumCol_getD_zero, ← sum_add_distrib]
  apply sum_eq_zero
  intro j _
  rw [pow_succ]; ring

/-- ... and their derivative is the original series. -/
lemma derivative_cumCol (c : List ℝ) (hc : c ≠ []) :
    derivative (chebPoly (cumCol c)) = chebPoly c := by
  have hlen := cumCol_length c hc
  have key := abel_TU (fun k => c.getD k 0) (fun k => 2 * ((k : ℝ) + 1) * (cumCol c).getD (k + 1) 0)
    (cumCol_getD_succ c hc) c.length
  rw [getD_ge' c _ (c.length + 2) (by omega), getD_ge' c _ (c.length + 3) (by omega)] at key
  simp only [C_0, zero_mul, add_zero] at key
  rw [derivative_chebPoly (cumCol c) (c.length + 2) (by omega),
    chebPoly_eq_of_getD c (c.length + 2) (by omega)]
  have h2 : (2 : ℝ[X]) ≠ 0 := two_ne_zero
  apply mul_left_cancel₀ h2
  rw [mul_sum, mul_sum]
  have e1 : ∀ k ∈ range (c.length + 2), (2 : ℝ[X]) * (C (c.getD k 0) * Chebyshev.T ℝ (k : ℤ))
      = C (2 * c.getD k 0) * Chebyshev.T ℝ (k : ℤ) := by
    intro k _; rw [C_mul, map_ofNat]; ring
  have e2 : ∀ k ∈ range (c.length + 2),
      (2 : ℝ[X]) * (C (((k : ℝ) + 1) * (cumCol c).getD (k + 1) 0) * Chebyshev.U ℝ (k : ℤ))
      = C (2 * ((k : ℝ) + 1) * (cumCol c).getD (k + 1) 0) * Chebyshev.U ℝ (k : ℤ) := by
    intro k _; rw [mul_assoc 2 ((k : ℝ) + 1), C_mul (a := 2), map_ofNat]; ring
  rw [sum_congr rfl e1, sum_congr rfl e2, key]

end Funpy.Cheb
