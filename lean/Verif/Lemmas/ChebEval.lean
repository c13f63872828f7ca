import Verif.Model.ChebEval
import Verif.Spec.Cheb
import Mathlib.Tactic.Ring
import Mathlib.Tactic.LinearCombination
import Mathlib.Tactic.FieldSimp

namespace Funpy.Cheb
open Polynomial Finset Spec

section
variable {R : Type*} [Field R]

/-- Value of `T_k` at `x`. -/
private noncomputable abbrev t (x : R) (k : ℕ) : R := (Chebyshev.T R (k : ℤ)).eval x

lemma T_eval_rec (x : R) (k : ℕ) :
    (Chebyshev.T R ((k + 2 : ℕ) : ℤ)).eval x
      = 2 * x * (Chebyshev.T R ((k + 1 : ℕ) : ℤ)).eval x - (Chebyshev.T R (k : ℤ)).eval x := by
  have := Chebyshev.T_add_two R (k : ℤ)
  push_cast
  rw [this]
  simp

lemma clenshawLoop_spec (c : List R) (x : R) (i : ℕ) : ∀ bk1 bk2 : R,
    (∑ k ∈ range (i + 1), c.getD k 0 * t x k) + bk1 * t x (i + 1) - bk2 * t x i
      = (∑ k ∈ range (i % 2 + 1), c.getD k 0 * t x k)
        + (clenshawLoop c (2 * x) i bk1 bk2).1 * t x (i % 2 + 1)
        - (clenshawLoop c (2 * x) i bk1 bk2).2 * t x (i % 2) := by
  induction i using Nat.strong_induction_on with
  | _ i ih =>
    match i with
    | 0 => intro bk1 bk2; simp [clenshawLoop]
    | 1 => intro bk1 bk2; simp [clenshawLoop]
    | i + 2 =>
      intro bk1 bk2
      rw [clenshawLoop, Nat.add_mod_right, ← ih i (by omega)]
      rw [sum_range_succ, sum_range_succ]
      have h3 := T_eval_rec x (i + 1)
      have h2 := T_eval_rec x i
      simp only [t]
      rw [h3, h2]
      ring

lemma clenshawScalar_eq (h2 : (2 : R) ≠ 0) (x : R) (c : List R) (hc : c ≠ []) :
    clenshawScalar x c = chebEval c x := by
  have hlen : c.length = (c.length - 1) + 1 := by
    have := List.length_pos_iff.mpr hc; omega
  have key := clenshawLoop_spec c x (c.length - 1) 0 0
  unfold chebEval clenshawScalar
  rw [hlen]
  simp only [Nat.add_sub_cancel] at *
  simp only [t, zero_mul, add_zero, sub_zero] at key
  rw [key]
  set b := clenshawLoop c (2 * x) (c.length - 1) 0 0
  rcases Nat.mod_two_eq_zero_or_one (c.length - 1) with h | h
  · simp [h]
    field_simp
  · simp [h, sum_range_succ, Chebyshev.T_two]
    field_simp
    ring

lemma clenshawVecLoop_eq (cols : List (List R)) (x2 : R) (i : ℕ) :
    ∀ f : List R → R × R, clenshawVecLoop cols x2 i (cols.map f)
      = cols.map fun c => clenshawLoop c x2 i (f c).1 (f c).2 := by
  have zw : ∀ (g : List R → R × R → R × R) (f : List R → R × R),
      List.zipWith g cols (cols.map f) = cols.map fun c => g c (f c) := by
    intro g f
    induction cols with
    | nil => rfl
    | cons a l ih => simp [ih]
  induction i using Nat.strong_induction_on with
  | _ i ih =>
    match i with
    | 0 => intro f; simp [clenshawVecLoop, clenshawLoop]
    | 1 => intro f; simp [clenshawVecLoop, clenshawLoop]
    | i + 2 =>
      intro f
      rw [clenshawVecLoop]
      simp only [zw]
      rw [ih i (by omega)]
      rfl

lemma zipWith_map_self {α β γ : Type*} (l : List α) (g : α → β → γ) (f : α → β) :
    List.zipWith g l (l.map f) = l.map fun c => g c (f c) := by
  induction l with
  | nil => rfl
  | cons a l ih => simp [ih]

lemma clenshawVector_eq (x : R) (a : Arr R) (hw : a.WF) :
    clenshawVector x a = a.cols.map (clenshawScalar x) := by
  unfold clenshawVector
  simp only [clenshawVecLoop_eq]
  have hn : ∀ c ∈ a.cols, c.length - 1 = a.n - 1 := fun c hc => by rw [hw c hc]
  by_cases h : (a.n - 1) % 2 = 1
  · simp only [h, if_true, zipWith_map_self]
    apply List.map_congr_left
    intro c hc
    simp [clenshawScalar, hn c hc, h]
  · simp only [h, if_false, zipWith_map_self]
    apply List.map_congr_left
    intro c hc
    simp [clenshawScalar, hn c hc, h]

end

section
variable {R : Type*} [CommRing R]

lemma chebEval_eq_eval (c : List R) (x : R) : chebEval c x = (chebPoly c).eval x := by
  simp [chebEval, chebPoly, eval_finset_sum]

lemma negOdd_length : ∀ c : List R, (negOdd c).length = c.length
  | [] => rfl
  | [_] => rfl
  | _ :: _ :: l => by simp [negOdd, negOdd_length l]

lemma negOdd_getD : ∀ (c : List R) (k : ℕ), (negOdd c).getD k 0 = (-1) ^ k * c.getD k 0
  | [], k => by simp [negOdd]
  | [a], k => by cases k <;> simp [negOdd]
  | a :: b :: l, 0 => by simp [negOdd]
  | a :: b :: l, 1 => by simp [negOdd]
  | a :: b :: l, k + 2 => by
      have := negOdd_getD l k
      simp only [negOdd, List.getD_cons_succ, this]
      ring

lemma list_sum_eq (c : List R) : c.sum = ∑ k ∈ range c.length, c.getD k 0 := by
  induction c with
  | nil => simp
  | cons a l ih => rw [List.sum_cons, ih, List.length_cons, sum_range_succ']; simp [add_comm]

lemma T_neg_one_pow (k : ℕ) (x : R) :
    (Chebyshev.T R (k : ℤ)).eval (-x) = (-1) ^ k * (Chebyshev.T R (k : ℤ)).eval x := by
  rw [Chebyshev.T_eval_neg]
  congr 1
  simp [Int.negOnePow]

lemma chebEval_negOdd (c : List R) (x : R) : chebEval (negOdd c) x = chebEval c (-x) := by
  unfold chebEval
  rw [negOdd_length]
  apply sum_congr rfl
  intro k _
  rw [negOdd_getD, T_neg_one_pow]
  ring

lemma chebEval_one (c : List R) : chebEval c 1 = c.sum := by
  rw [list_sum_eq]; simp [chebEval]

lemma negOdd_negOdd : ∀ c : List R, negOdd (negOdd c) = c
  | [] => rfl
  | [_] => rfl
  | _ :: _ :: l => by simp [negOdd, negOdd_negOdd l]

lemma getD_ge (c : List R) (k : ℕ) (h : c.length ≤ k) : c.getD k 0 = 0 := by
  rw [List.getD_eq_getElem?_getD, List.getElem?_eq_none h]; rfl

/-- The value of a series only depends on the coefficient function, not on trailing zeros. -/
lemma chebEval_eq_of_getD (c : List R) (N : ℕ) (hN : c.length ≤ N) (x : R) :
    chebEval c x = ∑ k ∈ range N, c.getD k 0 * (Chebyshev.T R (k : ℤ)).eval x := by
  unfold chebEval
  apply sum_subset
  · intro k hk; simp at *; omega
  · intro k _ hk
    simp at hk
    rw [getD_ge c k hk]; simp

lemma chebEval_congr_getD (c d : List R) (h : ∀ k, c.getD k 0 = d.getD k 0) (x : R) :
    chebEval c x = chebEval d x := by
  rw [chebEval_eq_of_getD c (max c.length d.length) (le_max_left _ _),
    chebEval_eq_of_getD d (max c.length d.length) (le_max_right _ _)]
  simp only [h]

lemma chebPoly_eq_of_getD (c : List R) (N : ℕ) (hN : c.length ≤ N) :
    chebPoly c = ∑ k ∈ range N, Polynomial.C (c.getD k 0) * Chebyshev.T R (k : ℤ) := by
  unfold chebPoly
  apply sum_subset
  · intro k hk; simp at *; omega
  · intro k _ hk
    simp at hk
    rw [getD_ge c k hk]; simp

lemma chebPoly_congr_getD (c d : List R) (h : ∀ k, c.getD k 0 = d.getD k 0) :
    chebPoly c = chebPoly d := by
  rw [chebPoly_eq_of_getD c (max c.length d.length) (le_max_left _ _),
    chebPoly_eq_of_getD d (max c.length d.length) (le_max_right _ _)]
  simp only [h]

end

section
variable {R : Type*} [Zero R]

lemma prolongCol_length (c : List R) (N : ℤ) : (prolongCol c N).length = (max N 0).toNat := by
  simp only [prolongCol]
  split_ifs with h1 h2
  · omega
  · simp; omega
  · simp; omega

lemma prolongCol_getD (c : List R) (N : ℤ) (k : ℕ) :
    (prolongCol c N).getD k 0 = if (k : ℤ) < N then c.getD k 0 else 0 := by
  simp only [prolongCol, List.getD_eq_getElem?_getD]
  split_ifs with h1 h2 h3 h4 h5
  · rfl
  · rw [List.getElem?_eq_none (by omega)]; rfl
  · by_cases hk : k < c.length
    · rw [List.getElem?_append_left hk]
    · rw [List.getElem?_append_right (by omega), List.getElem?_replicate,
        List.getElem?_eq_none (l := c) (by omega)]
      split_ifs <;> rfl
  · rw [List.getElem?_eq_none]; · rfl
    simp; omega
  · rw [List.getElem?_take]
    split_ifs with h; · rfl
    omega
  · rw [List.getElem?_take]
    split_ifs with h; · omega
    rfl

lemma prolongCol_self (c : List R) : prolongCol c c.length = c := by simp [prolongCol]

end
end Funpy.Cheb
