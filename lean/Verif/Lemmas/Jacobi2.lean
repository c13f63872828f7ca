import Verif.Lemmas.Jacobi
import Verif.Model.Jacobi
import Verif.Lemmas.ListAux
import Mathlib.Data.List.GetD

/-! # The conversions of `funpy/ultra.py` -/

namespace Funpy.Jac
open Spec Finset

theorem gmr (f : ℕ → ℝ) {n k : ℕ} (h : k < n) : ((List.range n).map f).getD k 0 = f k := by
  rw [Funpy.getD_map_range, if_pos h]
theorem gge {c : List ℝ} {k : ℕ} (h : c.length ≤ k) : c.getD k 0 = 0 := Funpy.getD_ge' c 0 k h
theorem extG {a b : List ℝ} (hl : a.length = b.length) (h : ∀ k, a.getD k 0 = b.getD k 0) : a = b :=
  Funpy.ext_getD 0 hl fun k _ => h k

theorem ceil_eq {x : ℝ} {m : ℕ} (h1 : x ≤ m) (h2 : (m : ℝ) < x + 1) : ⌈x⌉₊ = m := by
  apply le_antisymm (Nat.ceil_le.2 h1)
  have := Nat.le_ceil x
  have h3 : (m : ℝ) < (⌈x⌉₊ : ℝ) + 1 := by linarith
  exact Nat.lt_succ_iff.mp (by exact_mod_cast h3)

theorem ceil_zero {x : ℝ} (h1 : x ≤ 0) : ⌈x⌉₊ = 0 := by
  simpa using h1

/-- `d1` -/
noncomputable def D1 (a b : ℝ) (k : ℕ) : ℝ := if k = 0 then 1 else (a + b + 1 + k) / (a + b + 1 + 2 * k)
/-- `d2` -/
noncomputable def D2 (a b : ℝ) (k : ℕ) : ℝ := (a + 1 + k) / (a + b + 3 + 2 * k)

theorem zipWith_map_range (f : ℝ → ℝ → ℝ) (g h : ℕ → ℝ) (n : ℕ) :
    List.zipWith f ((List.range n).map g) ((List.range n).map h) = (List.range n).map fun k => f (g k) (h k) := by
  rw [List.zipWith_map]
  simp [List.zipWith_self]

theorem bcast_map_range (f : ℝ → ℝ → ℝ) (g h : ℕ → ℝ) (n : ℕ) :
    bcast f ((List.range n).map g) ((List.range n).map h) = some ((List.range n).map fun k => f (g k) (h k)) := by
  unfold bcast
  rw [if_pos (by simp), zipWith_map_range]

theorem list_eq_map_range (v : List ℝ) : v = (List.range v.length).map fun k => v.getD k 0 := by
  apply List.ext_getElem
  · simp
  · intro i h1 h2
    simp [List.getD_eq_getElem, h1]

theorem arange_n2 (s e : ℝ) (n : ℕ) (h : e - s = (n : ℝ) - 2) (hn : 1 ≤ n) :
    arange s e 1 = (List.range (n - 2)).map fun (k : ℕ) => s + k := by
  unfold arange
  rw [h, div_one]
  have : ⌈((n : ℝ) - 2)⌉₊ = n - 2 := by
    rcases Nat.lt_or_ge n 2 with h2 | h2
    · rw [show n - 2 = 0 by omega]
      apply ceil_zero
      have : (n : ℝ) ≤ 2 := by exact_mod_cast (by omega : n ≤ 2)
      linarith
    · apply ceil_eq <;> rw [Nat.cast_sub h2] <;> push_cast <;> linarith
  rw [this]; simp

theorem arange_n2' (s e : ℝ) (n : ℕ) (h : e - s = 2 * (n : ℝ) - 5) (hn : 1 ≤ n) :
    arange s e 2 = (List.range (n - 2)).map fun (k : ℕ) => s + k * 2 := by
  unfold arange
  rw [h]
  have : ⌈(2 * (n : ℝ) - 5) / 2⌉₊ = n - 2 := by
    rcases Nat.lt_or_ge n 2 with h2 | h2
    · rw [show n - 2 = 0 by omega]
      apply ceil_zero
      have : (n : ℝ) ≤ 2 := by exact_mod_cast (by omega : n ≤ 2)
      linarith
    · apply ceil_eq <;> rw [Nat.cast_sub h2] <;> push_cast <;> linarith
  rw [this]

theorem arange_n1 (s e : ℝ) (n : ℕ) (h : e - s = (n : ℝ) - 1) (hn : 1 ≤ n) :
    arange s e 1 = (List.range (n - 1)).map fun (k : ℕ) => s + k := by
  unfold arange
  rw [h, div_one]
  have : ⌈((n : ℝ) - 1)⌉₊ = n - 1 := by
    apply ceil_eq <;> rw [Nat.cast_sub hn] <;> push_cast <;> linarith
  rw [this]; simp

theorem arange_n1' (s e : ℝ) (n : ℕ) (h : e - s = 2 * (n : ℝ) - 3) (hn : 1 ≤ n) :
    arange s e 2 = (List.range (n - 1)).map fun (k : ℕ) => s + k * 2 := by
  unfold arange
  rw [h]
  have : ⌈(2 * (n : ℝ) - 3) / 2⌉₊ = n - 1 := by
    apply ceil_eq <;> rw [Nat.cast_sub hn] <;> push_cast <;> linarith
  rw [this]

theorem up_spec (v : List ℝ) (a b : ℝ) (hn : 1 ≤ v.length) :
    up v a b = some ((List.range v.length).map fun k => D1 a b k * v.getD k 0 + D2 a b k * v.getD (k + 1) 0) := by
  unfold up
  rw [if_neg (by omega)]
  rw [arange_n2 (a + b + 3) (a + b + v.length + 1) v.length (by ring) hn,
    arange_n2' (a + b + 5) (a + b + 2 * v.length) v.length (by ring) hn,
    arange_n1 (a + 1) (a + v.length) v.length (by ring) hn,
    arange_n1' (a + b + 3) (a + b + 2 * v.length) v.length (by ring) hn, bcast_map_range, bcast_map_range]
  simp only [Option.bind_some]
  have e1 : ∀ l : List ℝ, spdiagDot l (v.length - 1) v.tail ++ [0]
      = (List.range v.length).map fun k => (if k < v.length - 1 then l.getD k 0 * v.getD (k + 1) 0 else 0) := by
    intro l
    obtain ⟨m, hm⟩ : ∃ m, v.length = m + 1 := ⟨v.length - 1, by omega⟩
    rw [hm, Nat.add_sub_cancel, List.range_succ, List.map_append]
    unfold spdiagDot
    congr 1
    · apply List.map_congr_left
      intro k hk
      rw [if_pos (List.mem_range.mp hk)]
      congr 1
      cases v <;> simp
    · simp
  rw [e1]
  unfold spdiagDot
  rw [bcast_map_range]
  congr 1
  apply List.map_congr_left
  intro k hk
  have hk' := List.mem_range.mp hk
  have h1 : (1 :: (a + b + 2) / (a + b + 3) :: (List.range (v.length - 2)).map
      fun (k : ℕ) => (a + b + 3 + (k : ℝ)) / (a + b + 5 + (k : ℝ) * 2)).getD k 0 = D1 a b k := by
    match k with
    | 0 => simp [D1]
    | 1 => simp [D1]; ring_nf
    | k + 2 =>
      rw [List.getD_cons_succ, List.getD_cons_succ, gmr _ (by omega)]
      simp only [D1, Nat.succ_ne_zero, if_false]
      push_cast
      congr 1 <;> ring
  rw [h1]
  congr 1
  split_ifs with h
  · rw [gmr _ h]
    simp only [D2]
    congr 2; ring
  · rw [gge (by omega : v.length ≤ k + 1), mul_zero]

/-- A bidiagonal change of basis. -/
theorem bidiag (P Q : ℕ → ℝ) (d1 d2 : ℕ → ℝ) (h0 : Q 0 = d1 0 * P 0)
    (hs : ∀ k, Q (k + 1) = d1 (k + 1) * P (k + 1) + d2 k * P k) (v : ℕ → ℝ) (n : ℕ) (hv : v n = 0) :
    ∑ k ∈ range n, (d1 k * v k + d2 k * v (k + 1)) * P k = ∑ k ∈ range n, v k * Q k := by
  cases n with
  | zero => simp
  | succ n =>
    rw [sum_range_succ' (fun k => v k * Q k)]
    simp only [add_mul, sum_add_distrib]
    rw [sum_range_succ' (fun k => d1 k * v k * P k), sum_range_succ (fun k => d2 k * v (k + 1) * P k), hv, h0]
    have : ∀ k, v (k + 1) * Q (k + 1) = d1 (k + 1) * v (k + 1) * P (k + 1) + d2 k * v (k + 1) * P k := by
      intro k; rw [hs]; ring
    simp only [this, sum_add_distrib]
    ring

theorem jacobi_up' {a b : ℝ} (h : -2 < a + b) (x : ℝ) (k : ℕ) :
    jacobi a b (k + 1) x = D1 a b (k + 1) * jacobi a (b + 1) (k + 1) x + D2 a b k * jacobi a (b + 1) k x := by
  have := jacobi_up a b x k
  have hk : (0 : ℝ) ≤ k := Nat.cast_nonneg k
  have h1 : a + b + 1 + 2 * ((k : ℝ) + 1) ≠ 0 := by linarith
  have h2 : a + b + 3 + 2 * (k : ℝ) ≠ 0 := by linarith
  simp only [D1, D2, Nat.succ_ne_zero, if_false]
  push_cast
  rw [show a + b + 1 + 2 * ((k : ℝ) + 1) = a + b + 3 + 2 * (k : ℝ) by ring]
  rw [div_mul_eq_mul_div, div_mul_eq_mul_div, ← add_div, eq_div_iff h2]
  linear_combination this

theorem jacobi_right' {a b : ℝ} (h : -2 < a + b) (x : ℝ) (k : ℕ) :
    jacobi a b (k + 1) x = D1 b a (k + 1) * jacobi (a + 1) b (k + 1) x + -D2 b a k * jacobi (a + 1) b k x := by
  have := jacobi_right a b x k
  have hk : (0 : ℝ) ≤ k := Nat.cast_nonneg k
  have h2 : b + a + 3 + 2 * (k : ℝ) ≠ 0 := by linarith
  simp only [D1, D2, Nat.succ_ne_zero, if_false]
  push_cast
  rw [show b + a + 1 + 2 * ((k : ℝ) + 1) = b + a + 3 + 2 * (k : ℝ) by ring]
  rw [div_mul_eq_mul_div, ← neg_div, div_mul_eq_mul_div, ← add_div, eq_div_iff h2]
  linear_combination this

theorem series_map_range (a b : ℝ) (n : ℕ) (w : ℕ → ℝ) (x : ℝ) :
    jacobiSeries a b ((List.range n).map w) x = ∑ k ∈ range n, w k * jacobi a b k x := by
  unfold jacobiSeries
  rw [List.length_map, List.length_range]
  apply sum_congr rfl
  intro k hk
  rw [gmr _ (mem_range.mp hk)]

theorem up_series {a b : ℝ} (h : -2 < a + b) (v : List ℝ) (hn : 1 ≤ v.length) :
    ∃ w, up v a b = some w ∧ w.length = v.length ∧ ∀ x, jacobiSeries a (b + 1) w x = jacobiSeries a b v x := by
  refine ⟨_, up_spec v a b hn, by simp, fun x => ?_⟩
  rw [series_map_range]
  exact bidiag (fun k => jacobi a (b + 1) k x) (fun k => jacobi a b k x) (D1 a b) (D2 a b)
    (by simp [jacobi_zero, D1]) (fun k => jacobi_up' h x k) (fun k => v.getD k 0) v.length (gge (le_refl _))

theorem negOdd_length (v : List ℝ) : (negOdd v).length = v.length := by simp [negOdd]

theorem negOdd_getD (v : List ℝ) (k : ℕ) : (negOdd v).getD k 0 = (-1) ^ k * v.getD k 0 := by
  unfold negOdd
  rcases Nat.lt_or_ge k v.length with h | h
  · rw [List.getD_eq_getElem _ _ (by simpa using h), List.getElem_mapIdx, List.getD_eq_getElem _ _ h]
    rcases Nat.even_or_odd k with he | ho
    · rw [if_neg (by have := Nat.even_iff.mp he; omega), he.neg_one_pow, one_mul]
    · rw [if_pos (Nat.odd_iff.mp ho), ho.neg_one_pow]; ring
  · rw [gge (by simpa using h), gge h, mul_zero]

theorem negOdd_negOdd (v : List ℝ) : negOdd (negOdd v) = v := by
  apply extG (by simp [negOdd_length])
  intro k
  rw [negOdd_getD, negOdd_getD, ← mul_assoc, ← mul_pow]; simp

theorem right_spec (v : List ℝ) (a b : ℝ) (hn : 1 ≤ v.length) :
    right v a b = some ((List.range v.length).map fun k => D1 b a k * v.getD k 0 + -D2 b a k * v.getD (k + 1) 0) := by
  unfold right
  rw [up_spec _ _ _ (by simpa [negOdd_length] using hn)]
  simp only [Option.map_some, negOdd_length]
  congr 1
  apply extG (by simp [negOdd_length])
  intro k
  rw [negOdd_getD]
  rcases Nat.lt_or_ge k v.length with h | h
  · rw [gmr _ h, gmr _ h, negOdd_getD, negOdd_getD, pow_succ]
    have : ((-1 : ℝ) ^ k) * (-1) ^ k = 1 := by rw [← mul_pow]; simp
    linear_combination (D1 b a k * v.getD k 0 - D2 b a k * v.getD (k + 1) 0) * this
  · rw [gge (by simpa using h), gge (by simpa using h), mul_zero]

theorem right_series {a b : ℝ} (h : -2 < a + b) (v : List ℝ) (hn : 1 ≤ v.length) :
    ∃ w, right v a b = some w ∧ w.length = v.length ∧ ∀ x, jacobiSeries (a + 1) b w x = jacobiSeries a b v x := by
  refine ⟨_, right_spec v a b hn, by simp, fun x => ?_⟩
  rw [series_map_range]
  exact bidiag (fun k => jacobi (a + 1) b k x) (fun k => jacobi a b k x) (D1 b a) (fun k => -D2 b a k)
    (by simp [jacobi_zero, D1]) (fun k => jacobi_right' h x k) (fun k => v.getD k 0) v.length (gge (le_refl _))

end Funpy.Jac
