import Verif.Spec.Jacobi
import Verif.Lemmas.Ultra
import Mathlib.Tactic
import Mathlib.Data.Nat.Choose.Cast

/-! # Jacobi polynomials: connection relations and the link with ultraspherical polynomials -/

namespace Funpy.Jac
open Spec Finset

theorem rising_zero (a : ℝ) : rising a 0 = 1 := by simp [rising]
theorem rising_succ (a : ℝ) (k : ℕ) : rising a (k + 1) = rising a k * (a + k) := by
  simp [rising, prod_range_succ]
theorem rising_succ' (a : ℝ) (k : ℕ) : rising a (k + 1) = a * rising (a + 1) k := by
  unfold rising
  rw [prod_range_succ', mul_comm]
  congr 1
  · simp
  · apply prod_congr rfl; intro i _; push_cast; ring
theorem rising_pos {a : ℝ} (h : 0 < a) (k : ℕ) : 0 < rising a k :=
  prod_pos fun i _ => by positivity

/-- coefficient of `((x-1)/2)^k` in `P_n^{(a,b)}` -/
noncomputable def jc (a b : ℝ) (n k : ℕ) : ℝ :=
  (n.choose k : ℝ) * rising (n + a + b + 1) k * rising (a + k + 1) (n - k) / n.factorial

theorem jc_gt {a b : ℝ} {n k : ℕ} (h : n < k) : jc a b n k = 0 := by
  simp [jc, Nat.choose_eq_zero_of_lt h]

theorem jacobi_ext (a b x : ℝ) {n N : ℕ} (h : n + 1 ≤ N) :
    jacobi a b n x = ∑ k ∈ range N, jc a b n k * ((x - 1) / 2) ^ k := by
  obtain ⟨d, rfl⟩ := Nat.exists_eq_add_of_le h
  rw [sum_range_add]
  have : ∑ i ∈ range d, jc a b n (n + 1 + i) * ((x - 1) / 2) ^ (n + 1 + i) = 0 :=
    sum_eq_zero fun i _ => by rw [jc_gt (by omega), zero_mul]
  rw [this, add_zero]; rfl

theorem jc_eq (a b : ℝ) (k m : ℕ) :
    jc a b (k + m) k
      = rising (((k + m : ℕ) : ℝ) + a + b + 1) k * rising (a + k + 1) m / (k.factorial * m.factorial) := by
  have h : ((k + m).choose k : ℝ) = ((k + m).factorial : ℝ) / (k.factorial * m.factorial) := by
    have := Nat.add_choose_mul_factorial_mul_factorial k m
    rw [eq_div_iff (by positivity)]
    rw [← Nat.choose_symm_add] at this
    exact_mod_cast by rw [← this]; ring
  unfold jc
  rw [h, Nat.add_sub_cancel_left]
  have : ((k + m).factorial : ℝ) ≠ 0 := by positivity
  field_simp

/-- connection coefficients `(a,b) → (a,b+1)` -/
theorem jc_up (a b : ℝ) (n k : ℕ) :
    (2 * n + 3 + a + b) * jc a b (n + 1) k
      = (n + a + b + 2) * jc a (b + 1) (n + 1) k + (n + 1 + a) * jc a (b + 1) n k := by
  rcases lt_trichotomy k (n + 1) with h | h | h
  · obtain ⟨m, rfl⟩ := Nat.exists_eq_add_of_le (Nat.lt_succ_iff.mp h)
    have e1 := jc_eq a b k (m + 1)
    have e2 := jc_eq a (b + 1) k (m + 1)
    rw [show k + (m + 1) = k + m + 1 by ring] at e1 e2
    rw [e1, e2, jc_eq, rising_succ, Nat.factorial_succ]
    have r1 := rising_succ' (((k + m + 1 : ℕ) : ℝ) + a + b + 1) k
    rw [rising_succ] at r1
    have c1 : ((k + m + 1 : ℕ) : ℝ) + a + b + 1 + 1 = ((k + m + 1 : ℕ) : ℝ) + a + (b + 1) + 1 := by ring
    have c2 : ((k + m : ℕ) : ℝ) + a + (b + 1) + 1 = ((k + m + 1 : ℕ) : ℝ) + a + b + 1 := by push_cast; ring
    rw [c1] at r1
    rw [c2]
    have hk : (k.factorial : ℝ) ≠ 0 := by positivity
    have hm : (m.factorial : ℝ) ≠ 0 := by positivity
    push_cast at r1 ⊢
    have hm1 : (m : ℝ) + 1 ≠ 0 := by positivity
    field_simp
    linear_combination (rising (a + k + 1) m * (a + k + 1 + m)) * r1
  · subst h
    rw [jc_gt (a := a) (b := b + 1) (n := n) (by omega)]
    have e1 := jc_eq a b (n + 1) 0
    have e2 := jc_eq a (b + 1) (n + 1) 0
    rw [add_zero] at e1 e2
    rw [e1, e2]
    have r1 := rising_succ' (((n + 1 : ℕ) : ℝ) + a + b + 1) (n + 1)
    rw [rising_succ] at r1
    have c1 : ((n + 1 : ℕ) : ℝ) + a + b + 1 + 1 = ((n + 1 : ℕ) : ℝ) + a + (b + 1) + 1 := by ring
    rw [c1] at r1
    have hk : ((n + 1).factorial : ℝ) ≠ 0 := by positivity
    push_cast at r1 ⊢
    simp only [rising_zero, Nat.factorial_zero]
    field_simp
    linear_combination r1
  · rw [jc_gt h, jc_gt h, jc_gt (by omega)]; ring

/-- connection coefficients `(a,b) → (a+1,b)` -/
theorem jc_right (a b : ℝ) (n k : ℕ) :
    (2 * n + 3 + a + b) * jc a b (n + 1) k
      = (n + a + b + 2) * jc (a + 1) b (n + 1) k - (n + 1 + b) * jc (a + 1) b n k := by
  rcases lt_trichotomy k (n + 1) with h | h | h
  · obtain ⟨m, rfl⟩ := Nat.exists_eq_add_of_le (Nat.lt_succ_iff.mp h)
    have e1 := jc_eq a b k (m + 1)
    have e2 := jc_eq (a + 1) b k (m + 1)
    rw [show k + (m + 1) = k + m + 1 by ring] at e1 e2
    rw [e1, e2, jc_eq, rising_succ' (a + k + 1), rising_succ (a + 1 + k + 1), Nat.factorial_succ]
    have r1 := rising_succ' (((k + m + 1 : ℕ) : ℝ) + a + b + 1) k
    rw [rising_succ] at r1
    have c1 : ((k + m + 1 : ℕ) : ℝ) + a + b + 1 + 1 = ((k + m + 1 : ℕ) : ℝ) + (a + 1) + b + 1 := by ring
    have c2 : ((k + m : ℕ) : ℝ) + (a + 1) + b + 1 = ((k + m + 1 : ℕ) : ℝ) + a + b + 1 := by push_cast; ring
    have c3 : a + (k : ℝ) + 1 + 1 = a + 1 + k + 1 := by ring
    rw [c1] at r1
    rw [c2, c3]
    have hk : (k.factorial : ℝ) ≠ 0 := by positivity
    have hm : (m.factorial : ℝ) ≠ 0 := by positivity
    push_cast at r1 ⊢
    have hm1 : (m : ℝ) + 1 ≠ 0 := by positivity
    field_simp
    linear_combination (rising (a + 1 + k + 1) m * (a + 1 + k + 1 + m)) * r1
  · subst h
    rw [jc_gt (a := a + 1) (b := b) (n := n) (by omega)]
    have e1 := jc_eq a b (n + 1) 0
    have e2 := jc_eq (a + 1) b (n + 1) 0
    rw [add_zero] at e1 e2
    rw [e1, e2]
    have r1 := rising_succ' (((n + 1 : ℕ) : ℝ) + a + b + 1) (n + 1)
    rw [rising_succ] at r1
    have c1 : ((n + 1 : ℕ) : ℝ) + a + b + 1 + 1 = ((n + 1 : ℕ) : ℝ) + (a + 1) + b + 1 := by ring
    rw [c1] at r1
    have hk : ((n + 1).factorial : ℝ) ≠ 0 := by positivity
    push_cast at r1 ⊢
    simp only [rising_zero, Nat.factorial_zero]
    field_simp
    linear_combination r1
  · rw [jc_gt h, jc_gt h, jc_gt (by omega)]; ring

theorem jacobi_zero (a b x : ℝ) : jacobi a b 0 x = 1 := by simp [jacobi, rising_zero]

theorem jacobi_up (a b x : ℝ) (n : ℕ) :
    (2 * n + 3 + a + b) * jacobi a b (n + 1) x
      = (n + a + b + 2) * jacobi a (b + 1) (n + 1) x + (n + 1 + a) * jacobi a (b + 1) n x := by
  rw [jacobi_ext a b x (N := n + 2) (by omega), jacobi_ext a (b + 1) x (N := n + 2) (by omega),
    jacobi_ext a (b + 1) x (n := n) (N := n + 2) (by omega), mul_sum, mul_sum, mul_sum, ← sum_add_distrib]
  apply sum_congr rfl
  intro k _
  rw [← mul_assoc, jc_up]; ring

theorem jacobi_right (a b x : ℝ) (n : ℕ) :
    (2 * n + 3 + a + b) * jacobi a b (n + 1) x
      = (n + a + b + 2) * jacobi (a + 1) b (n + 1) x - (n + 1 + b) * jacobi (a + 1) b n x := by
  rw [jacobi_ext a b x (N := n + 2) (by omega), jacobi_ext (a + 1) b x (N := n + 2) (by omega),
    jacobi_ext (a + 1) b x (n := n) (N := n + 2) (by omega), mul_sum, mul_sum, mul_sum, ← sum_sub_distrib]
  apply sum_congr rfl
  intro k _
  rw [← mul_assoc, jc_right]; ring

theorem jacobi_one (a b x : ℝ) : jacobi a b 1 x = (a + 1) + (a + b + 2) * ((x - 1) / 2) := by
  simp [jacobi, sum_range_succ, rising]
  left; ring

/-! ### Ultraspherical polynomials -/

/-- coefficient of `((x-1)/2)^k` in `C_n^{(lam)}` -/
noncomputable def gc (lam : ℝ) (n k : ℕ) : ℝ :=
  (n.choose k : ℝ) * rising (2 * lam) (n + k) / (rising (lam + 1 / 2) k * n.factorial)

theorem gc_gt {lam : ℝ} {n k : ℕ} (h : n < k) : gc lam n k = 0 := by
  simp [gc, Nat.choose_eq_zero_of_lt h]

theorem choose_div (k m : ℕ) :
    ((k + m).choose k : ℝ) = ((k + m).factorial : ℝ) / (k.factorial * m.factorial) := by
  have := Nat.add_choose_mul_factorial_mul_factorial k m
  rw [eq_div_iff (by positivity)]
  rw [← Nat.choose_symm_add] at this
  exact_mod_cast by rw [← this]; ring

theorem gc_eq (lam : ℝ) (k m : ℕ) :
    gc lam (k + m) k = rising (2 * lam) (k + m + k) / (rising (lam + 1 / 2) k * (k.factorial * m.factorial)) := by
  unfold gc
  rw [choose_div]
  have : ((k + m).factorial : ℝ) ≠ 0 := by positivity
  field_simp

/-- recurrence of the coefficients -/
theorem gc_rec {lam : ℝ} (hl : 0 < lam + 1 / 2) (n k : ℕ) :
    ((n : ℝ) + 2) * gc lam (n + 2) k
      = 2 * (n + 1 + lam) * (gc lam (n + 1) k + 2 * (if k = 0 then 0 else gc lam (n + 1) (k - 1)))
        - (n + 2 * lam) * gc lam n k := by
  cases k with
  | zero =>
    simp only [gc, Nat.choose_zero_right, rising_zero, if_true, add_zero, rising_succ, Nat.factorial_succ]
    have : (n.factorial : ℝ) ≠ 0 := by positivity
    push_cast
    field_simp
    ring
  | succ j =>
    rw [if_neg (by omega), Nat.add_sub_cancel]
    have hr : rising (lam + 1 / 2) j ≠ 0 := (rising_pos hl j).ne'
    have hj : lam + 1 / 2 + (j : ℝ) ≠ 0 := by positivity
    have hjf : (j.factorial : ℝ) ≠ 0 := by positivity
    rcases lt_or_ge (j + 1) (n + 1) with h | h
    · obtain ⟨m, rfl⟩ := Nat.exists_eq_add_of_le (Nat.lt_succ_iff.mp h)
      have e2 := gc_eq lam (j + 1) (m + 2)
      have e1 := gc_eq lam (j + 1) (m + 1)
      have e1' := gc_eq lam j (m + 2)
      have e0 := gc_eq lam (j + 1) m
      rw [show j + 1 + (m + 2) = j + 1 + m + 2 by ring] at e2
      rw [show j + 1 + (m + 1) = j + 1 + m + 1 by ring] at e1
      rw [show j + (m + 2) = j + 1 + m + 1 by ring] at e1'
      rw [e2, e1, e1', e0]
      rw [show j + 1 + m + 2 + (j + 1) = (j + 1 + m + (j + 1)) + 1 + 1 by ring,
        show j + 1 + m + 1 + (j + 1) = (j + 1 + m + (j + 1)) + 1 by ring,
        show j + 1 + m + 1 + j = (j + 1 + m + (j + 1)) by ring]
      simp only [rising_succ _ j, rising_succ _ (j + 1 + m + (j + 1)), rising_succ _ (j + 1 + m + (j + 1) + 1),
        Nat.factorial_succ]
      have hm : (m.factorial : ℝ) ≠ 0 := by positivity
      push_cast
      generalize rising (lam + 1 / 2) j = R at *
      generalize rising (2 * lam) (j + 1 + m + (j + 1)) = S at *
      obtain ⟨D, hD⟩ : ∃ D, D = lam + 1 / 2 + (j : ℝ) := ⟨_, rfl⟩
      rw [← hD] at hj ⊢
      obtain rfl : lam = D - 1 / 2 - j := by rw [hD]; ring
      field_simp
      ring
    · rcases h.eq_or_lt with h | h
      · obtain rfl : n = j := by omega
        rw [gc_gt (n := n) (k := n + 1) (by omega)]
        have e2 := gc_eq lam (n + 1) 1
        have e1 := gc_eq lam (n + 1) 0
        have e1' := gc_eq lam n 1
        rw [show n + 1 + 1 = n + 2 by ring] at e2
        rw [add_zero] at e1
        rw [e2, e1, e1']
        rw [show n + 2 + (n + 1) = (n + n + 1) + 1 + 1 by ring, show n + 1 + (n + 1) = (n + n + 1) + 1 by ring,
          show n + 1 + n = n + n + 1 by ring]
        simp only [rising_succ _ n, rising_succ _ (n + n + 1), rising_succ _ (n + n + 1 + 1),
          Nat.factorial_succ, Nat.factorial_zero]
        push_cast
        generalize rising (lam + 1 / 2) n = R at *
        generalize rising (2 * lam) (n + n + 1) = S at *
        obtain ⟨D, hD⟩ : ∃ D, D = lam + 1 / 2 + (n : ℝ) := ⟨_, rfl⟩
        rw [← hD] at hj ⊢
        obtain rfl : lam = D - 1 / 2 - n := by rw [hD]; ring
        field_simp
        ring
      · rcases eq_or_lt_of_le (Nat.succ_le_of_lt h) with h | h
        · obtain rfl : j = n + 1 := by omega
          rw [gc_gt (n := n) (k := n + 1 + 1) (by omega), gc_gt (n := n + 1) (k := n + 1 + 1) (by omega)]
          have e2 := gc_eq lam (n + 1 + 1) 0
          have e1 := gc_eq lam (n + 1) 0
          rw [add_zero] at e1 e2
          rw [e2, e1]
          rw [show n + 1 + 1 + (n + 1 + 1) = (n + 1 + (n + 1)) + 1 + 1 by ring]
          simp only [rising_succ _ (n + 1), rising_succ _ (n + 1 + (n + 1)), rising_succ _ (n + 1 + (n + 1) + 1),
            Nat.factorial_succ, Nat.factorial_zero]
          have hr : rising (lam + 1 / 2) (n + 1) ≠ 0 := (rising_pos hl _).ne'
          push_cast at hj ⊢
          generalize rising (lam + 1 / 2) (n + 1) = R at *
          generalize rising (2 * lam) (n + 1 + (n + 1)) = S at *
          have hj' : 2 * lam + 1 + 2 * ((n : ℝ) + 1) ≠ 0 := fun h => hj (by linarith)
          field_simp
          ring
        · rw [gc_gt (by omega), gc_gt (by omega), gc_gt (by omega), gc_gt (by omega)]; ring

theorem gc_sum_ext (lam y : ℝ) {n N : ℕ} (h : n + 1 ≤ N) :
    ∑ k ∈ range N, gc lam n k * y ^ k = ∑ k ∈ range (n + 1), gc lam n k * y ^ k := by
  obtain ⟨d, rfl⟩ := Nat.exists_eq_add_of_le h
  rw [sum_range_add, add_eq_left]
  exact sum_eq_zero fun i _ => by rw [gc_gt (by omega), zero_mul]

theorem gegenbauer_expand {lam : ℝ} (hl : 0 < lam + 1 / 2) (x : ℝ) (n : ℕ) :
    gegenbauer lam n x = ∑ k ∈ range (n + 1), gc lam n k * ((x - 1) / 2) ^ k := by
  induction n using Nat.twoStepInduction with
  | zero => simp [gegenbauer, gc, rising_zero]
  | one =>
    simp only [gegenbauer, gc, sum_range_succ, range_zero, sum_empty, rising_succ, rising_zero]
    have : 2 * lam + 1 ≠ 0 := fun h => hl.ne' (by linarith)
    simp
    field_simp
    ring
  | more n ih1 ih2 =>
    have hn : (n : ℝ) + 2 ≠ 0 := by positivity
    apply mul_left_cancel₀ hn
    rw [gegenbauer_rec, ih1, ih2, ← gc_sum_ext lam _ (n := n) (N := n + 2 + 1) (by omega),
      show n + 1 + 1 = n + 2 by ring]
    set y := (x - 1) / 2
    have hx : x = 1 + 2 * y := by simp only [y]; ring
    have s1 : ∑ k ∈ range (n + 2 + 1), gc lam (n + 1) k * y ^ k = ∑ k ∈ range (n + 2), gc lam (n + 1) k * y ^ k :=
      gc_sum_ext lam y (by omega)
    have s2 : ∑ k ∈ range (n + 2 + 1), (if k = 0 then 0 else gc lam (n + 1) (k - 1)) * y ^ k
        = y * ∑ k ∈ range (n + 2), gc lam (n + 1) k * y ^ k := by
      rw [sum_range_succ', mul_sum]
      simp only [if_true, zero_mul, add_zero]
      apply sum_congr rfl
      intro k _
      rw [if_neg (by omega), Nat.add_sub_cancel, pow_succ]; ring
    have : ∑ k ∈ range (n + 2 + 1), (n + 2 : ℝ) * (gc lam (n + 2) k * y ^ k)
        = 2 * (n + 1 + lam) * (∑ k ∈ range (n + 2 + 1), gc lam (n + 1) k * y ^ k
          + 2 * ∑ k ∈ range (n + 2 + 1), (if k = 0 then 0 else gc lam (n + 1) (k - 1)) * y ^ k)
          - (n + 2 * lam) * ∑ k ∈ range (n + 2 + 1), gc lam n k * y ^ k := by
      rw [mul_sum, ← sum_add_distrib, mul_sum, mul_sum, ← sum_sub_distrib]
      apply sum_congr rfl
      intro k _
      rw [← mul_assoc, gc_rec hl]; ring
    rw [mul_sum (a := ((n : ℝ) + 2)), this, s1, s2]
    linear_combination 2 * (n + 1 + lam) * (∑ k ∈ range (n + 2), gc lam (n + 1) k * y ^ k) * hx

theorem rising_add (a : ℝ) (m n : ℕ) : rising a (m + n) = rising a m * rising (a + m) n := by
  unfold rising
  rw [prod_range_add]
  congr 1
  apply prod_congr rfl; intro i _; push_cast; ring

/-- `C_n^{(lam)} = (2 lam)_n / (lam + 1/2)_n P_n^{(lam - 1/2, lam - 1/2)}` -/
theorem gegenbauer_jacobi {lam : ℝ} (hl : 0 < lam + 1 / 2) (x : ℝ) (n : ℕ) :
    rising (lam + 1 / 2) n * gegenbauer lam n x
      = rising (2 * lam) n * jacobi (lam - 1 / 2) (lam - 1 / 2) n x := by
  rw [gegenbauer_expand hl, jacobi_ext _ _ x (le_refl _), mul_sum, mul_sum]
  apply sum_congr rfl
  intro k hk
  obtain ⟨m, rfl⟩ := Nat.exists_eq_add_of_le (Nat.lt_succ_iff.mp (mem_range.mp hk))
  rw [gc_eq, jc_eq, rising_add (2 * lam) (k + m) k, rising_add (lam + 1 / 2) k m]
  have e1 : ((k + m : ℕ) : ℝ) + (lam - 1 / 2) + (lam - 1 / 2) + 1 = 2 * lam + ((k + m : ℕ) : ℝ) := by ring
  have e2 : lam - 1 / 2 + (k : ℝ) + 1 = lam + 1 / 2 + k := by ring
  rw [e1, e2]
  have hr : rising (lam + 1 / 2) k ≠ 0 := (rising_pos hl _).ne'
  generalize rising (lam + 1 / 2) k = R at *
  generalize rising (lam + 1 / 2 + k) m = S at *
  generalize rising (2 * lam + ((k + m : ℕ) : ℝ)) k = U at *
  generalize rising (2 * lam) (k + m) = V at *
  field_simp

theorem rising_two (n : ℕ) : rising 2 n = (n + 1).factorial := by
  induction n with
  | zero => simp [rising_zero]
  | succ n ih => rw [rising_succ, ih]; push_cast [Nat.factorial_succ]; ring

/-- `T_n = n! / (1/2)_n P_n^{(-1/2, -1/2)}` -/
theorem chebT_jacobi (x : ℝ) (n : ℕ) :
    rising (1 / 2) n * (Polynomial.Chebyshev.T ℝ n).eval x = n.factorial * jacobi (-1 / 2) (-1 / 2) n x := by
  match n with
  | 0 => simp [rising_zero, jacobi_zero]
  | 1 => rw [jacobi_one]; simp [rising_succ, rising_zero]; ring
  | n + 2 =>
    have hT := ultraBasis_convert 0 n x
    simp only [ultraBasis, if_true, Nat.cast_zero, zero_add] at hT
    have g2 := gegenbauer_jacobi (lam := 1) (by norm_num) x (n + 2)
    have g0 := gegenbauer_jacobi (lam := 1) (by norm_num) x n
    have u1 := jacobi_up (-1 / 2) (-1 / 2) x (n + 1)
    have r2 := jacobi_right (-1 / 2) (1 / 2) x (n + 1)
    have r1 := jacobi_right (-1 / 2) (1 / 2) x n
    have f2 : rising 2 (n + 2) = (n + 3) * (n + 2) * rising 2 n := by
      rw [rising_succ, rising_succ]; push_cast; ring
    have f0 := rising_two n
    have n1 : (-1 / 2 : ℝ) + 1 = 1 / 2 := by norm_num
    have n2 : (1 : ℝ) - 1 / 2 = 1 / 2 := by norm_num
    have n3 : (2 : ℝ) * 1 = 2 := by norm_num
    have n4 : (1 : ℝ) + 1 / 2 = 3 / 2 := by norm_num
    rw [n2, n3, n4] at g2 g0
    rw [n1] at u1 r2 r1
    have q1 : rising (3 / 2) (n + 2) = rising (3 / 2) n * (3 / 2 + n) * (5 / 2 + n) := by
      rw [rising_succ, rising_succ]; push_cast; ring
    have q2 : rising (1 / 2) (n + 2) = 1 / 2 * (rising (3 / 2) n * (3 / 2 + n)) := by
      rw [rising_succ', rising_succ]; norm_num
    have hR : rising (3 / 2) n ≠ 0 := (rising_pos (by norm_num) n).ne'
    rw [f2, f0, q1] at g2
    rw [f0] at g0
    rw [hT, q2, show n + 2 = n + 1 + 1 by ring, Nat.factorial_succ (n + 1)]
    push_cast at u1 r2 r1 ⊢
    set F : ℝ := ((n + 1).factorial : ℝ)
    have hn5 : (5 / 2 + (n : ℝ)) ≠ 0 := by positivity
    have hn4 : (n : ℝ) + 2 ≠ 0 := by positivity
    have hn3 : (3 / 2 + (n : ℝ)) ≠ 0 := by positivity
    have e2 : rising (3 / 2) n * (3 / 2 + n) * gegenbauer 1 (n + 1 + 1) x
        = (n + 3) * (n + 2) * F * jacobi (1 / 2) (1 / 2) (n + 1 + 1) x / (5 / 2 + n) := by
      rw [eq_div_iff hn5, ← g2]; ring
    have E2 : jacobi (-1 / 2) (1 / 2) (n + 1 + 1) x
        = (n + 3) * jacobi (1 / 2) (1 / 2) (n + 1 + 1) x / (2 * (5 / 2 + n)) - jacobi (1 / 2) (1 / 2) (n + 1) x / 2 := by
      rw [eq_sub_iff_add_eq, eq_div_iff (by positivity)]; linear_combination r2
    have E1 : jacobi (-1 / 2) (1 / 2) (n + 1) x
        = (n + 2) * jacobi (1 / 2) (1 / 2) (n + 1) x / (2 * (3 / 2 + n)) - jacobi (1 / 2) (1 / 2) n x / 2 := by
      rw [eq_sub_iff_add_eq, eq_div_iff (by positivity)]; linear_combination r1
    rw [E2, E1] at u1
    have e3 : 1 / 2 * (rising (3 / 2) n * (3 / 2 + n)) * (1 / 2 * (gegenbauer 1 (n + 1 + 1) x - gegenbauer 1 n x))
        = 1 / 4 * (rising (3 / 2) n * (3 / 2 + n) * gegenbauer 1 (n + 1 + 1) x)
          - 1 / 4 * (3 / 2 + n) * (rising (3 / 2) n * gegenbauer 1 n x) := by ring
    rw [e3, e2, g0]
    have e4 : jacobi (-1 / 2) (-1 / 2) (n + 1 + 1) x
        = (n + 3) * jacobi (1 / 2) (1 / 2) (n + 1 + 1) x / (4 * (5 / 2 + n))
          - (3 / 2 + n) * jacobi (1 / 2) (1 / 2) n x / (4 * (n + 2)) := by
      generalize jacobi (-1 / 2) (-1 / 2) (n + 1 + 1) x = P at *
      generalize jacobi (1 / 2) (1 / 2) (n + 1 + 1) x = A at *
      generalize jacobi (1 / 2) (1 / 2) (n + 1) x = B at *
      generalize jacobi (1 / 2) (1 / 2) n x = C at *
      have h2 : 2 * ((n : ℝ) + 2) * P = (n + 2) * ((n + 3) * A / (2 * (5 / 2 + n)) - B / 2)
          + (3 / 2 + n) * ((n + 2) * B / (2 * (3 / 2 + n)) - C / 2) := by linear_combination u1
      have h3 : P = ((n + 2) * ((n + 3) * A / (2 * (5 / 2 + n)) - B / 2)
          + (3 / 2 + n) * ((n + 2) * B / (2 * (3 / 2 + n)) - C / 2)) / (2 * ((n : ℝ) + 2)) := by
        rw [eq_div_iff (by positivity), ← h2]; ring
      rw [h3]
      field_simp
      ring
    rw [e4]
    field_simp
    ring

end Funpy.Jac
