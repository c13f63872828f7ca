import Verif.Lemmas.UltraS
import Verif.Spec.Cheb

/-! The multiplication operators of the ultraspherical method. -/

namespace Funpy.UltraS
open Spec Matrix Finset Polynomial

/-! ### Toeplitz -/

lemma sum_nonzeros (col : List ℝ) (P : ℕ → Prop) [DecidablePred P] :
    ((nonzeros col).map fun a => if P a then col.getD a 0 else 0).sum
      = ∑ a ∈ range col.length, if P a then col.getD a 0 else 0 := by
  unfold nonzeros
  rw [← sum_map_range]
  induction (List.range col.length) with
  | nil => rfl
  | cons a l ih =>
    rw [List.filter_cons]
    by_cases h : col.getD a 0 ≠ 0
    · rw [if_pos (by simpa using h)]; simp only [List.map_cons, List.sum_cons, ih]
    · push Not at h
      rw [if_neg (by simpa using h), ih]; simp only [List.map_cons, List.sum_cons, h, ite_self, zero_add]

lemma spdiag_const (k : ℕ) (a : ℝ) (o : ℤ) (i j : Fin k) :
    spdiag k (List.replicate k a) o i j = if (j : ℤ) - i = o then a else 0 := by
  unfold spdiag
  have := j.2
  by_cases h : (j : ℤ) - i = o
  · rw [if_pos ⟨h, by simp⟩, if_pos h, getD_lt' _ _ _ (by simp)]; simp
  · rw [if_neg (by tauto), if_neg h]

lemma toeplitz_eq (k : ℕ) (col : List ℝ) (hl : col.length = k) (h : k < 100 ∨ col.getD 0 0 ≠ 0) (i j : Fin k) :
    sptoeplitzFast k col i j = col.getD ((i : ℤ) - j).natAbs 0 := by
  have hi := i.2
  have hj := j.2
  unfold sptoeplitzFast
  rw [hl]
  split_ifs with hk
  · rcases hIc : nonzeros col with _ | ⟨Ic, _ | ⟨b, l⟩⟩
    · rfl
    · simp only []
      have hmem : ∀ a, a ≠ Ic → col.getD a 0 = 0 := by
        intro a ha
        by_contra hne
        have : a ∈ nonzeros col := by
          unfold nonzeros
          rw [List.mem_filter]
          refine ⟨?_, by simpa using hne⟩
          rw [List.mem_range]
          by_contra hge
          exact hne (getD_ge' _ _ _ (by omega))
        rw [hIc, List.mem_singleton] at this
        exact ha this
      split_ifs with h0
      · rw [spdiag_const]
        by_cases hij : (j : ℤ) - i = 0
        · rw [if_pos hij, mul_one]; congr 1; omega
        · rw [if_neg hij, hmem _ (by omega)]
      · rw [Matrix.add_apply, spdiag_const, spdiag_const]
        by_cases h1 : (j : ℤ) - i = -(Ic : ℤ)
        · rw [if_pos h1, if_neg (by omega), mul_one, add_zero]; congr 1; omega
        · rw [if_neg h1]
          by_cases h2 : (j : ℤ) - i = Ic
          · rw [if_pos h2, mul_one, zero_add]; congr 1; omega
          · rw [if_neg h2, hmem _ (by omega), add_zero]
    · rfl
  · have h0 : col.getD 0 0 ≠ 0 := h.resolve_left hk
    obtain ⟨rest, hrest⟩ : ∃ rest, nonzeros col = 0 :: rest := by
      unfold nonzeros
      have : col.length ≠ 0 := by omega
      obtain ⟨n, hn⟩ := Nat.exists_eq_succ_of_ne_zero this
      rw [hn, List.range_succ_eq_map, List.filter_cons, if_pos (by simpa using h0)]
      exact ⟨_, rfl⟩
    have hsum : ∀ l : List (ℤ × ℝ), ((l.map fun p => spdiag k (List.replicate k p.2) p.1).sum) i j
        = (l.map fun p => if (j : ℤ) - i = p.1 then p.2 else 0).sum := by
      intro l
      induction l with
      | nil => rfl
      | cons p l ih => simp only [List.map_cons, List.sum_cons, Matrix.add_apply, ih, spdiag_const]
    simp only [hsum]
    rw [List.map_append, List.sum_append, List.map_map, List.map_map]
    have e1 := sum_nonzeros col (fun a : ℕ => (j : ℤ) - i = a)
    have e2 := sum_nonzeros col (fun a : ℕ => (j : ℤ) - i = -(a : ℤ))
    rw [hrest, List.map_cons, List.sum_cons] at e1
    have f1 : (((nonzeros col).drop 1).map ((fun p : ℤ × ℝ => if (j : ℤ) - i = p.1 then p.2 else 0) ∘
        fun a : ℕ => ((a : ℤ), col.getD a 0))).sum
        = (rest.map fun a : ℕ => if (j : ℤ) - i = a then col.getD a 0 else 0).sum := by
      rw [hrest]; rfl
    have f2 : (((nonzeros col)).map ((fun p : ℤ × ℝ => if (j : ℤ) - i = p.1 then p.2 else 0) ∘
        fun a : ℕ => (-(a : ℤ), col.getD a 0))).sum
        = ∑ a ∈ range col.length, if (j : ℤ) - i = -(a : ℤ) then col.getD a 0 else 0 := e2
    rw [f1, f2]
    have g1 : ∑ a ∈ range col.length, (if (j : ℤ) - i = (a : ℤ) then col.getD a 0 else 0)
        = if (i : ℕ) ≤ j then col.getD (j - i) 0 else 0 := by
      split_ifs with hij
      · rw [Finset.sum_eq_single ((j : ℕ) - i)]
        · rw [if_pos (by omega)]
        · intro b _ hb; rw [if_neg (by omega)]
        · intro hb; exfalso; apply hb; rw [mem_range]; omega
      · apply Finset.sum_eq_zero; intro b _; rw [if_neg (by omega)]
    have g2 : ∑ a ∈ range col.length, (if (j : ℤ) - i = -(a : ℤ) then col.getD a 0 else 0)
        = if (j : ℕ) ≤ i then col.getD (i - j) 0 else 0 := by
      split_ifs with hij
      · rw [Finset.sum_eq_single ((i : ℕ) - j)]
        · rw [if_pos (by omega)]
        · intro b _ hb; rw [if_neg (by omega)]
        · intro hb; exfalso; apply hb; rw [mem_range]; omega
      · apply Finset.sum_eq_zero; intro b _; rw [if_neg (by omega)]
    rw [g1] at e1
    rw [g2]
    rcases lt_trichotomy (i : ℕ) j with hij | hij | hij
    · rw [if_neg (by push_cast; omega), if_pos (by omega)] at e1
      rw [if_neg (by omega), add_zero]
      rw [zero_add] at e1
      rw [e1]; congr 1; omega
    · rw [if_pos (by push_cast; omega), if_pos (by omega)] at e1
      rw [if_pos (by omega)]
      have : ((j : ℕ) - i) = 0 := by omega
      rw [this] at e1
      have e1' : (rest.map fun a : ℕ => if (j : ℤ) - i = a then col.getD a 0 else 0).sum = 0 := by linarith
      rw [e1', zero_add]; congr 1; omega
    · rw [if_neg (by push_cast; omega), if_neg (by omega)] at e1
      rw [if_pos (by omega)]
      rw [zero_add] at e1
      rw [e1, zero_add]; congr 1; omega

lemma sphankel_eq (r : List ℝ) (i j : ℕ) (hj : j < r.length) : sphankel r i j = r.getD (i + j) 0 := by
  unfold sphankel
  simp only []
  split_ifs with h
  · rw [getD_lt' _ _ _ (by simp; omega), List.getElem_reverse, getD_lt' _ _ _ (by omega)]
    congr 1
    omega
  · rw [getD_ge' _ _ _ (by omega)]

/-! ### Products of basis polynomials -/

lemma T_mul_T_eval (m q : ℕ) (x : ℝ) : 2 * ((Chebyshev.T ℝ m).eval x * (Chebyshev.T ℝ q).eval x)
    = (Chebyshev.T ℝ ((m + q : ℕ) : ℤ)).eval x + (Chebyshev.T ℝ ((((m : ℤ) - q).natAbs : ℕ) : ℤ)).eval x := by
  rw [Chebyshev.T_natAbs]
  have := congrArg (Polynomial.eval x) (Chebyshev.T_mul_T ℝ (m : ℤ) (q : ℤ))
  simp only [eval_mul, eval_add, eval_ofNat] at this
  push_cast
  linarith

lemma T_mul_U (x : ℝ) (q : ℤ) (m : ℕ) : 2 * ((Chebyshev.T ℝ m).eval x * (Chebyshev.U ℝ q).eval x)
    = (Chebyshev.U ℝ (q + m)).eval x + (Chebyshev.U ℝ (q - m)).eval x := by
  induction m using Nat.twoStepInduction with
  | zero => simp; ring
  | one =>
    have := congrArg (Polynomial.eval x) (Chebyshev.U_add_one ℝ q)
    simp only [eval_sub, eval_mul, eval_X, eval_ofNat] at this
    simp
    rw [this]; ring
  | more n h1 h2 =>
    have a := congrArg (Polynomial.eval x) (Chebyshev.T_add_two ℝ (n : ℤ))
    have b := congrArg (Polynomial.eval x) (Chebyshev.U_add_two ℝ (q + n))
    have c := congrArg (Polynomial.eval x) (Chebyshev.U_sub_two ℝ (q - n))
    simp only [eval_sub, eval_mul, eval_X, eval_ofNat] at a b c
    push_cast at *
    rw [a]
    rw [show q + ((n : ℤ) + 2) = q + n + 2 by ring, show q - ((n : ℤ) + 2) = q - n - 2 by ring, b, c]
    rw [show q + (n : ℤ) + 1 = q + (n + 1) by ring, show q - (n : ℤ) - 1 = q - (n + 1) by ring]
    linear_combination 2 * x * h2 - h1

/-- Selecting one entry of a coefficient function. -/
lemma sum_pick (n : ℕ) (c : ℕ → ℝ) (hc : ∀ m, n ≤ m → c m = 0) (a : ℕ) :
    ∑ m ∈ range n, c m * (if m = a then 1 else 0) = c a := by
  simp only [mul_ite, mul_one, mul_zero]
  rw [Finset.sum_ite_eq']
  split_ifs with h
  · rfl
  · rw [hc a (by simpa using h)]

/-- Column identity for the `T` basis. -/
lemma multT_col (k n : ℕ) (c : ℕ → ℝ) (hc : ∀ m, n ≤ m → c m = 0) (hn : n ≤ k) (M : ℕ → ℕ → ℝ) (q : ℕ)
    (hfit : n + q ≤ k)
    (hM : ∀ p < k, M p q = (if p = q then c 0 else c ((p : ℤ) - q).natAbs / 2) + (if 1 ≤ p then c (p + q) / 2 else 0))
    (x : ℝ) :
    ∑ p ∈ range k, M p q * (Chebyshev.T ℝ p).eval x
      = (∑ m ∈ range n, c m * (Chebyshev.T ℝ m).eval x) * (Chebyshev.T ℝ q).eval x := by
  have hent : ∀ p < k, M p q = ∑ m ∈ range n, c m * ((1 / 2) * ((if p = m + q then 1 else 0) +
      (if p = ((m : ℤ) - q).natAbs then 1 else 0))) := by
    intro p hp
    have h1 : ∑ m ∈ range n, c m * ((1 / 2) * ((if p = m + q then 1 else 0) +
        (if p = ((m : ℤ) - q).natAbs then 1 else 0)))
        = (1 / 2) * (∑ m ∈ range n, c m * (if p = m + q then 1 else 0) +
          ∑ m ∈ range n, c m * (if p = ((m : ℤ) - q).natAbs then 1 else 0)) := by
      rw [← sum_add_distrib, mul_sum]
      exact sum_congr rfl fun m _ => by ring
    have h2 : ∑ m ∈ range n, c m * (if p = m + q then 1 else 0) = if q ≤ p then c (p - q) else 0 := by
      split_ifs with h
      · rw [← sum_pick n c hc (p - q)]
        refine sum_congr rfl fun m _ => ?_
        congr 1
        exact if_congr (by omega) rfl rfl
      · apply Finset.sum_eq_zero
        intro m _
        rw [if_neg (by omega), mul_zero]
    have h3 : ∑ m ∈ range n, c m * (if p = ((m : ℤ) - q).natAbs then 1 else 0)
        = c (p + q) + if 1 ≤ p ∧ p ≤ q then c (q - p) else 0 := by
      have : ∀ m : ℕ, (if p = ((m : ℤ) - q).natAbs then (1 : ℝ) else 0) = (if m = p + q then 1 else 0) +
          (if 1 ≤ p ∧ p ≤ q then (if m = q - p then 1 else 0) else 0) := by
        intro m
        by_cases a : m = p + q
        · rw [if_pos a, if_pos (by omega)]
          split_ifs
          · omega
          · ring
          · ring
        · rw [if_neg a]
          split_ifs <;> first | omega | ring
      simp only [this, mul_add, sum_add_distrib]
      rw [sum_pick n c hc]
      congr 1
      split_ifs
      · rw [sum_pick n c hc]
      · simp
    rw [h1, h2, h3, hM p hp]
    rcases lt_trichotomy p q with h | h | h
    · rw [if_neg (show ¬ p = q by omega), if_neg (show ¬ q ≤ p by omega),
        show ((p : ℤ) - q).natAbs = q - p by omega]
      rcases Nat.eq_zero_or_pos p with h0 | h0
      · subst h0; simp; ring
      · rw [if_pos (show 1 ≤ p from h0), if_pos (show 1 ≤ p ∧ p ≤ q by omega)]; ring
    · subst h
      rw [if_pos rfl, if_pos le_rfl]
      rcases Nat.eq_zero_or_pos p with h0 | h0
      · subst h0; simp; ring
      · rw [if_pos (show 1 ≤ p from h0), if_pos (show 1 ≤ p ∧ p ≤ p by omega)]; simp; ring
    · rw [if_neg (show ¬ p = q by omega), if_pos (show q ≤ p by omega), if_pos (show 1 ≤ p by omega),
        if_neg (show ¬ (1 ≤ p ∧ p ≤ q) by omega), show ((p : ℤ) - q).natAbs = p - q by omega]
      ring
  rw [sum_mul]
  have : ∑ p ∈ range k, M p q * (Chebyshev.T ℝ p).eval x = ∑ m ∈ range n, ∑ p ∈ range k,
      c m * ((1 / 2) * ((if p = m + q then 1 else 0) + (if p = ((m : ℤ) - q).natAbs then 1 else 0))) *
        (Chebyshev.T ℝ p).eval x := by
    rw [sum_comm]
    refine sum_congr rfl fun p hp => ?_
    rw [hent p (mem_range.mp hp), sum_mul]
  rw [this]
  refine sum_congr rfl fun m hm => ?_
  rw [mem_range] at hm
  have e : ∀ p : ℕ, c m * ((1 / 2) * ((if p = m + q then 1 else 0) + (if p = ((m : ℤ) - q).natAbs then 1 else 0))) *
        (Chebyshev.T ℝ p).eval x = c m * (1 / 2) * ((if p = m + q then (Chebyshev.T ℝ p).eval x else 0) +
        (if p = ((m : ℤ) - q).natAbs then (Chebyshev.T ℝ p).eval x else 0)) := by
    intro p; split_ifs <;> ring
  simp only [e]
  rw [← mul_sum, sum_add_distrib, Finset.sum_ite_eq', Finset.sum_ite_eq', if_pos (by rw [mem_range]; omega),
    if_pos (by rw [mem_range]; omega), ← T_mul_T_eval]
  ring

/-- Column identity for the `U` basis. -/
lemma multU_col (k n : ℕ) (c : ℕ → ℝ) (hc : ∀ m, n ≤ m → c m = 0) (hn : n ≤ k) (M : ℕ → ℕ → ℝ) (q : ℕ)
    (hfit : n + q ≤ k)
    (hM : ∀ p < k, M p q = (if p = q then c 0 else c ((p : ℤ) - q).natAbs / 2) - c (p + q + 2) / 2)
    (x : ℝ) :
    ∑ p ∈ range k, M p q * (Chebyshev.U ℝ p).eval x
      = (∑ m ∈ range n, c m * (Chebyshev.T ℝ m).eval x) * (Chebyshev.U ℝ q).eval x := by
  have hent : ∀ p < k, M p q = ∑ m ∈ range n, c m * ((1 / 2) * ((if p = m + q then 1 else 0) +
      (if p + m = q then 1 else 0) - (if m = p + q + 2 then 1 else 0))) := by
    intro p hp
    have h1 : ∑ m ∈ range n, c m * ((1 / 2) * ((if p = m + q then 1 else 0) +
        (if p + m = q then 1 else 0) - (if m = p + q + 2 then 1 else 0)))
        = (1 / 2) * (∑ m ∈ range n, c m * (if p = m + q then 1 else 0) +
          ∑ m ∈ range n, c m * (if p + m = q then 1 else 0) -
          ∑ m ∈ range n, c m * (if m = p + q + 2 then 1 else 0)) := by
      rw [← sum_add_distrib, ← sum_sub_distrib, mul_sum]
      exact sum_congr rfl fun m _ => by ring
    have h2 : ∑ m ∈ range n, c m * (if p = m + q then 1 else 0) = if q ≤ p then c (p - q) else 0 := by
      split_ifs with h
      · rw [← sum_pick n c hc (p - q)]
        refine sum_congr rfl fun m _ => ?_
        congr 1
        exact if_congr (by omega) rfl rfl
      · apply Finset.sum_eq_zero
        intro m _
        rw [if_neg (by omega), mul_zero]
    have h3 : ∑ m ∈ range n, c m * (if p + m = q then 1 else 0) = if p ≤ q then c (q - p) else 0 := by
      split_ifs with h
      · rw [← sum_pick n c hc (q - p)]
        refine sum_congr rfl fun m _ => ?_
        congr 1
        exact if_congr (by omega) rfl rfl
      · apply Finset.sum_eq_zero
        intro m _
        rw [if_neg (by omega), mul_zero]
    rw [h1, h2, h3, sum_pick n c hc, hM p hp]
    rcases lt_trichotomy p q with h | h | h
    · rw [if_neg (by omega), if_neg (by omega), if_pos (by omega)]
      rw [show ((p : ℤ) - q).natAbs = q - p by omega]
      ring
    · subst h
      rw [if_pos rfl, if_pos le_rfl, Nat.sub_self]
      ring
    · rw [if_neg (by omega), if_pos (by omega), if_neg (by omega)]
      rw [show ((p : ℤ) - q).natAbs = p - q by omega]
      ring
  rw [sum_mul]
  have : ∑ p ∈ range k, M p q * (Chebyshev.U ℝ p).eval x = ∑ m ∈ range n, ∑ p ∈ range k,
      c m * ((1 / 2) * ((if p = m + q then 1 else 0) + (if p + m = q then 1 else 0) -
        (if m = p + q + 2 then 1 else 0))) * (Chebyshev.U ℝ p).eval x := by
    rw [sum_comm]
    refine sum_congr rfl fun p hp => ?_
    rw [hent p (mem_range.mp hp), sum_mul]
  rw [this]
  refine sum_congr rfl fun m hm => ?_
  rw [mem_range] at hm
  have e : ∀ p : ℕ, c m * ((1 / 2) * ((if p = m + q then 1 else 0) + (if p + m = q then 1 else 0) -
        (if m = p + q + 2 then 1 else 0))) * (Chebyshev.U ℝ p).eval x
      = c m * (1 / 2) * ((if p = m + q then (Chebyshev.U ℝ p).eval x else 0) +
        (if p + m = q then (Chebyshev.U ℝ p).eval x else 0) -
        (if m = p + q + 2 then (Chebyshev.U ℝ p).eval x else 0)) := by
    intro p; split_ifs <;> ring
  simp only [e]
  rw [← mul_sum, sum_sub_distrib, sum_add_distrib, Finset.sum_ite_eq', if_pos (by rw [mem_range]; omega)]
  have hu := T_mul_U x q m
  have hrest : ∑ p ∈ range k, (if p + m = q then (Chebyshev.U ℝ p).eval x else 0) -
      ∑ p ∈ range k, (if m = p + q + 2 then (Chebyshev.U ℝ p).eval x else 0) = (Chebyshev.U ℝ ((q : ℤ) - m)).eval x := by
    rcases Nat.lt_or_ge q m with h | h
    · have z1 : ∑ p ∈ range k, (if p + m = q then (Chebyshev.U ℝ p).eval x else 0) = 0 :=
        Finset.sum_eq_zero fun p _ => by rw [if_neg (by omega)]
      rw [z1, zero_sub]
      rcases Nat.eq_or_lt_of_le (show q + 1 ≤ m from h) with h' | h'
      · have z2 : ∑ p ∈ range k, (if m = p + q + 2 then (Chebyshev.U ℝ p).eval x else 0) = 0 :=
          Finset.sum_eq_zero fun p _ => by rw [if_neg (by omega)]
        rw [z2, ← h', show ((q : ℤ) - ((q + 1 : ℕ) : ℤ)) = -1 by push_cast; ring]
        simp
      · have z2 : ∑ p ∈ range k, (if m = p + q + 2 then (Chebyshev.U ℝ p).eval x else 0)
            = (Chebyshev.U ℝ ((m - q - 2 : ℕ) : ℤ)).eval x := by
          rw [Finset.sum_eq_single (m - q - 2)]
          · rw [if_pos (by omega)]
          · intro b _ hb; rw [if_neg (by omega)]
          · intro hb; exfalso; apply hb; rw [mem_range]; omega
        rw [z2, show ((q : ℤ) - m) = -((m - q - 2 : ℕ) : ℤ) - 2 by omega, Chebyshev.U_neg_sub_two]
        simp
    · have z2 : ∑ p ∈ range k, (if m = p + q + 2 then (Chebyshev.U ℝ p).eval x else 0) = 0 :=
        Finset.sum_eq_zero fun p _ => by rw [if_neg (by omega)]
      rw [z2, sub_zero, Finset.sum_eq_single (q - m)]
      · rw [if_pos (by omega)]; congr 2; omega
      · intro b _ hb; rw [if_neg (by omega)]
      · intro hb; exfalso; apply hb; rw [mem_range]; omega
  rw [add_sub_assoc, hrest]
  rw [show ((m + q : ℕ) : ℤ) = (q : ℤ) + m by push_cast; ring]
  linear_combination (-(c m) / 2) * hu

end Funpy.UltraS
