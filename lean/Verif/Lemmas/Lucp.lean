import Verif.Model.Lucp
import Mathlib.Algebra.Order.BigOperators.Ring.Finset
import Mathlib.Tactic

/-! Lemmas for `Props/Lucp.lean`. -/

namespace Funpy.Lucp

variable {K : Type*} [Field K] [LinearOrder K]

theorem argmaxFrom_spec (g : ℕ → K) (k n : ℕ) (hk : k < n) :
    k ≤ argmaxFrom g k n ∧ argmaxFrom g k n < n ∧ ∀ i, k ≤ i → i < n → g i ≤ g (argmaxFrom g k n) := by
  have key : ∀ N, let r := (List.range' (k + 1) N).foldl (fun best i => if g best < g i then i else best) k
      k ≤ r ∧ r < k + 1 + N ∧ ∀ i, k ≤ i → i < k + 1 + N → g i ≤ g r := by
    intro N
    induction N with
    | zero =>
      refine ⟨le_rfl, by simp, ?_⟩
      intro i h1 h2
      have : i = k := by omega
      rw [this]; rfl
    | succ N ih =>
      obtain ⟨h1, h2, h3⟩ := ih
      simp only [List.range'_concat, List.foldl_append, List.foldl_cons, List.foldl_nil, Nat.mul_one, one_mul]
      set r := (List.range' (k + 1) N).foldl (fun best i => if g best < g i then i else best) k
      split_ifs with h
      · refine ⟨by omega, by omega, ?_⟩
        intro i hi1 hi2
        rcases Nat.lt_or_ge i (k + 1 + N) with h4 | h4
        · exact le_trans (h3 i hi1 h4) h.le
        · have : i = k + 1 + N := by omega
          rw [this]
      · refine ⟨h1, by omega, ?_⟩
        intro i hi1 hi2
        rcases Nat.lt_or_ge i (k + 1 + N) with h4 | h4
        · exact h3 i hi1 h4
        · have : i = k + 1 + N := by omega
          rw [this]; exact not_lt.mp h
  obtain ⟨h1, h2, h3⟩ := key (n - (k + 1))
  have hn : k + 1 + (n - (k + 1)) = n := by omega
  rw [hn] at h2 h3
  exact ⟨h1, h2, h3⟩

theorem pivot_spec (n m k : ℕ) (A : ℕ → ℕ → K) (hn : k < n) (hm : k < m) :
    k ≤ (pivot n m k A).1 ∧ (pivot n m k A).1 < n ∧ k ≤ (pivot n m k A).2 ∧ (pivot n m k A).2 < m ∧
      ∀ i j, k ≤ i → i < n → k ≤ j → j < m → |A i j| ≤ |A (pivot n m k A).1 (pivot n m k A).2| := by
  have hc := argmaxFrom_spec (fun c => |A (argmaxFrom (fun i => |A i c|) k n) c|) k m hm
  have hr := fun c => argmaxFrom_spec (fun i => |A i c|) k n hn
  refine ⟨(hr _).1, (hr _).2.1, hc.1, hc.2.1, ?_⟩
  intro i j hi1 hi2 hj1 hj2
  exact le_trans ((hr j).2.2 i hi1 hi2) (hc.2.2 j hj1 hj2)

theorem swap_range {k r n i : ℕ} (hk : k < n) (hr : r < n) (hi : i < n) : Equiv.swap k r i < n := by
  rcases eq_or_ne i k with rfl | h1
  · simpa using hr
  · rcases eq_or_ne i r with rfl | h2
    · simpa using hk
    · rwa [Equiv.swap_apply_of_ne_of_ne h1 h2]

theorem swap_ge {k r i : ℕ} (hr : k ≤ r) (hi : k ≤ i) : k ≤ Equiv.swap k r i := by
  rcases eq_or_ne i k with rfl | h1
  · simpa using hr
  · rcases eq_or_ne i r with rfl | h2
    · simp
    · rwa [Equiv.swap_apply_of_ne_of_ne h1 h2]

theorem swap_lt {k r i : ℕ} (hr : k ≤ r) (hi : i < k) : Equiv.swap k r i = i :=
  Equiv.swap_apply_of_ne_of_ne (by omega) (by omega)

theorem swap_out {k r n i : ℕ} (hk : k < n) (hr : r < n) (hi : n ≤ i) : Equiv.swap k r i = i :=
  Equiv.swap_apply_of_ne_of_ne (by omega) (by omega)

/-- Loop invariant before pass `k`. -/
structure LInv (n m : ℕ) (A0 : ℕ → ℕ → K) (k : ℕ) (s : St K) : Prop where
  pout : ∀ i, n ≤ i → s.p i = i
  qout : ∀ j, m ≤ j → s.q j = j
  eq : ∀ i j, i < n → j < m → A0 (s.p i) (s.q j)
    = (∑ l ∈ Finset.range k, lower s.A i l * upper s.A l j) + if k ≤ i ∧ k ≤ j then s.A i j else 0
  mult : ∀ i l, l < k → l < i → i < n → |s.A i l| ≤ 1

variable [IsStrictOrderedRing K]

theorem exchange_inv {n m k : ℕ} {A0 : ℕ → ℕ → K} {s : St K} (hn : k < n) (hm : k < m) (h : LInv n m A0 k s) :
    LInv n m A0 k (exchange n m k s) ∧
      ∀ i j, k ≤ i → i < n → k ≤ j → j < m → |(exchange n m k s).A i j| ≤ |(exchange n m k s).A k k| := by
  obtain ⟨h1, h2, h3, h4, h5⟩ := pivot_spec n m k s.A hn hm
  set r := (pivot n m k s.A).1
  set c := (pivot n m k s.A).2
  have hA : ∀ i j, (exchange n m k s).A i j = s.A (Equiv.swap k r i) (Equiv.swap k c j) := fun i j => rfl
  have hp : ∀ i, (exchange n m k s).p i = s.p (Equiv.swap k r i) := fun i => rfl
  have hq : ∀ j, (exchange n m k s).q j = s.q (Equiv.swap k c j) := fun j => rfl
  refine ⟨⟨?_, ?_, ?_, ?_⟩, ?_⟩
  · intro i hi; rw [hp, swap_out hn h2 hi, h.pout i hi]
  · intro j hj; rw [hq, swap_out hm h4 hj, h.qout j hj]
  · intro i j hi hj
    rw [hp, hq, h.eq _ _ (swap_range hn h2 hi) (swap_range hm h4 hj)]
    congr 1
    · apply Finset.sum_congr rfl
      intro l hl
      have hl : l < k := by simpa using hl
      congr 1
      · simp only [lower, hA]
        rw [swap_lt h3 hl]
        rcases Nat.lt_or_ge i k with hik | hik
        · rw [swap_lt h1 hik]
        · have := swap_ge h1 hik
          rw [if_pos (by omega), if_pos (by omega)]
      · simp only [upper, hA]
        rw [swap_lt h1 hl]
        rcases Nat.lt_or_ge j k with hjk | hjk
        · rw [swap_lt h3 hjk]
        · have := swap_ge h3 hjk
          rw [if_pos (by omega), if_pos (by omega)]
    · rw [hA]
      by_cases hik : k ≤ i
      · by_cases hjk : k ≤ j
        · rw [if_pos ⟨swap_ge h1 hik, swap_ge h3 hjk⟩, if_pos ⟨hik, hjk⟩]
        · rw [if_neg (fun hh => hjk (by rw [swap_lt h3 (by omega)] at hh; exact hh.2)), if_neg (fun hh => hjk hh.2)]
      · rw [if_neg (fun hh => hik (by rw [swap_lt h1 (by omega)] at hh; exact hh.1)), if_neg (fun hh => hik hh.1)]
  · intro i l hl hli hi
    rw [hA, swap_lt h3 hl]
    refine h.mult _ l hl ?_ (swap_range hn h2 hi)
    rcases Nat.lt_or_ge i k with hik | hik
    · rw [swap_lt h1 hik]; exact hli
    · have := swap_ge h1 hik; omega
  · intro i j hi1 hi2 hj1 hj2
    rw [hA, hA, Equiv.swap_apply_left, Equiv.swap_apply_left]
    exact h5 _ _ (swap_ge h1 hi1) (swap_range hn h2 hi2) (swap_ge h3 hj1) (swap_range hm h4 hj2)

theorem eliminate_inv {n m k : ℕ} {A0 : ℕ → ℕ → K} {s : St K} (hn : k < n) (hm : k < m) (h : LInv n m A0 k s)
    (hmax : ∀ i j, k ≤ i → i < n → k ≤ j → j < m → |s.A i j| ≤ |s.A k k|) (hp : s.A k k ≠ 0) :
    LInv n m A0 (k + 1) { s with A := eliminate n m k s.A } := by
  have e1 : ∀ i j, i ≤ k → eliminate n m k s.A i j = s.A i j := by
    intro i j hi; simp only [eliminate]; rw [if_neg (by omega)]
  have e2 : ∀ i j, j < k → eliminate n m k s.A i j = s.A i j := by
    intro i j hj; simp only [eliminate]
    split_ifs <;> first | rfl | omega
  have e3 : ∀ i, k < i → i < n → eliminate n m k s.A i k = s.A i k / s.A k k := by
    intro i hi hin; simp [eliminate, hi, hin]
  have e4 : ∀ i j, k < i → i < n → k < j → j < m →
      eliminate n m k s.A i j = s.A i j - (s.A i k / s.A k k) * s.A k j := by
    intro i j hi hin hj hjm
    simp only [eliminate]; rw [if_pos ⟨hi, hin⟩, if_neg (by omega), if_pos ⟨hj, hjm⟩]
  refine ⟨h.pout, h.qout, ?_, ?_⟩
  · intro i j hi hj
    rw [h.eq i j hi hj, Finset.sum_range_succ]
    have hsum : ∑ l ∈ Finset.range k, lower s.A i l * upper s.A l j
        = ∑ l ∈ Finset.range k, lower (eliminate n m k s.A) i l * upper (eliminate n m k s.A) l j := by
      apply Finset.sum_congr rfl
      intro l hl
      have hl : l < k := by simpa using hl
      simp only [lower, upper]
      rw [e2 i l hl, e1 l j (by omega)]
    rw [hsum, add_assoc]
    congr 1
    simp only [lower, upper]
    rcases lt_trichotomy i k with hik | rfl | hik
    · rw [if_neg (by omega), if_neg (by omega), if_neg (by omega), zero_mul, if_neg (by omega)]; ring
    · rcases Nat.lt_or_ge j i with hjk | hjk
      · rw [if_neg (by omega), if_neg (by omega), if_pos rfl, if_neg (by omega), if_neg (by omega)]; ring
      · rw [if_pos ⟨le_rfl, hjk⟩, if_neg (by omega), if_pos rfl, if_pos hjk, if_neg (by omega), e1 _ _ le_rfl]; ring
    · rcases lt_trichotomy j k with hjk | rfl | hjk
      · rw [if_neg (by omega), if_pos hik, if_neg (by omega), if_neg (by omega)]; ring
      · rw [if_pos ⟨by omega, le_rfl⟩, if_pos hik, if_pos le_rfl, if_neg (by omega), e3 i hik hi, e1 _ _ le_rfl]
        field_simp
        ring
      · rw [if_pos ⟨by omega, by omega⟩, if_pos hik, if_pos (by omega), if_pos ⟨by omega, by omega⟩, e3 i hik hi,
          e1 _ _ le_rfl, e4 i j hik hi hjk hj]
        ring
  · intro i l hl hli hi
    simp only
    rcases Nat.lt_or_ge l k with hlk | hlk
    · rw [e2 i l hlk]; exact h.mult i l hlk hli hi
    · have : l = k := by omega
      subst this
      rw [e3 i hli hi, abs_div, div_le_one (abs_pos.mpr hp)]
      exact hmax i l (by omega) hi le_rfl hm

/-- The result of the loop. -/
theorem loop_inv {n m : ℕ} {A0 : ℕ → ℕ → K} (tol : K) (ht : 0 < tol) (fuel k : ℕ) (s : St K) (hf : k + fuel = min (n - 1) m)
    (h : LInv n m A0 k s) :
    let r := loop n m tol fuel k s
    r.2 ≤ min (n - 1) m ∧ LInv n m A0 r.2 r.1 ∧ (∀ l < r.2, k ≤ l → tol ≤ |r.1.A l l|) ∧
      (r.2 = min (n - 1) m ∨ ∀ i j, r.2 ≤ i → i < n → r.2 ≤ j → j < m → |r.1.A i j| < tol) := by
  induction fuel generalizing k s with
  | zero =>
    refine ⟨by simp only [loop]; omega, h, ?_, Or.inl (by simp only [loop]; omega)⟩
    intro l hl1 hl2; simp only [loop] at hl1; omega
  | succ fuel ih =>
    have hn : k < n := by omega
    have hm : k < m := by omega
    obtain ⟨h1, h2⟩ := exchange_inv hn hm h
    simp only [loop]
    split_ifs with hp
    · have hne : (exchange n m k s).A k k ≠ 0 := by
        intro e0; rw [e0, abs_zero] at hp; exact absurd ht (not_lt.mpr hp)
      have hI := eliminate_inv hn hm h1 h2 hne
      obtain ⟨g1, g2, g3, g4⟩ := ih (k + 1) _ (by omega) hI
      refine ⟨g1, g2, ?_, g4⟩
      intro l hl1 hl2
      rcases Nat.lt_or_ge k l with hkl | hkl
      · exact g3 l hl1 hkl
      · have : l = k := by omega
        subst this
        -- later passes do not touch row `l`
        have keep : ∀ (fuel k' : ℕ) (s' : St K), l < k' → k' + fuel = min (n - 1) m →
            (loop n m tol fuel k' s').1.A l l = s'.A l l := by
          intro fuel
          induction fuel with
          | zero => intro k' s' _ _; rfl
          | succ fuel ih2 =>
            intro k' s' hk' hf'
            obtain ⟨a1, a2, a3, a4, -⟩ := pivot_spec n m k' s'.A (by omega) (by omega)
            have hx : (exchange n m k' s').A l l = s'.A l l := by
              simp only [exchange]
              rw [swap_lt a1 hk', swap_lt a3 hk']
            simp only [loop]
            split_ifs
            · rw [ih2 (k' + 1) _ (by omega) (by omega)]
              simp only [eliminate]
              rw [if_neg (by omega), hx]
            · exact hx
        rw [keep fuel (l + 1) _ (by omega) (by omega)]
        simp only [eliminate]
        rw [if_neg (by omega)]
        exact hp
    · refine ⟨by simp only []; omega, h1, by intro l hl1 hl2; simp only [] at hl1; omega, Or.inr ?_⟩
      intro i j hi1 hi2 hj1 hj2
      exact lt_of_le_of_lt (h2 i j hi1 hi2 hj1 hj2) (not_le.mp hp)

theorem lucp_inv {n m : ℕ} (A0 : ℕ → ℕ → K) (tol : K) (ht : 0 < tol) :
    let r := lucp n m tol A0
    r.2 ≤ min (n - 1) m ∧ LInv n m A0 r.2 r.1 ∧ (∀ l < r.2, tol ≤ |r.1.A l l|) ∧
      (r.2 = min (n - 1) m ∨ ∀ i j, r.2 ≤ i → i < n → r.2 ≤ j → j < m → |r.1.A i j| < tol) := by
  have h0 : LInv n m A0 0 ⟨A0, 1, 1⟩ := ⟨fun _ _ => rfl, fun _ _ => rfl, by intro i j _ _; simp, by intro i l h; omega⟩
  obtain ⟨h1, h2, h3, h4⟩ := loop_inv (n := n) (m := m) tol ht (min (n - 1) m) 0 ⟨A0, 1, 1⟩ (by omega) h0
  exact ⟨h1, h2, fun l hl => h3 l hl (Nat.zero_le l), h4⟩

omit [IsStrictOrderedRing K] [LinearOrder K] in
theorem backsub_spec (N : ℕ) (U : ℕ → ℕ → K) (b : ℕ → K) (hd : ∀ i < N, U i i ≠ 0) (hu : ∀ i j, j < i → U i j = 0)
    (i : ℕ) (hi : i < N) : ∑ j ∈ Finset.range N, U i j * backsub N U b j = b i := by
  -- after treating rows `N-1, ..., N-t` these rows hold
  set st : (ℕ → K) → ℕ → (ℕ → K) :=
    fun x i => LinHelpers.setAt x i ((b i - ∑ j ∈ Finset.Ico (i + 1) N, U i j * x j) / U i i) with hst
  have key : ∀ t ≤ N, ∀ i, N - t ≤ i → i < N →
      U i i * ((List.range' (N - t) t).reverse).foldl st b i
        + ∑ j ∈ Finset.Ico (i + 1) N, U i j * ((List.range' (N - t) t).reverse).foldl st b j = b i := by
    intro t
    induction t with
    | zero => intro _ i h1 h2; omega
    | succ t ih =>
      intro ht
      have ih' := ih (by omega)
      have hr : (List.range' (N - (t + 1)) (t + 1)).reverse = (List.range' (N - t) t).reverse ++ [N - (t + 1)] := by
        rw [List.range'_succ, List.reverse_cons, show N - (t + 1) + 1 = N - t by omega]
      simp only [hr, List.foldl_append, List.foldl_cons, List.foldl_nil]
      set x := ((List.range' (N - t) t).reverse).foldl st b
      intro i h1 h2
      have hx : st x (N - (t + 1)) = LinHelpers.setAt x (N - (t + 1)) ((b (N - (t + 1)) -
        ∑ j ∈ Finset.Ico (N - (t + 1) + 1) N, U (N - (t + 1)) j * x j) / U (N - (t + 1)) (N - (t + 1))) := rfl
      rw [hx]
      have hcongr : ∀ v, ∑ j ∈ Finset.Ico (i + 1) N, U i j * LinHelpers.setAt x (N - (t + 1)) v j
          = ∑ j ∈ Finset.Ico (i + 1) N, U i j * x j := by
        intro v
        apply Finset.sum_congr rfl
        intro j hj
        have := Finset.mem_Ico.mp hj
        simp only [LinHelpers.setAt]
        rw [if_neg (by omega)]
      rw [hcongr]
      rcases Nat.lt_or_ge (N - (t + 1)) i with hlt | hge
      · simp only [LinHelpers.setAt]
        rw [if_neg (by omega)]
        exact ih' i (by omega) h2
      · have : i = N - (t + 1) := by omega
        subst this
        simp only [LinHelpers.setAt, if_pos]
        have := hd _ h2
        field_simp
        ring
  have h1 := key N le_rfl i (by omega) hi
  simp only [Nat.sub_self] at h1
  rw [← List.range_eq_range'] at h1
  change U i i * backsub N U b i + ∑ j ∈ Finset.Ico (i + 1) N, U i j * backsub N U b j = b i at h1
  rw [← h1, ← Finset.sum_range_add_sum_Ico _ (show i ≤ N by omega), Finset.sum_eq_sum_Ico_succ_bot (by omega : i < N),
    Finset.sum_eq_zero (fun j hj => by rw [hu i j (by simpa using hj)]; ring), zero_add]

end Funpy.Lucp
