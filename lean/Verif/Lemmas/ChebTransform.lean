import Verif.Model.ChebTransform
import Verif.Lemmas.ChebEval
import Verif.Lemmas.ListAux
import Mathlib.Analysis.SpecialFunctions.Trigonometric.Chebyshev.Basic
import Mathlib.Algebra.BigOperators.Intervals
import Mathlib.Tactic.Positivity
import Mathlib.Algebra.BigOperators.Field

namespace Funpy.Cheb
open Finset Real Spec Polynomial

/-- `∑_{n<2M} cos(π j n / M)` is `2M` or `0`. -/
lemma cos_sum (M : ℕ) (hM : 0 < M) (j : ℤ) :
    ∑ n ∈ range (2 * M), cos (π * j * n / M) = if (2 * M : ℤ) ∣ j then (2 * M : ℝ) else 0 := by
  have hM' : (M : ℝ) ≠ 0 := by positivity
  split_ifs with h
  · obtain ⟨q, rfl⟩ := h
    have : ∀ n ∈ range (2 * M), cos (π * ((2 * M * q : ℤ) : ℝ) * n / M) = 1 := by
      intro n _
      have : π * ((2 * M * q : ℤ) : ℝ) * n / M = ((q * n : ℤ) : ℝ) * (2 * π) := by
        push_cast; field_simp
      rw [this, cos_int_mul_two_pi]
    rw [sum_congr rfl this]; simp
  · set a : ℝ := π * j / M with ha
    have hs : sin (a / 2) ≠ 0 := by
      intro h0
      rw [sin_eq_zero_iff] at h0
      obtain ⟨q, hq⟩ := h0
      apply h
      refine ⟨q, ?_⟩
      have : (q : ℝ) * (2 * M) = j := by
        have hpi := pi_ne_zero
        rw [ha] at hq
        field_simp at hq
        linarith
      have : ((q * (2 * M) : ℤ) : ℝ) = ((j : ℤ) : ℝ) := by push_cast; exact this
      have := Int.cast_injective this
      linarith
    have tele : ∀ L : ℕ, 2 * sin (a / 2) * ∑ n ∈ range L, cos (π * j * n / M)
        = sin (L * a - a / 2) + sin (a / 2) := by
      intro L
      induction L with
      | zero => simp
      | succ L ih =>
        rw [sum_range_succ, mul_add, ih]
        have e1 : π * j * L / M = L * a := by rw [ha]; ring
        have e2 : ((L + 1 : ℕ) : ℝ) * a - a / 2 = L * a + a / 2 := by push_cast; ring
        rw [e1, e2, sin_add, sin_sub]
        ring
    have := tele (2 * M)
    have e : ((2 * M : ℕ) : ℝ) * a - a / 2 = -(a / 2) + j * (2 * π) := by
      rw [ha]; push_cast; field_simp; ring
    rw [e, sin_add_int_mul_two_pi, sin_neg, neg_add_cancel] at this
    rcases mul_eq_zero.mp this with h' | h'
    · exact absurd h' (by simpa using hs)
    · exact h'

/-- Folding a symmetric sum over a period. -/
lemma fold_sum (M : ℕ) (hM : 0 < M) (g : ℕ → ℝ) (hg : ∀ n, n ≤ 2 * M → g (2 * M - n) = g n) :
    ∑ n ∈ range (2 * M), g n = g 0 + g M + 2 * ∑ n ∈ Ico 1 M, g n := by
  have h1 : ∑ n ∈ range (2 * M), g n
      = ∑ n ∈ range M, g n + ∑ n ∈ range M, g (M + n) := by
    rw [two_mul, sum_range_add]
  have h2 : ∑ n ∈ range M, g n = g 0 + ∑ n ∈ Ico 1 M, g n := by
    rw [range_eq_Ico, sum_eq_sum_Ico_succ_bot hM]
  have h3 : ∑ n ∈ range M, g (M + n) = g M + ∑ n ∈ Ico 1 M, g n := by
    rw [range_eq_Ico, sum_eq_sum_Ico_succ_bot hM, add_zero]
    congr 1
    rw [zero_add]
    refine sum_nbij' (fun n => M - n) (fun n => M - n) ?_ ?_ ?_ ?_ ?_
    · intro n hn; simp only [mem_Ico] at *; omega
    · intro n hn; simp only [mem_Ico] at *; omega
    · intro n hn; simp only [mem_Ico] at *; omega
    · intro n hn; simp only [mem_Ico] at *; omega
    · intro n hn
      simp only [mem_Ico] at hn
      rw [← hg (M - n) (by omega)]
      congr 1
      omega
  rw [h1, h2, h3]; ring

/-- Discrete orthogonality of the cosines on the Chebyshev grid. -/
lemma cos_orth (M : ℕ) (hM : 0 < M) (k m : ℕ) (hk : k ≤ M) (hm : m ≤ M) :
    (1 + cos (π * k) * cos (π * m)
      + 2 * ∑ n ∈ Ico 1 M, cos (π * k * n / M) * cos (π * m * n / M))
      = if k = m then (if k = 0 ∨ k = M then (2 * M : ℝ) else M) else 0 := by
  have hM' : (M : ℝ) ≠ 0 := by positivity
  set g : ℕ → ℝ := fun n => cos (π * k * n / M) * cos (π * m * n / M) with hg
  have hsym : ∀ n, n ≤ 2 * M → g (2 * M - n) = g n := by
    intro n hn
    have : ∀ j : ℕ, cos (π * j * ((2 * M - n : ℕ) : ℝ) / M) = cos (π * j * n / M) := by
      intro j
      have : π * j * ((2 * M - n : ℕ) : ℝ) / M = ((j : ℤ) : ℝ) * (2 * π) - π * j * n / M := by
        rw [Nat.cast_sub hn]; push_cast; field_simp
      rw [this, cos_int_mul_two_pi_sub]
    simp only [hg, this]
  have h := fold_sum M hM g hsym
  have h0 : g 0 = 1 := by simp [hg]
  have hMM : g M = cos (π * k) * cos (π * m) := by
    simp only [hg]
    congr 2 <;> field_simp
  rw [← h0, ← hMM, ← h]
  have prod : ∀ n, g n = (1 / 2) * (cos (π * ((k + m : ℤ) : ℝ) * n / M)
      + cos (π * ((k - m : ℤ) : ℝ) * n / M)) := by
    intro n
    have e1 : π * ((k + m : ℤ) : ℝ) * n / M = π * k * n / M + π * m * n / M := by push_cast; ring
    have e2 : π * ((k - m : ℤ) : ℝ) * n / M = π * k * n / M - π * m * n / M := by push_cast; ring
    rw [e1, e2, cos_add, cos_sub]
    simp only [hg]; ring
  simp only [prod]
  rw [← mul_sum, sum_add_distrib, cos_sum M hM, cos_sum M hM]
  by_cases hkm : k = m
  · subst hkm
    have hd0 : (2 * M : ℤ) ∣ (k : ℤ) - (k : ℤ) := by simp
    rw [if_pos rfl, if_pos hd0]
    by_cases he : k = 0 ∨ k = M
    · rw [if_pos he, if_pos]
      · ring
      · rcases he with rfl | rfl
        · simp
        · exact ⟨1, by ring⟩
    · rw [if_neg he, if_neg]
      · ring
      · rintro ⟨q, hq⟩
        push Not at he
        have h1 : 0 < k := by omega
        have h2 : k < M := by omega
        have : 0 < q := by
          by_contra hq'
          nlinarith
        nlinarith
  · rw [if_neg hkm, if_neg, if_neg]
    · ring
    · rintro ⟨q, hq⟩
      have : q = 0 := by
        rcases lt_trichotomy q 0 with h' | h' | h'
        · nlinarith
        · exact h'
        · nlinarith
      subst this
      omega
    · rintro ⟨q, hq⟩
      have : q = 0 ∨ 1 ≤ q := by
        rcases lt_trichotomy q 0 with h' | h' | h'
        · nlinarith
        · exact Or.inl h'
        · exact Or.inr h'
      rcases this with rfl | h'
      · omega
      · have : k + m = 2 * M := by nlinarith
        omega

lemma dct1_length (x : List ℝ) : (dct1 x).length = x.length := by simp [dct1]

lemma cos_pi_nat (k : ℕ) : cos (π * k) = (-1) ^ k := by
  rw [mul_comm, cos_nat_mul_pi]

lemma dct1_getD (x : List ℝ) (M : ℕ) (hx : x.length = M + 1) (hM : 0 < M) (k : ℕ) (hk : k ≤ M) :
    (dct1 x).getD k 0 = x.getD 0 0 * cos (π * k * (0 : ℕ) / M) + x.getD M 0 * cos (π * k * M / M)
      + 2 * ∑ n ∈ Ico 1 M, x.getD n 0 * cos (π * k * n / M) := by
  have hM' : (M : ℝ) ≠ 0 := by positivity
  unfold dct1
  simp only [hx, Nat.add_sub_cancel]
  rw [getD_map_range, if_pos (by omega)]
  have : π * k * M / M = π * k := by field_simp
  rw [this, cos_pi_nat]
  simp
  ring

/-- A sum with the end-point weights `1` and interior weight `2`. -/
noncomputable def wsum (M : ℕ) (g : ℕ → ℝ) : ℝ := g 0 + g M + 2 * ∑ n ∈ Ico 1 M, g n

/-- weight of index `n` in `wsum` -/
noncomputable def wt (M n : ℕ) : ℝ := if n = 0 ∨ n = M then 1 else 2

lemma wsum_eq (M : ℕ) (hM : 0 < M) (g : ℕ → ℝ) :
    wsum M g = ∑ n ∈ range (M + 1), wt M n * g n := by
  rw [sum_range_succ, range_eq_Ico, sum_eq_sum_Ico_succ_bot hM, wsum, zero_add]
  have : ∑ n ∈ Ico 1 M, wt M n * g n = 2 * ∑ n ∈ Ico 1 M, g n := by
    rw [mul_sum]
    apply sum_congr rfl
    intro n hn
    simp only [mem_Ico] at hn
    rw [wt, if_neg (by omega)]
  rw [this]
  simp [wt]
  ring

lemma dct1_getD' (x : List ℝ) (M : ℕ) (hx : x.length = M + 1) (hM : 0 < M) (k : ℕ) (hk : k ≤ M) :
    (dct1 x).getD k 0 = ∑ n ∈ range (M + 1), wt M n * (x.getD n 0 * cos (π * k * n / M)) := by
  rw [dct1_getD x M hx hM k hk, ← wsum_eq M hM (fun n => x.getD n 0 * cos (π * k * n / M))]
  rfl

/-- The DCT-I is its own inverse up to the factor `2 (N - 1)`. -/
lemma dct1_dct1 (x : List ℝ) (M : ℕ) (hx : x.length = M + 1) (hM : 0 < M) (k : ℕ) (hk : k ≤ M) :
    (dct1 (dct1 x)).getD k 0 = 2 * M * x.getD k 0 := by
  have hM' : (M : ℝ) ≠ 0 := by positivity
  rw [dct1_getD' _ M (by rw [dct1_length, hx]) hM k hk]
  have : ∀ n ∈ range (M + 1), wt M n * ((dct1 x).getD n 0 * cos (π * k * n / M))
      = ∑ m ∈ range (M + 1), x.getD m 0 * wt M m *
          (wt M n * (cos (π * k * n / M) * cos (π * m * n / M))) := by
    intro n hn
    simp only [mem_range] at hn
    rw [dct1_getD' x M hx hM n (by omega), sum_mul, mul_sum]
    apply sum_congr rfl
    intro m _
    have : π * n * m / M = π * m * n / M := by ring
    rw [this]; ring
  rw [sum_congr rfl this, sum_comm]
  have inner : ∀ m ∈ range (M + 1), ∑ n ∈ range (M + 1), x.getD m 0 * wt M m *
          (wt M n * (cos (π * k * n / M) * cos (π * m * n / M)))
      = if k = m then 2 * M * x.getD m 0 else 0 := by
    intro m hm
    simp only [mem_range] at hm
    rw [← mul_sum, ← wsum_eq M hM (fun n => cos (π * k * n / M) * cos (π * m * n / M))]
    have := cos_orth M hM k m hk (by omega)
    unfold wsum
    have e1 : π * k * M / M = π * k := by field_simp
    have e2 : π * m * M / M = π * m := by field_simp
    simp only [e1, e2]
    have e3 : cos (π * k * (0 : ℕ) / M) * cos (π * m * (0 : ℕ) / M) = 1 := by simp
    rw [e3, this]
    split_ifs with h1 h2
    · subst h1; rw [wt, if_pos h2]; ring
    · subst h1; rw [wt, if_neg h2]; ring
    · ring
  rw [sum_congr rfl inner, sum_ite_eq]
  rw [if_pos (by simp; omega)]

lemma getD_reverse (x : List ℝ) (k : ℕ) (hk : k < x.length) :
    x.reverse.getD k 0 = x.getD (x.length - 1 - k) 0 := by
  rw [getD_lt' _ _ _ (by simpa using hk), getD_lt' _ _ _ (by omega)]
  simp

lemma polyvalCol_length (c : List ℝ) : (polyvalCol c).length = c.length := by
  simp only [polyvalCol]
  split_ifs
  · rfl
  · simp [dct1_length]

lemma polyfitCol_length (c : List ℝ) : (polyfitCol c).length = c.length := by
  simp only [polyfitCol]
  split_ifs
  · rfl
  · simp [dct1_length]

lemma chebpts2_length (N : ℕ) : (chebpts2 N).length = N := by
  unfold chebpts2
  split_ifs with h1 h2
  · simp [h1]
  · simp [h2]
  · simp

lemma chebpts2_getD (M : ℕ) (hM : 0 < M) (j : ℕ) (hj : j ≤ M) :
    (chebpts2 (M + 1)).getD j 0 = cos (π * ((M - j : ℕ) : ℝ) / M) := by
  have hM' : (M : ℝ) ≠ 0 := by positivity
  rw [chebpts2, if_neg (by omega), if_neg (by omega), getD_map_range, if_pos (by omega),
    ← cos_pi_div_two_sub]
  congr 1
  rw [Nat.cast_sub hj]
  push_cast
  field_simp
  ring_nf
  field_simp
  ring

/-- entry of `polyval` -/
lemma polyvalCol_getD (c : List ℝ) (M : ℕ) (hc : c.length = M + 1) (hM : 0 < M) (j : ℕ)
    (hj : j ≤ M) :
    (polyvalCol c).getD j 0 = chebEval c ((chebpts2 (M + 1)).getD j 0) := by
  rw [chebpts2_getD M hM j hj]
  simp only [polyvalCol, hc]
  rw [if_neg (by omega), getD_reverse _ _ (by simp [dct1_length]; omega), dct1_length]
  simp only [List.length_map, List.length_range, Nat.add_sub_cancel]
  rw [dct1_getD' _ M (by simp) hM _ (by omega), chebEval, hc]
  apply sum_congr rfl
  intro n hn
  simp only [mem_range] at hn
  rw [getD_map_range, if_pos hn, Chebyshev.T_real_cos]
  have : ((n : ℤ) : ℝ) * (π * ((M - j : ℕ) : ℝ) / M) = π * ((M - j : ℕ) : ℝ) * n / M := by
    push_cast; ring
  rw [this]
  unfold wt
  split_ifs with h1 h2 h2
  · omega
  · ring
  · ring
  · omega

lemma getD_set (x : List ℝ) (i k : ℕ) (a : ℝ) (hk : k < x.length) :
    (x.set i a).getD k 0 = if i = k then a else x.getD k 0 := by
  rw [getD_lt' _ _ _ (by simpa using hk), getD_lt' _ _ _ hk, List.getElem_set]

lemma polyfitCol_getD (v : List ℝ) (M : ℕ) (hv : v.length = M + 1) (hM : 0 < M) (k : ℕ)
    (hk : k ≤ M) :
    (polyfitCol v).getD k 0 = wt M k / 2 *
      (dct1 ((List.range (M + 1)).map fun i => v.getD (M - i) 0 / (M : ℝ))).getD k 0 := by
  simp only [polyfitCol, hv]
  rw [if_neg (by omega)]
  have e : ((List.range (M + 1)).map fun i => v.getD (M + 1 - i - 1) 0 / ((M + 1 - 1 : ℕ) : ℝ))
      = ((List.range (M + 1)).map fun i => v.getD (M - i) 0 / (M : ℝ)) := by
    apply List.map_congr_left
    intro i _
    congr 2
    omega
  rw [e]
  set d := dct1 ((List.range (M + 1)).map fun i => v.getD (M - i) 0 / (M : ℝ))
  have hd : d.length = M + 1 := by simp [d, dct1_length]
  rw [getD_set _ _ _ _ (by simp [hd]; omega)]
  simp only [Nat.add_sub_cancel]
  unfold wt
  by_cases h1 : M = k
  · subst h1
    rw [if_pos rfl, if_pos (by simp), getD_set _ _ _ _ (by omega), if_neg (by omega)]
    ring
  · rw [if_neg h1, getD_set _ _ _ _ (by omega)]
    by_cases h2 : k = 0
    · subst h2; simp; ring
    · rw [if_neg (by omega), if_neg (by omega)]; ring

lemma polyfit_polyval_col (c : List ℝ) (hc : c ≠ []) : polyfitCol (polyvalCol c) = c := by
  have hpos := List.length_pos_iff.mpr hc
  by_cases h1 : c.length = 1
  · have : polyvalCol c = c := by simp [polyvalCol, h1]
    rw [this]; simp [polyfitCol, h1]
  obtain ⟨M, hM⟩ : ∃ M, c.length = M + 1 := ⟨c.length - 1, by omega⟩
  have hM0 : 0 < M := by omega
  have hM' : (M : ℝ) ≠ 0 := by positivity
  apply ext_getD 0 (by rw [polyfitCol_length, polyvalCol_length])
  intro k hk
  rw [polyfitCol_length, polyvalCol_length] at hk
  rw [polyfitCol_getD _ M (by rw [polyvalCol_length, hM]) hM0 k (by omega)]
  set w := (List.range (M + 1)).map fun i =>
      if 1 ≤ i ∧ i < M + 1 - 1 then c.getD i 0 / 2 else c.getD i 0 with hw
  have hpv : polyvalCol c = (dct1 w).reverse := by
    simp only [polyvalCol, hM]
    rw [if_neg (by omega)]
  have hwl : w.length = M + 1 := by simp [hw]
  have e : ((List.range (M + 1)).map fun i => (polyvalCol c).getD (M - i) 0 / (M : ℝ))
      = (dct1 w).map (· / (M : ℝ)) := by
    apply ext_getD 0 (by simp [dct1_length, hwl])
    intro i hi
    simp only [List.length_map, List.length_range] at hi
    rw [getD_map_range, if_pos hi, hpv, getD_reverse _ _ (by rw [dct1_length, hwl]; omega),
      dct1_length, hwl, getD_lt' _ _ _ (by rw [dct1_length, hwl]; omega),
      getD_lt' _ _ _ (by rw [List.length_map, dct1_length, hwl]; omega)]
    simp only [List.getElem_map]
    congr 2
    omega
  rw [e]
  have lin : ∀ (y : List ℝ) (hy : y.length = M + 1), (dct1 (y.map (· / (M : ℝ)))).getD k 0
      = (dct1 y).getD k 0 / M := by
    intro y hy
    rw [dct1_getD' _ M (by simp [hy]) hM0 k (by omega), dct1_getD' _ M hy hM0 k (by omega),
      sum_div]
    apply sum_congr rfl
    intro n hn
    simp only [mem_range] at hn
    rw [getD_lt' _ _ _ (by simp [hy]; omega), getD_lt' _ _ _ (by omega)]
    simp only [List.getElem_map]
    ring
  rw [lin _ (by rw [dct1_length, hwl]), dct1_dct1 w M hwl hM0 k (by omega), hw, getD_map_range,
    if_pos (by omega)]
  unfold wt
  split_ifs <;> first | omega | (field_simp)

lemma polyval_polyfit_col (v : List ℝ) (hv : v ≠ []) : polyvalCol (polyfitCol v) = v := by
  have hpos := List.length_pos_iff.mpr hv
  by_cases h1 : v.length = 1
  · have : polyfitCol v = v := by simp [polyfitCol, h1]
    rw [this]; simp [polyvalCol, h1]
  obtain ⟨M, hM⟩ : ∃ M, v.length = M + 1 := ⟨v.length - 1, by omega⟩
  have hM0 : 0 < M := by omega
  have hM' : (M : ℝ) ≠ 0 := by positivity
  apply ext_getD 0 (by rw [polyvalCol_length, polyfitCol_length])
  intro k hk
  rw [polyvalCol_length, polyfitCol_length] at hk
  set w := (List.range (M + 1)).map fun i => v.getD (M - i) 0 / (M : ℝ) with hw
  have hwl : w.length = M + 1 := by simp [hw]
  simp only [polyvalCol, polyfitCol_length, hM]
  rw [if_neg (by omega), getD_reverse _ _ (by simp [dct1_length]; omega), dct1_length]
  simp only [List.length_map, List.length_range, Nat.add_sub_cancel]
  have e : ((List.range (M + 1)).map fun i =>
      if 1 ≤ i ∧ i < M then (polyfitCol v).getD i 0 / 2 else (polyfitCol v).getD i 0)
      = (dct1 w).map (· / 2) := by
    apply ext_getD 0 (by simp [dct1_length, hwl])
    intro i hi
    simp only [List.length_map, List.length_range] at hi
    rw [getD_map_range, if_pos hi, polyfitCol_getD v M hM hM0 i (by omega), ← hw,
      getD_lt' ((dct1 w).map _) _ _ (by rw [List.length_map, dct1_length, hwl]; omega)]
    rw [getD_lt' _ _ _ (by rw [dct1_length, hwl]; omega)]
    simp only [List.getElem_map]
    unfold wt
    split_ifs <;> first | omega | ring
  rw [e]
  have lin : ∀ (y : List ℝ) (hy : y.length = M + 1), (dct1 (y.map (· / (2 : ℝ)))).getD (M - k) 0
      = (dct1 y).getD (M - k) 0 / 2 := by
    intro y hy
    rw [dct1_getD' _ M (by simp [hy]) hM0 _ (by omega), dct1_getD' _ M hy hM0 _ (by omega),
      sum_div]
    apply sum_congr rfl
    intro n hn
    simp only [mem_range] at hn
    rw [getD_lt' _ _ _ (by simp [hy]; omega), getD_lt' _ _ _ (by omega)]
    simp only [List.getElem_map]
    ring
  rw [lin _ (by rw [dct1_length, hwl]), dct1_dct1 w M hwl hM0 _ (by omega), hw, getD_map_range,
    if_pos (by omega)]
  have : M - (M - k) = k := by omega
  rw [this]
  field_simp

lemma polyvalCol_eq (c : List ℝ) (hc : c ≠ []) :
    polyvalCol c = (chebpts2 c.length).map (chebEval c) := by
  have hpos := List.length_pos_iff.mpr hc
  by_cases h1 : c.length = 1
  · obtain ⟨a, rfl⟩ := List.length_eq_one_iff.mp h1
    simp [polyvalCol, chebpts2, chebEval]
  obtain ⟨M, hM⟩ : ∃ M, c.length = M + 1 := ⟨c.length - 1, by omega⟩
  apply ext_getD 0 (by rw [polyvalCol_length, List.length_map, chebpts2_length])
  intro k hk
  rw [polyvalCol_length] at hk
  rw [polyvalCol_getD c M hM (by omega) k (by omega), hM,
    getD_lt' (List.map _ _) _ _ (by rw [List.length_map, chebpts2_length]; omega),
    getD_lt' _ _ _ (by rw [chebpts2_length]; omega), List.getElem_map]

end Funpy.Cheb
