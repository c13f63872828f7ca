import Verif.Lemmas.TrigChop
import Verif.Lemmas.TrigPartial
import Verif.Model.TrigRefine

/-! Samples, sizes and the happiness test of the adaptive construction of periodic functions. -/

namespace Funpy.Trig
open Finset Complex Spec ComplexConjugate

/-- The values of `f` at the `n` equispaced points of `[-1, 1)`; the value at `-1` is the mean of the values at `-1` and
`1`. -/
noncomputable def gridValues (f : ℝ → ℂ) (n : ℕ) : List ℂ :=
  (List.range n).map fun j => if j = 0 then (f (-1) + f 1) / 2 else f (equi n j)

lemma gridValues_length (f : ℝ → ℂ) (n : ℕ) : (gridValues f n).length = n := by simp [gridValues]

lemma gridValues_getD (f : ℝ → ℂ) (n j : ℕ) (hj : j < n) :
    (gridValues f n).getD j 0 = if j = 0 then (f (-1) + f 1) / 2 else f (equi n j) := by
  rw [gridValues, getD_map_range, if_pos hj]

lemma trigpts_getD (n j : ℕ) (hj : j < n) : (trigpts n).getD j 0 = equi n j := by
  rw [trigpts, getD_map_range, if_pos hj, equi]; ring

lemma trigpts_length (n : ℕ) : (trigpts n).length = n := by simp [trigpts]

lemma resampleAt_eq (fs : List (ℝ → ℂ)) (n : ℕ) (hn : n ≠ 0) : resampleAt fs n = fs.map fun f => gridValues f n := by
  unfold resampleAt sampleC
  rw [List.map_map]
  apply List.map_congr_left
  intro f _
  simp only [Function.comp]
  have hl : ((trigpts n ++ [1]).map f).length = n + 1 := by simp [trigpts_length]
  apply ext_getD 0
  · rw [List.length_dropLast, List.length_set, hl, gridValues_length]; omega
  intro j hj
  rw [List.length_dropLast, List.length_set, hl] at hj
  have hj' : j < n := by omega
  have hg : ∀ i < n, ((trigpts n ++ [1]).map f).getD i 0 = f (equi n i) := by
    intro i hi
    rw [getD_map_lt f 0 _ _ _ (by simp [trigpts_length]; omega), getD_append', if_pos (by rw [trigpts_length]; exact hi),
      trigpts_getD n i hi]
  rw [gridValues_getD f n j hj', getD_lt' _ _ _ (by rw [List.length_dropLast, List.length_set, hl]; omega),
    List.getElem_dropLast, ← getD_lt' _ 0 _ (by rw [List.length_set, hl]; omega), getD_set', hl]
  by_cases h0 : j = 0
  · subst h0
    rw [if_pos ⟨rfl, by omega⟩, if_pos rfl, hg 0 (by omega)]
    have h1 : ((trigpts n ++ [1]).map f).getD (n + 1 - 1) 0 = f 1 := by
      rw [getD_map_lt f 0 _ _ _ (by simp [trigpts_length]), getD_append', if_neg (by rw [trigpts_length]; omega), trigpts_length]
      simp
    rw [h1]
    have h2 : equi n 0 = -1 := by simp [equi]
    rw [h2]; norm_num; ring
  · rw [if_neg (by omega), if_neg h0, hg j hj']

lemma nested_col (f : ℝ → ℂ) (n : ℕ) (hn : n ≠ 0) :
    interleave (2 * n) (gridValues f n) ((oddEntries (trigpts (2 * n))).map f) = gridValues f (2 * n) := by
  apply ext_getD 0 (by simp [interleave, gridValues])
  intro k hk
  have hk' : k < 2 * n := by simpa [interleave] using hk
  have hn' : (n : ℝ) ≠ 0 := by exact_mod_cast hn
  rw [interleave, getD_map_range, if_pos hk', gridValues_getD _ _ _ hk']
  rcases Nat.even_or_odd' k with ⟨i, rfl | rfl⟩
  · rw [if_pos (by omega), Nat.mul_div_cancel_left _ (by norm_num : 0 < 2), gridValues_getD _ _ _ (by omega)]
    by_cases h : i = 0
    · rw [if_pos h, if_pos (by omega)]
    · rw [if_neg h, if_neg (by omega)]
      congr 1
      unfold equi
      push_cast
      field_simp
  · rw [if_neg (by omega), if_neg (by omega), show (2 * i + 1) / 2 = i by omega,
      getD_map_lt f 0 _ _ _ (by simp [oddEntries, trigpts_length]; omega)]
    congr 1
    rw [oddEntries, getD_map_range, if_pos (by rw [trigpts_length]; omega), trigpts_getD _ _ (by omega)]

lemma nested_all (fs : List (ℝ → ℂ)) (n : ℕ) (hn : n ≠ 0) :
    List.zipWith (interleave (2 * n)) (fs.map fun f => gridValues f n) (sampleC fs (oddEntries (trigpts (2 * n))))
      = fs.map fun f => gridValues f (2 * n) := by
  unfold sampleC
  rw [List.zipWith_map, List.zipWith_self]
  apply List.map_congr_left
  intro f _
  exact nested_col f n hn

/-- The size after `n`: doubled, or the next of `8, 16, 32, 64, 96, 128, 192, …`. -/
def nextSize : Strategy → ℕ → ℕ
  | .nested, n => 2 * n
  | .resample, n => getN n 1

/-- The sizes of the successive grids. -/
def sizeSeq (s : Strategy) : ℕ → ℕ
  | 0 => 8
  | k + 1 => nextSize s (sizeSeq s k)

lemma getN_pos (n m : ℕ) (hm : m ≠ 0) : getN n m = getN n 1 := by
  simp [getN, hm]

lemma getN_zero : getN 0 0 = 8 := by decide

lemma nextSize_spec (s : Strategy) (n : ℕ) (hn : 2 ≤ n) : n < nextSize s n ∧ nextSize s n % 2 = 0 := by
  cases s
  · simp only [nextSize]; omega
  · simp only [nextSize, getN, if_neg (by norm_num : ¬ (1 = 0))]
    have h1 : n < 2 ^ (Nat.log 2 n + 1) := Nat.lt_pow_succ_log_self (by norm_num) n
    have h2 : 1 ≤ Nat.log 2 n := Nat.le_log_of_pow_le (by norm_num) (by simpa using hn)
    split_ifs with h
    · obtain ⟨p, hp⟩ : ∃ p, Nat.log 2 n = p + 2 := ⟨Nat.log 2 n - 2, by omega⟩
      rw [hp] at h h1 ⊢
      have : 2 ^ (p + 2) = 4 * 2 ^ p := by ring
      have h3 : 2 ^ (p + 2 - 1) = 2 * 2 ^ p := by rw [show p + 2 - 1 = p + 1 by omega]; ring
      have h4 : 0 < 2 ^ p := by positivity
      omega
    · refine ⟨h1, ?_⟩
      rw [pow_succ]; omega

lemma sizeSeq_spec (s : Strategy) (k : ℕ) : k + 8 ≤ sizeSeq s k ∧ sizeSeq s k % 2 = 0 := by
  induction k with
  | zero => simp [sizeSeq]
  | succ k ih =>
    have := nextSize_spec s (sizeSeq s k) (by omega)
    simp only [sizeSeq]; omega

lemma sizeSeq_small (s : Strategy) : sizeSeq s 0 = 8 ∧ sizeSeq s 1 = 16 ∧ sizeSeq s 2 = 32 ∧ sizeSeq s 3 = 64 := by
  cases s <;> decide

/-! ### The happiness test -/

lemma happyLoop_spec (n : ℕ) (eps : ℝ) (cs : List (List ℂ)) (h : (happyLoop n eps cs).1 = true) :
    (∀ c ∈ cs, Cheb.standardChopAbs (c.map fun z => ‖z‖) eps < n ∧
      Cheb.standardChopAbs (c.map fun z => ‖z‖) eps / 2 ≤ (happyLoop n eps cs).2) ∧
    ((happyLoop n eps cs).2 = 0 ∨ ∃ c ∈ cs, (happyLoop n eps cs).2 = Cheb.standardChopAbs (c.map fun z => ‖z‖) eps / 2) := by
  induction cs with
  | nil => simp [happyLoop]
  | cons c cs ih =>
    rw [happyLoop] at h ⊢
    by_cases hk : Cheb.standardChopAbs (c.map fun z => ‖z‖) eps < n
    · simp only [hk, if_true] at h ⊢
      set k := Cheb.standardChopAbs (c.map fun z => ‖z‖) eps with hkd
      obtain ⟨h1, h2⟩ := ih h
      have he : (if k % 2 = 0 then k / 2 else (k - 1) / 2) = k / 2 := by split_ifs <;> omega
      rw [he]
      constructor
      · intro d hd
        rcases List.mem_cons.mp hd with rfl | hd
        · exact ⟨hk, le_max_left _ _⟩
        · exact ⟨(h1 d hd).1, (h1 d hd).2.trans (le_max_right _ _)⟩
      · rcases le_total (k / 2) (happyLoop n eps cs).2 with hm | hm
        · rw [max_eq_right hm]
          rcases h2 with h2 | ⟨d, hd, h2⟩
          · exact Or.inl h2
          · exact Or.inr ⟨d, List.mem_cons_of_mem _ hd, h2⟩
        · rw [max_eq_left hm]
          exact Or.inr ⟨c, List.mem_cons_self, rfl⟩
    · simp [hk] at h

lemma happyLoop_true (n : ℕ) (eps : ℝ) (cs : List (List ℂ))
    (h : ∀ c ∈ cs, Cheb.standardChopAbs (c.map fun z => ‖z‖) eps < n) : (happyLoop n eps cs).1 = true := by
  induction cs with
  | nil => simp [happyLoop]
  | cons c cs ih =>
    rw [happyLoop]
    simp only [h c List.mem_cons_self, if_true]
    exact ih fun d hd => h d (List.mem_cons_of_mem _ hd)

lemma chop_short (c : List ℝ) (eps : ℝ) (h1 : eps < 1) (hl : c.length < 17) : Cheb.standardChopAbs c eps = c.length := by
  unfold Cheb.standardChopAbs
  rw [if_neg (by linarith)]
  simp only
  rw [if_pos hl]

lemma scan_zero (E : List ℝ) (tol : ℝ) (n m : ℕ) (hz : E.getD m 0 = 0) (hm : Cheb.roundIdx m < n) :
    ∀ fuel j, 1 ≤ j → j ≤ m → m < fuel + j →
      ∃ k, 1 ≤ k ∧ k ≤ m ∧ Cheb.scan E tol n fuel j = .found (k - 1) (Cheb.roundIdx k) := by
  intro fuel
  induction fuel with
  | zero => intro j _ h2 h3; omega
  | succ fuel ih =>
    intro j h1 h2 h3
    rw [Cheb.scan]
    have hj : ¬ n ≤ Cheb.roundIdx j := by unfold Cheb.roundIdx at *; omega
    simp only
    rw [if_neg hj]
    split_ifs with hc
    · exact ⟨j, h1, h2, rfl⟩
    · rcases Nat.eq_or_lt_of_le h2 with h | h
      · exact absurd (Or.inl (by rw [h]; exact hz)) hc
      · exact ih (j + 1) (by omega) (by omega) (by omega)

lemma chopStep3_le (E : List ℝ) (tol : ℝ) (n k : ℕ) : Cheb.chopStep3 E tol n (k - 1) (Cheb.roundIdx k) ≤ Cheb.roundIdx k := by
  classical
  unfold Cheb.chopStep3
  split_ifs with h
  · unfold Cheb.roundIdx; omega
  · simp only
    set j3 := ((List.range n).filter fun j => decide (E.getD j 0 ≥ tol ^ ((7 : ℝ) / 6))).length
    have hr : 0 < Cheb.roundIdx k := by unfold Cheb.roundIdx; omega
    set j2' := if j3 < Cheb.roundIdx k then j3 + 1 else Cheb.roundIdx k with hj
    have h2 : j2' ≤ Cheb.roundIdx k := by rw [hj]; split_ifs <;> omega
    have h3 : 0 < j2' := by rw [hj]; split_ifs <;> omega
    refine le_trans (Nat.sub_le _ 1) ?_
    refine le_trans (le_of_lt (Cheb.argmin_lt _ ?_)) ?_
    · intro hh
      have := congrArg List.length hh
      simp at this
      omega
    · simpa using h2

/-- A vector of at least 17 entries that vanishes from index `m` on is cut at or before `roundIdx m`, provided that this is
inside the vector. -/
lemma chop_zero_tail (c : List ℝ) (eps : ℝ) (h1 : eps < 1) (m : ℕ) (hm : 1 ≤ m) (hr : Cheb.roundIdx m < c.length)
    (hl : 17 ≤ c.length) (hz : ∀ i, m ≤ i → i < c.length → c.getD i 0 = 0) :
    Cheb.standardChopAbs c eps ≤ Cheb.roundIdx m := by
  unfold Cheb.standardChopAbs
  rw [if_neg (by linarith)]
  simp only
  rw [if_neg (by omega)]
  split_ifs with h0
  · exact Nat.zero_le _
  have hml : m < c.length := by unfold Cheb.roundIdx at hr; omega
  rw [Cheb.normalizeInPlace_eq _ h0]
  have hE : ((Cheb.envelope c).set 0 1).getD m 0 = 0 := by
    rw [Cheb.set0_getD _ _ (by rw [Cheb.envelope_length]; exact hml), if_neg (by omega)]
    obtain ⟨k, k1, k2, k3⟩ := Cheb.envelope_attained c m hml
    rw [k3, hz k k1 k2]
  obtain ⟨k, k1, k2, k3⟩ := scan_zero _ eps c.length m hE hr (c.length - 1) 1 le_rfl hm (by omega)
  rw [k3]
  simp only
  refine (chopStep3_le _ _ _ _).trans ?_
  unfold Cheb.roundIdx; omega

end Funpy.Trig
