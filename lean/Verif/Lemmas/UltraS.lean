import Verif.Lemmas.Ultra
import Verif.Lemmas.ListAux2
import Verif.Model.UltraS
import Mathlib.Algebra.BigOperators.Fin
import Mathlib.Analysis.Calculus.IteratedDeriv.Defs

/-! Action of the ultraspherical matrices on series. -/

namespace Funpy.UltraS
open Spec Matrix Finset

/-- The series of `A v` for a matrix `A` through its columns. -/
lemma series_mulVec {n m : ℕ} (lam : ℕ) (A : Matrix (Fin m) (Fin n) ℝ) (v : Fin n → ℝ) (x : ℝ) :
    ultraSeries lam (A *ᵥ v) x = ∑ j, v j * ∑ i, A i j * ultraBasis lam i x := by
  unfold ultraSeries
  simp only [mulVec, dotProduct, sum_mul, mul_sum]
  rw [sum_comm]
  refine sum_congr rfl fun j _ => sum_congr rfl fun i _ => by ring

/-- Column sum of one diagonal. -/
lemma spdiag_col (n : ℕ) (data : List ℝ) (o : ℤ) (j : Fin n) (b : ℕ → ℝ) (hl : (j : ℕ) < data.length) :
    ∑ i : Fin n, spdiag n data o i j * b i
      = if 0 ≤ (j : ℤ) - o ∧ (j : ℤ) - o < n then data.getD j 0 * b ((j : ℤ) - o).toNat else 0 := by
  have h1 : ∀ i : Fin n, spdiag n data o i j * b i = if (j : ℤ) - o = i then data.getD j 0 * b i else 0 := by
    intro i
    unfold spdiag
    by_cases h : (j : ℤ) - i = o
    · rw [if_pos ⟨h, hl⟩, if_pos (by omega)]
    · rw [if_neg (by tauto), if_neg (by omega), zero_mul]
  simp only [h1]
  split_ifs with h
  · rw [Finset.sum_eq_single (⟨((j : ℤ) - o).toNat, by omega⟩ : Fin n)]
    · rw [if_pos]; simp; omega
    · intro i _ hi
      rw [if_neg]
      intro hc
      apply hi
      apply Fin.ext
      simp [hc]
    · simp
  · apply Finset.sum_eq_zero
    intro i _
    rw [if_neg]
    have := i.2
    omega

/-- Columns of `spconvert`. -/
lemma spconvert_col (n lam : ℕ) (h2 : 2 ≤ n ∨ 0 < lam) (j : Fin n) (x : ℝ) :
    ∑ i : Fin n, spconvert n lam i j * ultraBasis (lam + 1) i x = ultraBasis lam j x := by
  have hj := j.2
  set a : ℝ := if lam = 0 then 0.5 else (lam : ℝ) / (lam + 1) with ha
  set dg : List ℝ := if lam = 0 then List.replicate (n - 2) (0.5 * 1)
    else (List.range (n - 2)).map fun i : ℕ => (lam : ℝ) / (lam + ((i : ℝ) + 2)) with hdg
  have hsp : spconvert n lam = spdiag n ([1, a] ++ dg) 0 + spdiag n ([0, 0] ++ dg.map (- ·)) 2 := by
    unfold spconvert
    by_cases h : lam = 0 <;> simp [h, ha, hdg]
  have hdl : dg.length = n - 2 := by rw [hdg]; split_ifs <;> simp
  have hdv : ∀ k < n - 2, dg.getD k 0 = if lam = 0 then (1 / 2 : ℝ) else lam / (lam + ((k : ℝ) + 2)) := by
    intro k hk
    rw [hdg]
    split_ifs
    · rw [getD_lt' _ _ _ (by simpa using hk)]; simp; norm_num
    · rw [getD_map_range, if_pos hk]
  rw [hsp]
  simp only [Matrix.add_apply, add_mul, sum_add_distrib]
  rw [spdiag_col n _ _ j (fun i => ultraBasis (lam + 1) i x) (by simp [hdl]; omega),
    spdiag_col n _ _ j (fun i => ultraBasis (lam + 1) i x) (by simp [hdl]; omega)]
  rw [if_pos (by omega)]
  obtain h0 | h1 | ⟨k, hk⟩ : (j : ℕ) = 0 ∨ (j : ℕ) = 1 ∨ ∃ k, (j : ℕ) = k + 2 := by
    rcases Nat.lt_or_ge (j : ℕ) 2 with h | h
    · omega
    · exact Or.inr (Or.inr ⟨j - 2, by omega⟩)
  · rw [if_neg (by omega)]
    simp [h0, ultraBasis_zero]
  · rw [if_neg (by omega)]
    have := ultraBasis_one lam x
    simp only [h1]
    simp [ha]
    rw [this]
    norm_num
  · rw [if_pos (by omega)]
    have h3 := ultraBasis_convert lam k x
    have e1 : ((j : ℤ) - 0).toNat = k + 2 := by omega
    have e2 : ((j : ℤ) - 2).toNat = k := by omega
    rw [e1, e2, hk, h3]
    have g1 : ([1, a] ++ dg).getD (k + 2) 0 = dg.getD k 0 := rfl
    have g2 : ([0, 0] ++ dg.map (- ·)).getD (k + 2) 0 = -dg.getD k 0 := by
      show (dg.map (- ·)).getD k 0 = _
      rw [getD_map_lt _ 0 _ _ _ (by omega)]
    rw [g1, g2, hdv k (by omega)]
    ring

/-- The diagonal data of `spconvert`: the matrix is `a_j` on the diagonal and `-a_j` on the second upper
diagonal. -/
lemma spconvert_sum (n lam : ℕ) (h2 : 2 ≤ n ∨ 0 < lam) (j : Fin n) (b : ℕ → ℝ) :
    ∃ a : ℝ, a = (if (j : ℕ) = 0 then 1 else if lam = 0 then (1 / 2 : ℝ) else lam / (lam + (j : ℝ))) ∧
      ∑ i : Fin n, spconvert n lam i j * b i = a * b j - (if 2 ≤ (j : ℕ) then a * b (j - 2) else 0) := by
  have hj := j.2
  set a : ℝ := if lam = 0 then 0.5 else (lam : ℝ) / (lam + 1) with ha
  set dg : List ℝ := if lam = 0 then List.replicate (n - 2) (0.5 * 1)
    else (List.range (n - 2)).map fun i : ℕ => (lam : ℝ) / (lam + ((i : ℝ) + 2)) with hdg
  have hsp : spconvert n lam = spdiag n ([1, a] ++ dg) 0 + spdiag n ([0, 0] ++ dg.map (- ·)) 2 := by
    unfold spconvert
    by_cases h : lam = 0 <;> simp [h, ha, hdg]
  have hdl : dg.length = n - 2 := by rw [hdg]; split_ifs <;> simp
  have hdv : ∀ k < n - 2, dg.getD k 0 = if lam = 0 then (1 / 2 : ℝ) else lam / (lam + ((k : ℝ) + 2)) := by
    intro k hk
    rw [hdg]
    split_ifs
    · rw [getD_lt' _ _ _ (by simpa using hk)]; simp; norm_num
    · rw [getD_map_range, if_pos hk]
  refine ⟨_, rfl, ?_⟩
  rw [hsp]
  simp only [Matrix.add_apply, add_mul, sum_add_distrib]
  rw [spdiag_col n _ _ j b (by simp [hdl]; omega), spdiag_col n _ _ j b (by simp [hdl]; omega)]
  rw [if_pos (by omega)]
  obtain h0 | h1 | ⟨k, hk⟩ : (j : ℕ) = 0 ∨ (j : ℕ) = 1 ∨ ∃ k, (j : ℕ) = k + 2 := by
    rcases Nat.lt_or_ge (j : ℕ) 2 with h | h
    · omega
    · exact Or.inr (Or.inr ⟨j - 2, by omega⟩)
  · rw [if_neg (by omega)]
    simp [h0]
  · rw [if_neg (by omega)]
    simp only [h1]
    by_cases hl : lam = 0 <;> simp [ha, hl]
    norm_num
  · rw [if_pos (show (0 : ℤ) ≤ (j : ℤ) - 2 ∧ (j : ℤ) - 2 < n by omega), if_neg (show ¬ (j : ℕ) = 0 by omega),
      if_pos (show 2 ≤ (j : ℕ) by omega)]
    have e1 : ((j : ℤ) - 0).toNat = k + 2 := by omega
    have e2 : ((j : ℤ) - 2).toNat = k := by omega
    have e3 : (j : ℕ) - 2 = k := by omega
    rw [e1, e2, e3, hk]
    have g1 : ([1, a] ++ dg).getD (k + 2) 0 = dg.getD k 0 := rfl
    have g2 : ([0, 0] ++ dg.map (- ·)).getD (k + 2) 0 = -dg.getD k 0 := by
      show (dg.map (- ·)).getD k 0 = _
      rw [getD_map_lt _ 0 _ _ _ (by omega)]
    rw [g1, g2, hdv k (by omega)]
    push_cast
    ring

lemma spconvertInv_mul (n lam : ℕ) (h2 : 2 ≤ n ∨ 0 < lam) : spconvertInv n lam * spconvert n lam = 1 := by
  ext i j
  have hi := i.2
  have hj := j.2
  set dg : List ℝ := if lam = 0 then [1] ++ List.replicate (n - 1) (2 * 1)
    else [1] ++ (List.range (n - 1)).map fun i : ℕ => ((lam : ℝ) + ((i : ℝ) + 1)) / lam with hdg
  have hinv : spconvertInv n lam = evenUpper n dg := by
    unfold spconvertInv; split_ifs with h <;> simp [hdg, h]
  have hdv : dg.getD i 0 = if (i : ℕ) = 0 then 1 else if lam = 0 then 2 else ((lam : ℝ) + i) / lam := by
    rcases Nat.eq_zero_or_pos (i : ℕ) with h | h
    · rw [if_pos h, h, hdg]; split_ifs <;> rfl
    · rw [if_neg (by omega), hdg]
      obtain ⟨k, hk⟩ : ∃ k, (i : ℕ) = k + 1 := ⟨i - 1, by omega⟩
      split_ifs with hl
      · rw [hk]
        show (List.replicate (n - 1) (2 * 1 : ℝ)).getD k 0 = 2
        rw [getD_lt' _ _ _ (by simp; omega)]; simp
      · rw [hk]
        show ((List.range (n - 1)).map fun i : ℕ => ((lam : ℝ) + ((i : ℝ) + 1)) / lam).getD k 0 = _
        rw [getD_map_range, if_pos (by omega)]
        push_cast; ring
  rw [Matrix.mul_apply, hinv]
  set b : ℕ → ℝ := fun l => if (i : ℕ) ≤ l ∧ (l - i) % 2 = 0 then dg.getD i 0 else 0 with hb
  have hs : ∑ l : Fin n, evenUpper n dg i l * spconvert n lam l j = ∑ l : Fin n, spconvert n lam l j * b l :=
    sum_congr rfl fun l _ => by rw [mul_comm]; rfl
  obtain ⟨a, ha, hsum⟩ := spconvert_sum n lam h2 j b
  rw [hs, hsum]
  by_cases hij : i = j
  · subst hij
    rw [Matrix.one_apply_eq]
    have hbi : b i = dg.getD i 0 := by simp only [hb]; rw [if_pos (by omega)]
    have hz : (if 2 ≤ (i : ℕ) then a * b (i - 2) else 0) = 0 := by
      split_ifs with h
      · simp only [hb]; rw [if_neg (by omega), mul_zero]
      · rfl
    rw [hz, hbi, hdv, ha, sub_zero]
    by_cases h0 : (i : ℕ) = 0
    · simp [h0]
    · simp only [if_neg h0]
      split_ifs with hl
      · norm_num
      · have : (lam : ℝ) ≠ 0 := by exact_mod_cast hl
        have h' : (lam : ℝ) + (i : ℕ) ≠ 0 := by positivity
        field_simp
  · rw [Matrix.one_apply_ne hij]
    have hne : (i : ℕ) ≠ j := fun h => hij (Fin.ext h)
    simp only [hb]
    by_cases hc : (i : ℕ) ≤ j ∧ ((j : ℕ) - i) % 2 = 0
    · rw [if_pos hc, if_pos (by omega), if_pos (by omega)]; ring
    · rw [if_neg hc]
      split_ifs with h3 h4
      · omega
      · ring
      · ring

lemma spconvert_series (n lam : ℕ) (h2 : 2 ≤ n ∨ 0 < lam) (v : Fin n → ℝ) (x : ℝ) :
    ultraSeries (lam + 1) (spconvert n lam *ᵥ v) x = ultraSeries lam v x := by
  rw [series_mulVec]
  unfold ultraSeries
  exact sum_congr rfl fun j _ => by rw [spconvert_col n lam h2]

lemma convertLoop_series (n : ℕ) (cnt : ℕ) : ∀ (s : ℕ) (h2 : 2 ≤ n ∨ 0 < s) (S : Matrix (Fin n) (Fin n) ℝ)
    (v : Fin n → ℝ) (x : ℝ), ultraSeries (s + cnt) (convertLoop n cnt s S *ᵥ v) x = ultraSeries s (S *ᵥ v) x := by
  induction cnt with
  | zero => intro s _ S v x; rfl
  | succ c ih =>
    intro s h2 S v x
    rw [convertLoop, show s + (c + 1) = s + 1 + c by ring, ih (s + 1) (by omega), ← mulVec_mulVec,
      spconvert_series n s h2]

/-- Columns of `spdiags(data, 1)` as a lowering operator. -/
lemma spdiag_one_series (n lam : ℕ) (data : List ℝ) (hl : data.length = n) (v : Fin n → ℝ) (x : ℝ) :
    ultraSeries lam (spdiag n data 1 *ᵥ v) x
      = ∑ j : Fin n, v j * (if (j : ℕ) = 0 then 0 else data.getD j 0 * ultraBasis lam (j - 1) x) := by
  rw [series_mulVec]
  refine sum_congr rfl fun j _ => ?_
  rw [spdiag_col n _ _ j (fun i => ultraBasis lam i x) (by omega)]
  congr 1
  have := j.2
  by_cases h : (j : ℕ) = 0
  · rw [if_neg (by omega), if_pos h]
  · rw [if_pos (by omega), if_neg h]
    congr 2
    omega

/-- One differentiation step in the `C^{(lam)}` basis. -/
lemma lower_hasDeriv (n lam : ℕ) (data : List ℝ) (hl : data.length = n)
    (hd : ∀ j < n, data.getD j 0 = if lam = 0 then (j : ℝ) else 2 * lam) (v : Fin n → ℝ) (x : ℝ) :
    HasDerivAt (ultraSeries lam v) (ultraSeries (lam + 1) (spdiag n data 1 *ᵥ v) x) x := by
  rw [spdiag_one_series n _ _ hl]
  unfold ultraSeries
  have : HasDerivAt (∑ k : Fin n, fun x => v k * ultraBasis lam k x)
      (∑ j : Fin n, v j * (if (j : ℕ) = 0 then 0 else data.getD j 0 * ultraBasis (lam + 1) (j - 1) x)) x := by
    apply HasDerivAt.sum
    intro j _
    apply HasDerivAt.const_mul
    rcases Nat.eq_zero_or_pos (j : ℕ) with h | h
    · rw [if_pos h, h]
      exact ultraBasis_zero_deriv lam x
    · rw [if_neg (by omega), hd j j.2]
      have := ultraBasis_deriv lam (j - 1) x
      rw [Nat.sub_add_cancel h] at this
      refine this.congr_deriv ?_
      rw [Nat.cast_sub h]
      simp
  convert this using 1
  funext y
  simp

lemma diffLoop_series (n cnt : ℕ) : ∀ (s : ℕ) (hs : 0 < s) (D : Matrix (Fin n) (Fin n) ℝ) (v : Fin n → ℝ),
    iteratedDeriv cnt (ultraSeries s (D *ᵥ v)) = ultraSeries (s + cnt) (diffLoop n cnt s D *ᵥ v) := by
  induction cnt with
  | zero => intro s _ D v; simp [diffLoop]
  | succ c ih =>
    intro s hs D v
    have hd : deriv (ultraSeries s (D *ᵥ v)) =
        ultraSeries (s + 1) ((spdiag n (List.replicate n (2 * (s : ℝ) * 1)) 1 * D) *ᵥ v) := by
      funext x
      rw [← mulVec_mulVec]
      apply HasDerivAt.deriv
      apply lower_hasDeriv n s _ (by simp)
      intro j hj
      rw [if_neg (by omega), getD_lt' _ _ _ (by simpa using hj)]
      simp
    rw [iteratedDeriv_succ', hd, ih (s + 1) (by omega), diffLoop, show s + (c + 1) = s + 1 + c by ring]

lemma diffmat_series (n m : ℕ) (v : Fin n → ℝ) :
    iteratedDeriv m (ultraSeries 0 v) = ultraSeries m (diffmat n m *ᵥ v) := by
  unfold diffmat
  cases m with
  | zero => simp
  | succ m =>
    rw [if_pos (by omega), Nat.add_sub_cancel]
    have hd : deriv (ultraSeries 0 v) =
        ultraSeries 1 (spdiag n ((List.range n).map fun k : ℕ => (k : ℝ)) 1 *ᵥ v) := by
      funext x
      apply HasDerivAt.deriv
      apply lower_hasDeriv n 0 _ (by simp)
      intro j hj
      rw [getD_map_range, if_pos hj, if_pos rfl]
    rw [iteratedDeriv_succ', hd, diffLoop_series n m 1 (by omega), add_comm]

end Funpy.UltraS
