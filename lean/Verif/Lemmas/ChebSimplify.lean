import Verif.Lemmas.ChebChop

namespace Funpy.Cheb
open Finset Real

lemma polyfit_polyval_prolong (a : Arr ℝ) (N : ℕ) (hN : 0 < N) :
    polyfit (polyval (prolong a N)) = prolong a N := by
  simp only [polyfit, polyval, prolong, Arr.mapCols, List.map_map, Arr.mk.injEq, true_and]
  apply List.map_congr_left
  intro c _
  refine polyfit_polyval_col _ ?_
  intro h
  change prolongCol c (N : ℤ) = [] at h
  have := prolongCol_length c (N : ℤ)
  rw [h] at this
  simp at this
  omega

lemma foldl_max_ge {α : Type*} (l : List α) (f : α → ℕ) (m : ℕ) :
    m ≤ l.foldl (fun m c => max m (f c)) m ∧ ∀ c ∈ l, f c ≤ l.foldl (fun m c => max m (f c)) m := by
  induction l generalizing m with
  | nil => simp
  | cons a l ih =>
    obtain ⟨h1, h2⟩ := ih (max m (f a))
    rw [List.foldl_cons]
    refine ⟨(le_max_left _ _).trans h1, ?_⟩
    intro c hc
    rcases List.mem_cons.mp hc with rfl | hc
    · exact (le_max_right _ _).trans h1
    · exact h2 c hc

lemma prolong_take (c : List ℝ) (N k : ℕ) (hk : k ≤ N) :
    (prolongCol c (N : ℤ)).take k = prolongCol c (k : ℤ) := by
  apply ext_getD 0
  · rw [List.length_take, prolongCol_length, prolongCol_length]; omega
  · intro i hi
    rw [List.length_take, prolongCol_length] at hi
    rw [getD_lt' _ _ _ (by rw [List.length_take, prolongCol_length]; exact hi), List.getElem_take,
      ← getD_lt' _ 0 _ (by rw [prolongCol_length]; omega), prolongCol_getD, prolongCol_getD]
    rw [if_pos (by omega), if_pos (by omega)]

/-- The number of coefficients kept by `simplifyCoeffs`. -/
noncomputable def keep (a : Arr ℝ) (eps : ℝ) : ℕ :=
  min ((prolong a (max 17 (roundIdx a.n) : ℕ)).cols.foldl (fun m c => max m (standardChop c eps)) 0)
    a.n + 1

lemma simplify_eq_prolong (a : Arr ℝ) (eps : ℝ) :
    simplifyCoeffs a eps = prolong a (keep a eps : ℤ) := by
  have hN : a.n + 1 ≤ max 17 (roundIdx a.n) := by unfold roundIdx; omega
  simp only [simplifyCoeffs]
  rw [polyfit_polyval_prolong a _ (by omega)]
  unfold keep
  simp only [prolong, Arr.mapCols, Arr.mk.injEq, List.map_map]
  refine ⟨by omega, ?_⟩
  apply List.map_congr_left
  intro c _
  simp only [Function.comp]
  rw [prolong_take c _ _ (by omega)]

lemma keep_bounds (a : Arr ℝ) (eps : ℝ) : 1 ≤ keep a eps ∧ keep a eps ≤ a.n + 1 := by
  unfold keep; omega

lemma keep_dropped (a : Arr ℝ) (hw : a.WF) (eps : ℝ) (h0 : 0 < eps) (h1 : eps < 1)
    (c : List ℝ) (hc : c ∈ a.cols) (i : ℕ) (hi : keep a eps ≤ i) :
    |c.getD i 0| ≤ eps ^ ((1 : ℝ) / 3) := by
  have hN : a.n + 1 ≤ max 17 (roundIdx a.n) := by unfold roundIdx; omega
  by_cases hin : a.n ≤ i
  · rw [getD_ge' _ _ _ (by rw [hw c hc]; exact hin), abs_zero]; positivity
  set N := max 17 (roundIdx a.n) with hNdef
  have hcut := (foldl_max_ge (prolong a (N : ℕ)).cols (fun c => standardChop c eps) 0).2
    (prolongCol c (N : ℤ)) (List.mem_map_of_mem hc)
  have hk : keep a eps = min ((prolong a (N : ℕ)).cols.foldl
    (fun m c => max m (standardChop c eps)) 0) a.n + 1 := rfl
  have hlt : standardChop (prolongCol c (N : ℤ)) eps < i := by omega
  have hlen : (prolongCol c (N : ℤ)).length = N := by rw [prolongCol_length]; omega
  rcases standardChop_spec (prolongCol c (N : ℤ)) eps h0 h1 with h | ⟨_, h⟩
  · omega
  · have := h i hlt
    rwa [prolongCol_getD, if_pos (by omega)] at this

lemma prolong_wf {R : Type*} [Zero R] (a : Arr R) (N : ℤ) : (prolong a N).WF := by
  intro c hc
  obtain ⟨d, _, rfl⟩ := List.mem_map.mp hc
  exact prolongCol_length d N

lemma simplify_wf (a : Arr ℝ) (eps : ℝ) : (simplifyCoeffs a eps).WF := by
  rw [simplify_eq_prolong]; exact prolong_wf _ _

lemma simplify_n (a : Arr ℝ) (eps : ℝ) : (simplifyCoeffs a eps).n = keep a eps := by
  rw [simplify_eq_prolong]; simp [prolong, Arr.mapCols]

end Funpy.Cheb
