import Verif.Lemmas.ChebTransform
import Mathlib.Tactic.NormNum
import Mathlib.Tactic.Linarith

/-!
# C06, C07: Chebyshev points, values and coefficients
-/

namespace Funpy.Props
open Spec Cheb Real

/-! ## C06 -/

/-- C06: `f.values` is, column by column, the function sampled at the Chebyshev points. -/
theorem C06_values (a : Arr ℝ) (hw : a.WF) (hn : 0 < a.n) :
    (polyval a).cols = a.cols.map fun c => (chebpts2 a.n).map (chebEval c) := by
  simp only [polyval, Arr.mapCols]
  apply List.map_congr_left
  intro c hc
  have hl := hw c hc
  rw [polyvalCol_eq c (by intro h; rw [h] at hl; simp at hl; omega), hl]

/-- C06: there are `N` Chebyshev points; for `N ≥ 2` they increase strictly from `-1` to `1` and
are symmetric about `0`. -/
theorem C06_points (N : ℕ) :
    (chebpts2 N).length = N ∧
    (2 ≤ N → (chebpts2 N).head? = some (-1) ∧ (chebpts2 N).getLast? = some 1 ∧
      (chebpts2 N).Pairwise (· < ·) ∧
      ∀ j, j < N → (chebpts2 N).getD (N - 1 - j) 0 = -(chebpts2 N).getD j 0) := by
  refine ⟨chebpts2_length N, fun hN => ?_⟩
  obtain ⟨M, rfl⟩ : ∃ M, N = M + 1 := ⟨N - 1, by omega⟩
  have hM : 0 < M := by omega
  have hM' : (M : ℝ) ≠ 0 := by positivity
  have hMp : (0 : ℝ) < M := by positivity
  have hlen := chebpts2_length (M + 1)
  have hget : ∀ j (hj : j < (chebpts2 (M + 1)).length),
      (chebpts2 (M + 1))[j] = cos (π * ((M - j : ℕ) : ℝ) / M) := by
    intro j hj
    rw [← getD_lt' _ 0 _ hj, chebpts2_getD M hM j (by omega)]
  refine ⟨?_, ?_, ?_, ?_⟩
  · rw [List.head?_eq_getElem?, List.getElem?_eq_getElem (by omega), hget]
    have : π * ((M - 0 : ℕ) : ℝ) / M = π := by rw [Nat.sub_zero]; field_simp
    rw [this, cos_pi]
  · rw [List.getLast?_eq_getElem?, hlen, Nat.add_sub_cancel, List.getElem?_eq_getElem (by omega),
      hget]
    simp
  · rw [List.pairwise_iff_getElem]
    intro i j hi hj hij
    rw [hget, hget]
    have hj' : j ≤ M := by omega
    apply strictAntiOn_cos
    · refine ⟨by positivity, ?_⟩
      rw [div_le_iff₀ hMp]
      exact mul_le_mul_of_nonneg_left (by exact_mod_cast Nat.sub_le _ _) pi_pos.le
    · refine ⟨by positivity, ?_⟩
      rw [div_le_iff₀ hMp]
      exact mul_le_mul_of_nonneg_left (by exact_mod_cast Nat.sub_le _ _) pi_pos.le
    · apply div_lt_div_of_pos_right _ hMp
      apply mul_lt_mul_of_pos_left _ pi_pos
      exact_mod_cast (by omega : M - j < M - i)
  · intro j hj
    rw [Nat.add_sub_cancel, chebpts2_getD M hM _ (by omega), chebpts2_getD M hM j (by omega),
      ← cos_pi_sub]
    congr 1
    rw [Nat.cast_sub (by omega : M - j ≤ M), Nat.cast_sub (by omega : j ≤ M)]
    field_simp

example : (chebpts2 3) = [-1, 0, 1] := by
  have h : π * (-3 + 1) / (2 * (3 - 1)) = -(π / 2) := by ring
  have h' : π * (-3 + 1 + 2 * 2) / (2 * (3 - 1)) = π / 2 := by ring
  have h'' : π * (-3 + 1 + 2) / (2 * (3 - 1)) = 0 := by ring
  simp [chebpts2, List.range_succ, h, h', h'']

/-! ## C07 -/

/-- C07: coefficients → values → coefficients is the identity. -/
theorem C07_fit_val (a : Arr ℝ) (hw : a.WF) (hn : 0 < a.n) : polyfit (polyval a) = a := by
  obtain ⟨n, cols⟩ := a
  simp only [polyfit, polyval, Arr.mapCols, List.map_map, Arr.mk.injEq, true_and]
  conv_rhs => rw [← List.map_id cols]
  apply List.map_congr_left
  intro c hc
  have hl : c.length = n := hw c hc
  exact polyfit_polyval_col c (by intro h; rw [h] at hl; simp at hl hn; omega)

/-- C07: values → coefficients → values is the identity. -/
theorem C07_val_fit (v : Arr ℝ) (hw : v.WF) (hn : 0 < v.n) : polyval (polyfit v) = v := by
  obtain ⟨n, cols⟩ := v
  simp only [polyfit, polyval, Arr.mapCols, List.map_map, Arr.mk.injEq, true_and]
  conv_rhs => rw [← List.map_id cols]
  apply List.map_congr_left
  intro c hc
  have hl : c.length = n := hw c hc
  exact polyval_polyfit_col c (by intro h; rw [h] at hl; simp at hl hn; omega)

/-- C07: a function constructed from samples interpolates them at the Chebyshev points. -/
theorem C07_interpolates (v : Arr ℝ) (hw : v.WF) (hn : 0 < v.n) :
    (fromValues v).cols.map (fun c => (chebpts2 v.n).map (chebEval c)) = v.cols := by
  have hw' : (polyfit v).WF := by
    intro c hc
    obtain ⟨d, hd, rfl⟩ := List.mem_map.mp hc
    rw [polyfitCol_length]; exact hw d hd
  have h := C06_values (polyfit v) hw' hn
  rw [C07_val_fit v hw hn] at h
  exact h.symm

example : (⟨3, [[1, 2, 3], [4, 5, 7]]⟩ : Arr ℝ).WF ∧ 0 < (⟨3, [[1, 2, 3], [4, 5, 7]]⟩ : Arr ℝ).n := by
  simp [Arr.WF]

end Funpy.Props
