import Verif.Model.ChebPoly
import Verif.Props.Ultra
import Verif.Spec.Cheb
import Verif.Lemmas.ListAux
import Verif.Lemmas.UltraMult3

/-!
# C135: `chebpoly` returns Chebyshev polynomials
-/

namespace Funpy.Props
open Spec ChebPoly UltraS Matrix Polynomial Finset

private lemma size_lt (l : List ℕ) (k : ℕ) (h : k ∈ l) : k < size l := by
  unfold size
  induction l with
  | nil => simp at h
  | cons a l ih =>
    rw [List.foldr_cons]
    rcases List.mem_cons.1 h with rfl | h
    · omega
    · have := ih h; omega

private lemma eval_ofFn {N : ℕ} (v : Fin N → ℝ) (x : ℝ) : chebEval (List.ofFn v) x = ultraSeries 0 v x := by
  unfold chebEval ultraSeries
  rw [List.length_ofFn, ← Fin.sum_univ_eq_sum_range (fun k => (List.ofFn v).getD k 0 * _)]
  refine sum_congr rfl fun k _ => ?_
  rw [getD_lt' _ _ _ (by simp)]
  simp [ultraBasis]

private lemma series_unit {N : ℕ} (lam k : ℕ) (hk : k < N) (x : ℝ) : ultraSeries lam (ChebPoly.unit N k) x = ultraBasis lam k x := by
  unfold ultraSeries ChebPoly.unit
  rw [sum_eq_single ⟨k, hk⟩]
  · simp
  · intro i _ hi
    rw [if_neg fun h => hi (Fin.ext h), zero_mul]
  · simp

/-- C135: `chebpoly(n)` returns the Chebyshev polynomials of the first kind of the given degrees, in the given order (on a domain: composed
with the map to `[-1, 1]`, as for every function), for a number and for every nonempty list. -/
theorem C135_first (n : Deg) (h : n.toList ≠ []) :
    ∃ cols, chebpoly n 1 = some cols ∧ cols.length = n.toList.length ∧
      ∀ i (hi : i < n.toList.length), ∀ x, chebEval (cols.getD i []) x = (Chebyshev.T ℝ (n.toList[i] : ℤ)).eval x := by
  refine ⟨n.toList.map fun k => List.ofFn (ChebPoly.unit (size n.toList) k), ?_, by simp, fun i hi x => ?_⟩
  · rw [chebpoly]
    simp only
    rw [if_neg (by norm_num), if_neg h, if_neg (by norm_num)]
  rw [getD_lt' _ _ _ (by simpa using hi), List.getElem_map, eval_ofFn, series_unit _ _ (size_lt _ _ (List.getElem_mem hi))]
  rfl

/-- C135: `chebpoly(n, kind=2)` returns the Chebyshev polynomials of the second kind, for every list of at least two degrees which are
not all zero. -/
theorem C135_second_partial (l : List ℕ) (h : 2 ≤ l.length) (h0 : ∃ k ∈ l, k ≠ 0) :
    ∃ cols, chebpoly (.list l) 2 = some cols ∧ cols.length = l.length ∧
      ∀ i (hi : i < l.length), ∀ x, chebEval (cols.getD i []) x = (Chebyshev.U ℝ (l[i] : ℤ)).eval x := by
  have hne : l ≠ [] := by intro h; subst h; simp at *
  obtain ⟨k0, hk0, hk⟩ := h0
  have hN : 2 ≤ size l := by have := size_lt l k0 hk0; omega
  refine ⟨l.map fun k => List.ofFn ((convertmat (size l) 0 0)⁻¹ *ᵥ ChebPoly.unit (size l) k), ?_, by simp, fun i hi x => ?_⟩
  · rw [chebpoly]
    simp only
    rw [if_neg (by norm_num), if_neg (show ¬ (Deg.list l).toList = [] from hne), if_pos trivial, if_neg (show ¬ size (Deg.list l).toList = 1 by
      show ¬ size l = 1; omega), if_neg (show ¬ (Deg.list l).toList.length = 1 by show ¬ l.length = 1; omega)]
    rfl
  · rw [getD_lt' _ _ _ (by simpa using hi), List.getElem_map, eval_ofFn]
    have hinv := C42_convertmat_inv (size l) 0 0 (Or.inl hN)
    have h1 := C39_convertmat (size l) 0 1 (by omega) (Or.inl hN) ((convertmat (size l) 0 0)⁻¹ *ᵥ ChebPoly.unit (size l) l[i]) x
    rw [← h1]
    simp only [Nat.cast_one, sub_self]
    rw [mulVec_mulVec, Matrix.mul_nonsing_inv _ ((Matrix.isUnit_iff_isUnit_det _).1 (IsUnit.of_mul_eq_one _ hinv.2)), one_mulVec,
      series_unit _ _ (size_lt _ _ (List.getElem_mem hi)), UltraS.ultraBasis_one]

/-- C135 fails for the second kind with one degree: neither a number nor a list with one entry is accepted. -/
theorem C135_single_fails (n : ℕ) : chebpoly (.one n) 2 = none ∧ chebpoly (.list [n]) 2 = none := by
  constructor <;> simp [chebpoly, Deg.toList]

/-- C135 fails for the second kind with degrees zero only. -/
theorem C135_zeros_fails (m : ℕ) : chebpoly (.list (List.replicate m 0)) 2 = none := by
  have : size (List.replicate m 0) = 1 := by
    unfold size
    induction m with
    | zero => rfl
    | succ m ih => rw [List.replicate_succ, List.foldr_cons]; omega
  simp [chebpoly, Deg.toList, this]

/-- Only the two kinds are accepted, and at least one degree is needed. -/
theorem C135_rejects (n : Deg) (kind : ℕ) (h : (kind ≠ 1 ∧ kind ≠ 2) ∨ n.toList = []) : chebpoly n kind = none := by
  rw [chebpoly]
  rcases h with h | h
  · rw [if_pos h]
  · split_ifs <;> rfl

example : 2 ≤ [3, 0, 5].length ∧ ∃ k ∈ [3, 0, 5], k ≠ 0 := by decide

end Funpy.Props
