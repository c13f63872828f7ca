import Verif.Lemmas.ListAux
import Mathlib.Algebra.BigOperators.Group.Finset.Basic
import Mathlib.Algebra.BigOperators.Group.List.Basic
import Mathlib.Algebra.BigOperators.Intervals

/-! Further list lemmas: indexing with a default commutes with `map` and `zipWith`. -/

namespace Funpy
open Finset

lemma getD_map_lt {R S : Type*} (f : R → S) (d : R) (d' : S) (x : List R) (k : ℕ) (h : k < x.length) :
    (x.map f).getD k d' = f (x.getD k d) := by
  rw [getD_lt' (x.map f) _ _ (by simpa using h), getD_lt' _ _ _ h, List.getElem_map]

lemma getD_zipWith_lt {R S T : Type*} (f : R → S → T) (d : R) (e : S) (d' : T) (x : List R) (y : List S)
    (k : ℕ) (h : k < x.length) (h' : k < y.length) :
    (List.zipWith f x y).getD k d' = f (x.getD k d) (y.getD k e) := by
  rw [getD_lt' (List.zipWith f x y) _ _ (by simp; omega), getD_lt' _ _ _ h, getD_lt' _ _ _ h',
    List.getElem_zipWith]

lemma sum_map_range {M : Type*} [AddCommMonoid M] (F : ℕ → M) (N : ℕ) :
    ((List.range N).map F).sum = ∑ k ∈ range N, F k := by
  induction N with
  | zero => simp
  | succ n ih => rw [List.range_succ, List.map_append, List.sum_append, ih, sum_range_succ]; simp

end Funpy
