import Mathlib.Data.List.Basic

namespace Funpy

lemma getD_lt' {R : Type*} (c : List R) (d : R) (k : ℕ) (h : k < c.length) : c.getD k d = c[k] := by
  rw [List.getD_eq_getElem?_getD, List.getElem?_eq_getElem h]; rfl

lemma getD_ge' {R : Type*} (c : List R) (d : R) (k : ℕ) (h : c.length ≤ k) : c.getD k d = d := by
  rw [List.getD_eq_getElem?_getD, List.getElem?_eq_none h]; rfl

lemma ext_getD {R : Type*} (d : R) {a b : List R} (hl : a.length = b.length)
    (h : ∀ k < a.length, a.getD k d = b.getD k d) : a = b := by
  apply List.ext_getElem hl
  intro k h1 h2
  have := h k h1
  rwa [getD_lt' _ _ _ h1, getD_lt' _ _ _ h2] at this

lemma getD_map_range {R : Type*} (d : R) (f : ℕ → R) (n k : ℕ) :
    ((List.range n).map f).getD k d = if k < n then f k else d := by
  split_ifs with h
  · rw [getD_lt' _ _ _ (by simpa using h)]; simp
  · rw [getD_ge' _ _ _ (by simpa using h)]

lemma getD_cons_zero' {R : Type*} (d a : R) (l : List R) : (a :: l).getD 0 d = a := rfl

lemma getD_set' {R : Type*} (d : R) (x : List R) (i k : ℕ) (a : R) :
    (x.set i a).getD k d = if i = k ∧ i < x.length then a else x.getD k d := by
  by_cases hk : k < x.length
  · rw [getD_lt' _ _ _ (by simpa using hk), getD_lt' _ _ _ hk, List.getElem_set]
    by_cases h : i = k
    · subst h; simp [hk]
    · simp [h]
  · rw [getD_ge' _ _ _ (by simpa using hk), getD_ge' _ _ _ (by omega), if_neg (by omega)]

lemma getD_map' {R S : Type*} (f : R → S) (d : R) (x : List R) (k : ℕ) :
    (x.map f).getD k (f d) = f (x.getD k d) := by
  by_cases hk : k < x.length
  · rw [getD_lt' _ _ _ (by simpa using hk), getD_lt' _ _ _ hk, List.getElem_map]
  · rw [getD_ge' _ _ _ (by simpa using hk), getD_ge' _ _ _ (by omega)]

lemma getD_append' {R : Type*} (d : R) (x y : List R) (k : ℕ) :
    (x ++ y).getD k d = if k < x.length then x.getD k d else y.getD (k - x.length) d := by
  split_ifs with h
  · rw [getD_lt' _ _ _ (by simp; omega), getD_lt' _ _ _ h, List.getElem_append_left h]
  · by_cases h2 : k < x.length + y.length
    · rw [getD_lt' _ _ _ (by simpa using h2), getD_lt' _ _ _ (by omega),
        List.getElem_append_right (by omega)]
    · rw [getD_ge' _ _ _ (by simpa using h2), getD_ge' _ _ _ (by omega)]

lemma getD_replicate' {R : Type*} (d : R) (n k : ℕ) : (List.replicate n d).getD k d = d := by
  by_cases hk : k < n
  · rw [getD_lt' _ _ _ (by simpa using hk)]; simp
  · rw [getD_ge' _ _ _ (by simpa using hk)]

end Funpy
