import Verif.Spec.Sparse
import Verif.Lemmas.ListAux
import Mathlib.Data.List.Flatten
import Mathlib.Data.List.GetD
import Mathlib.Tactic.Ring
import Mathlib.Algebra.BigOperators.Group.Finset.Piecewise

namespace Funpy.Sparse

variable {R : Type*}

theorem sum_Ico_getD {α M : Type*} [AddCommMonoid M] (z : List α) (d : α) (f : α → M) (a b : ℕ)
    (hab : a ≤ b) (hb : b ≤ z.length) :
    ∑ p ∈ Finset.Ico a b, f (z.getD p d) = (((z.drop a).take (b - a)).map f).sum := by
  obtain ⟨k, rfl⟩ := Nat.exists_eq_add_of_le hab
  clear hab
  induction k with
  | zero => simp
  | succ k ih =>
    rw [← Nat.add_assoc, Finset.sum_Ico_succ_top (by omega), ih (by omega)]
    rw [show a + k + 1 - a = k + 1 by omega, show a + k - a = k by omega]
    have hk : k < (z.drop a).length := by simp; omega
    rw [List.take_succ_eq_append_getElem hk, List.map_append, List.sum_append]
    congr 1
    simp [List.getD_eq_getElem?_getD, List.getElem?_eq_getElem (show a + k < z.length by omega)]

theorem WF.ptr_le_last {m : CS R} (h : WF m) : ∀ i, i ≤ m.major → m.indptr.getD i 0 ≤ m.data.length := by
  intro i hi
  have : ∀ k, k ≤ m.major - i → m.indptr.getD i 0 ≤ m.indptr.getD (i + k) 0 := by
    intro k
    induction k with
    | zero => intro _; simp
    | succ k ih =>
      intro hk
      exact (ih (by omega)).trans (h.ptr_mono (i + k) (by omega))
  have h2 := this (m.major - i) le_rfl
  rw [show i + (m.major - i) = m.major by omega, h.ptr_last] at h2
  exact h2

theorem entry_eq_line [AddCommMonoid R] {m : CS R} (h : WF m) (i j : ℕ) (hi : i < m.major) :
    entry m i j = ((m.line i).map fun e => if e.1 = j then e.2 else 0).sum := by
  unfold entry CS.line
  have hlen : (m.indices.zip m.data).length = m.data.length := by
    rw [List.length_zip, h.len_eq, Nat.min_self]
  have hb := h.ptr_le_last (i + 1) (by omega)
  rw [← sum_Ico_getD (m.indices.zip m.data) (0, 0) (fun e => if e.1 = j then e.2 else 0) _ _
    (h.ptr_mono i hi) (by rw [hlen]; exact hb)]
  apply Finset.sum_congr rfl
  intro p hp
  rw [Finset.mem_Ico] at hp
  have h1 : p < m.data.length := by omega
  have h2 : p < m.indices.length := by rw [h.len_eq]; exact h1
  have h3 : p < (m.indices.zip m.data).length := by omega
  rw [List.getD_eq_getElem _ _ h1, List.getD_eq_getElem _ _ h2, List.getD_eq_getElem _ _ h3]
  simp

theorem cutData_eq {α : Type*} (x : List α) (p q : ℕ) (hpq : p ≤ q) (hq : q ≤ x.length) :
    cutData x p q (q - p) = x.take p ++ x.drop q := by
  unfold cutData assignSlice
  simp only []
  rw [List.take_append_of_le_length]
  · rw [List.take_of_length_le]
    simp only [List.length_append, List.length_take, List.length_drop]; omega
  · simp only [List.length_append, List.length_take, List.length_drop]; omega

theorem cutPtr_eq (ptr : List ℕ) (i n : ℕ) (hi : i + 1 < ptr.length) :
    cutPtr ptr i n = ptr.take i ++ (ptr.drop (i + 1)).map (fun z => z - n) := by
  unfold cutPtr assignSlice
  simp only []
  have h1 : (ptr.take i ++ ptr.drop (i + 1) ++ ptr.drop (ptr.length - 1)).take i = ptr.take i := by
    rw [List.append_assoc, List.take_left']
    simp; omega
  have h2 : (ptr.take i ++ ptr.drop (i + 1) ++ ptr.drop (ptr.length - 1)).drop i
      = ptr.drop (i + 1) ++ ptr.drop (ptr.length - 1) := by
    rw [List.append_assoc, List.drop_left']
    simp; omega
  rw [h1, h2, List.map_append, ← List.append_assoc, List.take_append_of_le_length]
  · rw [List.take_of_length_le]
    simp only [List.length_append, List.length_take, List.length_drop, List.length_map]; omega
  · simp only [List.length_append, List.length_take, List.length_drop, List.length_map]; omega

/-- The result of `deleteColCsc` in closed form. -/
def delLine (m : CS R) (i : ℕ) : CS R where
  major := m.major - 1
  minor := m.minor
  data := m.data.take (m.indptr.getD i 0) ++ m.data.drop (m.indptr.getD (i + 1) 0)
  indices := m.indices.take (m.indptr.getD i 0) ++ m.indices.drop (m.indptr.getD (i + 1) 0)
  indptr := m.indptr.take i ++
    (m.indptr.drop (i + 1)).map (fun z => z - (m.indptr.getD (i + 1) 0 - m.indptr.getD i 0))

theorem deleteColCsc_eq {m : CS R} (h : WF m) {i : ℕ} (hi : i < m.major) :
    deleteColCsc m i = some (delLine m i) := by
  unfold deleteColCsc delLine
  have hl := h.ptr_len
  rw [if_pos (by omega)]
  have h1 := h.ptr_mono i hi
  have h2 := h.ptr_le_last (i + 1) (by omega)
  simp only []
  rw [cutPtr_eq _ _ _ (by omega), cutData_eq _ _ _ h1 h2, cutData_eq _ _ _ h1 (by rw [h.len_eq]; exact h2)]
  congr 2
  · by_cases hn : 0 < m.indptr.getD (i + 1) 0 - m.indptr.getD i 0
    · rw [if_pos hn]
    · rw [if_neg hn, show m.indptr.getD (i + 1) 0 = m.indptr.getD i 0 by omega, List.take_append_drop]
  · by_cases hn : 0 < m.indptr.getD (i + 1) 0 - m.indptr.getD i 0
    · rw [if_pos hn]
    · rw [if_neg hn, show m.indptr.getD (i + 1) 0 = m.indptr.getD i 0 by omega, List.take_append_drop]

theorem delLine_ptr {m : CS R} (h : WF m) {i : ℕ} (hi : i < m.major) (r : ℕ) (hr : r < m.major) :
    (delLine m i).indptr.getD r 0 = if r ≤ i then m.indptr.getD r 0
      else m.indptr.getD (r + 1) 0 - (m.indptr.getD (i + 1) 0 - m.indptr.getD i 0) := by
  have hl := h.ptr_len
  have h1 := h.ptr_mono i hi
  unfold delLine
  simp only []
  by_cases hri : r < i
  · rw [if_pos (by omega), List.getD_append _ _ _ _ (by simp; omega),
      List.getD_eq_getElem _ _ (by simp; omega), List.getD_eq_getElem _ _ (by omega)]
    simp
  · rw [List.getD_append_right _ _ _ _ (by simp; omega),
      List.getD_eq_getElem _ _ (by simp; omega)]
    simp only [List.length_take, List.getElem_map, List.getElem_drop]
    have e1 : i + 1 + (r - min i m.indptr.length) = r + 1 := by omega
    have e2 : m.indptr[i + 1 + (r - min i m.indptr.length)]'(by omega) = m.indptr.getD (r + 1) 0 := by
      rw [List.getD_eq_getElem _ _ (by omega)]
      congr 1
    rw [e2]
    by_cases hre : r = i
    · subst hre; rw [if_pos le_rfl]; omega
    · rw [if_neg (by omega)]

theorem ptr_mono' {m : CS R} (h : WF m) {a b : ℕ} (hab : a ≤ b) (hb : b ≤ m.major) :
    m.indptr.getD a 0 ≤ m.indptr.getD b 0 := by
  obtain ⟨k, rfl⟩ := Nat.exists_eq_add_of_le hab
  induction k with
  | zero => simp
  | succ k ih => exact (ih (by omega) (by omega)).trans (h.ptr_mono (a + k) (by omega))

theorem delLine_wf {m : CS R} (h : WF m) {i : ℕ} (hi : i < m.major) : WF (delLine m i) := by
  have hl := h.ptr_len
  have h1 := h.ptr_mono i hi
  have h2 := h.ptr_le_last (i + 1) (by omega)
  have h3 := h.len_eq
  refine ⟨?_, ?_, ?_, ?_, ?_, ?_⟩
  · simp [delLine]; omega
  · rw [delLine_ptr h hi 0 (by omega), if_pos (by omega), h.ptr_zero]
  · intro r hr
    have hr' : r < m.major - 1 := hr
    rw [delLine_ptr h hi r (by omega), delLine_ptr h hi (r + 1) (by omega)]
    split_ifs with ha hb hb
    · exact h.ptr_mono r (by omega)
    · have : r = i := by omega
      subst this
      have := ptr_mono' h (show r + 1 ≤ r + 1 + 1 by omega) (by omega)
      omega
    · omega
    · have := h.ptr_mono (r + 1) (by omega); omega
  · have e : (delLine m i).major = m.major - 1 := rfl
    rw [e, delLine_ptr h hi _ (by omega)]
    have e2 : (delLine m i).data.length = m.data.length - (m.indptr.getD (i + 1) 0 - m.indptr.getD i 0) := by
      simp only [delLine, List.length_append, List.length_take, List.length_drop]; omega
    rw [e2]
    have h5 := h.ptr_last
    split_ifs with ha
    · have : i + 1 = m.major := by omega
      rw [← this] at h5
      rw [show m.major - 1 = i by omega]; omega
    · rw [show m.major - 1 + 1 = m.major by omega, h5]
  · simp only [delLine, List.length_append, List.length_take, List.length_drop, h3]
  · intro j hj
    simp only [delLine, List.mem_append] at hj ⊢
    rcases hj with hj | hj
    · exact h.idx_lt j (List.mem_of_mem_take hj)
    · exact h.idx_lt j (List.mem_of_mem_drop hj)

theorem zip_take_drop {α β : Type*} (x : List α) (y : List β) (p q : ℕ) (hp : p ≤ x.length)
    (h : x.length = y.length) :
    (x.take p ++ x.drop q).zip (y.take p ++ y.drop q) = (x.zip y).take p ++ (x.zip y).drop q := by
  simp only [List.zip_eq_zipWith]
  rw [List.zipWith_append (by simp; omega), List.take_zipWith, List.drop_zipWith]

theorem delLine_line {m : CS R} (h : WF m) {i : ℕ} (hi : i < m.major) (r : ℕ) (hr : r < m.major - 1) :
    (delLine m i).line r = m.line (if r < i then r else r + 1) := by
  have h1 := h.ptr_mono i hi
  have h2 := h.ptr_le_last (i + 1) (by omega)
  have h3 := h.len_eq
  unfold CS.line
  rw [delLine_ptr h hi r (by omega), delLine_ptr h hi (r + 1) (by omega)]
  have e : (delLine m i).indices.zip (delLine m i).data =
      (m.indices.zip m.data).take (m.indptr.getD i 0) ++ (m.indices.zip m.data).drop (m.indptr.getD (i + 1) 0) := by
    unfold delLine
    exact zip_take_drop _ _ _ _ (by omega) h3
  rw [e]
  have hlz : (m.indices.zip m.data).length = m.data.length := by simp [h3]
  generalize m.indices.zip m.data = z at *
  by_cases hri : r < i
  · rw [if_pos (by omega), if_pos (by omega), if_pos hri]
    have h4 := ptr_mono' h (show r + 1 ≤ i by omega) (by omega)
    have h5 := h.ptr_mono r (by omega)
    rw [List.drop_append_of_le_length (by simp only [List.length_take]; omega), List.take_append_of_le_length
        (by simp only [List.length_drop, List.length_take]; omega),
      List.drop_take, List.take_take]
    congr 1
    omega
  · rw [if_neg (show ¬ r + 1 ≤ i by omega), if_neg hri]
    have h4 := ptr_mono' h (show i + 1 ≤ r + 1 by omega) (by omega)
    have h5 := h.ptr_mono (r + 1) (by omega)
    have e3 : (if r ≤ i then m.indptr.getD r 0
      else m.indptr.getD (r + 1) 0 - (m.indptr.getD (i + 1) 0 - m.indptr.getD i 0)) =
        m.indptr.getD i 0 + (m.indptr.getD (r + 1) 0 - m.indptr.getD (i + 1) 0) := by
      by_cases hre : r = i
      · subst hre; rw [if_pos le_rfl]; omega
      · rw [if_neg (by omega)]; omega
    rw [e3]
    have e4 : (z.take (m.indptr.getD i 0)).length = m.indptr.getD i 0 := by
      simp only [List.length_take]; omega
    conv_lhs => rw [← List.drop_drop]
    rw [List.drop_left' e4, List.drop_drop]
    congr 1
    · omega
    · congr 1; omega

/-! ### Matrices built from lines -/

theorem ofLines_ptr (c : ℕ) (L : List (List (ℕ × R))) (i : ℕ) (hi : i ≤ L.length) :
    (ofLines c L).indptr.getD i 0 = ((L.map List.length).take i).sum := by
  unfold ofLines
  rw [List.getD_eq_getElem _ _ (by simp; omega)]
  simp

theorem ofLines_zip (c : ℕ) (L : List (List (ℕ × R))) :
    (ofLines c L).indices.zip (ofLines c L).data = L.flatten := by
  unfold ofLines
  simp only []
  rw [List.zip_map']
  simp

theorem ofLines_line (c : ℕ) (L : List (List (ℕ × R))) (i : ℕ) (hi : i < L.length) :
    (ofLines c L).line i = L.getD i [] := by
  unfold CS.line
  rw [ofLines_zip, ofLines_ptr c L i (by omega), ofLines_ptr c L (i + 1) (by omega)]
  rw [List.getD_eq_getElem _ _ hi]
  have h := List.drop_take_succ_flatten_eq_getElem L i hi
  rw [← h, List.drop_take]

theorem ofLines_wf (c : ℕ) (L : List (List (ℕ × R))) (hc : ∀ l ∈ L, ∀ e ∈ l, e.1 < c) :
    WF (ofLines c L) := by
  refine ⟨by simp [ofLines], ?_, ?_, ?_, by simp only [ofLines, List.length_map], ?_⟩
  · rw [ofLines_ptr _ _ _ (by omega)]; simp
  · intro i hi
    have hi' : i < L.length := hi
    rw [ofLines_ptr _ _ _ (by omega), ofLines_ptr _ _ _ (by omega)]
    rw [List.take_succ_eq_append_getElem (by simpa using hi'), List.sum_append]
    omega
  · have e : (ofLines c L).major = L.length := rfl
    rw [e, ofLines_ptr _ _ _ le_rfl, List.take_of_length_le (by simp)]
    simp only [ofLines, List.length_map, List.length_flatten]
  · intro j hj
    simp only [ofLines, List.mem_map, List.mem_flatten] at hj ⊢
    obtain ⟨e, ⟨l, hl, he⟩, rfl⟩ := hj
    exact hc l hl e he

theorem line_lt {m : CS R} (h : WF m) (i : ℕ) : ∀ e ∈ m.line i, e.1 < m.minor := by
  intro e he
  unfold CS.line at he
  have := List.mem_of_mem_drop (List.mem_of_mem_take he)
  exact h.idx_lt _ (List.of_mem_zip this).1

end Funpy.Sparse
