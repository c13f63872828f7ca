import Verif.Lemmas.Sparse
import Mathlib.Data.List.Sort
import Mathlib.Data.Finset.Sort
import Mathlib.Tactic.NormNum
import Mathlib.Tactic.FinCases
import Mathlib.Tactic.IntervalCases

/-!
# C43, C66, C67: sparse matrix surgery
-/

namespace Funpy.Props

open Funpy.Sparse

variable {R : Type*}

/-- **C43** `delete_col_csc(mat, i)` on a well-formed matrix succeeds, leaves a well-formed matrix with one
column less, and column `r` of the result is column `r` (before `i`) or `r + 1` (from `i` on) of the input. -/
theorem C43_delete_col [AddCommMonoid R] (m : CS R) (h : WF m) (i : ℕ) (hi : i < m.major) :
    ∃ m', deleteColCsc m i = some m' ∧ WF m' ∧ m'.major = m.major - 1 ∧ m'.minor = m.minor ∧
      ∀ r < m.major - 1, ∀ j, entry m' r j = entry m (if r < i then r else r + 1) j := by
  refine ⟨_, deleteColCsc_eq h hi, delLine_wf h hi, rfl, rfl, ?_⟩
  intro r hr j
  rw [entry_eq_line (delLine_wf h hi) r j hr, entry_eq_line h _ j (by split_ifs <;> omega),
    delLine_line h hi r hr]

/-- Out of range indices raise. -/
theorem C43_delete_col_raises (m : CS R) (h : WF m) (i : ℕ) (hi : m.major ≤ i) :
    deleteColCsc m i = none := by
  have := h.ptr_len
  unfold deleteColCsc
  rw [if_neg (by omega)]

theorem foldlM_del (ds : List ℕ) : ∀ (m : CS R) (L : List ℕ) (lines : ℕ → List (ℕ × R)) (c : ℕ), WF m → m.minor = c →
    m.major = L.length → (∀ r < m.major, m.line r = lines (L.getD r 0)) →
    (∀ d ∈ ds, d < L.length) → ds.Pairwise (· > ·) →
    ∃ m', ds.foldlM deleteColCsc m = some m' ∧ WF m' ∧ m'.minor = c ∧
      m'.major = (ds.foldl List.eraseIdx L).length ∧
      (∀ r < m'.major, m'.line r = lines ((ds.foldl List.eraseIdx L).getD r 0)) := by
  induction ds with
  | nil => intro m L lines c h hc hL hl _ _; exact ⟨m, rfl, h, hc, hL, hl⟩
  | cons d ds ih =>
    intro m L lines c h hc hL hl hd hp
    have hdm : d < m.major := by rw [hL]; exact hd d (by simp)
    rw [List.foldlM_cons, deleteColCsc_eq h hdm]
    have hlen : (L.eraseIdx d).length = L.length - 1 :=
      List.length_eraseIdx_of_lt (hd d (by simp))
    rw [List.pairwise_cons] at hp
    obtain ⟨m', h1, h2, h3, h4, h5⟩ := ih (delLine m d) (L.eraseIdx d) lines c (delLine_wf h hdm) hc
      (by rw [hlen]; simp [delLine, hL]) (by
        intro r hr
        have hr' : r < m.major - 1 := hr
        rw [delLine_line h hdm r hr', hl _ (by split_ifs <;> omega)]
        congr 1
        have hr2 : r < (L.eraseIdx d).length := by omega
        rw [List.getD_eq_getElem (L.eraseIdx d) _ hr2, List.getElem_eraseIdx]
        split_ifs
        · rw [List.getD_eq_getElem _ _ (by omega)]
        · rw [List.getD_eq_getElem _ _ (by omega)]) (by
        intro x hx
        have := hp.1 x hx
        have := hd d (by simp)
        omega) hp.2
    exact ⟨m', h1, h2, h3, h4, h5⟩

theorem foldl_eraseIdx_filter (ds : List ℕ) : ∀ (n b : ℕ) (S : List ℕ), ds.Pairwise (· > ·) → (∀ d ∈ ds, d < b) →
    ds.foldl List.eraseIdx (List.range b ++ S) = (List.range b).filter (fun r => r ∉ ds) ++ S := by
  induction ds with
  | nil => intro n b S _ _; simp
  | cons d ds ih =>
    intro n b S hp hb
    rw [List.pairwise_cons] at hp
    have hdb := hb d (by simp)
    obtain ⟨k, rfl⟩ : ∃ k, b = d + (1 + k) := ⟨b - d - 1, by omega⟩
    have e1 : List.range (d + (1 + k)) = List.range d ++ (d :: (List.range k).map (fun x => d + (1 + x))) := by
      rw [List.range_add, List.range_add]
      simp
      intro a _; omega
    rw [List.foldl_cons]
    have e2 : (List.range (d + (1 + k)) ++ S).eraseIdx d =
        List.range d ++ ((List.range k).map (fun x => d + (1 + x)) ++ S) := by
      rw [e1, List.append_assoc, List.eraseIdx_append_of_length_le (by simp)]
      simp
    rw [e2, ih n d _ hp.2 (fun x hx => hp.1 x hx), e1, List.filter_append, List.filter_cons]
    rw [if_neg (by simp)]
    have e3 : ((List.range k).map (fun x => d + (1 + x))).filter (fun r => decide (r ∉ d :: ds)) =
        (List.range k).map (fun x => d + (1 + x)) := by
      rw [List.filter_eq_self]
      intro a ha
      simp only [List.mem_map] at ha
      obtain ⟨x, _, rfl⟩ := ha
      simp only [decide_eq_true_eq, List.mem_cons, not_or]
      refine ⟨by omega, fun h => ?_⟩
      have := hp.1 _ h
      omega
    have e4 : (List.range d).filter (fun r => decide (r ∉ d :: ds)) = (List.range d).filter (fun r => decide (r ∉ ds)) := by
      apply List.filter_congr
      intro a ha
      have := List.mem_range.mp ha
      simp only [List.mem_cons, not_or, decide_eq_decide]
      constructor
      · exact fun h => h.2
      · exact fun h => ⟨by omega, h⟩
    rw [e3, e4, List.append_assoc]

/-- **C43** `delete_cols_csc(mat, indices)` for distinct valid indices: the columns of the result are exactly
the columns of the input whose index is not listed, in their old order. -/
theorem C43_delete_cols [AddCommMonoid R] (m : CS R) (h : WF m) (is : List ℕ) (hnd : is.Nodup)
    (his : ∀ i ∈ is, i < m.major) :
    ∃ m', deleteColsCsc m is = some m' ∧ WF m' ∧ m'.minor = m.minor ∧
      m'.major = ((List.range m.major).filter (fun r => r ∉ is)).length ∧
      ∀ r < m'.major, ∀ j,
        entry m' r j = entry m (((List.range m.major).filter (fun r => r ∉ is)).getD r 0) j := by
  unfold deleteColsCsc
  have hperm : (is.mergeSort (fun a b => decide (b ≤ a))).Perm is := List.mergeSort_perm _ _
  have hs : (is.mergeSort (fun a b => decide (b ≤ a))).Pairwise (fun a b => b ≤ a) := by
    have := List.pairwise_mergeSort (le := fun a b : ℕ => decide (b ≤ a))
      (by intro a b c h1 h2; simp only [decide_eq_true_eq] at *; omega)
      (by intro a b; simp only [Bool.or_eq_true, decide_eq_true_eq]; omega) is
    simpa using this
  set ds := is.mergeSort (fun a b => decide (b ≤ a)) with hds
  have hs2 : ds.Pairwise (· > ·) := by
    have hn : ds.Nodup := hperm.nodup_iff.mpr hnd
    exact (hs.and hn).imp (fun {a b} hab => lt_of_le_of_ne hab.1 (fun e => hab.2 e.symm))
  have hmem : ∀ d ∈ ds, d < m.major := fun d hd => his d (hperm.mem_iff.mp hd)
  obtain ⟨m', h1, h2, h3, h4, h5⟩ := foldlM_del ds m (List.range m.major) m.line m.minor h rfl (by simp)
    (by intro r hr; rw [List.getD_eq_getElem _ _ (by simpa using hr)]; simp) (by simpa using hmem) hs2
  have hf := foldl_eraseIdx_filter ds 0 m.major [] hs2 hmem
  rw [List.append_nil, List.append_nil] at hf
  have hf2 : (List.range m.major).filter (fun r => decide (r ∉ ds)) =
      (List.range m.major).filter (fun r => decide (r ∉ is)) := by
    apply List.filter_congr
    intro a _
    rw [decide_eq_decide, hperm.mem_iff]
  rw [hf, hf2] at h4 h5
  refine ⟨m', h1, h2, h3, h4, ?_⟩
  intro r hr j
  have hk : ((List.range m.major).filter (fun r => decide (r ∉ is))).getD r 0 < m.major := by
    rw [List.getD_eq_getElem _ _ (by omega)]
    have := List.getElem_mem (l := (List.range m.major).filter (fun r => decide (r ∉ is))) (n := r) (by omega)
    exact List.mem_range.mp (List.mem_filter.mp this).1
  rw [entry_eq_line h2 r j hr, entry_eq_line h _ j hk, h5 r hr]

/-- The non-negative row index meant by a Python index `i` into an axis of length `n`. -/
def normIdx (n : ℕ) (i : ℤ) : ℕ := if 0 ≤ i then i.toNat else (i + n).toNat

theorem setFalse_eq (is : List ℤ) : ∀ mask : List Bool, (∀ i ∈ is, -(mask.length : ℤ) ≤ i ∧ i < mask.length) →
    ∃ k, setFalse mask is = some k ∧ k.length = mask.length ∧
      ∀ r, k.getD r false = (mask.getD r false && decide (r ∉ is.map (normIdx mask.length))) := by
  induction is with
  | nil => intro mask _; exact ⟨mask, rfl, rfl, by simp⟩
  | cons i is ih =>
    intro mask hm
    have hi := hm i (by simp)
    have key : ∀ p : ℕ, p < mask.length → p = normIdx mask.length i →
        ∃ k, setFalse (mask.set p false) is = some k ∧ k.length = mask.length ∧
        ∀ r, k.getD r false = (mask.getD r false && decide (r ∉ (i :: is).map (normIdx mask.length))) := by
      intro p hp hpe
      obtain ⟨k, h1, h2, h3⟩ := ih (mask.set p false) (by
        intro x hx; rw [List.length_set]; exact hm x (by simp [hx]))
      refine ⟨k, h1, by rw [h2, List.length_set], ?_⟩
      intro r
      rw [h3, List.length_set, getD_set', List.map_cons, ← hpe]
      by_cases hrp : r = p
      · subst hrp; simp [hp]
      · rw [if_neg (by omega)]; simp [hrp]
    unfold setFalse
    by_cases h0 : 0 ≤ i
    · rw [if_pos ⟨h0, hi.2⟩]
      exact key _ (by omega) (by simp [normIdx, h0])
    · rw [if_neg (by omega), if_pos ⟨by omega, hi.1⟩]
      exact key _ (by omega) (by simp [normIdx, h0])

/-- **C43** `delete_rows_csr(mat, indices)` for valid (possibly negative, possibly repeated) indices: the rows
of the result are exactly the rows of the input whose index is not listed, in their old order. -/
theorem C43_delete_rows [AddCommMonoid R] (m : CS R) (h : WF m) (is : List ℤ)
    (his : ∀ i ∈ is, -(m.major : ℤ) ≤ i ∧ i < m.major) :
    ∃ m', deleteRowsCsr m is = some m' ∧ WF m' ∧ m'.minor = m.minor ∧
      m'.major = ((List.range m.major).filter (fun r => r ∉ is.map (normIdx m.major))).length ∧
      ∀ r < m'.major, ∀ j,
        entry m' r j = entry m (((List.range m.major).filter
          (fun r => r ∉ is.map (normIdx m.major))).getD r 0) j := by
  obtain ⟨k, h1, h2, h3⟩ := setFalse_eq is (List.replicate m.major true) (by simpa using his)
  unfold deleteRowsCsr
  rw [h1]
  have hf : (List.range m.major).filter (fun i => k.getD i false) =
      (List.range m.major).filter (fun r => decide (r ∉ is.map (normIdx m.major))) := by
    apply List.filter_congr
    intro a ha
    have ha' := List.mem_range.mp ha
    rw [h3, List.length_replicate, List.getD_eq_getElem _ _ (by simpa using ha'),
      List.getElem_replicate]
    rfl
  have hwf : WF (selectLines m k) := by
    unfold selectLines
    apply ofLines_wf
    intro l hl e he
    rw [List.mem_map] at hl
    obtain ⟨i, _, rfl⟩ := hl
    exact line_lt h i e he
  refine ⟨selectLines m k, rfl, hwf, rfl, ?_, ?_⟩
  · unfold selectLines ofLines
    simp only [List.length_map]
    rw [hf]
  · intro r hr j
    have hr' : r < ((List.range m.major).filter (fun r => decide (r ∉ is.map (normIdx m.major)))).length := by
      rw [← hf]; simpa [selectLines, ofLines] using hr
    have hk : ((List.range m.major).filter (fun r => decide (r ∉ is.map (normIdx m.major)))).getD r 0 < m.major := by
      rw [List.getD_eq_getElem _ _ hr']
      have := List.getElem_mem (l := (List.range m.major).filter (fun r => decide (r ∉ is.map (normIdx m.major))))
        (n := r) hr'
      exact List.mem_range.mp (List.mem_filter.mp this).1
    rw [entry_eq_line hwf r j hr, entry_eq_line h _ j hk]
    congr 2
    unfold selectLines
    rw [hf, ofLines_line _ _ _ (by simpa using hr'), List.getD_eq_getElem _ _ (by simpa using hr'),
      List.getElem_map, List.getD_eq_getElem _ _ hr']

/-- Out of range row indices raise `IndexError`. -/
theorem C43_delete_rows_raises (m : CS R) (i : ℤ) (hi : i < -(m.major : ℤ) ∨ (m.major : ℤ) ≤ i) :
    deleteRowsCsr m [i] = none := by
  unfold deleteRowsCsr setFalse
  rw [if_neg (by simp; omega), if_neg (by simp; omega)]
  rfl

/-- **C43 (single CSR row), what holds**: `delete_row_csr(mat, i)` is correct when row `i` stores no entries.
For a row with stored entries the code keeps the wrong slice of `indices`, see `C43_delete_row_fails`. -/
theorem C43_delete_row_partial [AddCommMonoid R] (m : CS R) (h : WF m) (i : ℕ) (hi : i < m.major)
    (he : m.indptr.getD (i + 1) 0 = m.indptr.getD i 0) :
    ∃ m', deleteRowCsr m i = some m' ∧ WF m' ∧ m'.major = m.major - 1 ∧ m'.minor = m.minor ∧
      ∀ r < m.major - 1, ∀ j, entry m' r j = entry m (if r < i then r else r + 1) j := by
  have e : deleteRowCsr m i = deleteColCsc m i := by
    unfold deleteRowCsr deleteColCsc
    rw [he]
    simp
  rw [e]
  exact C43_delete_col m h i hi

/-- The matrix `[[1,0,0],[2,3,0],[0,0,4]]` in CSR format. -/
def exCsr : CS ℤ := ⟨3, 3, [1, 2, 3, 4], [0, 0, 1, 2], [0, 1, 3, 4]⟩

theorem exCsr_wf : WF exCsr := by
  refine ⟨rfl, rfl, ?_, rfl, rfl, ?_⟩
  · intro i hi; change i < 3 at hi; interval_cases i <;> decide
  · decide

/-- **C43 fails** for `delete_row_csr`: deleting row 1 of `[[1,0,0],[2,3,0],[0,0,4]]` should leave
`[[1,0,0],[0,0,4]]`, but the first remaining row becomes `[0,1,0]`. -/
theorem C43_delete_row_fails : ∃ m', deleteRowCsr exCsr 1 = some m' ∧
    entry m' 0 0 = 0 ∧ entry m' 0 1 = 1 ∧ entry exCsr 0 0 = 1 ∧ entry exCsr 0 1 = 0 :=
  ⟨_, rfl, by decide, by decide, by decide, by decide⟩

/-- Repeated indices in `delete_cols_csc` delete additional columns: `[1, 1]` also removes column 2. -/
theorem C43_delete_cols_repeated : ∃ m', deleteColsCsc exCsr [1, 1] = some m' ∧ m'.major = 1 := by
  refine ⟨delLine (delLine exCsr 1) 1, ?_, rfl⟩
  have e : [1, 1].mergeSort (fun a b : ℕ => decide (b ≤ a)) = [1, 1] :=
    List.mergeSort_of_pairwise (by simp)
  unfold deleteColsCsc
  rw [e, List.foldlM_cons, deleteColCsc_eq exCsr_wf (by decide)]
  show List.foldlM deleteColCsc (delLine exCsr 1) [1] = _
  rw [List.foldlM_cons, deleteColCsc_eq (delLine_wf exCsr_wf (by decide)) (by decide)]
  rfl

example : ∃ m', deleteColsCsc exCsr [0, 2] = some m' ∧ m'.major = 1 ∧ entry m' 0 1 = entry exCsr 1 1 := by
  obtain ⟨m', h1, _, _, h4, h5⟩ := C43_delete_cols exCsr exCsr_wf [0, 2] (by decide) (by decide)
  refine ⟨m', h1, by rw [h4]; decide, ?_⟩
  rw [h5 0 (by rw [h4]; decide)]
  rfl

example : ∃ m', deleteRowsCsr exCsr [-1, 0] = some m' ∧ m'.major = 1 ∧ entry m' 0 1 = entry exCsr 1 1 := by
  obtain ⟨m', h1, _, _, h4, h5⟩ := C43_delete_rows exCsr exCsr_wf [-1, 0] (by decide)
  refine ⟨m', h1, by rw [h4]; decide, ?_⟩
  rw [h5 0 (by rw [h4]; decide)]
  rfl

/-! ### C66: appending, reordering and thresholding -/

/-- **C66** `csr_vappend(a, b)` stacks `b` below `a`. -/
theorem C66_vappend [AddCommMonoid R] (a b : CS R) (ha : WF a) (hb : WF b) (hc : a.minor = b.minor) :
    WF (csrVappend a b) ∧ (csrVappend a b).major = a.major + b.major ∧
      (∀ r < a.major, ∀ j, entry (csrVappend a b) r j = entry a r j) ∧
      (∀ r < b.major, ∀ j, entry (csrVappend a b) (a.major + r) j = entry b r j) := by
  have hla := ha.ptr_len
  have hlb := hb.ptr_len
  have hlast : a.indptr.getD (a.indptr.length - 1) 0 = a.data.length := by
    rw [hla]; exact ha.ptr_last
  have p1 : ∀ r, r ≤ a.major → (csrVappend a b).indptr.getD r 0 = a.indptr.getD r 0 := by
    intro r hr
    unfold csrVappend
    rw [List.getD_append _ _ _ _ (by omega)]
  have p2 : ∀ r, r ≤ b.major → (csrVappend a b).indptr.getD (a.major + r) 0 =
      b.indptr.getD r 0 + a.data.length := by
    intro r hr
    rcases Nat.eq_zero_or_pos r with rfl | hr0
    · rw [p1 _ (by omega), hb.ptr_zero, Nat.add_zero, ha.ptr_last]; omega
    · unfold csrVappend
      simp only [hlast]
      rw [List.getD_append_right _ _ _ _ (by omega), List.getD_eq_getElem _ _ (by simp; omega),
        List.getD_eq_getElem _ _ (by omega)]
      simp only [List.getElem_drop, List.getElem_map]
      congr 2
      omega
  have hz : (csrVappend a b).indices.zip (csrVappend a b).data =
      a.indices.zip a.data ++ b.indices.zip b.data := by
    unfold csrVappend
    exact List.zip_append ha.len_eq
  have hwf : WF (csrVappend a b) := by
    refine ⟨?_, ?_, ?_, ?_, ?_, ?_⟩
    · simp [csrVappend]; omega
    · rw [p1 0 (by omega), ha.ptr_zero]
    · intro i hi
      have hi' : i < a.major + b.major := hi
      by_cases h : i < a.major
      · rw [p1 i (by omega), p1 (i + 1) (by omega)]; exact ha.ptr_mono i h
      · obtain ⟨k, rfl⟩ : ∃ k, i = a.major + k := ⟨i - a.major, by omega⟩
        rw [p2 k (by omega), Nat.add_assoc, p2 (k + 1) (by omega)]
        have := hb.ptr_mono k (by omega)
        omega
    · show (csrVappend a b).indptr.getD (a.major + b.major) 0 = _
      rw [p2 _ le_rfl, hb.ptr_last]
      simp [csrVappend]; omega
    · simp [csrVappend, ha.len_eq, hb.len_eq]
    · intro j hj
      simp only [csrVappend, List.mem_append] at hj ⊢
      rcases hj with hj | hj
      · rw [← hc]; exact ha.idx_lt j hj
      · exact hb.idx_lt j hj
  refine ⟨hwf, rfl, ?_, ?_⟩
  · intro r hr j
    rw [entry_eq_line hwf r j (by simp [csrVappend]; omega), entry_eq_line ha r j hr]
    congr 2
    unfold CS.line
    rw [hz, p1 r (by omega), p1 (r + 1) (by omega)]
    have h1 := ha.ptr_mono r hr
    have h2 := ha.ptr_le_last (r + 1) (by omega)
    have h3 : (a.indices.zip a.data).length = a.data.length := by simp [ha.len_eq]
    rw [List.drop_append_of_le_length (by omega), List.take_append_of_le_length
      (by rw [List.length_drop]; omega)]
  · intro r hr j
    rw [entry_eq_line hwf _ j (by simp [csrVappend]; omega), entry_eq_line hb r j hr]
    congr 2
    unfold CS.line
    rw [hz, p2 r (by omega), Nat.add_assoc, p2 (r + 1) (by omega)]
    have h3 : (a.indices.zip a.data).length = a.data.length := by simp [ha.len_eq]
    rw [Nat.add_comm (b.indptr.getD r 0) a.data.length, ← List.drop_drop, List.drop_left' h3]
    congr 1
    omega

theorem argsort_spec (a : List ℕ) (h : a.Perm (List.range a.length)) :
    (argsort a).length = a.length ∧ (∀ k < a.length, (argsort a).getD k 0 < a.length ∧
      a.getD ((argsort a).getD k 0) 0 = k) := by
  have hp : (argsort a).Perm (List.range a.length) := List.mergeSort_perm _ _
  have hlen : (argsort a).length = a.length := by rw [hp.length_eq]; simp
  have hs : (argsort a).Pairwise (fun i j => a.getD i 0 ≤ a.getD j 0) := by
    have := List.pairwise_mergeSort (le := fun i j : ℕ => decide (a.getD i 0 ≤ a.getD j 0))
      (by intro x y z h1 h2; simp only [decide_eq_true_eq] at *; omega)
      (by intro x y; simp only [Bool.or_eq_true, decide_eq_true_eq]; omega) (List.range a.length)
    simp only [decide_eq_true_eq] at this
    exact this
  have hs2 : ((argsort a).map (fun i => a.getD i 0)).Pairwise (· ≤ ·) := List.pairwise_map.mpr hs
  have hmap : (List.range a.length).map (fun i => a.getD i 0) = a := by
    apply List.ext_getElem (by simp)
    intro n h1 h2
    simp only [List.getElem_map, List.getElem_range]
    rw [List.getD_eq_getElem _ _ h2]
  have hp2 : ((argsort a).map (fun i => a.getD i 0)).Perm (List.range a.length) := by
    refine (hp.map _).trans ?_
    rw [hmap]; exact h
  have heq : (argsort a).map (fun i => a.getD i 0) = List.range a.length :=
    hp2.eq_of_pairwise (fun x y _ _ h1 h2 => le_antisymm h1 h2) hs2 List.pairwise_le_range
  refine ⟨hlen, ?_⟩
  intro k hk
  have hk' : k < (argsort a).length := by omega
  constructor
  · rw [List.getD_eq_getElem _ _ hk']
    have := List.getElem_mem hk'
    exact List.mem_range.mp (hp.mem_iff.mp this)
  · have h1 := congrArg (fun l => l.getD k 0) heq
    change List.getD _ k 0 = List.getD _ k 0 at h1
    rw [List.getD_eq_getElem _ _ (by simpa using hk'), List.getElem_map,
      List.getD_eq_getElem _ _ (show k < (List.range a.length).length by simpa using hk), List.getElem_range] at h1
    rw [List.getD_eq_getElem _ _ hk']
    exact h1

/-- **C66** `flip_rows(mat, idenRows)` (and `flip_cols`) for a permutation `idenRows` of the row indices: row `q`
of the result is row `idenRows[q]` of the input. -/
theorem C66_flip [AddCommMonoid R] (m : CS R) (h : WF m) (iden : List ℕ)
    (hp : iden.Perm (List.range m.major)) :
    WF (flipLines m iden) ∧ (flipLines m iden).major = m.major ∧
      ∀ q < m.major, ∀ j, entry (flipLines m iden) q j = entry m (iden.getD q 0) j := by
  have hlen : iden.length = m.major := by rw [hp.length_eq]; simp
  obtain ⟨h1, h2⟩ := argsort_spec iden (by rw [hlen]; exact hp)
  have hmaj : (flipLines m iden).major = m.major := by simp [flipLines, ofCoo, ofLines]
  have hinj : ∀ q < m.major, ∀ r < m.major, ((argsort iden).getD r 0 = q ↔ r = iden.getD q 0) := by
    intro q hq r hr
    constructor
    · intro e; rw [← e]; exact ((h2 r (by omega)).2).symm
    · intro e
      have hd : iden.Nodup := hp.nodup_iff.mpr List.nodup_range
      have h3 := h2 r (by omega)
      have h4 : iden.getD ((argsort iden).getD r 0) 0 = iden.getD q 0 := by rw [h3.2, e]
      rw [List.getD_eq_getElem _ _ h3.1, List.getD_eq_getElem _ _ (by omega : q < iden.length)] at h4
      exact (List.Nodup.getElem_inj_iff hd).mp h4
  have hidx : ∀ q < m.major, iden.getD q 0 < m.major := by
    intro q hq
    rw [List.getD_eq_getElem _ _ (by omega : q < iden.length)]
    exact List.mem_range.mp (hp.mem_iff.mp (List.getElem_mem _))
  have hline : ∀ q < m.major, (flipLines m iden).line q = m.line (iden.getD q 0) := by
    intro q hq
    unfold flipLines ofCoo
    rw [ofLines_line _ _ _ (by simpa using hq), List.getD_eq_getElem _ _ (by simpa using hq)]
    simp only [List.getElem_map, List.getElem_range]
    unfold CS.toCoo
    rw [List.map_flatMap, List.filter_flatMap, List.map_flatMap]
    have e : ∀ i ∈ List.range m.major,
        (((List.map (fun e => (i, e.1, e.2)) (m.line i)).map
          (fun t => ((argsort iden).getD t.1 0, t.2.1, t.2.2))).filter (fun t => decide (t.1 = q))).map
            (fun t => (t.2.1, t.2.2)) = if i = iden.getD q 0 then m.line i else [] := by
      intro i hi
      have hi' := List.mem_range.mp hi
      rw [List.map_map, List.filter_map, List.map_map]
      by_cases hiq : i = iden.getD q 0
      · rw [if_pos hiq]
        have h5 := (hinj q hq i hi').mpr hiq
        rw [List.filter_eq_self.mpr]
        · conv_rhs => rw [← List.map_id (m.line i)]
          rfl
        · intro x _
          simp only [Function.comp, h5, decide_true]
      · rw [if_neg hiq]
        have h5 : ¬ (argsort iden).getD i 0 = q := fun e => hiq ((hinj q hq i hi').mp e)
        rw [List.filter_eq_nil_iff.mpr]
        · rfl
        · intro x _
          simp only [Function.comp, h5, decide_false]
          simp
    have e2 : ∀ (l : List ℕ) (c : ℕ), l.Nodup → c ∈ l →
        l.flatMap (fun i => if i = c then m.line i else []) = m.line c := by
      intro l c
      induction l with
      | nil => intro _ h; simp at h
      | cons x l ih =>
        intro hn hc
        rw [List.flatMap_cons]
        rw [List.nodup_cons] at hn
        by_cases hx : x = c
        · subst hx
          rw [if_pos rfl]
          have : l.flatMap (fun i => if i = x then m.line i else []) = [] := by
            rw [List.flatMap_eq_nil_iff]
            intro y hy
            rw [if_neg (by rintro rfl; exact hn.1 hy)]
          rw [this, List.append_nil]
        · rw [if_neg hx, List.nil_append]
          exact ih hn.2 (by simpa [Ne.symm hx] using hc)
    rw [List.flatMap_congr e]
    exact e2 _ _ List.nodup_range (List.mem_range.mpr (hidx q hq))
  have hwf : WF (flipLines m iden) := by
    unfold flipLines ofCoo
    apply ofLines_wf
    intro l hl e he
    simp only [List.mem_map] at hl
    obtain ⟨i, _, rfl⟩ := hl
    rw [List.mem_map] at he
    obtain ⟨t, ht, rfl⟩ := he
    have ht2 := (List.mem_filter.mp ht).1
    rw [List.mem_map] at ht2
    obtain ⟨s, hs, rfl⟩ := ht2
    unfold CS.toCoo at hs
    rw [List.mem_flatMap] at hs
    obtain ⟨i, _, hs⟩ := hs
    rw [List.mem_map] at hs
    obtain ⟨x, hx, rfl⟩ := hs
    exact line_lt h i x hx
  refine ⟨hwf, hmaj, ?_⟩
  intro q hq j
  rw [entry_eq_line hwf q j (by omega), entry_eq_line h _ j (hidx q hq), hline q hq]

example : entry (flipLines exCsr [2, 0, 1]) 0 2 = entry exCsr 2 2 :=
  (C66_flip exCsr exCsr_wf [2, 0, 1] (by decide)).2.2 0 (by decide) 2

example : entry (csrVappend exCsr exCsr) 4 1 = entry exCsr 1 1 :=
  (C66_vappend exCsr exCsr exCsr_wf exCsr_wf rfl).2.2.2 1 (by decide) 1

theorem map_sum_nodup [AddCommMonoid R] (l : List (ℕ × R)) (j : ℕ) (hn : (l.map Prod.fst).Nodup) (f : R → R) (h0 : f 0 = 0) :
    (l.map fun e => if e.1 = j then f e.2 else 0).sum = f ((l.map fun e => if e.1 = j then e.2 else 0).sum) := by
  induction l with
  | nil => simp [h0]
  | cons x l ih =>
    rw [List.map_cons, List.nodup_cons] at hn
    rw [List.map_cons, List.map_cons, List.sum_cons, List.sum_cons, ih hn.2]
    by_cases hx : x.1 = j
    · have hz : (l.map fun e => if e.1 = j then e.2 else 0).sum = 0 := by
        apply List.sum_eq_zero
        intro y hy
        rw [List.mem_map] at hy
        obtain ⟨e, he, rfl⟩ := hy
        rw [if_neg]
        intro h; apply hn.1; rw [hx, ← h]; exact List.mem_map_of_mem he
      rw [if_pos hx, if_pos hx, hz, h0, add_zero, add_zero]
    · rw [if_neg hx, if_neg hx, zero_add, zero_add]

/-- **C66** `eliminate_zeros(mat, eps)` on a matrix without duplicate entries: entries of modulus below `eps`
become zero, all others are unchanged, and no zero stays stored. -/
theorem C66_eliminate_zeros [Ring R] [LinearOrder R] (m : CS R) (h : WF m) (eps : R)
    (hdup : ∀ i < m.major, ((m.line i).map Prod.fst).Nodup) :
    WF (eliminateZeros m eps) ∧ (eliminateZeros m eps).major = m.major ∧
      (∀ i < m.major, ∀ j, entry (eliminateZeros m eps) i j =
        if |entry m i j| < eps then 0 else entry m i j) ∧
      ∀ z ∈ (eliminateZeros m eps).data, z ≠ 0 := by
  have hwf : WF (eliminateZeros m eps) := by
    unfold eliminateZeros
    apply ofLines_wf
    intro l hl e he
    rw [List.mem_map] at hl
    obtain ⟨i, _, rfl⟩ := hl
    have he2 := (List.mem_filter.mp he).1
    rw [List.mem_map] at he2
    obtain ⟨x, hx, rfl⟩ := he2
    exact line_lt h i x hx
  have hmaj : (eliminateZeros m eps).major = m.major := by simp [eliminateZeros, ofLines]
  refine ⟨hwf, hmaj, ?_, ?_⟩
  · intro i hi j
    rw [entry_eq_line hwf i j (by omega), entry_eq_line h i j hi]
    unfold eliminateZeros
    rw [ofLines_line _ _ _ (by simpa using hi), List.getD_eq_getElem _ _ (by simpa using hi)]
    simp only [List.getElem_map, List.getElem_range]
    have hfil : ∀ l : List (ℕ × R), ((l.filter fun e => decide (e.2 ≠ 0)).map
        fun e => if e.1 = j then e.2 else 0).sum = (l.map fun e => if e.1 = j then e.2 else 0).sum := by
      intro l
      induction l with
      | nil => rfl
      | cons x l ih =>
        rw [List.filter_cons]
        by_cases hx : x.2 = 0
        · rw [if_neg (by simp [hx]), ih, List.map_cons, List.sum_cons, hx]; simp
        · rw [if_pos (by simp [hx]), List.map_cons, List.sum_cons, ih, List.map_cons, List.sum_cons]
    rw [hfil, List.map_map]
    exact map_sum_nodup (m.line i) j (hdup i hi) (fun z => if |z| < eps then 0 else z) (by simp)
  · intro z hz
    unfold eliminateZeros ofLines at hz
    simp only [List.mem_map, List.mem_flatten] at hz
    obtain ⟨e, ⟨l, ⟨i, _, rfl⟩, he⟩, rfl⟩ := hz
    have := (List.mem_filter.mp he).2
    simpa using this

example : entry (eliminateZeros exCsr 3) 1 0 = 0 ∧ entry (eliminateZeros exCsr 3) 1 1 = 3 := by
  have h := (C66_eliminate_zeros exCsr exCsr_wf 3 (by decide)).2.2.1 1 (by decide)
  exact ⟨by rw [h 0]; decide, by rw [h 1]; decide⟩

/-! ### C67: projection of discretizations -/

theorem eye_wf [Zero R] [One R] (n : ℕ) : WF (eye R n) := by
  unfold eye
  apply ofLines_wf
  intro l hl e he
  rw [List.mem_map] at hl
  obtain ⟨i, hi, rfl⟩ := hl
  simp at he
  subst he
  exact List.mem_range.mp hi

theorem eye_entry [AddCommMonoid R] [One R] (n i j : ℕ) (hi : i < n) :
    entry (eye R n) i j = if i = j then 1 else 0 := by
  rw [entry_eq_line (eye_wf n) i j (by simpa [eye, ofLines] using hi)]
  unfold eye
  rw [ofLines_line _ _ _ (by simpa using hi), List.getD_eq_getElem _ _ (by simpa using hi)]
  simp

theorem projRows_filter (n m : ℕ) (hmn : m ≤ n) :
    (List.range n).filter (fun r => decide (r ∉ (projRows n m).map (normIdx n))) = List.range (n - m) := by
  have hmem : ∀ r < n, (r ∈ (projRows n m).map (normIdx n) ↔ n - m ≤ r) := by
    intro r hr
    simp only [projRows, List.map_map, List.mem_map, List.mem_range, Function.comp]
    constructor
    · rintro ⟨k, hk, rfl⟩
      unfold normIdx
      rw [if_pos (by omega)]; omega
    · intro h
      refine ⟨n - 1 - r, by omega, ?_⟩
      unfold normIdx
      rw [if_pos (by omega)]; omega
  have e : n = (n - m) + m := by omega
  have e2 : List.range n = List.range (n - m) ++ (List.range m).map (fun x => n - m + x) := by
    conv_lhs => rw [e]
    rw [List.range_add]
  rw [e2, List.filter_append]
  have e3 : (List.range (n - m)).filter (fun r => decide (r ∉ (projRows n m).map (normIdx n))) =
      List.range (n - m) := by
    rw [List.filter_eq_self]
    intro a ha
    have := List.mem_range.mp ha
    rw [decide_eq_true_eq, hmem a (by omega)]
    omega
  have e4 : ((List.range m).map (fun x => n - m + x)).filter
      (fun r => decide (r ∉ (projRows n m).map (normIdx n))) = [] := by
    rw [List.filter_eq_nil_iff]
    intro a ha
    rw [List.mem_map] at ha
    obtain ⟨x, hx, rfl⟩ := ha
    have := List.mem_range.mp hx
    rw [decide_eq_true_eq, hmem _ (by omega)]
    omega
  rw [e3, e4, List.append_nil]

/-- **C67** `reduceOne(A, S, m, n)` with `n` rows in `A` and `m ≤ n`: `P` is the `(n-m) × n` matrix dropping the last
`m` coefficients, `PA` consists of the first `n - m` rows of `A`, and `PA = P · A`. -/
theorem C67_reduceOne [Semiring R] (A : CS R) (h : WF A) (m n : ℕ) (hmn : m ≤ n) (hA : A.major = n) :
    ∃ PA P, reduceOne A m n = some (PA, P) ∧ WF PA ∧ WF P ∧
      P.major = n - m ∧ P.minor = n ∧ PA.major = n - m ∧ PA.minor = A.minor ∧
      (∀ i < n - m, ∀ j, entry P i j = if i = j then 1 else 0) ∧
      (∀ i < n - m, ∀ j, entry PA i j = entry A i j) ∧
      (∀ i < n - m, ∀ j, entry PA i j = ∑ k ∈ Finset.range n, entry P i k * entry A k j) := by
  have hv : ∀ i ∈ projRows n m, -(n : ℤ) ≤ i ∧ i < n := by
    intro i hi
    simp only [projRows, List.mem_map, List.mem_range] at hi
    obtain ⟨k, hk, rfl⟩ := hi
    omega
  have hem : (eye R n).major = n := by simp [eye, ofLines]
  obtain ⟨P, p1, p2, p3, p4, p5⟩ := C43_delete_rows (eye R n) (eye_wf n) (projRows n m) (by rw [hem]; exact hv)
  obtain ⟨PA, a1, a2, a3, a4, a5⟩ := C43_delete_rows A h (projRows n m) (by rw [hA]; exact hv)
  rw [hem, projRows_filter n m hmn, List.length_range] at p4
  rw [hA, projRows_filter n m hmn, List.length_range] at a4
  rw [hem, projRows_filter n m hmn, p4] at p5
  rw [hA, projRows_filter n m hmn, a4] at a5
  have hP : ∀ i < n - m, ∀ j, entry P i j = if i = j then 1 else 0 := by
    intro i hi j
    rw [p5 i hi, List.getD_eq_getElem _ _ (by simpa using hi), List.getElem_range, eye_entry n i j (by omega)]
  have hPA : ∀ i < n - m, ∀ j, entry PA i j = entry A i j := by
    intro i hi j
    rw [a5 i hi, List.getD_eq_getElem _ _ (by simpa using hi), List.getElem_range]
  have hPm : P.minor = n := p3
  refine ⟨PA, P, ?_, a2, p2, p4, hPm, a4, a3, hP, hPA, ?_⟩
  · unfold reduceOne
    rw [p1]
    simp only [Option.bind_eq_bind, Option.bind_some]
    rw [if_pos (Or.inl (by rw [hPm, hA])), a1]
    rfl
  · intro i hi j
    rw [hPA i hi, Finset.sum_eq_single i]
    · rw [hP i hi, if_pos rfl, one_mul]
    · intro k _ hk
      rw [hP i hi, if_neg (by omega), zero_mul]
    · intro hk
      exact absurd (Finset.mem_range.mpr (by omega)) hk

example : ∃ PA P, reduceOne exCsr 1 3 = some (PA, P) ∧ entry PA 1 1 = 3 := by
  obtain ⟨PA, P, h1, _, _, _, _, _, _, _, h8, _⟩ := C67_reduceOne exCsr exCsr_wf 1 3 (by decide) rfl
  exact ⟨PA, P, h1, by rw [h8 1 (by decide)]; decide⟩

end Funpy.Props
