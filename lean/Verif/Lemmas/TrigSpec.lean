import Verif.Model.TrigSpec
import Verif.Lemmas.TrigArith
import Verif.Lemmas.Tech

/-! Entries of the matrices of the Fourier spectral method. -/

namespace Funpy.TrigSpec
open Matrix Complex Trig Spec Finset

lemma mem_nonzeros (l : List ℂ) (a : ℕ) : a ∈ nonzeros l ↔ l.getD a 0 ≠ 0 := by
  rw [nonzeros, List.mem_filter, List.mem_range, decide_eq_true_iff]
  constructor
  · exact fun h => h.2
  · intro h
    refine ⟨?_, h⟩
    by_contra hl
    exact h (getD_ge' _ _ _ (by omega))

lemma nz_sum (l : List ℂ) (g : ℕ → ℂ) (hg : ∀ a, l.getD a 0 = 0 → g a = 0) : ((nonzeros l).map g).sum = ∑ a ∈ range l.length, g a := by
  have key : ∀ N, (((List.range N).filter fun k => @decide (l.getD k 0 ≠ 0) (Classical.propDecidable _)).map g).sum = ∑ a ∈ range N, g a := by
    intro N
    induction N with
    | zero => simp
    | succ N ih =>
      rw [List.range_succ, List.filter_append, List.map_append, List.sum_append, ih, sum_range_succ]
      congr 1
      by_cases h : l.getD N 0 = 0
      · have : (List.filter (fun k => @decide (l.getD k 0 ≠ 0) (Classical.propDecidable _)) [N]) = [] := by
          rw [List.filter_eq_nil_iff]; intro a ha; rw [List.mem_singleton] at ha; subst ha; simpa using h
        rw [this, hg N h]; rfl
      · have : (List.filter (fun k => @decide (l.getD k 0 ≠ 0) (Classical.propDecidable _)) [N]) = [N] := by
          rw [List.filter_eq_self]; intro a ha; rw [List.mem_singleton] at ha; subst ha; simpa using h
        rw [this]; simp
  unfold nonzeros
  convert key l.length

lemma diagSum_apply (k len : ℕ) (d : List (ℤ × ℂ)) (i j : Fin k) : diagSum k len d i j
    = (d.map fun p => if (j : ℤ) - i = p.1 ∧ (j : ℕ) < len then p.2 else 0).sum := by
  induction d with
  | nil => rfl
  | cons p d ih =>
    have : diagSum k len (p :: d) = spdiag k len p.2 p.1 + diagSum k len d := by simp [diagSum]
    rw [this, Matrix.add_apply, ih, List.map_cons, List.sum_cons]
    rfl

lemma smallToeplitz_apply (k : ℕ) (col row : List ℂ) (hc : col.length = k) (hr : row.length = k) (h0 : col.getD 0 0 = row.getD 0 0)
    (ic ir : List ℕ) (hcm : ∀ a, a ∈ ic ↔ col.getD a 0 ≠ 0) (hrm : ∀ a, a ∈ ir ↔ row.getD a 0 ≠ 0) (i j : Fin k) :
    smallToeplitz k col row ic ir i j = if (j : ℕ) ≤ i then col.getD (i - j) 0 else row.getD (j - i) 0 := by
  have hi := i.2
  have hj := j.2
  rw [smallToeplitz]
  by_cases h1 : ic.length = 1 ∧ ir.length = 1
  swap
  · exact congrArg (fun M : Matrix (Fin k) (Fin k) ℂ => M i j) (if_neg h1)
  refine (congrArg (fun M : Matrix (Fin k) (Fin k) ℂ => M i j) (if_pos h1)).trans ?_
  obtain ⟨Ic, rfl⟩ := List.length_eq_one_iff.mp h1.1
  obtain ⟨Ir, rfl⟩ := List.length_eq_one_iff.mp h1.2
  have hcI : ∀ a, col.getD a 0 ≠ 0 ↔ a = Ic := fun a => by rw [← hcm, List.mem_singleton]
  have hrI : ∀ a, row.getD a 0 ≠ 0 ↔ a = Ir := fun a => by rw [← hrm, List.mem_singleton]
  show (if Ic = 0 then spdiag k col.length (col.getD Ic 0 * 1) 0
    else spdiag k col.length (col.getD Ic 0 * 1) (-(Ic : ℤ)) + spdiag k row.length (row.getD Ir 0 * 1) Ir : Matrix (Fin k) (Fin k) ℂ) i j = _
  by_cases hz : Ic = 0
  · rw [if_pos hz]
    subst hz
    have hIr0 : Ir = 0 := by
      have := (hcI 0).mpr rfl
      rw [h0] at this
      exact ((hrI 0).mp this).symm
    rw [spdiag]
    by_cases hji : (j : ℕ) ≤ i
    · rw [if_pos hji]
      by_cases h : (i : ℕ) - j = 0
      · rw [if_pos ⟨by omega, by omega⟩, h, mul_one]
      · rw [if_neg (by omega)]
        by_contra hcon
        exact h ((hcI _).mp (Ne.symm hcon))
    · rw [if_neg hji, if_neg (by omega)]
      by_contra hcon
      have := (hrI _).mp (Ne.symm hcon)
      omega
  · have hIr0 : Ir ≠ 0 := by
      intro h; subst h
      have := (hrI 0).mpr rfl
      rw [← h0] at this
      exact hz ((hcI 0).mp this).symm
    rw [if_neg hz, Matrix.add_apply, spdiag, spdiag]
    by_cases hji : (j : ℕ) ≤ i
    · rw [if_pos hji, if_neg (by omega : ¬((j : ℤ) - i = Ir ∧ (j : ℕ) < row.length)), add_zero]
      by_cases h : (i : ℕ) - j = Ic
      · rw [if_pos ⟨by omega, by omega⟩, h, mul_one]
      · rw [if_neg (by omega)]
        by_contra hcon
        exact h ((hcI _).mp (Ne.symm hcon))
    · rw [if_neg hji, if_neg (by omega : ¬((j : ℤ) - i = -(Ic : ℤ) ∧ (j : ℕ) < col.length)), zero_add]
      by_cases h : (j : ℕ) - i = Ir
      · rw [if_pos ⟨by omega, by omega⟩, h, mul_one]
      · rw [if_neg (by omega)]
        by_contra hcon
        exact h ((hrI _).mp (Ne.symm hcon))

/-- `sptoeplitz` is the Toeplitz matrix with the given first column and row. -/
lemma sptoeplitz_apply (k : ℕ) (col row : List ℂ) (hc : col.length = k) (hr : row.length = k) (h0 : col.getD 0 0 = row.getD 0 0) (i j : Fin k) :
    sptoeplitz k col row i j = if (j : ℕ) ≤ i then col.getD (i - j) 0 else row.getD (j - i) 0 := by
  have hi := i.2
  have hj := j.2
  rw [sptoeplitz]
  by_cases hsmall : col.length < 100 ∧ row.length < 100
  · rw [if_pos hsmall]
    exact smallToeplitz_apply k col row hc hr h0 _ _ (mem_nonzeros col) (mem_nonzeros row) i j
  rw [if_neg hsmall]
  rw [diagSum_apply, List.map_append, List.sum_append, List.map_map, List.map_map]
  rw [nz_sum (row.set 0 0) ((fun p : ℤ × ℂ => if (j : ℤ) - i = p.1 ∧ (j : ℕ) < min col.length (row.set 0 0).length then p.2 else 0)
        ∘ fun a : ℕ => ((a : ℤ), (row.set 0 0).getD a 0)) (by intro a ha; simp only [Function.comp_apply, ha, ite_self]),
      nz_sum col ((fun p : ℤ × ℂ => if (j : ℤ) - i = p.1 ∧ (j : ℕ) < min col.length (row.set 0 0).length then p.2 else 0)
        ∘ fun a : ℕ => (-(a : ℤ), col.getD a 0)) (by intro a ha; simp only [Function.comp_apply, ha, ite_self])]
  simp only [Function.comp_apply, List.length_set, hc, hr, min_self]
  by_cases hji : (j : ℕ) ≤ i
  · rw [if_pos hji, sum_eq_zero, zero_add, sum_eq_single ((i : ℕ) - j)]
    · rw [if_pos ⟨by omega, hj⟩]
    · intro a _ ha; rw [if_neg (by omega)]
    · intro h; exact absurd (mem_range.mpr (by omega)) h
    · intro a ha
      by_cases h : a = 0
      · subst h
        rw [getD_set']; split_ifs <;> simp_all
      · rw [if_neg (by omega)]
  · rw [if_neg hji, sum_eq_single ((j : ℕ) - i), sum_eq_zero, add_zero]
    · rw [if_pos ⟨by omega, hj⟩, getD_set', if_neg (by omega)]
    · intro a _; rw [if_neg (by omega)]
    · intro a _ ha; rw [if_neg (by omega)]
    · intro h; exact absurd (mem_range.mpr (by omega)) h

lemma splitEven_half (c : List ℂ) (hc : c.length ≠ 0) : (splitEven c).length = 2 * ((splitEven c).length / 2) + 1 := by
  have := splitEven_odd c hc; omega

/-- The entries of the multiplication matrix are the Fourier coefficients of the function. -/
lemma multmat_apply (k : ℕ) (c : List ℂ) (hc : c.length ≠ 0) (i j : Fin k) :
    multmat k c i j = fourier (trigEval c) ((i : ℤ) - j) := by
  have hF : trigEval c = trigEval (splitEven c) := funext fun x => (splitEven_eval c hc x).symm
  rw [hF, fourier_odd _ (splitEven_odd c hc)]
  have hh := splitEven_half c hc
  have hi := i.2
  have hj := j.2
  rw [multmat]
  by_cases h1 : c.length = 1
  · -- constants
    have hs : splitEven c = c := by rw [splitEven, if_neg (by omega)]
    rw [if_pos h1, hs, h1, Matrix.smul_apply, Matrix.one_apply]
    by_cases hij : i = j
    · subst hij; simp
    · have : (i : ℕ) ≠ j := fun h => hij (Fin.ext h)
      rw [if_neg hij, smul_zero]
      split_ifs
      · rw [getD_ge' _ _ _ (by omega)]
      · rfl
  rw [if_neg h1]
  show (if (splitEven c).length / 2 < k then _ else _ : Matrix (Fin k) (Fin k) ℂ) i j = _
  generalize hsd : splitEven c = s at hh ⊢
  obtain ⟨Na, hNa⟩ : ∃ Na, Na = s.length / 2 := ⟨_, rfl⟩
  rw [← hNa] at hh ⊢
  have hdrop : ∀ m, (s.drop Na).getD m 0 = s.getD (Na + m) 0 := by
    intro m; rw [List.getD_eq_getElem?_getD, List.getElem?_drop, ← List.getD_eq_getElem?_getD]
  have hrev : ∀ m, m ≤ Na → ((s.take (Na + 1)).reverse).getD m 0 = s.getD (Na - m) 0 := by
    intro m hm
    have hl : (s.take (Na + 1)).length = Na + 1 := by rw [List.length_take]; omega
    rw [List.getD_eq_getElem?_getD, List.getElem?_reverse (by omega), hl, List.getElem?_take, if_pos (by omega), ← List.getD_eq_getElem?_getD]
    congr 1
  have hgoal : ∀ z : ℂ, ((j : ℕ) ≤ i → z = s.getD (Na + (i - j)) 0) → (¬ (j : ℕ) ≤ i → (j : ℕ) - i ≤ Na → z = s.getD (Na - (j - i)) 0) →
      (¬ (j : ℕ) ≤ i → ¬ (j : ℕ) - i ≤ Na → z = 0) →
      z = if 0 ≤ ((i : ℤ) - j) + (Na : ℕ) then s.getD (((i : ℤ) - j) + (Na : ℕ)).toNat 0 else 0 := by
    intro z ha hb hd
    by_cases h2 : (j : ℕ) ≤ i
    · rw [ha h2, if_pos (by omega)]; congr 1; omega
    · by_cases h3 : (j : ℕ) - i ≤ Na
      · rw [hb h2 h3, if_pos (by omega)]; congr 1; omega
      · rw [hd h2 h3, if_neg (by omega)]
  refine hgoal _ ?_ ?_ ?_
  all_goals intro hji
  all_goals try intro hb
  all_goals
    by_cases hNk : Na < k
    · rw [if_pos hNk, sptoeplitz_apply _ _ _ (by simp; omega) (by simp; omega)
        (by rw [getD_append', getD_append', if_pos (by simp; omega), if_pos (by simp; omega), hdrop, hrev _ (by omega)]; rfl)]
      first | rw [if_pos hji] | rw [if_neg hji]
      rw [getD_append']
      first
        | rw [List.length_drop]
        | rw [List.length_reverse, List.length_take]
      split_ifs with h5
      · first
          | (exfalso; omega)
          | rw [hdrop]
          | rw [hrev _ (by omega)]
      · rw [getD_replicate']
        first
          | (exfalso; omega)
          | rw [getD_ge' _ _ _ (by omega)]
          | skip
    · have hT : ∀ m, m < k → (((s.take (s.length + k - Na - 1)).drop Na)).getD m 0 = s.getD (Na + m) 0 := by
        intro m hm
        rw [List.getD_eq_getElem?_getD, List.getElem?_drop, List.getElem?_take, if_pos (by omega), ← List.getD_eq_getElem?_getD]
      rw [if_neg hNk, sptoeplitz_apply _ _ _ (by simp; omega) (by simp)
        (by rw [hT 0 (by omega), getD_map_range, if_pos (by omega)]; rfl)]
      first | rw [if_pos hji] | rw [if_neg hji]
      first
        | rw [hT _ (by omega)]
        | (rw [getD_map_range, if_pos (by omega)]; done)
        | (exfalso; omega)

end Funpy.TrigSpec
