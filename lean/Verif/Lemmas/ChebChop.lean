import Verif.Model.ChebChop
import Verif.Lemmas.ChebTransform
import Mathlib.Tactic.Linarith
import Mathlib.Data.List.Count

namespace Funpy.Cheb
open Finset Real

lemma envelope_length : ∀ l : List ℝ, (envelope l).length = l.length
  | [] => rfl
  | [_] => rfl
  | a :: b :: l => by simp [envelope, envelope_length (b :: l)]

lemma headD_eq_getD (l : List ℝ) : l.headD 0 = l.getD 0 0 := by cases l <;> rfl

lemma envelope_cons (a b : ℝ) (l : List ℝ) :
    envelope (a :: b :: l) = max a ((envelope (b :: l)).getD 0 0) :: envelope (b :: l) := by
  rw [envelope, headD_eq_getD]
  simp

lemma le_envelope : ∀ (l : List ℝ) (i : ℕ), i < l.length → l.getD i 0 ≤ (envelope l).getD i 0
  | [], i, h => by simp at h
  | [a], i, h => by
      have : i = 0 := by simpa using h
      subst this; simp [envelope]
  | a :: b :: l, 0, _ => by rw [envelope_cons]; exact le_max_left _ _
  | a :: b :: l, i + 1, h => by
      rw [envelope_cons, List.getD_cons_succ, List.getD_cons_succ]
      exact le_envelope (b :: l) i (by simpa using h)

lemma envelope_step : ∀ (l : List ℝ) (i : ℕ), i + 1 < l.length →
    (envelope l).getD (i + 1) 0 ≤ (envelope l).getD i 0
  | [], i, h => by simp at h
  | [a], i, h => by simp at h
  | a :: b :: l, 0, _ => by
      rw [envelope_cons, List.getD_cons_succ]; exact le_max_right _ _
  | a :: b :: l, i + 1, h => by
      rw [envelope_cons, List.getD_cons_succ, List.getD_cons_succ]
      exact envelope_step (b :: l) i (by simpa using h)

lemma envelope_anti (l : List ℝ) (i j : ℕ) (hij : i ≤ j) (hj : j < l.length) :
    (envelope l).getD j 0 ≤ (envelope l).getD i 0 := by
  induction j, hij using Nat.le_induction with
  | base => exact le_rfl
  | succ j _ ih => exact (envelope_step l j hj).trans (ih (by omega))

/-- every envelope value is attained to the right -/
lemma envelope_attained : ∀ (l : List ℝ) (i : ℕ), i < l.length →
    ∃ k, i ≤ k ∧ k < l.length ∧ (envelope l).getD i 0 = l.getD k 0
  | [], i, h => by simp at h
  | [a], i, h => by
      have : i = 0 := by simpa using h
      subst this; exact ⟨0, le_rfl, by simp, by simp [envelope]⟩
  | a :: b :: l, 0, _ => by
      rw [envelope_cons]
      obtain ⟨k, _, hk, he⟩ := envelope_attained (b :: l) 0 (by simp)
      rcases max_choice a ((envelope (b :: l)).getD 0 0) with h | h
      · exact ⟨0, le_rfl, by simp, by simpa using h⟩
      · refine ⟨k + 1, by omega, by simpa using hk, ?_⟩
        rw [List.getD_cons_succ, ← he]; exact h
  | a :: b :: l, i + 1, h => by
      obtain ⟨k, hik, hk, he⟩ := envelope_attained (b :: l) i (by simpa using h)
      refine ⟨k + 1, by omega, by simpa using hk, ?_⟩
      rw [envelope_cons, List.getD_cons_succ, List.getD_cons_succ, he]

lemma foldl_normalize_id (idx : List ℕ) (e : List ℝ) (h : e.getD 0 0 = 1) :
    idx.foldl (fun e j => e.set j (e.getD j 0 / e.getD 0 0)) e = e := by
  induction idx with
  | nil => rfl
  | cons j idx ih =>
    have : e.set j (e.getD j 0 / e.getD 0 0) = e := by
      rw [h, div_one]
      by_cases hj : j < e.length
      · rw [getD_lt' _ _ _ hj]; simp
      · rw [List.set_eq_of_length_le (by omega)]
    rw [List.foldl_cons, this, ih]

/-- The in-place normalisation only changes the first entry. -/
lemma normalizeInPlace_eq (e : List ℝ) (h : e.getD 0 0 ≠ 0) : normalizeInPlace e = e.set 0 1 := by
  have hl : 0 < e.length := by
    by_contra hl
    exact h (getD_ge' _ _ _ (by omega))
  obtain ⟨m, hm⟩ : ∃ m, e.length = m + 1 := ⟨e.length - 1, by omega⟩
  unfold normalizeInPlace
  rw [hm, List.range_succ_eq_map, List.foldl_cons, div_self h]
  apply foldl_normalize_id
  rw [getD_set _ _ _ _ hl]; simp

lemma scan_ne_exhausted (env : List ℝ) (tol : ℝ) (n : ℕ) : ∀ fuel j, 0 < fuel → fuel + j = n →
    scan env tol n fuel j ≠ .exhausted := by
  intro fuel
  induction fuel with
  | zero => intro j h; omega
  | succ fuel ih =>
    intro j _ hj
    rw [scan]
    simp only
    split_ifs with h1 h2
    · simp
    · simp
    · by_cases hf : fuel = 0
      · subst hf
        unfold roundIdx at h1
        omega
      · exact ih (j + 1) (by omega) (by omega)

lemma scan_found (env : List ℝ) (tol : ℝ) (n : ℕ) (p j2 : ℕ) : ∀ fuel j, 1 ≤ j →
    scan env tol n fuel j = .found p j2 →
    ∃ k, j ≤ k ∧ p = k - 1 ∧ j2 = roundIdx k ∧ j2 < n ∧
      (env.getD k 0 = 0 ∨ env.getD j2 0 / env.getD k 0 > rFun (env.getD k 0) tol) ∧
      (k = j ∨ env.getD (k - 1) 0 ≠ 0) := by
  intro fuel
  induction fuel with
  | zero => intro j _ h; simp [scan] at h
  | succ fuel ih =>
    intro j hj h
    rw [scan] at h
    simp only at h
    split_ifs at h with h1 h2
    · simp only [Scan.found.injEq] at h
      obtain ⟨rfl, rfl⟩ := h
      exact ⟨j, le_rfl, rfl, rfl, by omega, h2, Or.inl rfl⟩
    · obtain ⟨k, hk, e1, e2, e3, e4, e5⟩ := ih (j + 1) (by omega) h
      refine ⟨k, by omega, e1, e2, e3, e4, Or.inr ?_⟩
      rcases e5 with rfl | e5
      · rw [Nat.add_sub_cancel]; exact fun h0 => h2 (Or.inl h0)
      · exact e5

lemma argmin_lt : ∀ l : List ℝ, l ≠ [] → argmin l < l.length
  | [], h => absurd rfl h
  | [_], _ => by simp [argmin]
  | a :: b :: l, _ => by
      have := argmin_lt (b :: l) (by simp)
      rw [argmin]
      split_ifs
      · simp
      · simp only [List.length_cons] at *; omega

lemma argmin_le : ∀ (l : List ℝ) (i : ℕ), i < l.length → l.getD (argmin l) 0 ≤ l.getD i 0
  | [], i, h => by simp at h
  | [a], i, h => by
      have : i = 0 := by simpa using h
      subst this; simp [argmin]
  | a :: b :: l, i, h => by
      rw [argmin]
      split_ifs with hc
      · cases i with
        | zero => exact le_rfl
        | succ i =>
          rw [List.getD_cons_succ]
          exact hc.trans (argmin_le (b :: l) i (by simpa using h))
      · rw [List.getD_cons_succ]
        cases i with
        | zero => exact le_of_not_ge hc
        | succ i =>
          rw [List.getD_cons_succ]
          exact argmin_le (b :: l) i (by simpa using h)

/-- counting the entries satisfying a predicate that holds on an initial segment -/
lemma filter_range_prefix (n : ℕ) (p : ℕ → Bool) (h : ∀ i j, i ≤ j → j < n → p j = true → p i = true)
    (i : ℕ) (hi : i < n) :
    p i = true ↔ i < ((List.range n).filter p).length := by
  induction n with
  | zero => omega
  | succ n ih =>
    rw [List.range_succ, List.filter_append, List.length_append]
    by_cases hn : p n = true
    · have hall : ∀ k ∈ List.range n, p k = true := by
        intro k hk
        exact h k n (by simpa using (List.mem_range.mp hk).le) (by omega) hn
      rw [List.filter_eq_self.mpr hall]
      simp only [List.length_range, List.filter_singleton, hn, List.length_singleton, cond_true]
      constructor
      · intro; omega
      · intro _; exact h i n (by omega) (by omega) hn
    · have h0 : ([n].filter p) = [] := by simp [hn]
      rw [h0, List.length_nil, add_zero]
      by_cases hin : i = n
      · subst hin
        constructor
        · intro h'; exact absurd h' hn
        · intro h'
          have := List.length_filter_le p (List.range i)
          simp at this; omega
      · exact ih (fun i j hij hj hp => h i j hij (by omega) hp) (by omega)

lemma log_tol_neg {tol : ℝ} (h0 : 0 < tol) (h1 : tol < 1) : log tol < 0 := log_neg h0 h1

/-- the plateau test bounds the envelope value -/
lemma plateau_small {e1 e2 tol : ℝ} (h0 : 0 < tol) (h1 : tol < 1) (he2 : e2 ≤ e1) (hnn : 0 ≤ e1)
    (h : e1 = 0 ∨ e2 / e1 > rFun e1 tol) : e1 < tol ^ ((2 : ℝ) / 3) := by
  rcases h with h | h
  · rw [h]; positivity
  · rcases hnn.eq_or_lt with h' | hpos
    · rw [← h']; positivity
    have hr : e2 / e1 ≤ 1 := by rw [div_le_one hpos]; exact he2
    have : rFun e1 tol < 1 := lt_of_lt_of_le h hr
    unfold rFun at this
    have hlog : log e1 / log tol > 2 / 3 := by linarith
    have hneg := log_tol_neg h0 h1
    rw [gt_iff_lt, lt_div_iff_of_neg hneg] at hlog
    rw [← log_lt_log_iff hpos (by positivity), log_rpow h0]
    linarith

/-- The crucial argument: analysis of step 3. -/
lemma chopStep3_spec (E : List ℝ) (tol : ℝ) (h0 : 0 < tol) (h1 : tol < 1) (n k : ℕ)
    (hlen : E.length = n) (hE0 : E.getD 0 0 = 1)
    (hanti : ∀ i j, 1 ≤ i → i ≤ j → j < n → E.getD j 0 ≤ E.getD i 0)
    (hnn : ∀ i, i < n → 0 ≤ E.getD i 0) (hk : 1 ≤ k) (hj2 : roundIdx k < n)
    (hfound : E.getD k 0 = 0 ∨ E.getD (roundIdx k) 0 / E.getD k 0 > rFun (E.getD k 0) tol)
    (hprev : k = 1 ∨ E.getD (k - 1) 0 ≠ 0) :
    chopStep3 E tol n (k - 1) (roundIdx k) + 1 < n ∧
    ∀ i, chopStep3 E tol n (k - 1) (roundIdx k) < i → i < n → E.getD i 0 ≤ tol ^ ((1 : ℝ) / 3) := by
  have hneg := log_tol_neg h0 h1
  have hk2 : k + 5 ≤ roundIdx k := by unfold roundIdx; omega
  have hne : E.getD (k - 1) 0 ≠ 0 := by
    rcases hprev with rfl | h
    · rw [Nat.sub_self, hE0]; norm_num
    · exact h
  have hksmall : E.getD k 0 < tol ^ ((2 : ℝ) / 3) :=
    plateau_small h0 h1 (hanti k _ hk (by omega) hj2) (hnn k (by omega)) hfound
  set ptol : ℝ := tol ^ ((7 : ℝ) / 6) with hptol
  have hptol_pos : 0 < ptol := by positivity
  have hptol_lt : ptol < 1 := rpow_lt_one h0.le h1 (by norm_num)
  set j2 := roundIdx k with hj2def
  set j3 := ((List.range n).filter fun j => decide (E.getD j 0 ≥ ptol)).length with hj3
  have hpref : ∀ i, i < n → (E.getD i 0 ≥ ptol ↔ i < j3) := by
    intro i hi
    have := filter_range_prefix n (fun j => decide (E.getD j 0 ≥ ptol)) ?_ i hi
    · simpa only [decide_eq_true_eq] using this
    · intro a b hab hb hp
      simp only [decide_eq_true_eq] at *
      by_cases ha : a = 0
      · subst ha; rw [hE0]; exact hptol_lt.le
      · exact le_trans hp (hanti a b (by omega) hab hb)
  have hj3pos : 1 ≤ j3 := by
    have := (hpref 0 (by omega)).mp (by rw [hE0]; exact hptol_lt.le)
    omega
  set j2' := if j3 < j2 then j3 + 1 else j2 with hj2'
  set E' := if j3 < j2 then E.set (j2' - 1) ptol else E with hE'
  have hj2'ge : 2 ≤ j2' := by rw [hj2']; split_ifs <;> omega
  have hj2'le : j2' ≤ j2 := by rw [hj2']; split_ifs <;> omega
  have hE'get : ∀ i, i < j2' - 1 → E'.getD i 0 = E.getD i 0 := by
    intro i hi
    rw [hE']
    split_ifs with hc
    · rw [getD_set _ _ _ _ (by omega), if_neg (by omega)]
    · rfl
  have hE'pos : ∀ i, i < j2' → 0 < E'.getD i 0 := by
    intro i hi
    rw [hE']
    split_ifs with hc
    · rw [getD_set _ _ _ _ (by omega)]
      split_ifs with he
      · exact hptol_pos
      · have : i < j3 := by rw [hj2', if_pos hc] at hi he; omega
        exact lt_of_lt_of_le hptol_pos ((hpref i (by omega)).mpr this)
    · have : i < j3 := by rw [hj2', if_neg hc] at hi; omega
      exact lt_of_lt_of_le hptol_pos ((hpref i (by omega)).mpr this)
  have hlast : E'.getD (j2' - 1) 0 < tol ^ ((2 : ℝ) / 3) := by
    rw [hE']
    split_ifs with hc
    · rw [getD_set _ _ _ _ (by omega), if_pos rfl]
      exact rpow_lt_rpow_of_exponent_gt h0 h1 (by norm_num)
    · have : j2' = j2 := by rw [hj2', if_neg hc]
      rw [this]
      exact lt_of_le_of_lt (hanti k _ hk (by omega) (by omega)) hksmall
  set cc := (List.range j2').map fun i =>
      logb 10 (E'.getD i 0) + linspace0 (-1 / 3 * logb 10 tol) j2' i with hcc
  have hstep : chopStep3 E tol n (k - 1) j2 = argmin cc - 1 := by
    simp only [chopStep3]
    rw [if_neg hne]
  have hcclen : cc.length = j2' := by simp [hcc]
  have hccget : ∀ i, i < j2' → cc.getD i 0
      = logb 10 (E'.getD i 0) + linspace0 (-1 / 3 * logb 10 tol) j2' i := by
    intro i hi
    rw [hcc, getD_map_range, if_pos hi]
  have hd := argmin_lt cc (by intro h; rw [h] at hcclen; simp at hcclen; omega)
  rw [hcclen] at hd
  set d := argmin cc with hddef
  have hmin := argmin_le cc (j2' - 1) (by omega)
  rw [← hddef, hccget d hd, hccget _ (by omega)] at hmin
  have hl10 : 0 < log 10 := log_pos (by norm_num)
  have hjr : (1 : ℝ) ≤ (j2' : ℝ) - 1 := by
    have : (2 : ℝ) ≤ j2' := by exact_mod_cast hj2'ge
    linarith
  -- values of the linear bias
  have hlb : linspace0 (-1 / 3 * logb 10 tol) j2' (j2' - 1) = -1 / 3 * logb 10 tol := by
    unfold linspace0
    rw [Nat.cast_sub (by omega)]
    push_cast
    field_simp
  have hlogb_neg : logb 10 tol < 0 := by
    unfold logb; exact div_neg_of_neg_of_pos hneg hl10
  have hbias : 0 ≤ linspace0 (-1 / 3 * logb 10 tol) j2' d := by
    unfold linspace0
    apply mul_nonneg (by positivity)
    apply div_nonneg _ (by linarith)
    linarith
  have hbound : log (E'.getD d 0) < 1 / 3 * log tol := by
    have h3 : logb 10 (E'.getD d 0) ≤ logb 10 (E'.getD (j2' - 1) 0) + -1 / 3 * logb 10 tol := by
      rw [hlb] at hmin; linarith
    have h4 : log (E'.getD (j2' - 1) 0) < 2 / 3 * log tol := by
      rw [← log_rpow h0]
      exact log_lt_log (hE'pos _ (by omega)) hlast
    unfold logb at h3
    have h5 : log (E'.getD d 0) ≤ log (E'.getD (j2' - 1) 0) + -1 / 3 * log tol := by
      have : log (E'.getD (j2' - 1) 0) / log 10 + -1 / 3 * (log tol / log 10)
          = (log (E'.getD (j2' - 1) 0) + -1 / 3 * log tol) / log 10 := by ring
      rw [this] at h3
      exact (div_le_div_iff_of_pos_right hl10).mp h3
    linarith
  have hbound' : E'.getD d 0 < tol ^ ((1 : ℝ) / 3) := by
    rw [← log_lt_log_iff (hE'pos d hd) (by positivity), log_rpow h0]
    exact hbound
  have hd1 : 1 ≤ d := by
    by_contra hd0
    have : d = 0 := by omega
    rw [this, hE'get 0 (by omega), hE0] at hbound
    simp at hbound
    linarith
  rw [hstep]
  refine ⟨by omega, ?_⟩
  intro i hi hin
  have hdi : d ≤ i := by omega
  by_cases hdl : d < j2' - 1
  · rw [hE'get d hdl] at hbound'
    exact (hanti d i hd1 hdi hin).trans hbound'.le
  · have hd_eq : d = j2' - 1 := by omega
    by_cases hc : j3 < j2
    · -- position `d` was overwritten with `ptol`; the original entry is below it
      have hdj : d = j3 := by rw [hd_eq, hj2', if_pos hc]; omega
      have hlt : ¬ (E.getD i 0 ≥ ptol) := by
        rw [hpref i hin]; omega
      push Not at hlt
      exact hlt.le.trans (rpow_le_rpow_of_exponent_ge h0 h1.le (by norm_num))
    · have hEE : E' = E := by rw [hE', if_neg hc]
      rw [hEE] at hbound'
      exact (hanti d i hd1 hdi hin).trans hbound'.le

lemma set0_getD (e : List ℝ) (i : ℕ) (hi : i < e.length) :
    (e.set 0 1).getD i 0 = if i = 0 then 1 else e.getD i 0 := by
  rw [getD_set _ _ _ _ hi]
  by_cases h : i = 0
  · simp [h]
  · rw [if_neg (by omega), if_neg h]

/-- Complete analysis of `standardChop` for a nonnegative vector and `0 < tol < 1`: either it
returns `n`, or everything right of the cutoff is at most `tol^(1/3)`. -/
lemma standardChopAbs_spec (cs : List ℝ) (hcs : ∀ i, i < cs.length → 0 ≤ cs.getD i 0) (tol : ℝ)
    (h0 : 0 < tol) (h1 : tol < 1) (minimum : ℕ) (hmin : 2 ≤ minimum) :
    standardChopAbs cs tol minimum = cs.length ∨
    (standardChopAbs cs tol minimum + 1 < cs.length ∧
      ∀ i, standardChopAbs cs tol minimum < i → i < cs.length →
        cs.getD i 0 ≤ tol ^ ((1 : ℝ) / 3)) := by
  unfold standardChopAbs
  rw [if_neg (by linarith)]
  simp only
  by_cases hn : cs.length < minimum
  · rw [if_pos hn]; exact Or.inl rfl
  rw [if_neg hn]
  by_cases hz : (envelope cs).getD 0 0 = 0
  · rw [if_pos hz]
    right
    refine ⟨by omega, fun i _ hi => ?_⟩
    have := (le_envelope cs i hi).trans (envelope_anti cs 0 i (by omega) hi)
    rw [hz] at this
    exact this.trans (by positivity)
  rw [if_neg hz, normalizeInPlace_eq _ hz]
  have hlen : (envelope cs).length = cs.length := envelope_length cs
  have hE : ∀ i, i < cs.length → ((envelope cs).set 0 1).getD i 0
      = if i = 0 then 1 else (envelope cs).getD i 0 :=
    fun i hi => set0_getD _ _ (by omega)
  cases hs : scan ((envelope cs).set 0 1) tol cs.length (cs.length - 1) 1 with
  | noPlateau => exact Or.inl rfl
  | exhausted => exact Or.inl rfl
  | found p j2 =>
    right
    obtain ⟨k, hk, rfl, rfl, hj2, hf, hprev⟩ := scan_found _ _ _ _ _ _ _ le_rfl hs
    have := chopStep3_spec ((envelope cs).set 0 1) tol h0 h1 cs.length k (by simp [hlen])
      (by rw [hE 0 (by omega), if_pos rfl])
      (by
        intro i j hi hij hj
        rw [hE j hj, hE i (by omega), if_neg (by omega), if_neg (by omega)]
        exact envelope_anti cs i j hij hj)
      (by
        intro i hi
        rw [hE i hi]
        split_ifs
        · norm_num
        · obtain ⟨q, _, hq, he⟩ := envelope_attained cs i hi
          rw [he]; exact hcs q hq)
      hk hj2 hf hprev
    refine ⟨this.1, fun i hi hin => ?_⟩
    have h2 := this.2 i hi hin
    rw [hE i hin, if_neg (by omega)] at h2
    exact (le_envelope cs i hin).trans h2

lemma standardChop_spec (c : List ℝ) (tol : ℝ) (h0 : 0 < tol) (h1 : tol < 1) :
    standardChop c tol = c.length ∨
    (standardChop c tol + 1 < c.length ∧
      ∀ i, standardChop c tol < i → |c.getD i 0| ≤ tol ^ ((1 : ℝ) / 3)) := by
  have hg : ∀ i, i < c.length → (c.map abs).getD i 0 = |c.getD i 0| := by
    intro i hi
    rw [getD_lt' _ _ _ (by simpa using hi), getD_lt' _ _ _ hi, List.getElem_map]
  have := standardChopAbs_spec (c.map abs) (by
    intro i hi
    simp only [List.length_map] at hi
    rw [hg i hi]; exact abs_nonneg _) tol h0 h1 17 (by norm_num)
  simp only [List.length_map] at this
  rcases this with h | ⟨h, h'⟩
  · exact Or.inl h
  · right
    refine ⟨h, fun i hi => ?_⟩
    by_cases hin : i < c.length
    · rw [← hg i hin]; exact h' i hi hin
    · rw [getD_ge' _ _ _ (by omega), abs_zero]; positivity

end Funpy.Cheb
