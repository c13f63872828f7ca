import Verif.Lemmas.ChebRoots
import Verif.Props.ChebObj

/-!
# C28, C29: root finding
-/

namespace Funpy.Props
open Spec Cheb Real Finset Polynomial Mapping

/-- The column of real coefficients, read as complex numbers. -/
noncomputable def cplx (c : List ℝ) : List ℂ := c.map fun z : ℝ => (z : ℂ)

/-- The pencil `A - z B` over the complex numbers. -/
noncomputable def pencil (c : List ℝ) (z : ℂ) : Matrix (Fin (c.length - 1)) (Fin (c.length - 1)) ℂ :=
  (colleagueA c).map (fun x : ℝ => (x : ℂ)) - z • (colleagueB c).map (fun x : ℝ => (x : ℂ))

private lemma maxAbs_pos (l : List ℝ) (k : ℕ) (hk : l.getD k 0 ≠ 0) : 0 < maxAbs l := by
  have key : ∀ (l : List ℝ) (a : ℝ), 0 ≤ a → (a ≤ (l.map abs).foldl max a) ∧
      ∀ x ∈ l, |x| ≤ (l.map abs).foldl max a := by
    intro l
    induction l with
    | nil => intro a _; simp
    | cons y l ih =>
      intro a ha
      obtain ⟨h1, h2⟩ := ih (max a |y|) (le_max_of_le_left ha)
      simp only [List.map_cons, List.foldl_cons, List.mem_cons]
      refine ⟨(le_max_left _ _).trans h1, ?_⟩
      rintro x (rfl | hx)
      · exact (le_max_right _ _).trans h1
      · exact h2 x hx
  have hlt : k < l.length := by
    by_contra h
    exact hk (getD_ge' _ _ _ (by omega))
  rw [getD_lt' _ _ _ hlt] at hk
  exact lt_of_lt_of_le (abs_pos.mpr hk) ((key l 0 le_rfl).2 _ (List.getElem_mem _))

/-- C28: for a column with at least three coefficients and a non-zero last one, the generalised
eigenvalues of the pencil handed to the eigensolver are exactly the (complex) zeros of the function. -/
theorem C28_pencil (c : List ℝ) (h3 : 3 ≤ c.length) (hl : c.getD (c.length - 1) 0 ≠ 0) (z : ℂ) :
    (pencil c z).det = 0 ↔ chebEval (cplx c) z = 0 := by
  set nu := infNorm c with hnu
  have hnpos : 0 < nu := maxAbs_pos c _ hl
  set N := c.length - 1 with hN
  set a : ℕ → ℂ := fun k => ((c.getD k 0 / nu : ℝ) : ℂ) with ha
  have hmap : ∀ k, (c.map (· / nu)).getD k 0 = c.getD k 0 / nu := by
    intro k
    have := getD_map' (· / nu) 0 c k
    simpa using this
  have hcl : (colleagueCol c).length = N := by simp [colleagueCol, hN]
  have hcc : ∀ k, k < N → (colleagueCol c).getD k 0
      = -0.5 * (c.getD k 0 / nu) + (if k = N - 2 then 0.5 * (c.getD N 0 / nu) else 0) := by
    intro k hk
    simp only [colleagueCol, ← hnu, List.length_map, List.length_take]
    rw [hmap]
    have hlen : min (c.length - 1) c.length = N := by omega
    simp only [hlen]
    have hg : ∀ j, j < N → (((c.map (· / nu)).take (c.length - 1)).map (-0.5 * ·)).getD j 0
        = -0.5 * (c.getD j 0 / nu) := by
      intro j hj
      rw [getD_lt' (List.map _ _) _ _ (by simp; omega), List.getElem_map, List.getElem_take,
        ← getD_lt' _ 0 _ (by simp; omega), hmap]
    rw [getD_set', hg k hk, hg (N - 2) (by omega)]
    simp only [List.length_map, List.length_take, hlen]
    by_cases h : k = N - 2
    · rw [if_pos ⟨h.symm, by omega⟩, if_pos h, ← h, ← hN]
    · rw [if_neg (fun h' => h h'.1.symm), if_neg h, add_zero]
  have hK : ∀ i j : Fin N, pencil c z i j = pk N a z i j := by
    intro i j
    simp only [pencil, Matrix.sub_apply, Matrix.smul_apply, Matrix.map_apply, colleagueA, colleagueB,
      smul_eq_mul, ← hnu, ← hN, hmap]
    have hi := i.isLt
    have hj := j.isLt
    have hNN : c.length - 2 = N - 1 := by omega
    rw [pk]
    simp only [hNN]
    by_cases hj0 : j.val = 0
    · rw [if_pos hj0, if_pos hj0]
      rw [getD_lt' _ _ _ (by rw [List.length_reverse, hcl]; exact hi), List.getElem_reverse,
        ← getD_lt' _ 0 _ (by rw [hcl]; omega), hcc _ (by rw [hcl]; omega)]
      simp only [hcl]
      have hij : i = j ↔ i.val = 0 := by rw [Fin.ext_iff]; omega
      by_cases hi0 : i.val = 0
      · rw [if_pos (hij.mpr hi0), if_pos hi0, if_pos hi0, if_neg (by omega), if_neg (by omega)]
        simp only [ha]; push_cast; ring
      · rw [if_neg (fun h => hi0 (hij.mp h)), if_neg hi0]
        by_cases hi1 : i.val = 1
        · rw [if_pos (by omega), if_pos hi1]
          simp only [ha]; push_cast; ring
        · rw [if_neg (by omega), if_neg hi1]
          simp only [ha]; push_cast; ring
    · rw [if_neg hj0, if_neg hj0]
      have hij : i = j ↔ i.val = j.val := Fin.ext_iff
      by_cases h1 : i.val = j.val - 1
      · have hne : ¬ i = j := by rw [hij]; omega
        rw [if_pos h1, if_neg (by omega : ¬ i.val = j.val + 1), if_neg (by omega : ¬ i.val = j.val),
          if_neg hne]
        by_cases h2 : j.val + 1 = N
        · rw [if_pos (⟨by omega, h2⟩ : i.val + 2 = N ∧ j.val + 1 = N), if_pos h2]; simp
        · rw [if_neg (by omega : ¬ (i.val + 2 = N ∧ j.val + 1 = N)),
            if_pos (by omega : j.val = i.val + 1 ∧ j.val < N - 1), if_neg h2]; push_cast; ring
      · by_cases h2 : i.val = j.val + 1
        · have hne : ¬ i = j := by rw [hij]; omega
          rw [if_neg (by omega : ¬ (i.val + 2 = N ∧ j.val + 1 = N)),
            if_neg (by omega : ¬ (j.val = i.val + 1 ∧ j.val < N - 1)),
            if_pos (by omega : i.val = j.val + 1 ∧ j.val < N - 1), if_neg h1, if_pos h2,
            if_neg hne, if_neg (by omega : ¬ i.val = j.val)]
          push_cast; ring
        · rw [if_neg (by omega : ¬ (i.val + 2 = N ∧ j.val + 1 = N)),
            if_neg (by omega : ¬ (j.val = i.val + 1 ∧ j.val < N - 1)),
            if_neg (by omega : ¬ (i.val = j.val + 1 ∧ j.val < N - 1)), if_neg h1, if_neg h2]
          by_cases h3 : i.val = j.val
          · rw [if_pos (hij.mpr h3), if_neg (by omega : ¬ i.val = 0), if_pos h3]; simp
          · have hne : ¬ i = j := by rw [hij]; omega
            rw [if_neg hne, if_neg h3]; simp
  rw [pencil_det N (by omega) a z _ hK]
  have : chebEval (cplx c) z = nu * ∑ k ∈ range (N + 1), a k * tz z k := by
    unfold chebEval
    rw [show (cplx c).length = N + 1 by simp [cplx]; omega, mul_sum]
    apply sum_congr rfl
    intro k _
    have h1 : (cplx c).getD k 0 = ((c.getD k 0 : ℝ) : ℂ) := by
      have := getD_map' (fun z : ℝ => (z : ℂ)) 0 c k
      simpa [cplx] using this
    rw [h1]
    simp only [ha, tz]
    push_cast
    have : (nu : ℂ) ≠ 0 := by exact_mod_cast hnpos.ne'
    field_simp
  rw [this, mul_eq_zero]
  simp [hnpos.ne']

/-- What is assumed of the external eigenvalue routine: on every pencil built from coefficients with a
non-zero last entry it returns exactly the generalised eigenvalues. -/
def EigSpec (eig : List ℝ → List ℂ) : Prop :=
  ∀ c : List ℝ, 3 ≤ c.length → c.getD (c.length - 1) 0 ≠ 0 → ∀ z, z ∈ eig c ↔ (pencil c z).det = 0

private lemma chebEval_cplx (c : List ℝ) (x : ℝ) : chebEval (cplx c) (x : ℂ) = ((chebEval c x : ℝ) : ℂ) := by
  unfold chebEval
  rw [show (cplx c).length = c.length by simp [cplx]]
  push_cast
  apply sum_congr rfl
  intro k _
  have h1 : (cplx c).getD k 0 = ((c.getD k 0 : ℝ) : ℂ) := by
    have := getD_map' (fun z : ℝ => (z : ℂ)) 0 c k
    simpa [cplx] using this
  rw [h1]

/-- The assumption on the eigenvalue routine can be met. -/
theorem C28_eigSpec_satisfiable : ∃ eig, EigSpec eig := by
  classical
  have hex : ∀ c : List ℝ, 3 ≤ c.length → c.getD (c.length - 1) 0 ≠ 0 →
      ∃ l : List ℂ, ∀ z, z ∈ l ↔ (pencil c z).det = 0 := by
    intro c h3 hl
    have hne : chebPoly (cplx c) ≠ 0 := by
      intro h0
      have hr : chebPoly c = 0 := by
        apply Polynomial.funext
        intro x
        have h1 : (chebPoly (cplx c)).eval (x : ℂ) = chebEval (cplx c) (x : ℂ) := by
          unfold chebPoly chebEval
          rw [eval_finsetSum]
          exact sum_congr rfl fun k _ => by simp
        rw [h0, eval_zero, chebEval_cplx] at h1
        rw [eval_chebPoly, eval_zero]
        exact_mod_cast h1.symm
      have hv : polyvalCol c = polyvalCol (List.replicate c.length 0) := by
        rw [polyvalCol_eq c (by intro h; simp [h] at h3), polyvalCol_eq _ (by
          intro h; have := congrArg List.length h; simp at this; simp [this] at h3)]
        rw [List.length_replicate]
        apply List.map_congr_left
        intro x _
        rw [← eval_chebPoly, ← eval_chebPoly, hr, chebPoly_replicate_zero]
      have := congrArg polyfitCol hv
      rw [polyfit_polyval_col c (by intro h; simp [h] at h3), polyfit_polyval_col _ (by
          intro h; have := congrArg List.length h; simp at this; simp [this] at h3)] at this
      apply hl
      rw [this, getD_replicate']
    refine ⟨(chebPoly (cplx c)).roots.toList, fun z => ?_⟩
    rw [Multiset.mem_toList, mem_roots hne, IsRoot.def, C28_pencil c h3 hl]
    have h1 : (chebPoly (cplx c)).eval z = chebEval (cplx c) z := by
      unfold chebPoly chebEval
      rw [eval_finsetSum]
      exact sum_congr rfl fun k _ => by simp
    rw [h1]
  refine ⟨fun c => if h : 3 ≤ c.length ∧ c.getD (c.length - 1) 0 ≠ 0 then
    (hex c h.1 h.2).choose else [], ?_⟩
  intro c h3 hl z
  simp only [dif_pos (⟨h3, hl⟩ : 3 ≤ c.length ∧ c.getD (c.length - 1) 0 ≠ 0)]
  exact (hex c h3 hl).choose_spec z

/-! ### Truncation -/

private lemma getLast_filter_range (n : ℕ) (P : ℕ → Bool) (k : ℕ)
    (h : ((List.range n).filter P).getLast? = some k) :
    k < n ∧ P k = true ∧ ∀ j, k < j → j < n → P j = false := by
  induction n with
  | zero => simp at h
  | succ n ih =>
    rw [List.range_succ, List.filter_append] at h
    by_cases hn : P n = true
    · have : List.filter P [n] = [n] := by simp [hn]
      rw [this, List.getLast?_append] at h
      simp at h
      subst h
      exact ⟨by omega, hn, fun j h1 h2 => by omega⟩
    · have : List.filter P [n] = [] := by simp [hn]
      rw [this, List.append_nil] at h
      obtain ⟨h1, h2, h3⟩ := ih h
      refine ⟨by omega, h2, fun j hj hj2 => ?_⟩
      rcases Nat.lt_succ_iff_lt_or_eq.mp hj2 with h' | h'
      · exact h3 j hj h'
      · subst h'; simpa using hn

/-- C28: the truncation of the coefficients: what is dropped is at most `5 eps ‖c‖₁` in absolute
value, what remains ends with a coefficient larger than that. -/
theorem C28_truncation (c : List ℝ) (eps : ℝ) (n : ℕ) (hc : 2 ≤ c.length) (h : keepLen c eps = some n) :
    1 ≤ n ∧ n ≤ c.length ∧ 5 * eps * (c.map abs).sum < |c.getD (n - 1) 0| ∧
    ∀ k, n ≤ k → k < c.length → |c.getD k 0| ≤ 5 * eps * (c.map abs).sum := by
  classical
  simp only [keepLen] at h
  rw [if_neg (by omega), Option.map_eq_some_iff] at h
  obtain ⟨k, hk, rfl⟩ := h
  obtain ⟨h1, h2, h3⟩ := getLast_filter_range _ _ _ hk
  refine ⟨by omega, by omega, by simpa using h2, ?_⟩
  intro j hj hj2
  have := h3 j (by omega) hj2
  simpa using this

/-- C28: hence on `[-1, 1]` the truncated function differs from the original one by at most the
number of dropped coefficients times `5 eps ‖c‖₁`. -/
theorem C28_truncation_error (c : List ℝ) (eps : ℝ) (heps : 0 ≤ eps) (n : ℕ) (hc : 2 ≤ c.length)
    (h : keepLen c eps = some n) (x : ℝ) (hx : |x| ≤ 1) :
    |chebEval c x - chebEval (c.take n) x|
      ≤ ((c.length - n : ℕ) : ℝ) * (5 * eps * (c.map abs).sum) := by
  obtain ⟨h1, h2, _, h4⟩ := C28_truncation c eps n hc h
  have hT : ∀ k : ℕ, |(Chebyshev.T ℝ (k : ℤ)).eval x| ≤ 1 := by
    intro k
    rw [← cos_arccos (neg_le_of_abs_le hx) (le_of_abs_le hx), Chebyshev.T_real_cos]
    exact abs_cos_le_one _
  rw [chebEval_eq_of_getD c c.length le_rfl, chebEval_eq_of_getD (c.take n) c.length (by simp),
    ← sum_sub_distrib]
  have hterm : ∀ k ∈ range c.length, |c.getD k 0 * (Chebyshev.T ℝ (k : ℤ)).eval x
      - (c.take n).getD k 0 * (Chebyshev.T ℝ (k : ℤ)).eval x|
      ≤ if n ≤ k ∧ k < c.length then 5 * eps * (c.map abs).sum else 0 := by
    intro k hk
    rw [mem_range] at hk
    by_cases hkn : k < n
    · rw [getD_lt' (c.take n) _ _ (by simp; omega), List.getElem_take, getD_lt' _ _ _ hk, sub_self,
        abs_zero, if_neg (by omega)]
    · rw [getD_ge' (c.take n) _ _ (by simp; omega), zero_mul, sub_zero, if_pos ⟨by omega, hk⟩, abs_mul]
      have hb := h4 k (by omega) hk
      have h0 : 0 ≤ |c.getD k 0| := abs_nonneg _
      calc |c.getD k 0| * |(Chebyshev.T ℝ (k : ℤ)).eval x| ≤ |c.getD k 0| * 1 :=
            mul_le_mul_of_nonneg_left (hT k) h0
        _ ≤ _ := by linarith
  refine (abs_sum_le_sum_abs _ _).trans ((sum_le_sum hterm).trans ?_)
  rw [← sum_filter, sum_const, nsmul_eq_mul]
  have : ({k ∈ range c.length | n ≤ k ∧ k < c.length}) = Ico n c.length := by
    ext k; simp
  rw [this, Nat.card_Ico]

/-! ### The base case -/

private lemma clean_spec (htol : ℝ) (hpos : 0 < htol) (l : List ℂ) :
    (∀ x : ℝ, (x : ℂ) ∈ l → |x| ≤ 1 → x ∈ cleanRoots htol l) ∧
    (∀ y ∈ cleanRoots htol l, ∃ z ∈ l, |z.im| < htol ∧ |z.re| ≤ 1 + htol ∧ |y - z.re| ≤ htol ∧
      (|z.re| ≤ 1 → y = z.re)) := by
  classical
  set r0 := ((l.filter fun z => decide (|z.im| < htol)).map Complex.re).filter
    (fun x => decide (|x| ≤ 1 + htol)) with hr0
  set r := r0.mergeSort (fun a b => decide (a ≤ b)) with hr
  have hmem : ∀ x, x ∈ r ↔ ∃ z ∈ l, |z.im| < htol ∧ z.re = x ∧ |x| ≤ 1 + htol := by
    intro x
    rw [hr, List.mem_mergeSort, hr0]
    simp only [List.mem_filter, List.mem_map, decide_eq_true_eq]
    constructor
    · rintro ⟨⟨z, ⟨h1, h2⟩, h3⟩, h4⟩; exact ⟨z, h1, h2, h3, h4⟩
    · rintro ⟨z, h1, h2, h3, h4⟩; exact ⟨⟨z, ⟨h1, h2⟩, h3⟩, h4⟩
  have hcl : cleanRoots htol l = ((r.set 0 (max (r.getD 0 0) (-1))).set
      ((r.set 0 (max (r.getD 0 0) (-1))).length - 1)
      (min ((r.set 0 (max (r.getD 0 0) (-1))).getD ((r.set 0 (max (r.getD 0 0) (-1))).length - 1) 0) 1)) := by
    simp only [cleanRoots, ← hr0, ← hr]
  have hlen : (cleanRoots htol l).length = r.length := by rw [hcl]; simp
  -- entry by entry
  have hent : ∀ i, i < r.length → ∃ y, (cleanRoots htol l).getD i 0 = y ∧
      (|r.getD i 0| ≤ 1 → y = r.getD i 0) ∧ (|r.getD i 0| ≤ 1 + htol → |y - r.getD i 0| ≤ htol) := by
    intro i hi
    refine ⟨_, rfl, ?_⟩
    have h1 : (cleanRoots htol l).getD i 0 =
        if r.length - 1 = i then min (if 0 = i then max (r.getD 0 0) (-1) else r.getD i 0) 1
        else if 0 = i then max (r.getD 0 0) (-1) else r.getD i 0 := by
      rw [hcl, getD_set', List.length_set, getD_set', getD_set']
      by_cases ha : r.length - 1 = i
      · rw [if_pos ⟨ha, by omega⟩, if_pos ha, ha]
        by_cases hb : 0 = i
        · rw [if_pos ⟨hb, by omega⟩, if_pos hb]
        · rw [if_neg (fun h => hb h.1), if_neg hb]
      · rw [if_neg (fun h => ha h.1), if_neg ha]
        by_cases hb : 0 = i
        · rw [if_pos ⟨hb, by omega⟩, if_pos hb]
        · rw [if_neg (fun h => hb h.1), if_neg hb]
    have h2 : (if 0 = i then max (r.getD 0 0) (-1) else r.getD i 0)
        = if 0 = i then max (r.getD i 0) (-1) else r.getD i 0 := by
      by_cases hb : 0 = i
      · rw [if_pos hb, if_pos hb, ← hb]
      · rw [if_neg hb, if_neg hb]
    rw [h1, h2]
    generalize r.getD i 0 = w
    constructor
    · intro hw
      obtain ⟨hw1, hw2⟩ := abs_le.mp hw
      split_ifs <;> simp [hw1, hw2]
    · intro hw
      obtain ⟨hw1, hw2⟩ := abs_le.mp hw
      rw [abs_le]
      split_ifs
      · rcases max_cases w (-1) with ⟨e, _⟩ | ⟨e, _⟩ <;> rw [e] <;>
          rcases min_cases w 1 with ⟨e', _⟩ | ⟨e', _⟩ <;>
          first | (rw [e']; constructor <;> linarith) | (norm_num; constructor <;> linarith)
      · rcases min_cases w 1 with ⟨e', _⟩ | ⟨e', _⟩ <;> rw [e'] <;> constructor <;> linarith
      · rcases max_cases w (-1) with ⟨e, _⟩ | ⟨e, _⟩ <;> rw [e] <;> constructor <;> linarith
      · constructor <;> linarith
  constructor
  · intro x hx hx1
    have hxr : x ∈ r := (hmem x).mpr ⟨x, hx, by simpa using hpos, by simp, by linarith⟩
    obtain ⟨i, hi, hxi⟩ := List.mem_iff_getElem.mp hxr
    obtain ⟨y, hy, hy1, _⟩ := hent i hi
    rw [getD_lt' r _ _ hi, hxi] at hy1
    rw [getD_lt' _ _ _ (by omega)] at hy
    rw [← hy1 hx1, ← hy]
    exact List.getElem_mem _
  · intro y hy
    obtain ⟨i, hi, hyi⟩ := List.mem_iff_getElem.mp hy
    have hi' : i < r.length := by omega
    obtain ⟨y', hy', hy1, hy2⟩ := hent i hi'
    rw [getD_lt' _ _ _ hi, hyi] at hy'
    subst hy'
    rw [getD_lt' r _ _ hi'] at hy1 hy2
    obtain ⟨z, hz, hz1, hz2, hz3⟩ := (hmem _).mp (List.getElem_mem hi')
    refine ⟨z, hz, hz1, by rw [hz2]; exact hz3, by rw [hz2]; exact hy2 hz3, ?_⟩
    rw [hz2]; exact hy1

/-- C28, direct case (3 to 50 coefficients after truncation): every zero in `[-1, 1]` of the truncated
function is reported, and every reported number is, up to the tolerance, the real part of a complex
zero whose imaginary part is below the tolerance. -/
theorem C28_base (eig : List ℝ → List ℂ) (he : EigSpec eig) (s : ℝ) (fuel : ℕ) (c : List ℝ)
    (htol eps : ℝ) (hpos : 0 < htol) (heps : 0 ≤ eps) (n : ℕ) (hk : keepLen c eps = some n) (h3 : 3 ≤ n)
    (h50 : n ≤ 50) :
    ∃ r, rootsMain eig s (fuel + 1) c htol eps = some r ∧
      (∀ x, |x| ≤ 1 → chebEval (c.take n) x = 0 → x ∈ r) ∧
      (∀ y ∈ r, |y| ≤ 1 + 2 * htol ∧ ∃ z : ℂ, chebEval (cplx (c.take n)) z = 0 ∧ |z.im| < htol ∧
        |y - z.re| ≤ htol ∧ (|z.re| ≤ 1 → y = z.re)) := by
  have hlen2 : 2 ≤ c.length := by
    by_contra hlt
    simp only [keepLen] at hk
    rw [if_pos (by omega), Option.some.injEq] at hk
    omega
  obtain ⟨_, hn, hlast, _⟩ := C28_truncation c eps n hlen2 hk
  have htr : truncateTo c n = c.take n := by
    rw [truncateTo]
    split_ifs with h
    · rfl
    · rw [List.take_of_length_le (by omega)]
  have hcl : (c.take n).length = n := by simp; omega
  have hl0 : (c.take n).getD ((c.take n).length - 1) 0 ≠ 0 := by
    rw [hcl, getD_lt' (c.take n) _ _ (by omega), List.getElem_take, ← getD_lt' c 0 _ (by omega)]
    intro h0
    rw [h0, abs_zero] at hlast
    have : 0 ≤ (c.map abs).sum := List.sum_nonneg (by
      intro x hx; rw [List.mem_map] at hx; obtain ⟨y, _, rfl⟩ := hx; exact abs_nonneg _)
    have : 0 ≤ 5 * eps * (c.map abs).sum := by positivity
    linarith
  have hspec := he (c.take n) (by omega) hl0
  obtain ⟨h1, h2⟩ := clean_spec htol hpos (eig (c.take n))
  refine ⟨cleanRoots htol (eig (c.take n)), ?_, ?_, ?_⟩
  · rw [rootsMain]
    simp only [hk, htr, Option.bind_eq_bind, Option.bind_some]
    rw [if_neg (by omega), if_neg (by omega), if_neg (by omega), if_pos h50]
  · intro x hx hx0
    refine h1 x ?_ hx
    rw [hspec, C28_pencil _ (by omega) hl0, chebEval_cplx, hx0]; rfl
  · intro y hy
    obtain ⟨z, hz, hz1, hz2, hz3, hz4⟩ := h2 y hy
    rw [hspec, C28_pencil _ (by omega) hl0] at hz
    refine ⟨?_, z, hz, hz1, hz3, hz4⟩
    have := abs_add_le (y - z.re) z.re
    rw [sub_add_cancel] at this
    linarith

/-- C28, linear case: the one number reported is the unique zero of the (truncated) function. -/
theorem C28_linear (eig : List ℝ → List ℂ) (s : ℝ) (fuel : ℕ) (c : List ℝ) (htol eps : ℝ)
    (heps : 0 ≤ eps) (hk : keepLen c eps = some 2) :
    ∃ y, rootsMain eig s (fuel + 1) c htol eps = some [y] ∧
      ∀ x : ℝ, chebEval (c.take 2) x = 0 ↔ x = y := by
  have hlen2 : 2 ≤ c.length := by
    by_contra hlt
    simp only [keepLen] at hk
    rw [if_pos (by omega), Option.some.injEq] at hk
    omega
  obtain ⟨_, hn, hlast, _⟩ := C28_truncation c eps 2 hlen2 hk
  match c, hlen2 with
  | a :: b :: l, _ =>
    have hb : b ≠ 0 := by
      rintro rfl
      have h1 : 0 ≤ (((a :: 0 :: l).map abs).sum) := List.sum_nonneg (by
        intro x hx; rw [List.mem_map] at hx; obtain ⟨y, _, rfl⟩ := hx; exact abs_nonneg _)
      have : 0 ≤ 5 * eps * ((a :: 0 :: l).map abs).sum := by positivity
      simp only [List.getD_cons_succ, List.getD_cons_zero, abs_zero] at hlast
      linarith
    refine ⟨-a / b, ?_, ?_⟩
    · rw [rootsMain]
      simp only [hk, Option.bind_eq_bind, Option.bind_some]
      rw [if_neg (by norm_num), if_neg (by norm_num), if_pos trivial]
      simp only [truncateTo]
      split_ifs <;> simp
    · intro x
      simp only [List.take_succ_cons, List.take_zero, chebEval, List.length_cons, List.length_nil]
      rw [sum_range_succ, sum_range_succ]
      simp
      constructor
      · intro h; field_simp; linarith
      · rintro rfl; field_simp; ring

/-! ### The recursive case -/

/-- C28, recursive case (more than 50 coefficients): the two halves are searched for the zeros of the
exact compositions of the truncated function with the affine maps onto `[-1, s]` and `[s, 1]`, and
their zeros are mapped back with these maps. -/
theorem C28_split (eig : List ℝ → List ℂ) (s : ℝ) (fuel : ℕ) (c : List ℝ) (htol eps : ℝ) (n : ℕ)
    (hk : keepLen c eps = some n) (h50 : 50 < n) (r : List ℝ)
    (hr : rootsMain eig s (fuel + 1) c htol eps = some r) :
    ∃ cl cr rl rr,
      (∀ t, chebEval cl t = chebEval (c.take n) ((s - 1) / 2 + (s + 1) / 2 * t)) ∧
      (∀ t, chebEval cr t = chebEval (c.take n) ((s + 1) / 2 + (1 - s) / 2 * t)) ∧
      rootsMain eig s fuel cl (2 * htol) 1.48e-8 = some rl ∧
      rootsMain eig s fuel cr (2 * htol) 1.48e-8 = some rr ∧
      r = rl.map (fun t => (s - 1) / 2 + (s + 1) / 2 * t) ++
        rr.map (fun t => (s + 1) / 2 + (1 - s) / 2 * t) := by
  have hlen2 : 2 ≤ c.length := by
    by_contra hlt
    simp only [keepLen] at hk
    rw [if_pos (by omega), Option.some.injEq] at hk
    omega
  obtain ⟨_, hn, _, _⟩ := C28_truncation c eps n hlen2 hk
  have htr : truncateTo c n = c.take n := by
    rw [truncateTo]
    split_ifs with h
    · rfl
    · rw [List.take_of_length_le (by omega)]
  have hcl : (c.take n).length = n := by simp; omega
  have hne : c.take n ≠ [] := by intro h; rw [h] at hcl; simp at hcl; omega
  rw [rootsMain] at hr
  simp only [hk, htr, Option.bind_eq_bind, Option.bind_some] at hr
  rw [if_neg (by omega), if_neg (by omega), if_neg (by omega), if_neg (by omega)] at hr
  simp only [Option.bind_eq_some_iff] at hr
  obtain ⟨rl, hrl, rr, hrr, hres⟩ := hr
  refine ⟨_, _, rl, rr, ?_, ?_, hrl, hrr, (Option.some.inj hres).symm⟩
  · intro t
    have e : (s - 1) / 2 + (s + 1) / 2 * t = 0.5 * (s * (t + 1) + (-1) * (1 - t)) := by ring
    rw [e]
    split_ifs with h
    · exact splitFFT_eval _ (by omega) _ _ _
    · exact splitClenshaw_eval _ hne _ _ _
  · intro t
    have e : (s + 1) / 2 + (1 - s) / 2 * t = 0.5 * (1 * (t + 1) + s * (1 - t)) := by ring
    rw [e]
    split_ifs with h
    · exact splitFFT_eval _ (by omega) _ _ _
    · exact splitClenshaw_eval _ hne _ _ _

/-- C28: consequently the recursion neither loses nor invents zeros: if the searches of the two halves
report all zeros of their functions in `[-1, 1]`, the combined list contains all zeros of the
truncated function in `[-1, 1]`; and if they report only zeros, so does the combined list. -/
theorem C28_recursion (eig : List ℝ → List ℂ) (s : ℝ) (hs : -1 < s ∧ s < 1) (fuel : ℕ) (c : List ℝ)
    (htol eps : ℝ) (n : ℕ) (hk : keepLen c eps = some n) (h50 : 50 < n) (r : List ℝ)
    (hr : rootsMain eig s (fuel + 1) c htol eps = some r) :
    ∃ cl cr rl rr,
      rootsMain eig s fuel cl (2 * htol) 1.48e-8 = some rl ∧
      rootsMain eig s fuel cr (2 * htol) 1.48e-8 = some rr ∧
      ((∀ t, |t| ≤ 1 → chebEval cl t = 0 → t ∈ rl) → (∀ t, |t| ≤ 1 → chebEval cr t = 0 → t ∈ rr) →
        ∀ x, |x| ≤ 1 → chebEval (c.take n) x = 0 → x ∈ r) ∧
      ((∀ t ∈ rl, chebEval cl t = 0) → (∀ t ∈ rr, chebEval cr t = 0) →
        ∀ x ∈ r, chebEval (c.take n) x = 0) := by
  obtain ⟨cl, cr, rl, rr, h1, h2, h3, h4, rfl⟩ := C28_split eig s fuel c htol eps n hk h50 r hr
  refine ⟨cl, cr, rl, rr, h3, h4, ?_, ?_⟩
  · intro hl hrr x hx hx0
    obtain ⟨hx1, hx2⟩ := abs_le.mp hx
    rw [List.mem_append, List.mem_map, List.mem_map]
    rcases le_or_gt x s with h | h
    · left
      have hd : s + 1 ≠ 0 := by linarith [hs.1]
      have e : (s - 1) / 2 + (s + 1) / 2 * ((2 * x - s + 1) / (s + 1)) = x := by field_simp; ring
      refine ⟨(2 * x - s + 1) / (s + 1), hl _ ?_ (by rw [h1, e]; exact hx0), e⟩
      rw [abs_le]
      have hsp : 0 < s + 1 := by linarith [hs.1]
      constructor
      · rw [le_div_iff₀ hsp]; linarith
      · rw [div_le_iff₀ hsp]; linarith
    · right
      have hd : 1 - s ≠ 0 := by linarith [hs.2]
      have e : (s + 1) / 2 + (1 - s) / 2 * ((2 * x - s - 1) / (1 - s)) = x := by field_simp; ring
      refine ⟨(2 * x - s - 1) / (1 - s), hrr _ ?_ (by rw [h2, e]; exact hx0), e⟩
      rw [abs_le]
      have hsp : 0 < 1 - s := by linarith [hs.2]
      constructor
      · rw [le_div_iff₀ hsp]; linarith
      · rw [div_le_iff₀ hsp]; linarith
  · intro hl hrr x hx
    rw [List.mem_append, List.mem_map, List.mem_map] at hx
    rcases hx with ⟨t, ht, rfl⟩ | ⟨t, ht, rfl⟩
    · rw [← h1]; exact hl t ht
    · rw [← h2]; exact hrr t ht

/-- C28: the split point used by the code lies strictly inside the interval. -/
theorem C28_splitPoint : -1 < splitPoint ∧ splitPoint < 1 := by
  constructor <;> norm_num [splitPoint]

/-- C28 for `Fun` objects: the reported points are the images under the domain map of the points
reported on `[-1, 1]`, and a zero of the underlying function at `t` is a zero of `f` at the image. -/
theorem C28_fun (eig : List ℝ → List ℂ) (fuel : ℕ) (f : ChebFun) (hd : f.dom.e0 < f.dom.e1)
    (r : List ℝ) (h : f.roots eig fuel = some r) :
    ∃ r0, f.onefun.roots eig fuel = some r0 ∧ r = r0.map (fwd f.dom) ∧
      ∀ t, vals f (fwd f.dom t) = tv f.onefun t := by
  simp only [ChebFun.roots, Option.map_eq_some_iff] at h
  obtain ⟨r0, h1, h2⟩ := h
  refine ⟨r0, h1, h2.symm, fun t => ?_⟩
  simp only [vals, tv]
  rw [((C01_inverse f.dom hd).1 t)]

/-- Meeting the hypotheses: the coefficients of `T_2 - 1/2`, whose zeros are `±√3/2`. -/
example : keepLen [-1 / 2, 0, 1] 0 = some 3 := by
  classical
  norm_num [keepLen, List.range_succ]

/-! ## C29 -/

private lemma keepLen_linear (a b : ℝ) (hab : 5 * 1.48e-8 * (|a| + |b|) < |b|) (v : ℝ) (hv : 0 < v) (k : ℕ) :
    keepLen (([a, b] ++ List.replicate k (0 : ℝ)).map (· / v)) 1.48e-8 = some 2 := by
  classical
  have hki : 0 < v⁻¹ := inv_pos.mpr hv
  have hb : |b / v| = |b| * v⁻¹ := by rw [abs_div, abs_of_pos hv]; rfl
  have ha : |a / v| = |a| * v⁻¹ := by rw [abs_div, abs_of_pos hv]; rfl
  have hs : (5 : ℝ) * 1.48e-8 * (|a| * v⁻¹ + |b| * v⁻¹) < |b| * v⁻¹ := by
    have := mul_lt_mul_of_pos_right hab hki
    nlinarith
  have hs0 : ¬ (5 : ℝ) * 1.48e-8 * (|a| * v⁻¹ + |b| * v⁻¹) < 0 := by
    have h1 : 0 ≤ |a| * v⁻¹ := mul_nonneg (abs_nonneg _) hki.le
    have h2 : 0 ≤ |b| * v⁻¹ := mul_nonneg (abs_nonneg _) hki.le
    nlinarith
  have hsum : ((([a, b] ++ List.replicate k (0 : ℝ)).map (· / v)).map abs).sum = |a| * v⁻¹ + |b| * v⁻¹ := by
    simp only [List.cons_append, List.nil_append, List.map_cons, List.map_replicate, List.sum_cons, ha, hb, zero_div, abs_zero,
      List.sum_replicate, smul_zero, add_zero]
  have hlen : (([a, b] ++ List.replicate k (0 : ℝ)).map (· / v)).length = 2 + k := by simp; omega
  have hfil : ((List.range (2 + k)).filter (fun j => decide (5 * 1.48e-8 * (|a| * v⁻¹ + |b| * v⁻¹) <
      |(([a, b] ++ List.replicate k (0 : ℝ)).map (· / v)).getD j 0|))).getLast? = some 1 := by
    rw [List.range_add, List.filter_append]
    have h2 : (List.map (fun x => 2 + x) (List.range k)).filter (fun j => decide (5 * 1.48e-8 * (|a| * v⁻¹ + |b| * v⁻¹) <
      |(([a, b] ++ List.replicate k (0 : ℝ)).map (· / v)).getD j 0|)) = [] := by
      rw [List.filter_eq_nil_iff]
      intro j hj
      obtain ⟨i, _, rfl⟩ := List.mem_map.mp hj
      simp only [List.cons_append, List.nil_append, List.map_cons, List.map_replicate, zero_div]
      rw [show 2 + i = i + 1 + 1 by omega, List.getD_cons_succ, List.getD_cons_succ, getD_replicate', abs_zero]
      simpa using hs0
    rw [h2, List.append_nil]
    simp only [List.range_succ, List.range_zero, List.nil_append, List.filter_append]
    have e1 : ([1] : List ℕ).filter (fun j => decide (5 * 1.48e-8 * (|a| * v⁻¹ + |b| * v⁻¹) <
      |(([a, b] ++ List.replicate k (0 : ℝ)).map (· / v)).getD j 0|)) = [1] := by
      simp only [List.filter_cons, List.filter_nil, List.cons_append, List.map_cons, List.getD_cons_succ, List.getD_cons_zero, hb, hs,
        decide_true, if_true]
    rw [e1]
    simp
  simp only [keepLen]
  rw [hlen, if_neg (by omega), hsum, hfil]
  rfl

/-- The roots of `a + b x`, held with any number of trailing zero coefficients, for a leading coefficient that is not
negligible. -/
lemma roots_linear (eig : List ℝ → List ℂ) (fuel : ℕ) (t : Tech) (k : ℕ) (a b : ℝ)
    (ht : t.coeffs = ⟨2 + k, [[a, b] ++ List.replicate k 0]⟩) (h0 : 0 < t.eps) (h1 : t.eps < 1)
    (hb : t.eps ^ ((1 : ℝ) / 3) < |b|) (hab : 5 * 1.48e-8 * (|a| + |b|) < |b|) :
    t.roots eig (fuel + 1) = some [-a / b] := by
  have hb0 : b ≠ 0 := by
    rintro rfl
    rw [abs_zero] at hb
    exact absurd hb (not_lt.mpr (rpow_nonneg h0.le _))
  have hz : ∀ k i, (([a, b] : List ℝ) ++ List.replicate k 0).getD (i + 2) 0 = 0 := by
    intro k i
    simp only [List.cons_append, List.nil_append]
    rw [List.getD_cons_succ, List.getD_cons_succ, getD_replicate']
  -- the simplified coefficients
  have hsimp : ∃ k : ℕ, t.simplify.coeffs = ⟨2 + k, [[a, b] ++ List.replicate k 0]⟩ := by
    rw [Tech.simplify]
    split_ifs with hh
    · have hw : t.coeffs.WF := by rw [ht]; simp [Arr.WF]; omega
      obtain ⟨q, hk1, hk2, hkn, hlen, hcol⟩ := C22_prefix t.coeffs hw t.eps h0 h1
      have hl1 : (simplifyCoeffs t.coeffs t.eps).cols.length = 1 := by rw [hlen, ht]; rfl
      obtain ⟨d, hd, hdl, hpre, hdrop⟩ := hcol 0 (by rw [ht]; simp)
      have hc0 : t.coeffs.cols[0]'(by rw [ht]; simp) = [a, b] ++ List.replicate k 0 := by simp [ht]
      rw [hc0] at hpre hdrop
      have hk : 2 ≤ q := by
        by_contra hlt
        have := hdrop 1 (by omega)
        simp only [List.cons_append, List.nil_append, List.getD_cons_succ, List.getD_cons_zero] at this
        linarith
      have hcols : (simplifyCoeffs t.coeffs t.eps).cols = [d] := by
        obtain ⟨x, hx⟩ := List.length_eq_one_iff.mp hl1
        rw [hx] at hd ⊢
        simp at hd
        rw [hd]
      refine ⟨q - 2, ?_⟩
      have hdd : d = [a, b] ++ List.replicate (q - 2) 0 := by
        apply ext_getD 0 (by simp; omega)
        intro i hi
        rw [hpre i (by omega)]
        match i with
        | 0 => rfl
        | 1 => rfl
        | i + 2 => rw [hz, hz]
      show simplifyCoeffs t.coeffs t.eps = _
      cases h : simplifyCoeffs t.coeffs t.eps
      rw [h] at hkn hcols
      simp only at hkn hcols
      rw [hkn, hcols, ← hdd]
      congr 1
      omega
    · exact ⟨k, ht⟩
  obtain ⟨l, hc⟩ := hsimp
  set v := (vscale t.simplify.coeffs).getD 0 0 with hv
  have hne : t.simplify.coeffs.n ≠ 1 := by rw [hc]; simp; omega
  have hvpos : 0 < v := by
    rw [hv, vscale, if_neg hne, hc]
    simp only [polyval, Arr.mapCols, List.map_cons, List.map_nil, List.getD_cons_zero]
    have hcne : ([a, b] ++ List.replicate l 0 : List ℝ) ≠ [] := by simp
    have hev : ∀ x, chebEval ([a, b] ++ List.replicate l 0) x = a + b * x := by
      intro x
      rw [chebEval_congr_getD _ [a, b] (by
        intro i
        match i with
        | 0 => rfl
        | 1 => rfl
        | i + 2 => rw [hz]; rfl)]
      simp [chebEval, sum_range_succ]
    have hlen : ([a, b] ++ List.replicate l 0 : List ℝ).length = (l + 1) + 1 := by simp
    have hget : ∀ j, j ≤ l + 1 → (polyvalCol ([a, b] ++ List.replicate l 0)).getD j 0 = a + b * cos (π * ((l + 1 - j : ℕ) : ℝ) / ((l + 1 : ℕ) : ℝ)) := by
      intro j hj
      rw [polyvalCol_getD _ (l + 1) hlen (by omega) j hj, hev, chebpts2_getD (l + 1) (by omega) j hj]
    by_cases hab0 : a + b = 0
    · apply maxAbs_pos _ 0
      rw [hget 0 (by omega)]
      have : π * ((l + 1 - 0 : ℕ) : ℝ) / ((l + 1 : ℕ) : ℝ) = π := by
        rw [Nat.sub_zero]; field_simp
      rw [this, cos_pi]
      intro h
      apply hb0
      linarith
    · apply maxAbs_pos _ (l + 1)
      rw [hget (l + 1) le_rfl]
      simpa using hab0
  rw [Tech.roots, rootsScalar, if_neg hne, ← hv]
  have hcol : t.simplify.coeffs.cols.getD 0 [] = [a, b] ++ List.replicate l 0 := by rw [hc]; rfl
  rw [hcol, rootsMain]
  simp only [keepLen_linear a b hab v hvpos l, Option.bind_eq_bind, Option.bind_some]
  rw [if_neg (by norm_num), if_neg (by norm_num), if_pos trivial]
  have : ((truncateTo (([a, b] ++ List.replicate l (0 : ℝ)).map (· / v)) 2)).getD 0 0 = a / v ∧
      ((truncateTo (([a, b] ++ List.replicate l (0 : ℝ)).map (· / v)) 2)).getD 1 0 = b / v := by
    simp only [truncateTo]
    split_ifs <;> simp
  rw [this.1, this.2]
  congr 2
  field_simp

lemma cbrt_lt (eps r : ℝ) (hr : 0 < r) (h0 : 0 < eps) (h : eps < r ^ 3) : eps ^ ((1 : ℝ) / 3) < r := by
  calc eps ^ ((1 : ℝ) / 3) < (r ^ 3) ^ ((1 : ℝ) / 3) := rpow_lt_rpow h0.le h (by norm_num)
    _ = r := by
      rw [← rpow_natCast, ← rpow_mul hr.le]
      norm_num

/-- C29 is false: for `f(x) = 1 - x/2` on `[-1, 1]`, held as a `chebtech` with two coefficients, the
list of roots is `[2]` although 2 is outside the domain (for any eigenvalue routine, any tolerance
below `1e-3` and either value of the happiness flag). -/
theorem C29_reports_outside (eig : List ℝ → List ℂ) (fuel : ℕ) (t : Tech)
    (ht : t.coeffs = ⟨2, [[1, -1 / 2]]⟩) (h0 : 0 < t.eps) (h1 : t.eps < 1 / 1000) :
    t.roots eig (fuel + 1) = some [2] := by
  rw [roots_linear eig fuel t 0 1 (-1 / 2) (by simpa using ht) h0 (by linarith)
    ((cbrt_lt t.eps (1 / 10) (by norm_num) h0 (by linarith)).trans (by rw [abs_of_neg (by norm_num)]; norm_num))
    (by rw [abs_of_pos one_pos, abs_of_neg (by norm_num)]; norm_num)]
  norm_num

/-- C29, what holds: the linear branch always reports exactly one number, the zero of `f`, inside the
domain or not; missing: the restriction to `[-1, 1]`, see `C29_reports_outside`. -/
theorem C29_linear_partial (eig : List ℝ → List ℂ) (s : ℝ) (fuel : ℕ) (a b : ℝ) (htol eps : ℝ)
    (heps : 0 ≤ eps) (hb : 5 * eps * (|a| + |b|) < |b|) :
    rootsMain eig s (fuel + 1) [a, b] htol eps = some [-a / b] ∧
      ∀ x : ℝ, chebEval [a, b] x = 0 ↔ x = -a / b := by
  classical
  have hk : keepLen [a, b] eps = some 2 := by
    simp only [keepLen, List.map_cons, List.map_nil, List.length_cons, List.length_nil, List.sum_cons,
      List.sum_nil, add_zero]
    rw [if_neg (by norm_num)]
    simp only [List.range_succ, List.range_zero, List.nil_append, List.filter_append]
    simp [hb]
  obtain ⟨y, hy, hx⟩ := C28_linear eig s fuel [a, b] htol eps heps hk
  have : rootsMain eig s (fuel + 1) [a, b] htol eps = some [-a / b] := by
    rw [rootsMain]
    simp only [hk, Option.bind_eq_bind, Option.bind_some]
    rw [if_neg (by norm_num), if_neg (by norm_num), if_pos trivial]
    simp [truncateTo]
  refine ⟨this, ?_⟩
  rw [this] at hy
  have e : -a / b = y := by simpa using hy
  rw [e]
  simpa using hx

example : ∃ t : Tech, t.coeffs = ⟨2, [[1, -1 / 2]]⟩ ∧ 0 < t.eps ∧ t.eps < 1 / 1000 :=
  ⟨⟨⟨2, [[1, -1 / 2]]⟩, 1 / 10 ^ 15, 1, 17, true⟩, rfl, by norm_num, by norm_num⟩

end Funpy.Props
