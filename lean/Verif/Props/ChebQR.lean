import Verif.Model.ChebQR
import Verif.Lemmas.AbstractQR
import Verif.Lemmas.Legendre
import Verif.Lemmas.ChebAdapt
import Verif.Props.ChebInner
import Verif.Props.ChebCompose

/-!
# C93: QR decomposition of quasimatrices
-/

namespace Funpy.Props
open Spec Cheb Real Finset Mapping

lemma degree_C_mul_le' (a : ℝ) (p : Polynomial ℝ) : (Polynomial.C a * p).degree ≤ p.degree := by
  rw [← Polynomial.smul_eq_C_mul]; exact Polynomial.degree_smul_le _ _

/-- The vectors of values of polynomials of degree below `M` at the `N` Chebyshev points. -/
def polyVals (N M : ℕ) : Submodule ℝ (ℕ → ℝ) where
  carrier := {x | ∃ p : Polynomial ℝ, p.degree < M ∧ ∀ i < N, x i = p.eval ((chebpts2 N).getD i 0)}
  add_mem' := by
    rintro x y ⟨p, hp, hx⟩ ⟨q, hq, hy⟩
    refine ⟨p + q, lt_of_le_of_lt (Polynomial.degree_add_le _ _) (max_lt hp hq), fun i hi => ?_⟩
    rw [Pi.add_apply, hx i hi, hy i hi, Polynomial.eval_add]
  zero_mem' := ⟨0, by rw [Polynomial.degree_zero]; exact WithBot.bot_lt_coe _, fun i _ => by simp⟩
  smul_mem' := by
    rintro a x ⟨p, hp, hx⟩
    refine ⟨Polynomial.C a * p, lt_of_le_of_lt (degree_C_mul_le' _ _) hp, fun i hi => ?_⟩
    rw [Pi.smul_apply, hx i hi, Polynomial.eval_mul, Polynomial.eval_C, smul_eq_mul]

lemma gridIp_isIP (N : ℕ) : AQR.IsIP (gridIp N) := by
  refine ⟨fun x y z => ?_, fun a x y => ?_, fun x y => ?_⟩
  · simp only [gridIp, ← sum_add_distrib, Pi.add_apply]; exact sum_congr rfl fun i _ => by ring
  · simp only [gridIp, mul_sum, Pi.smul_apply, smul_eq_mul]; exact sum_congr rfl fun i _ => by ring
  · simp only [gridIp]; exact sum_congr rfl fun i _ => by ring

lemma degree_mul_lt (p q : Polynomial ℝ) (M : ℕ) (hp : p.degree < M) (hq : q.degree < M) : (p * q).degree < (2 * M : ℕ) := by
  by_cases h0 : p = 0
  · rw [h0, zero_mul, Polynomial.degree_zero]; exact WithBot.bot_lt_coe _
  by_cases h1 : q = 0
  · rw [h1, mul_zero, Polynomial.degree_zero]; exact WithBot.bot_lt_coe _
  rw [Polynomial.degree_mul, Polynomial.degree_eq_natDegree h0, Polynomial.degree_eq_natDegree h1]
  rw [Polynomial.degree_eq_natDegree h0] at hp
  rw [Polynomial.degree_eq_natDegree h1] at hq
  have hp' : p.natDegree < M := by exact_mod_cast hp
  have hq' : q.natDegree < M := by exact_mod_cast hq
  have : p.natDegree + q.natDegree < 2 * M := by omega
  exact_mod_cast this

/-- The discrete inner product is the integral. -/
lemma gridIp_poly (M : ℕ) (hM : 0 < M) (x y : ℕ → ℝ) (p q : Polynomial ℝ) (hp : p.degree < M) (hq : q.degree < M)
    (hx : ∀ i < 2 * M, x i = p.eval ((chebpts2 (2 * M)).getD i 0)) (hy : ∀ i < 2 * M, y i = q.eval ((chebpts2 (2 * M)).getD i 0)) :
    gridIp (2 * M) x y = Lint (p * q) := by
  obtain ⟨e, he, hep⟩ := exists_cheb (2 * M) (p * q) (degree_mul_lt p q M hp hq)
  have h := quad_cheb (2 * M) (by omega) e he.le
  simp only [chebEval_eq_eval, hep] at h
  rw [Lint, ← h, gridIp]
  apply sum_congr rfl
  intro i hi
  rw [hx i (mem_range.mp hi), hy i (mem_range.mp hi), Polynomial.eval_mul]
  ring

lemma legVals_eq (N : ℕ) (k i : ℕ) : legVals N k i = (legP k).eval ((chebpts2 N).getD i 0) := by
  induction k using Nat.strong_induction_on with
  | _ k ih =>
    match k with
    | 0 => simp [legVals, legP]
    | 1 => simp only [legVals, legP, Polynomial.eval_X]
    | k + 2 =>
      rw [legVals, ih (k + 1) (by omega), ih k (by omega), legP]
      simp only [Polynomial.eval_sub, Polynomial.eval_mul, Polynomial.eval_C, Polynomial.eval_X]
      have : ((k : ℝ) + 2) ≠ 0 := by positivity
      field_simp

/-- The scaled Legendre polynomial. -/
noncomputable def legN (k : ℕ) : Polynomial ℝ := Polynomial.C (√((2 * (k : ℝ) + 1) / 2)) * legP k

lemma legE_eq (N k i : ℕ) : legE N k i = (legN k).eval ((chebpts2 N).getD i 0) := by
  rw [legE, legVals_eq, legN, Polynomial.eval_mul, Polynomial.eval_C, mul_comm]

lemma legN_degree (k M : ℕ) (hk : k < M) : (legN k).degree < M := by
  refine lt_of_le_of_lt (degree_C_mul_le' _ _) (lt_of_le_of_lt Polynomial.degree_le_natDegree ?_)
  have := (legP_degree k).1
  exact_mod_cast lt_of_le_of_lt this hk

lemma legN_orth (i j : ℕ) : Lint (legN i * legN j) = if i = j then 1 else 0 := by
  have h1 : legN i * legN j = Polynomial.C (√((2 * (i : ℝ) + 1) / 2) * √((2 * (j : ℝ) + 1) / 2)) * (legP i * legP j) := by
    rw [legN, legN, Polynomial.C_mul]; ring
  rw [h1, Lint_C_mul]
  split_ifs with h
  · subst h
    rw [legP_norm, Real.mul_self_sqrt (by positivity)]
    have : (2 * (i : ℝ) + 1) ≠ 0 := by positivity
    field_simp
  · rcases lt_or_gt_of_ne h with h | h
    · rw [legP_orth i j h, mul_zero]
    · rw [mul_comm (legP i), legP_orth j i h, mul_zero]

private lemma maxAbs_ge (l : List ℝ) (a : ℝ) (ha : a ∈ l) : |a| ≤ maxAbs l := by
  have key : ∀ (l : List ℝ) (b : ℝ), b ≤ (l.map abs).foldl max b ∧ ∀ x ∈ l, |x| ≤ (l.map abs).foldl max b := by
    intro l
    induction l with
    | nil => intro b; exact ⟨le_rfl, fun x hx => absurd hx (by simp)⟩
    | cons c l ih =>
      intro b
      obtain ⟨h1, h2⟩ := ih (max b |c|)
      refine ⟨(le_max_left _ _).trans h1, fun x hx => ?_⟩
      rcases List.mem_cons.mp hx with rfl | hx
      · exact (le_max_right _ _).trans h1
      · exact h2 x hx
  exact (key l 0).2 a ha

lemma gridSup_le (M : ℕ) (hM : 0 < M) (x : ℕ → ℝ) (hx : x ∈ polyVals (2 * M) M) :
    gridSup (2 * M) x ≤ (M / √2) * √(gridIp (2 * M) x x) := by
  obtain ⟨p, hp, hxp⟩ := hx
  rw [gridIp_poly M hM x x p p hp hp hxp hxp]
  apply maxAbs_le
  · positivity
  · intro a ha
    obtain ⟨i, hi, rfl⟩ := List.mem_map.mp ha
    have hi' := List.mem_range.mp hi
    have hmem : (chebpts2 (2 * M)).getD i 0 ∈ chebpts2 (2 * M) := by
      rw [getD_lt' _ _ _ (by rw [chebpts2_length]; exact hi')]; exact List.getElem_mem _
    have h1 := sup_le_L2 M p hp _ (chebpts2_mem_abs (2 * M) (by omega) _ hmem)
    rw [hxp i hi']
    apply abs_le_of_sq_le_sq
    · rw [mul_pow, Real.sq_sqrt (Lint_nonneg p), div_pow, Real.sq_sqrt (by norm_num)]
      exact h1
    · positivity

/-! ### The decomposition on `[-1,1]` -/

lemma chebEval_prolong (c : List ℝ) (N : ℕ) (h : c.length ≤ N) (x : ℝ) : chebEval (prolongCol c (N : ℤ)) x = chebEval c x := by
  apply chebEval_congr_getD
  intro k
  rw [prolongCol_getD]
  split_ifs with h'
  · rfl
  · rw [getD_ge' _ _ _ (by omega)]

/-- Facts about the result of `chebtech.qr`. -/
lemma qr_tech (eps : ℝ) (heps : 0 < eps) (t : Tech) (ht : t.Proper) (hm : 1 < t.coeffs.m) (hh : t.ishappy = true)
    (hne : ∃ c ∈ t.coeffs.cols, ∃ k, c.getD k 0 ≠ 0) (B : ℝ) (hB : ∀ c ∈ t.coeffs.cols, ∀ y, |y| ≤ 1 → |chebEval c y| ≤ B) :
    ∃ (q : Tech) (R : ℕ → ℕ → ℝ), t.qr eps = some (q, R, { t with coeffs := prolong t.coeffs ((2 * max t.coeffs.n t.coeffs.m : ℕ) : ℤ) }) ∧
      q.coeffs.m = t.coeffs.m ∧ q.coeffs.n = max t.coeffs.n t.coeffs.m + 1 ∧ q.coeffs.WF ∧ q.eps = t.eps ∧
      (∀ i < t.coeffs.m, ∀ j < t.coeffs.m, ∫ y in (-1 : ℝ)..1, chebEval (q.coeffs.cols.getD i []) y * chebEval (q.coeffs.cols.getD j []) y
        = if i = j then 1 else 0) ∧
      (∀ i j, j < i → R i j = 0) ∧ (∀ i < t.coeffs.m, 0 ≤ R i i) ∧
      ∀ j < t.coeffs.m, ∫ y in (-1 : ℝ)..1, (chebEval (t.coeffs.cols.getD j []) y
        - ∑ i ∈ range t.coeffs.m, R i j * chebEval (q.coeffs.cols.getD i []) y) ^ 2
        ≤ 7 / 2 * (eps * B * (max t.coeffs.n t.coeffs.m : ℕ)) ^ 2 * max 1 (∫ y in (-1 : ℝ)..1, chebEval (t.coeffs.cols.getD j []) y ^ 2) := by
  set n := t.coeffs.n with hn
  set m := t.coeffs.m with hmm
  set M := max n m with hM
  have hn0 : 0 < n := ht.n_pos
  have hM0 : 0 < M := by omega
  have hMn : n ≤ M := le_max_left _ _
  have hMm : m ≤ M := le_max_right _ _
  set N := 2 * M with hN
  -- vertical scale
  have hvs : ∀ c ∈ t.coeffs.cols, maxAbs (polyvalCol c) ∈ vscale t.coeffs ∨ |c.getD 0 0| ∈ vscale t.coeffs := by
    intro c hc
    rw [vscale]
    split_ifs
    · exact Or.inr (List.mem_map.mpr ⟨c, hc, rfl⟩)
    · exact Or.inl (List.mem_map.mpr ⟨polyvalCol c, List.mem_map.mpr ⟨c, hc, rfl⟩, rfl⟩)
  have hvpos : 0 < maxAbs (vscale t.coeffs) := by
    obtain ⟨c, hc, k, hk⟩ := hne
    have hcl : c.length = n := ht.wf c hc
    by_cases h1 : t.coeffs.n = 1
    · have hk0 : k = 0 := by
        by_contra hk0
        exact hk (getD_ge' _ _ _ (by omega))
      subst hk0
      have : |c.getD 0 0| ∈ vscale t.coeffs := by rw [vscale, if_pos h1]; exact List.mem_map.mpr ⟨c, hc, rfl⟩
      have h2 := maxAbs_ge _ _ this
      rw [abs_abs] at h2
      exact lt_of_lt_of_le (abs_pos.mpr hk) h2
    · have hmem : maxAbs (polyvalCol c) ∈ vscale t.coeffs := by
        rw [vscale, if_neg h1]; exact List.mem_map.mpr ⟨polyvalCol c, List.mem_map.mpr ⟨c, hc, rfl⟩, rfl⟩
      have h2 := (le_abs_self _).trans (maxAbs_ge _ _ hmem)
      refine lt_of_lt_of_le ?_ h2
      by_contra hcon
      have h3 : ∀ x ∈ polyvalCol c, x = 0 := by
        intro x hx
        have := maxAbs_ge _ _ hx
        exact abs_eq_zero.mp (le_antisymm (this.trans (not_lt.mp hcon)) (abs_nonneg _))
      have h4 : polyvalCol c = List.replicate n 0 := by
        rw [List.eq_replicate_iff]; exact ⟨by rw [polyvalCol_length, hcl], h3⟩
      have h5 : polyvalCol (List.replicate n (0 : ℝ)) = List.replicate n 0 := by
        rw [polyvalCol_eq _ (List.ne_nil_of_length_pos (by rw [List.length_replicate]; exact hn0)), List.eq_replicate_iff]
        refine ⟨by simp [chebpts2_length], fun b hb => ?_⟩
        obtain ⟨y, _, rfl⟩ := List.mem_map.mp hb
        rw [chebEval]
        apply sum_eq_zero
        intro i _
        rw [getD_replicate']; simp
      have h6 : c = List.replicate n 0 := by
        rw [← polyfit_polyval_col c (List.ne_nil_of_length_pos (by omega)), h4, ← h5,
          polyfit_polyval_col _ (List.ne_nil_of_length_pos (by rw [List.length_replicate]; exact hn0))]
        exact h5.symm
      apply hk
      rw [h6, getD_replicate']
  have hvB : maxAbs (vscale t.coeffs) ≤ B := by
    have hB0 : 0 ≤ B := by
      obtain ⟨c, hc, _⟩ := hne
      exact (abs_nonneg _).trans (hB c hc 0 (by simp))
    apply maxAbs_le _ _ hB0
    intro a ha
    rw [vscale] at ha
    split_ifs at ha with h1
    · obtain ⟨c, hc, rfl⟩ := List.mem_map.mp ha
      rw [abs_abs]
      have := hB c hc 0 (by simp)
      have hcl : c.length = 1 := by rw [ht.wf c hc, h1]
      obtain ⟨a, rfl⟩ := List.length_eq_one_iff.mp hcl
      simpa [chebEval] using this
    · obtain ⟨d, hd, rfl⟩ := List.mem_map.mp ha
      obtain ⟨c, hc, rfl⟩ := List.mem_map.mp hd
      rw [abs_of_nonneg (maxAbs_nonneg' _)]
      apply maxAbs_le _ _ hB0
      intro x hx
      rw [polyvalCol_eq c (ht.col_ne hc)] at hx
      obtain ⟨y, hy, rfl⟩ := List.mem_map.mp hx
      have : 2 ≤ c.length := by rw [ht.wf c hc]; omega
      exact hB c hc y (chebpts2_mem_abs _ this y hy)
  set tol := eps * maxAbs (vscale t.coeffs) with htol
  have htol0 : 0 < tol := mul_pos heps hvpos
  -- the input of the abstract method
  set A : ℕ → ℕ → ℝ := fun j i => ((polyval (prolong t.coeffs (N : ℤ))).cols.getD j []).getD i 0 with hA
  have hAp : ∀ j < m, ∀ i < N, A j i = (chebPoly (t.coeffs.cols.getD j [])).eval ((chebpts2 N).getD i 0) := by
    intro j hj i hi
    have hj' : j < t.coeffs.cols.length := hj
    have hcj : t.coeffs.cols.getD j [] = t.coeffs.cols[j] := getD_lt' _ _ _ hj'
    have hcl : t.coeffs.cols[j].length = n := ht.wf _ (List.getElem_mem hj')
    have h1 : (polyval (prolong t.coeffs (N : ℤ))).cols.getD j [] = polyvalCol (prolongCol t.coeffs.cols[j] (N : ℤ)) := by
      rw [getD_lt' _ _ _ (by simp [polyval, prolong, Arr.mapCols]; exact hj')]
      simp [polyval, prolong, Arr.mapCols]
    have hpl : (prolongCol t.coeffs.cols[j] (N : ℤ)).length = N := by rw [prolongCol_length]; simp
    simp only [hA, h1]
    rw [polyvalCol_eq _ (by intro h; rw [h] at hpl; simp at hpl; omega), hpl,
      getD_lt' _ _ _ (by simp [chebpts2_length]; exact hi), List.getElem_map, chebEval_prolong _ N (by omega), hcj, chebEval_eq_eval,
      ← getD_lt' _ 0 _ (by rw [chebpts2_length]; exact hi)]
  have hdeg : ∀ j < m, (chebPoly (t.coeffs.cols.getD j [])).degree < M := by
    intro j hj
    have hj' : j < t.coeffs.cols.length := hj
    rw [getD_lt' _ _ _ hj']
    refine lt_of_le_of_lt Polynomial.degree_le_natDegree ?_
    have := natDegree_chebPoly_lt _ (ht.col_ne (List.getElem_mem hj'))
    rw [ht.wf _ (List.getElem_mem hj')] at this
    exact_mod_cast lt_of_lt_of_le this hMn
  have hAS : ∀ j < m, A j ∈ polyVals N M := fun j hj => ⟨_, hdeg j hj, hAp j hj⟩
  have hES : ∀ j < m, legE N j ∈ polyVals N M := fun j hj => ⟨legN j, legN_degree j M (by omega), fun i _ => legE_eq N j i⟩
  have hEo : ∀ i < m, ∀ j < m, gridIp N (legE N i) (legE N j) = if i = j then 1 else 0 := by
    intro i hi j hj
    rw [hN, gridIp_poly M hM0 _ _ (legN i) (legN j) (legN_degree i M (by omega)) (legN_degree j M (by omega))
      (fun l _ => legE_eq _ i l) (fun l _ => legE_eq _ j l), legN_orth]
  have hpos : ∀ x ∈ polyVals N M, 0 ≤ gridIp N x x := by
    rintro x ⟨p, hp, hx⟩
    rw [hN, gridIp_poly M hM0 x x p p hp hp hx hx]
    exact Lint_nonneg p
  have hn0' : ∀ x ∈ polyVals N M, gridIp N x x = 1 → 0 < gridSup N x := by
    intro x _ h1
    by_contra hcon
    have h2 : ∀ i < N, x i = 0 := by
      intro i hi
      have := maxAbs_ge ((List.range N).map x) (x i) (List.mem_map.mpr ⟨i, List.mem_range.mpr hi, rfl⟩)
      exact abs_eq_zero.mp (le_antisymm (this.trans (not_lt.mp hcon)) (abs_nonneg _))
    rw [gridIp, sum_eq_zero] at h1
    · exact zero_ne_one h1
    · intro i hi; rw [h2 i (mem_range.mp hi)]; ring
  obtain ⟨hQS, hQo, hR0, hRd, hfac⟩ := AQR.abstractQR_spec (polyVals N M) (gridIp_isIP N) hpos (gridSup N) tol (M / √2) htol0 (by positivity)
    (gridSup_le M hM0) hn0' m A (legE N) hAS hES hEo
  set r := AQR.abstractQR (gridIp N) (gridSup N) tol m A (legE N) with hr
  -- the polynomials behind `Q`
  choose! p hpd hpe using hQS
  set coeffs : Arr ℝ := (polyfit (⟨N, (List.range m).map fun j => (List.range N).map (r.1 j)⟩ : Arr ℝ)).mapCols (N / 2 + 1)
    (List.take (N / 2 + 1)) with hco
  have hcm : coeffs.m = m := by simp [hco, Arr.mapCols, polyfit, Arr.m]
  have hcn : coeffs.n = M + 1 := by simp only [hco, Arr.mapCols, hN]; omega
  have hcol : ∀ j < m, coeffs.cols.getD j [] = (polyfitCol ((List.range N).map (r.1 j))).take (M + 1) := by
    intro j hj
    have : N / 2 + 1 = M + 1 := by omega
    rw [getD_lt' _ _ _ (by simp [hco, Arr.mapCols, polyfit]; exact hj)]
    simp [hco, Arr.mapCols, polyfit, this]
  have hev : ∀ j < m, ∀ y, chebEval (coeffs.cols.getD j []) y = (p j).eval y := by
    intro j hj y
    obtain ⟨e, he, hep⟩ := exists_cheb M (p j) (hpd j hj)
    have hint : (List.range N).map (r.1 j) = (chebpts2 N).map (fun y => (p j).eval y) := by
      apply ext_getD 0
      · simp [chebpts2_length]
      · intro i hi
        have hi' : i < N := by simpa using hi
        rw [getD_lt' _ _ _ hi, getD_lt' _ _ _ (by simp [chebpts2_length]; exact hi'), List.getElem_map, List.getElem_map,
          List.getElem_range, hpe j hj i hi', getD_lt' _ _ _ (by rw [chebpts2_length]; exact hi')]
    have hser := interp_series e (fun y => (p j).eval y) N (by omega) (by omega) (by intro x _; simp only [chebEval_eq_eval, hep])
    rw [hcol j hj, hint]
    rw [show (p j).eval y = chebEval e y by rw [chebEval_eq_eval, hep]]
    apply chebEval_congr_getD
    intro k
    have h1 := hser k
    rw [interp] at h1
    rw [← h1]
    simp only [List.getD_eq_getElem?_getD, List.getElem?_take]
    split_ifs with hk
    · rfl
    · have h2 : e.getD k 0 = 0 := getD_ge' _ _ _ (by omega)
      rw [h2, List.getD_eq_getElem?_getD] at h1
      simpa using h1.symm
  obtain ⟨q, hq, hq1, _, _, _, hq5⟩ := mk'_false coeffs (by
    apply Nat.mul_ne_zero
    · omega
    · omega) t.eps t.ishappy t.hscale t.maxLength
  have hip : ∀ i < m, ∀ j < m, Lint (p i * p j) = if i = j then 1 else 0 := by
    intro i hi j hj
    rw [← gridIp_poly M hM0 (r.1 i) (r.1 j) (p i) (p j) (hpd i hi) (hpd j hj) (hpe i hi) (hpe j hj), ← hN, hQo i hi j hj]
  refine ⟨q, r.2, ?_, ?_, ?_, ?_, hq1, ?_, hR0, hRd, ?_⟩
  · rw [Tech.qr]
    simp only [← hn, ← hmm, ← hM, ← hN]
    rw [if_neg (by omega), if_neg hvpos.ne', if_neg (by rw [hh]; decide)]
    simp only [← htol, ← hA, ← hr, ← hco, hq, Option.map_some]
  · rw [hq5]; exact hcm
  · rw [hq5]; exact hcn
  · rw [hq5]
    intro c hc
    obtain ⟨j, hj, rfl⟩ := List.mem_iff_getElem.mp hc
    have hj' : j < m := by rw [← hcm]; exact hj
    rw [← getD_lt' _ [] _ hj, hcol j hj', hcn, List.length_take, polyfitCol_length]
    simp; omega
  · intro i hi j hj
    rw [hq5]
    simp only [hev i hi, hev j hj]
    rw [← hip i hi j hj, Lint]
    simp only [Polynomial.eval_mul]
  · intro j hj
    rw [hq5]
    obtain ⟨w, ⟨pw, hpw, hwe⟩, hfa, hww⟩ := hfac j hj
    have hsum : ∑ i ∈ range (j + 1), r.2 i j • r.1 i = ∑ i ∈ range m, r.2 i j • r.1 i := by
      apply sum_subset (fun i hi => mem_range.mpr (by have := mem_range.mp hi; omega))
      intro i _ hi
      have : j < i := by have : ¬ i < j + 1 := fun h => hi (mem_range.mpr h); omega
      rw [hR0 i j this, zero_smul]
    rw [hsum] at hfa
    set f := chebPoly (t.coeffs.cols.getD j []) with hf
    set g : Polynomial ℝ := ∑ i ∈ range m, Polynomial.C (r.2 i j) * p i with hg
    have hgd : (f - g - pw).degree < M := by
      refine lt_of_le_of_lt (Polynomial.degree_sub_le _ _) (max_lt (lt_of_le_of_lt (Polynomial.degree_sub_le _ _) (max_lt (hdeg j hj) ?_)) hpw)
      apply lt_of_le_of_lt (Polynomial.degree_sum_le _ _)
      rw [Finset.sup_lt_iff (WithBot.bot_lt_coe _)]
      intro i hi
      exact lt_of_le_of_lt (degree_C_mul_le' _ _) (hpd i (mem_range.mp hi))
    -- the residual polynomial is `pw`
    have hzero : ∀ i < N, (f - g - pw).eval ((chebpts2 N).getD i 0) = 0 := by
      intro i hi
      have h1 := congrFun hfa i
      rw [hAp j hj i hi, Pi.add_apply, hwe i hi, Finset.sum_apply] at h1
      rw [Polynomial.eval_sub, Polynomial.eval_sub, ← hf] at *
      rw [h1, hg, Polynomial.eval_finsetSum]
      have : ∑ c ∈ range m, (r.2 c j • r.1 c) i = ∑ c ∈ range m, Polynomial.eval ((chebpts2 N).getD i 0) (Polynomial.C (r.2 c j) * p c) := by
        apply sum_congr rfl
        intro c hc
        rw [Pi.smul_apply, smul_eq_mul, hpe c (mem_range.mp hc) i hi, Polynomial.eval_mul, Polynomial.eval_C]
      rw [this]; ring
    have hd0 : f - g - pw = 0 := by
      have h1 := gridIp_poly M hM0 (fun i => (f - g - pw).eval ((chebpts2 N).getD i 0)) (fun i => (f - g - pw).eval ((chebpts2 N).getD i 0))
        (f - g - pw) (f - g - pw) hgd hgd (fun i _ => rfl) (fun i _ => rfl)
      have h2 : Lint ((f - g - pw) * (f - g - pw)) = 0 := by
        rw [← h1, gridIp]
        apply sum_eq_zero
        intro i hi
        rw [hzero i (mem_range.mp hi)]; ring
      by_contra hne0
      obtain ⟨z, hz1, hz2⟩ : ∃ z : ℝ, |z| ≤ 1 ∧ (f - g - pw).eval z ≠ 0 := by
        by_contra hcon
        push Not at hcon
        apply hne0
        apply Polynomial.eq_zero_of_infinite_isRoot
        refine Set.Infinite.mono ?_ (Set.Icc_infinite (by norm_num : (-1 : ℝ) < 1))
        intro z hz
        exact hcon z (abs_le.mpr hz)
      have h3 := sup_le_L2 M (f - g - pw) hgd z hz1
      rw [h2, mul_zero] at h3
      exact hz2 (pow_eq_zero_iff (two_ne_zero) |>.mp (le_antisymm h3 (sq_nonneg _)))
    have hres : ∀ y, chebEval (t.coeffs.cols.getD j []) y - ∑ i ∈ range m, r.2 i j * chebEval (coeffs.cols.getD i []) y = pw.eval y := by
      intro y
      have h1 : f - g = pw := sub_eq_zero.mp hd0
      rw [← h1, Polynomial.eval_sub, chebEval_eq_eval, hg, Polynomial.eval_finsetSum]
      congr 1
      apply sum_congr rfl
      intro i hi
      rw [hev i (mem_range.mp hi), Polynomial.eval_mul, Polynomial.eval_C]
    have hI1 : ∫ y in (-1 : ℝ)..1, (pw.eval y) ^ 2 = gridIp N w w := by
      rw [hN, gridIp_poly M hM0 w w pw pw hpw hpw hwe hwe, Lint]
      simp only [Polynomial.eval_mul, pow_two]
    have hI2 : gridIp N (A j) (A j) = ∫ y in (-1 : ℝ)..1, chebEval (t.coeffs.cols.getD j []) y ^ 2 := by
      rw [hN, gridIp_poly M hM0 (A j) (A j) f f (hdeg j hj) (hdeg j hj) (hAp j hj) (hAp j hj), Lint]
      simp only [Polynomial.eval_mul, pow_two, chebEval_eq_eval, ← hf]
    simp only [hres]
    rw [hI1, ← hI2]
    refine hww.trans ?_
    have hmax : (max 1 (√(gridIp N (A j) (A j)))) ^ 2 = max 1 (gridIp N (A j) (A j)) := by
      have h0 := hpos _ (hAS j hj)
      rcases le_total 1 (gridIp N (A j) (A j)) with h | h
      · rw [max_eq_right h, max_eq_right (Real.one_le_sqrt.mpr h), Real.sq_sqrt h0]
      · rw [max_eq_left h, max_eq_left (Real.sqrt_le_one.mpr h)]; norm_num
    have hexp : 7 * (tol * (↑M / √2 * max 1 (√(gridIp N (A j) (A j))))) ^ 2 = 7 / 2 * (tol * M) ^ 2 * max 1 (gridIp N (A j) (A j)) := by
      rw [show (tol * (↑M / √2 * max 1 (√(gridIp N (A j) (A j))))) ^ 2 = (tol * M) ^ 2 * (max 1 (√(gridIp N (A j) (A j)))) ^ 2 / (√2) ^ 2 by ring,
        Real.sq_sqrt (by norm_num), hmax]; ring
    rw [hexp]
    have h1 : tol * M ≤ eps * B * M := by
      apply mul_le_mul_of_nonneg_right _ (Nat.cast_nonneg _)
      exact mul_le_mul_of_nonneg_left hvB heps.le
    have h2 : (tol * M) ^ 2 ≤ (eps * B * M) ^ 2 := pow_le_pow_left₀ (by positivity) h1 2
    have h3 : 0 ≤ max 1 (gridIp N (A j) (A j)) := le_trans zero_le_one (le_max_left _ _)
    nlinarith

/-! ### The decomposition on the domain -/

/-- The value of column `j` of `f` at the point `x` of its domain. -/
noncomputable def colVal (f : ChebFun) (j : ℕ) (x : ℝ) : ℝ := chebEval (f.onefun.coeffs.cols.getD j []) (bwd f.dom x)

/-- C93 (partial: at least two columns, a nonzero function, resolved representation; see the failures below).  `qr(f)` returns
`Q` and `R` with the following properties: `Q` lives on the same domain with as many columns and these are orthonormal in `L²` of the
domain, `R` is upper triangular with nonnegative diagonal, and `f = Q R` up to a multiple of the tolerance: if `|f| ≤ B` then every column satisfies
`‖f_j - Σ_i R_ij Q_i‖² ≤ 3.5 (eps·B·max(n,m))² max(len/2, ‖f_j‖²)`.  The argument is padded with zeros, its values do not change. -/
theorem C93_qr_partial (eps : ℝ) (heps : 0 < eps) (f : ChebFun) (hf : f.onefun.Proper) (hd : f.dom.e0 < f.dom.e1)
    (hm : 1 < f.onefun.coeffs.m) (hh : f.onefun.ishappy = true) (hne : ∃ c ∈ f.onefun.coeffs.cols, ∃ k, c.getD k 0 ≠ 0)
    (B : ℝ) (hB : ∀ c ∈ f.onefun.coeffs.cols, ∀ x, f.dom.e0 ≤ x → x ≤ f.dom.e1 → |chebEval c (bwd f.dom x)| ≤ B) :
    ∃ (Q : ChebFun) (R : ℕ → ℕ → ℝ) (f' : ChebFun), f.qr eps = some (Q, R, f') ∧
      Q.dom = f.dom ∧ Q.onefun.coeffs.m = f.onefun.coeffs.m ∧
      (∀ i < f.onefun.coeffs.m, ∀ j < f.onefun.coeffs.m,
        ∫ x in f.dom.e0..f.dom.e1, colVal Q i x * colVal Q j x = if i = j then 1 else 0) ∧
      (∀ i j, j < i → R i j = 0) ∧ (∀ i < f.onefun.coeffs.m, 0 ≤ R i i) ∧
      (∀ j < f.onefun.coeffs.m, ∫ x in f.dom.e0..f.dom.e1, (colVal f j x - ∑ i ∈ range f.onefun.coeffs.m, R i j * colVal Q i x) ^ 2
        ≤ 7 / 2 * (eps * B * (max f.onefun.coeffs.n f.onefun.coeffs.m : ℕ)) ^ 2
          * max ((f.dom.e1 - f.dom.e0) / 2) (∫ x in f.dom.e0..f.dom.e1, colVal f j x ^ 2)) ∧
      f'.dom = f.dom ∧ f'.onefun.coeffs.m = f.onefun.coeffs.m ∧ ∀ j < f.onefun.coeffs.m, ∀ x, colVal f' j x = colVal f j x := by
  obtain ⟨q, R, hqr, hqm, hqn, hqw, _, hqo, hR0, hRd, hres⟩ := qr_tech eps heps f.onefun hf hm hh hne B (by
    intro c hc y hy
    have hy' := abs_le.mp hy
    have h1 := fwd_mem f.dom hd y hy
    have := hB c hc (fwd f.dom y) h1.1 h1.2
    rwa [(C01_inverse f.dom hd).1 y] at this)
  have hlen : 0 < (f.dom.e1 - f.dom.e0) / 2 := by linarith
  set ℓ := (f.dom.e1 - f.dom.e0) / 2 with hℓ
  have hρ : (0.5 * Mapping.diff f.dom) = ℓ := by rw [hℓ, Mapping.diff]; norm_num; ring
  have hdl : Mapping.diff f.dom / 2 = ℓ := rfl
  have hsq : √ℓ * √ℓ = ℓ := Real.mul_self_sqrt hlen.le
  have hs0 : √ℓ ≠ 0 := (Real.sqrt_pos.mpr hlen).ne'
  have hcols : (q.divNumOut (√ℓ) q).coeffs.cols = q.coeffs.cols.map fun c => c.map (· / √ℓ) := rfl
  have hcv : ∀ i < f.onefun.coeffs.m, ∀ y, chebEval ((q.divNumOut (√ℓ) q).coeffs.cols.getD i []) y
      = chebEval (q.coeffs.cols.getD i []) y / √ℓ := by
    intro i hi y
    have hi' : i < q.coeffs.cols.length := by rw [← hqm] at hi; exact hi
    rw [hcols, getD_lt' _ _ _ (by simpa using hi'), getD_lt' _ _ _ hi', List.getElem_map]
    rw [chebEval, chebEval, List.length_map, sum_div]
    apply sum_congr rfl
    intro k hk
    have hk' := mem_range.mp hk
    rw [getD_lt' _ _ _ (by simpa using hk'), getD_lt' _ _ _ hk', List.getElem_map]
    ring
  refine ⟨⟨f.dom, q.divNumOut (√ℓ) q⟩, fun i j => R i j * √ℓ,
    ⟨f.dom, { f.onefun with coeffs := prolong f.onefun.coeffs ((2 * max f.onefun.coeffs.n f.onefun.coeffs.m : ℕ) : ℤ) }⟩, ?_, rfl, ?_, ?_, ?_, ?_, ?_, rfl, ?_, ?_⟩
  · rw [ChebFun.qr, hqr, hρ]; rfl
  · show ((q.divNumOut (√ℓ) q).coeffs.cols).length = _
    rw [hcols, List.length_map]; exact hqm
  · intro i hi j hj
    have : ∀ x, colVal ⟨f.dom, q.divNumOut (√ℓ) q⟩ i x * colVal ⟨f.dom, q.divNumOut (√ℓ) q⟩ j x
        = (fun y => chebEval (q.coeffs.cols.getD i []) y / √ℓ * (chebEval (q.coeffs.cols.getD j []) y / √ℓ)) (bwd f.dom x) := by
      intro x
      simp only [colVal, hcv i hi, hcv j hj]
    simp only [this]
    rw [integral_dom f.dom hd (fun y => chebEval (q.coeffs.cols.getD i []) y / √ℓ * (chebEval (q.coeffs.cols.getD j []) y / √ℓ)), hdl]
    have h2 : ∀ y, chebEval (q.coeffs.cols.getD i []) y / √ℓ * (chebEval (q.coeffs.cols.getD j []) y / √ℓ)
        = (1 / ℓ) * (chebEval (q.coeffs.cols.getD i []) y * chebEval (q.coeffs.cols.getD j []) y) := by
      intro y
      rw [div_mul_div_comm, hsq]; ring
    simp only [h2]
    rw [intervalIntegral.integral_const_mul, hqo i hi j hj]
    field_simp
  · intro i j hij
    show R i j * √ℓ = 0
    rw [hR0 i j hij, zero_mul]
  · intro i hi
    exact mul_nonneg (hRd i hi) (Real.sqrt_nonneg _)
  · intro j hj
    have h1 : ∀ x, colVal f j x - ∑ i ∈ range f.onefun.coeffs.m, R i j * √ℓ * colVal ⟨f.dom, q.divNumOut (√ℓ) q⟩ i x
        = (fun y => chebEval (f.onefun.coeffs.cols.getD j []) y - ∑ i ∈ range f.onefun.coeffs.m, R i j * chebEval (q.coeffs.cols.getD i []) y)
          (bwd f.dom x) := by
      intro x
      simp only [colVal]
      congr 1
      apply sum_congr rfl
      intro i hi
      rw [hcv i (mem_range.mp hi)]
      field_simp
    simp only [h1]
    rw [integral_dom f.dom hd (fun y => (chebEval (f.onefun.coeffs.cols.getD j []) y
      - ∑ i ∈ range f.onefun.coeffs.m, R i j * chebEval (q.coeffs.cols.getD i []) y) ^ 2), hdl]
    have h2 : ∫ x in f.dom.e0..f.dom.e1, colVal f j x ^ 2 = (∫ y in (-1 : ℝ)..1, chebEval (f.onefun.coeffs.cols.getD j []) y ^ 2) * ℓ :=
      integral_dom f.dom hd (fun y => chebEval (f.onefun.coeffs.cols.getD j []) y ^ 2)
    rw [h2]
    have h3 : max ℓ ((∫ y in (-1 : ℝ)..1, chebEval (f.onefun.coeffs.cols.getD j []) y ^ 2) * ℓ)
        = max 1 (∫ y in (-1 : ℝ)..1, chebEval (f.onefun.coeffs.cols.getD j []) y ^ 2) * ℓ := by
      rw [max_mul_of_nonneg _ _ hlen.le, one_mul]
    rw [h3, ← mul_assoc]
    exact mul_le_mul_of_nonneg_right (hres j hj) hlen.le
  · simp [prolong, Arr.mapCols, Arr.m]
  · intro j hj x
    have hj' : j < f.onefun.coeffs.cols.length := hj
    simp only [colVal, prolong, Arr.mapCols]
    rw [getD_lt' _ _ _ (by simpa using hj'), getD_lt' _ _ _ hj', List.getElem_map]
    apply chebEval_prolong
    rw [hf.wf _ (List.getElem_mem hj')]
    have := le_max_left f.onefun.coeffs.n f.onefun.coeffs.m
    omega

/-- C93, failure: the decomposition of a single function always raises. -/
theorem C93_one_column_fails (eps : ℝ) (f : ChebFun) (hm : f.onefun.coeffs.m = 1) : f.qr eps = none := by
  rw [ChebFun.qr, Tech.qr]
  simp [hm]

/-- C93, failure: there is no decomposition of the zero function (all entries are `nan`). -/
theorem C93_zero_fails (eps : ℝ) (f : ChebFun) (hf : f.onefun.Proper) (h0 : ∀ c ∈ f.onefun.coeffs.cols, ∀ x ∈ c, x = 0) : f.qr eps = none := by
  have hz : maxAbs (vscale f.onefun.coeffs) = 0 := by
    apply le_antisymm _ (maxAbs_nonneg' _)
    apply maxAbs_le _ _ le_rfl
    intro a ha
    rw [vscale] at ha
    have hc0 : ∀ c ∈ f.onefun.coeffs.cols, ∀ k, c.getD k 0 = 0 := by
      intro c hc k
      by_cases hk : k < c.length
      · rw [getD_lt' _ _ _ hk]; exact h0 c hc _ (List.getElem_mem hk)
      · exact getD_ge' _ _ _ (by omega)
    split_ifs at ha with h1
    · obtain ⟨c, hc, rfl⟩ := List.mem_map.mp ha
      rw [hc0 c hc]; simp
    · obtain ⟨d, hd, rfl⟩ := List.mem_map.mp ha
      obtain ⟨c, hc, rfl⟩ := List.mem_map.mp hd
      rw [abs_of_nonneg (maxAbs_nonneg' _)]
      apply maxAbs_le _ _ le_rfl
      intro x hx
      rw [polyvalCol_eq c (hf.col_ne hc)] at hx
      obtain ⟨y, _, rfl⟩ := List.mem_map.mp hx
      rw [chebEval, sum_eq_zero]
      · simp
      · intro i _; rw [hc0 c hc]; ring
  rw [ChebFun.qr, Tech.qr]
  simp [hz]

/-- The hypotheses are met by `f = (1, x)` on `[0, 3]`. -/
example : ∃ Q R f', ChebFun.qr (1 / 10 ^ 8) ⟨⟨0, 3⟩, ⟨⟨2, [[1, 0], [0, 1]]⟩, 1 / 10 ^ 16, 1, 2 ^ 14 + 1, true⟩⟩ = some (Q, R, f') := by
  obtain ⟨Q, R, f', h, _⟩ := C93_qr_partial (1 / 10 ^ 8) (by norm_num) ⟨⟨0, 3⟩, ⟨⟨2, [[1, 0], [0, 1]]⟩, 1 / 10 ^ 16, 1, 2 ^ 14 + 1, true⟩⟩
    ⟨by simp [Arr.WF], by simp [Arr.m]⟩ (by norm_num) (by simp [Arr.m]) rfl ⟨[1, 0], by simp, 0, by simp⟩ 1 (by
      intro c hc x hx0 hx1
      have hb := (bwd_mem ⟨0, 3⟩ (by norm_num) x ⟨hx0, hx1⟩).1
      simp only [List.mem_cons, List.not_mem_nil, or_false] at hc
      rcases hc with rfl | rfl
      · simp [chebEval, sum_range_succ]
      · simpa [chebEval, sum_range_succ] using hb)
  exact ⟨Q, R, f', h⟩

end Funpy.Props
