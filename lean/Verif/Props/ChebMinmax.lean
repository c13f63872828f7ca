import Verif.Props.ChebNorm

/-!
# C86: minimum, maximum and the maximum norm
-/

namespace Funpy.Props
open Spec Cheb Real Finset Mapping

private lemma getD_mem {l : List ℝ} {k : ℕ} (h : k < l.length) : l.getD k 0 ∈ l := by
  rw [getD_lt' _ _ _ h]; exact List.getElem_mem h

private lemma mem_getD {l : List ℝ} {x : ℝ} (h : x ∈ l) : ∃ k < l.length, l.getD k 0 = x := by
  obtain ⟨k, hk, rfl⟩ := List.mem_iff_getElem.mp h
  exact ⟨k, hk, getD_lt' _ _ _ hk⟩

private lemma argmin_mem {l : List ℝ} (h : l ≠ []) : l.getD (argmin l) 0 ∈ l ∧ ∀ x ∈ l, l.getD (argmin l) 0 ≤ x := by
  refine ⟨getD_mem (argmin_lt l h), fun x hx => ?_⟩
  obtain ⟨k, hk, rfl⟩ := mem_getD hx
  exact argmin_le l k hk

private lemma argmax_mem {l : List ℝ} (h : l ≠ []) : argmaxL l < l.length ∧ ∀ x ∈ l, x ≤ l.getD (argmaxL l) 0 := by
  have hne : l.map (-·) ≠ [] := by simpa using h
  have hlt : argmaxL l < l.length := by
    have := argmin_lt _ hne
    rwa [List.length_map] at this
  refine ⟨hlt, fun x hx => ?_⟩
  obtain ⟨k, hk, rfl⟩ := mem_getD hx
  have h1 := argmin_le (l.map (-·)) k (by simpa using hk)
  change (l.map (-·)).getD (argmaxL l) 0 ≤ _ at h1
  rw [getD_lt' (List.map _ l) _ _ (by simpa using hlt), getD_lt' (List.map _ l) _ _ (by simpa using hk), List.getElem_map,
    List.getElem_map] at h1
  rw [getD_lt' _ _ _ hk, getD_lt' _ _ _ hlt]
  linarith

private lemma minCol_spec (f : List ℝ) (hf : f ≠ []) (r : List ℝ) (hr : r ≠ []) :
    let q := minCol f r (chebpts2 f.length)
    (q.2 ∈ r ∨ q.2 ∈ chebpts2 f.length) ∧ q.1 = chebEval f q.2 ∧
      ∀ x, (x ∈ r ∨ x ∈ chebpts2 f.length) → q.1 ≤ chebEval f x := by
  classical
  have hv : (r.map fun x => clenshawScalar x f) = r.map (chebEval f) := by
    apply List.map_congr_left; intro x _; exact clenshaw_cheb x f hf
  have hvne : r.map (chebEval f) ≠ [] := by simpa using hr
  have hi := argmin_lt _ hvne
  obtain ⟨-, h2⟩ := argmin_mem hvne
  set i := argmin (r.map (chebEval f)) with hidef
  have hir : i < r.length := by simpa using hi
  have hv0 : (r.map (chebEval f)).getD i 0 = chebEval f (r.getD i 0) := by
    rw [getD_lt' (List.map _ r) _ _ hi, List.getElem_map, getD_lt' _ _ _ hir]
  set vals := (r.map (chebEval f)).getD i 0 :: polyvalCol f with hvals
  have hk := argmin_lt vals (by simp [hvals])
  obtain ⟨-, h4⟩ := argmin_mem (l := vals) (by simp [hvals])
  have hmin : minCol f r (chebpts2 f.length) = if vals.getD (argmin vals) 0 < (r.map (chebEval f)).getD i 0 then
      (vals.getD (argmin vals) 0, (chebpts2 f.length).getD (argmin vals - 1) 0) else ((r.map (chebEval f)).getD i 0, r.getD i 0) := by
    simp only [minCol, hv, ← hidef, ← hvals]
  rw [hmin]
  have hall : ∀ x, (x ∈ r ∨ x ∈ chebpts2 f.length) → vals.getD (argmin vals) 0 ≤ chebEval f x := by
    rintro x (hx | hx)
    · refine (h4 _ (by rw [hvals]; exact List.mem_cons_self)).trans (h2 _ (List.mem_map_of_mem hx))
    · apply h4
      rw [hvals, polyvalCol_eq f hf]
      exact List.mem_cons_of_mem _ (List.mem_map_of_mem hx)
  split_ifs with hlt
  · have hk0 : argmin vals ≠ 0 := by
      intro h0; rw [h0, hvals, List.getD_cons_zero] at hlt; exact lt_irrefl _ hlt
    obtain ⟨k, hk1⟩ := Nat.exists_eq_succ_of_ne_zero hk0
    have hkl : k < f.length := by
      rw [hk1, hvals, List.length_cons, polyvalCol_length] at hk; omega
    refine ⟨Or.inr ?_, ?_, hall⟩
    · simp only
      rw [hk1, Nat.succ_sub_one]
      exact getD_mem (by rw [chebpts2_length]; exact hkl)
    · simp only
      rw [hk1, Nat.succ_sub_one, hvals, Nat.succ_eq_add_one, List.getD_cons_succ, polyvalCol_eq f hf,
        getD_lt' (List.map _ _) _ _ (by simpa [chebpts2_length] using hkl), List.getElem_map,
        getD_lt' _ _ _ (by rw [chebpts2_length]; exact hkl)]
  · exact ⟨Or.inl (getD_mem hir), hv0, fun x hx => (not_lt.mp hlt).trans (hall x hx)⟩

private lemma maxCol_spec (f : List ℝ) (hf : f ≠ []) (r : List ℝ) (hr : r ≠ []) :
    let q := maxCol f r (chebpts2 f.length)
    (q.2 ∈ r ∨ q.2 ∈ chebpts2 f.length) ∧ q.1 = chebEval f q.2 ∧
      ∀ x, (x ∈ r ∨ x ∈ chebpts2 f.length) → chebEval f x ≤ q.1 := by
  classical
  have hv : (r.map fun x => clenshawScalar x f) = r.map (chebEval f) := by
    apply List.map_congr_left; intro x _; exact clenshaw_cheb x f hf
  have hvne : r.map (chebEval f) ≠ [] := by simpa using hr
  obtain ⟨hi, h2⟩ := argmax_mem hvne
  set i := argmaxL (r.map (chebEval f)) with hidef
  have hir : i < r.length := by simpa using hi
  have hv0 : (r.map (chebEval f)).getD i 0 = chebEval f (r.getD i 0) := by
    rw [getD_lt' (List.map _ r) _ _ hi, List.getElem_map, getD_lt' _ _ _ hir]
  set vals := (r.map (chebEval f)).getD i 0 :: polyvalCol f with hvals
  obtain ⟨hk, h4⟩ := argmax_mem (l := vals) (by simp [hvals])
  have hmax : maxCol f r (chebpts2 f.length) = if (r.map (chebEval f)).getD i 0 < vals.getD (argmaxL vals) 0 then
      (vals.getD (argmaxL vals) 0, (chebpts2 f.length).getD (argmaxL vals - 1) 0) else ((r.map (chebEval f)).getD i 0, r.getD i 0) := by
    simp only [maxCol, hv, ← hidef, ← hvals]
  rw [hmax]
  have hall : ∀ x, (x ∈ r ∨ x ∈ chebpts2 f.length) → chebEval f x ≤ vals.getD (argmaxL vals) 0 := by
    rintro x (hx | hx)
    · refine (h2 _ (List.mem_map_of_mem hx)).trans (h4 _ (by rw [hvals]; exact List.mem_cons_self))
    · apply h4
      rw [hvals, polyvalCol_eq f hf]
      exact List.mem_cons_of_mem _ (List.mem_map_of_mem hx)
  split_ifs with hlt
  · have hk0 : argmaxL vals ≠ 0 := by
      intro h0; rw [h0, hvals, List.getD_cons_zero] at hlt; exact lt_irrefl _ hlt
    obtain ⟨k, hk1⟩ := Nat.exists_eq_succ_of_ne_zero hk0
    have hkl : k < f.length := by
      rw [hk1, hvals, List.length_cons, polyvalCol_length] at hk; omega
    refine ⟨Or.inr ?_, ?_, hall⟩
    · simp only
      rw [hk1, Nat.succ_sub_one]
      exact getD_mem (by rw [chebpts2_length]; exact hkl)
    · simp only
      rw [hk1, Nat.succ_sub_one, hvals, Nat.succ_eq_add_one, List.getD_cons_succ, polyvalCol_eq f hf,
        getD_lt' (List.map _ _) _ _ (by simpa [chebpts2_length] using hkl), List.getElem_map,
        getD_lt' _ _ _ (by rw [chebpts2_length]; exact hkl)]
  · exact ⟨Or.inl (getD_mem hir), hv0, fun x hx => (hall x hx).trans (not_lt.mp hlt)⟩

private lemma allSome_spec {α : Type} : ∀ (l : List (Option α)) (r : List α), allSome l = some r → l = r.map some
  | [], r, h => by simp only [allSome, Option.some.injEq] at h; subst h; rfl
  | a :: l, r, h => by
    cases a with
    | none => simp [allSome] at h
    | some x =>
      cases h' : allSome l with
      | none => simp [allSome, h'] at h
      | some xs =>
        simp only [allSome, h', Option.bind_some, Option.map_some, Option.some.injEq] at h
        subst h
        simp [allSome_spec l xs h']

/-- The numbers `np.diff(f)[i].roots()` returned by the root finder for the derivative of column `i` (for a function
with one column `np.diff(f).roots()`). -/
noncomputable def derivRoots (eig : List ℝ → List ℂ) (fuel : ℕ) (t : Tech) (i : ℕ) : Option (List ℝ) :=
  (t.diff 1).bind fun fp =>
    if t.coeffs.m = 1 then fp.roots eig fuel else (colTech fp (fp.coeffs.cols.getD i [])).roots eig fuel

/-- C86: whenever `minandmax(f)` returns, it reports for each column a minimum and a maximum together with the points
where they are attained; the points are end points, grid points or reported roots of the derivative, and no value at such a
point is below the reported minimum or above the reported maximum. -/
theorem C86_candidates (eig : List ℝ → List ℂ) (fuel : ℕ) (t : Tech) (ht : t.Proper) (q : List ((ℝ × ℝ) × (ℝ × ℝ)))
    (h : t.minandmax eig fuel = some q) :
    q.length = t.coeffs.m ∧ ∀ i (hi : i < t.coeffs.cols.length), ∃ p rr, q[i]? = some p ∧ derivRoots eig fuel t i = some rr ∧
      p.1.1 = chebEval t.coeffs.cols[i] p.1.2 ∧ p.2.1 = chebEval t.coeffs.cols[i] p.2.2 ∧
      (p.1.2 ∈ [-1] ++ rr ++ [1] ∨ p.1.2 ∈ chebpts2 t.coeffs.n) ∧ (p.2.2 ∈ [-1] ++ rr ++ [1] ∨ p.2.2 ∈ chebpts2 t.coeffs.n) ∧
      ∀ x, (x ∈ [-1] ++ rr ++ [1] ∨ x ∈ chebpts2 t.coeffs.n) →
        p.1.1 ≤ chebEval t.coeffs.cols[i] x ∧ chebEval t.coeffs.cols[i] x ≤ p.2.1 := by
  have hs : t.coeffs.n * t.coeffs.m ≠ 0 := Nat.mul_ne_zero ht.n_pos.ne' ht.m_ne
  obtain ⟨fp, hfp, -, -, hfm, -⟩ := C08_tech t ht.wf hs 1 le_rfl
  have key : ∀ (c : List ℝ) (d : Tech) (p : (ℝ × ℝ) × (ℝ × ℝ)), c ∈ t.coeffs.cols →
      minmaxCol eig fuel c d (chebpts2 t.coeffs.n) = some p → ∃ rr, d.roots eig fuel = some rr ∧
      p.1.1 = chebEval c p.1.2 ∧ p.2.1 = chebEval c p.2.2 ∧
      (p.1.2 ∈ [-1] ++ rr ++ [1] ∨ p.1.2 ∈ chebpts2 t.coeffs.n) ∧ (p.2.2 ∈ [-1] ++ rr ++ [1] ∨ p.2.2 ∈ chebpts2 t.coeffs.n) ∧
      ∀ x, (x ∈ [-1] ++ rr ++ [1] ∨ x ∈ chebpts2 t.coeffs.n) → p.1.1 ≤ chebEval c x ∧ chebEval c x ≤ p.2.1 := by
    intro c d p hc hp
    rw [minmaxCol] at hp
    obtain ⟨rr, hrr, rfl⟩ := Option.map_eq_some_iff.mp hp
    have hl := ht.wf c hc
    have h1 := minCol_spec c (ht.col_ne hc) ([-1] ++ rr ++ [1]) (by simp)
    have h2 := maxCol_spec c (ht.col_ne hc) ([-1] ++ rr ++ [1]) (by simp)
    rw [hl] at h1 h2
    exact ⟨rr, hrr, h1.2.1, h2.2.1, h1.1, h2.1, fun x hx => ⟨h1.2.2 x hx, h2.2.2 x hx⟩⟩
  rw [Tech.minandmax, hfp, Option.bind_some] at h
  simp only at h
  by_cases hm : t.coeffs.m = 1
  · rw [if_pos hm] at h
    obtain ⟨p, hp, rfl⟩ := Option.map_eq_some_iff.mp h
    refine ⟨by simp [hm], fun i hi => ?_⟩
    have hi0 : i = 0 := by have : t.coeffs.cols.length = 1 := hm; omega
    subst hi0
    rw [getD_lt' _ _ _ hi] at hp
    obtain ⟨rr, hrr, rest⟩ := key _ _ p (List.getElem_mem hi) hp
    exact ⟨p, rr, rfl, by rw [derivRoots, hfp, Option.bind_some, if_pos hm, hrr], rest⟩
  · rw [if_neg hm] at h
    have hz := allSome_spec _ _ h
    have hlen : q.length = t.coeffs.m := by
      have := congrArg List.length hz
      simp only [List.length_zipWith, List.length_map] at this
      rw [← this, show fp.coeffs.cols.length = t.coeffs.m from hfm]
      simp [Arr.m]
    refine ⟨hlen, fun i hi => ?_⟩
    have hif : i < fp.coeffs.cols.length := by rw [show fp.coeffs.cols.length = t.coeffs.m from hfm]; exact hi
    have hiq : i < q.length := by rw [hlen]; exact hi
    have hzi := congrArg (fun l => l[i]?) hz
    simp only [List.getElem?_map, List.getElem?_eq_getElem hiq, Option.map_some] at hzi
    rw [List.getElem?_eq_getElem (by simp; omega), List.getElem_zipWith, Option.some.injEq] at hzi
    obtain ⟨rr, hrr, rest⟩ := key _ _ _ (List.getElem_mem hi) hzi
    refine ⟨q[i], rr, by rw [List.getElem?_eq_getElem hiq], ?_, rest⟩
    rw [derivRoots, hfp, Option.bind_some, if_neg hm, getD_lt' _ _ _ hif, hrr]

private lemma bwd_mem (e : Ends) (hd : e.e0 < e.e1) (x : ℝ) (hx : x ∈ Set.Icc e.e0 e.e1) : bwd e x ∈ Set.Icc (-1 : ℝ) 1 := by
  have hpos : 0 < Mapping.diff e := by simp only [Mapping.diff]; linarith
  rw [bwd, Set.mem_Icc, le_div_iff₀ hpos, div_le_iff₀ hpos]
  simp only [Mapping.diff]
  constructor <;> linarith [hx.1, hx.2]

/-- C86: suppose that for every column that is not constant the root finder reports all critical points in the interior of the interval and no
point outside the interval.  Then `minandmax(f)` returns for every column the minimum and the maximum of the column on
the domain, with points of the domain where they are attained. -/
theorem C86_extrema_partial (eig : List ℝ → List ℂ) (fuel : ℕ) (f : ChebFun) (hf : f.onefun.Proper)
    (hd : f.dom.e0 < f.dom.e1) (q : List ((ℝ × ℝ) × (ℝ × ℝ))) (h : f.minandmax eig fuel = some q)
    (hroots : ∀ i (hi : i < f.onefun.coeffs.cols.length), ∀ rr, derivRoots eig fuel f.onefun i = some rr →
      ((∃ x y, chebEval f.onefun.coeffs.cols[i] x ≠ chebEval f.onefun.coeffs.cols[i] y) →
        ∀ x ∈ Set.Ioo (-1 : ℝ) 1, deriv (chebEval f.onefun.coeffs.cols[i]) x = 0 → x ∈ rr) ∧
      ∀ x ∈ rr, x ∈ Set.Icc (-1 : ℝ) 1) :
    q.length = f.onefun.coeffs.m ∧ ∀ i (hi : i < f.onefun.coeffs.cols.length), ∃ p, q[i]? = some p ∧
      p.1.2 ∈ Set.Icc f.dom.e0 f.dom.e1 ∧ p.2.2 ∈ Set.Icc f.dom.e0 f.dom.e1 ∧
      p.1.1 = chebEval f.onefun.coeffs.cols[i] (bwd f.dom p.1.2) ∧
      p.2.1 = chebEval f.onefun.coeffs.cols[i] (bwd f.dom p.2.2) ∧
      ∀ x ∈ Set.Icc f.dom.e0 f.dom.e1, p.1.1 ≤ chebEval f.onefun.coeffs.cols[i] (bwd f.dom x) ∧
        chebEval f.onefun.coeffs.cols[i] (bwd f.dom x) ≤ p.2.1 := by
  obtain ⟨q0, hq0, rfl⟩ := Option.map_eq_some_iff.mp h
  obtain ⟨hlen, hcol⟩ := C86_candidates eig fuel f.onefun hf q0 hq0
  refine ⟨by simpa using hlen, fun i hi => ?_⟩
  obtain ⟨p, rr, hp, hrr, e1, e2, m1, m2, hcan⟩ := hcol i hi
  obtain ⟨hcrit, hin⟩ := hroots i hi rr hrr
  set c := f.onefun.coeffs.cols[i] with hc
  have hn : 0 < f.onefun.coeffs.n := hf.n_pos
  have hpts : ∀ x, (x ∈ [-1] ++ rr ++ [1] ∨ x ∈ chebpts2 f.onefun.coeffs.n) → x ∈ Set.Icc (-1 : ℝ) 1 := by
    rintro x (hx | hx)
    · simp only [List.mem_append, List.mem_singleton] at hx
      rcases hx with (rfl | hx) | rfl
      · norm_num
      · exact hin x hx
      · norm_num
    · rcases Nat.lt_or_ge f.onefun.coeffs.n 2 with h1 | h1
      · have : f.onefun.coeffs.n = 1 := by omega
        rw [this] at hx
        simp [chebpts2] at hx
        subst hx; norm_num
      · exact abs_le.mp (chebpts2_mem_abs _ h1 x hx)
  have hcu : Continuous (chebEval c) := by
    unfold chebEval
    exact continuous_finsetSum _ fun k _ => continuous_const.mul (Polynomial.continuous _)
  have hne : (Set.Icc (-1 : ℝ) 1).Nonempty := ⟨0, by norm_num⟩
  have hlohi : (∀ y ∈ Set.Icc (-1 : ℝ) 1, p.1.1 ≤ chebEval c y) ∧ ∀ y ∈ Set.Icc (-1 : ℝ) 1, chebEval c y ≤ p.2.1 := by
    by_cases hconst : ∃ x y, chebEval c x ≠ chebEval c y
    · have hcand : ∀ x ∈ Set.Icc (-1 : ℝ) 1, (x ∈ Set.Ioo (-1 : ℝ) 1 → deriv (chebEval c) x = 0) → x ∈ [-1] ++ rr ++ [1] := by
        intro x hx hdx
        simp only [List.mem_append, List.mem_singleton]
        rcases eq_or_lt_of_le hx.1 with h1 | h1
        · exact Or.inl (Or.inl h1.symm)
        · rcases eq_or_lt_of_le hx.2 with h2 | h2
          · exact Or.inr h2
          · exact Or.inl (Or.inr (hcrit hconst x ⟨h1, h2⟩ (hdx ⟨h1, h2⟩)))
      obtain ⟨xm, hxm, hmin⟩ := isCompact_Icc.exists_isMinOn hne hcu.continuousOn
      obtain ⟨xM, hxM, hmax⟩ := isCompact_Icc.exists_isMaxOn hne hcu.continuousOn
      exact ⟨fun y hy => ((hcan xm (Or.inl (hcand xm hxm fun hint =>
          (hmin.isLocalMin (Icc_mem_nhds hint.1 hint.2)).deriv_eq_zero))).1).trans (hmin hy),
        fun y hy => (hmax hy).trans (hcan xM (Or.inl (hcand xM hxM fun hint =>
          (hmax.isLocalMax (Icc_mem_nhds hint.1 hint.2)).deriv_eq_zero))).2⟩
    · push Not at hconst
      exact ⟨fun y _ => by rw [e1]; exact (hconst _ y).le, fun y _ => by rw [e2]; exact (hconst y _).le⟩
  obtain ⟨hlo, hhi⟩ := hlohi
  have hfb : ∀ y, bwd f.dom (fwd f.dom y) = y := by
    intro y
    have : f.dom.e1 - f.dom.e0 ≠ 0 := by linarith
    simp only [bwd, fwd, Mapping.diff] at *
    field_simp
    ring
  have hfw : ∀ y ∈ Set.Icc (-1 : ℝ) 1, fwd f.dom y ∈ Set.Icc f.dom.e0 f.dom.e1 := by
    intro y hy
    simp only [fwd]
    constructor <;> nlinarith [hy.1, hy.2]
  refine ⟨((p.1.1, fwd f.dom p.1.2), (p.2.1, fwd f.dom p.2.2)), by simp [hp], hfw _ (hpts _ m1), hfw _ (hpts _ m2), ?_, ?_, ?_⟩
  · simp only [hfb]; exact e1
  · simp only [hfb]; exact e2
  · intro x hx
    exact ⟨hlo _ (bwd_mem f.dom hd x hx), hhi _ (bwd_mem f.dom hd x hx)⟩

/-- C86: under the same hypotheses `norm(f, np.inf)` is the largest absolute value any column takes on the domain. -/
theorem C86_infnorm_partial (eig : List ℝ → List ℂ) (fuel : ℕ) (f : ChebFun) (hf : f.onefun.Proper)
    (hd : f.dom.e0 < f.dom.e1) (v : ℝ) (h : f.norm eig fuel .inf false = some v)
    (hroots : ∀ i (hi : i < f.onefun.coeffs.cols.length), ∀ rr, derivRoots eig fuel f.onefun i = some rr →
      ((∃ x y, chebEval f.onefun.coeffs.cols[i] x ≠ chebEval f.onefun.coeffs.cols[i] y) →
        ∀ x ∈ Set.Ioo (-1 : ℝ) 1, deriv (chebEval f.onefun.coeffs.cols[i]) x = 0 → x ∈ rr) ∧
      ∀ x ∈ rr, x ∈ Set.Icc (-1 : ℝ) 1) :
    IsGreatest {y | ∃ c ∈ f.onefun.coeffs.cols, ∃ x ∈ Set.Icc f.dom.e0 f.dom.e1, y = |chebEval c (bwd f.dom x)|} v := by
  simp only [ChebFun.norm, Bool.false_eq_true, if_false, ChebFun.normInf] at h
  obtain ⟨q, hq, rfl⟩ := Option.map_eq_some_iff.mp h
  obtain ⟨hlen, hcol⟩ := C86_extrema_partial eig fuel f hf hd q hq hroots
  set l := q.flatMap fun q => [q.1.1, q.2.1] with hl
  have hle : ∀ (l : List ℝ) (a : ℝ), 0 ≤ a → (a ≤ (l.map abs).foldl max a) ∧
      (∀ x ∈ l, |x| ≤ (l.map abs).foldl max a) ∧ ((l.map abs).foldl max a = a ∨ ∃ x ∈ l, (l.map abs).foldl max a = |x|) := by
    intro l
    induction l with
    | nil => intro a ha; simp
    | cons b l ih =>
      intro a ha
      simp only [List.map_cons, List.foldl_cons]
      obtain ⟨h1, h2, h3⟩ := ih (max a |b|) (le_max_of_le_left ha)
      refine ⟨(le_max_left _ _).trans h1, ?_, ?_⟩
      · intro x hx
        rcases List.mem_cons.mp hx with rfl | hx
        · exact (le_max_right _ _).trans h1
        · exact h2 x hx
      · rcases h3 with h3 | ⟨x, hx, h3⟩
        · rw [h3]
          rcases max_choice a |b| with h | h
          · left; exact h
          · right; exact ⟨b, by simp, h⟩
        · right; exact ⟨x, by simp [hx], h3⟩
  obtain ⟨g0, g1, g2⟩ := hle l 0 le_rfl
  have hmem : ∀ i (hi : i < f.onefun.coeffs.cols.length) p, q[i]? = some p → p.1.1 ∈ l ∧ p.2.1 ∈ l := by
    intro i hi p hp
    have hpq : p ∈ q := List.mem_of_getElem? hp
    constructor <;> exact List.mem_flatMap.mpr ⟨p, hpq, by simp⟩
  have hback : ∀ y ∈ l, |y| ∈ {y | ∃ c ∈ f.onefun.coeffs.cols, ∃ x ∈ Set.Icc f.dom.e0 f.dom.e1, y = |chebEval c (bwd f.dom x)|} := by
    intro y hy
    obtain ⟨p, hp, hy⟩ := List.mem_flatMap.mp hy
    obtain ⟨i, hi, rfl⟩ := List.mem_iff_getElem.mp hp
    have hi' : i < f.onefun.coeffs.cols.length := by rw [hlen] at hi; exact hi
    obtain ⟨p, hp, d1, d2, e1, e2, -⟩ := hcol i hi'
    rw [List.getElem?_eq_getElem hi, Option.some.injEq] at hp
    rw [hp] at hy
    simp only [List.mem_cons, List.not_mem_nil, or_false] at hy
    rcases hy with rfl | rfl
    · exact ⟨_, List.getElem_mem hi', _, d1, by rw [e1]⟩
    · exact ⟨_, List.getElem_mem hi', _, d2, by rw [e2]⟩
  constructor
  · rcases g2 with h0 | ⟨x, hx, h0⟩
    · -- the list is not empty, and all its entries are zero
      have hm : 0 < f.onefun.coeffs.cols.length := Nat.pos_of_ne_zero hf.m_ne
      obtain ⟨p, hp, -⟩ := hcol 0 hm
      have h1 := (hmem 0 hm p hp).1
      have h2 := g1 _ h1
      have h3 : |p.1.1| = 0 := le_antisymm (by rw [h0] at h2; exact h2) (abs_nonneg _)
      have := hback _ h1
      rw [h3] at this
      show maxAbs l ∈ _
      rw [maxAbs, h0]
      exact this
    · show maxAbs l ∈ _
      rw [maxAbs, h0]
      exact hback x hx
  · rintro y ⟨c, hc, x, hx, rfl⟩
    obtain ⟨i, hi, rfl⟩ := List.mem_iff_getElem.mp hc
    obtain ⟨p, hp, -, -, -, -, hb⟩ := hcol i hi
    obtain ⟨b1, b2⟩ := hb x hx
    obtain ⟨m1, m2⟩ := hmem i hi p hp
    have k1 := g1 _ m1
    have k2 := g1 _ m2
    show _ ≤ maxAbs l
    rw [maxAbs, abs_le]
    constructor
    · linarith [neg_abs_le p.1.1]
    · linarith [le_abs_self p.2.1]

/-- The derivative of a quadratic `c0 + c1 T_1 + c2 T_2` whose last coefficient is not negligible has the root
`-c1 / (4 c2)`. -/
lemma derivRoots_quadratic (eig : List ℝ → List ℂ) (fuel : ℕ) (t : Tech) (c0 c1 c2 : ℝ) (hc : t.coeffs = ⟨3, [[c0, c1, c2]]⟩)
    (h0 : 0 < t.eps) (h1 : t.eps < 1) (h2 : t.eps ^ ((1 : ℝ) / 3) < |c2|)
    (hab : 5 * 1.48e-8 * (|c1| + |4 * c2|) < |4 * c2|) :
    derivRoots eig (fuel + 1) t 0 = some [-c1 / (4 * c2)] := by
  have hp : t.Proper := ⟨by rw [hc]; simp [Arr.WF], by rw [hc]; simp [Arr.m]⟩
  obtain ⟨k, hk1, hk2, hkn, hlen, hcol⟩ := C22_prefix t.coeffs hp.wf t.eps h0 h1
  obtain ⟨d, hd, hdl, hpre, hdrop⟩ := hcol 0 (by rw [hc]; simp)
  have hc0 : t.coeffs.cols[0]'(by rw [hc]; simp) = [c0, c1, c2] := by simp [hc]
  rw [hc0] at hpre hdrop
  have hk3 : 3 ≤ k := by
    by_contra hlt
    have := hdrop 2 (by omega)
    simp only [List.getD_cons_succ, List.getD_cons_zero] at this
    linarith
  have hk4 : k ≤ 4 := by rw [hc] at hk2; simpa using hk2
  have hcols : (simplifyCoeffs t.coeffs t.eps).cols = [d] := by
    have hl1 : (simplifyCoeffs t.coeffs t.eps).cols.length = 1 := by rw [hlen, hc]; rfl
    obtain ⟨x, hx⟩ := List.length_eq_one_iff.mp hl1
    rw [hx] at hd ⊢
    simp at hd
    rw [hd]
  have hder : ∃ l, derCol d = [c1, 4 * c2] ++ List.replicate l 0 ∧ k - 1 = 2 + l := by
    have e0 := hpre 0 (by omega)
    have e1 := hpre 1 (by omega)
    have e2 := hpre 2 (by omega)
    simp only [List.getD_cons_succ, List.getD_cons_zero] at e0 e1 e2
    rcases (by omega : k = 3 ∨ k = 4) with rfl | rfl
    · refine ⟨0, ?_, rfl⟩
      match d, hdl with
      | [a, b, c], _ =>
        simp at e0 e1 e2
        subst e0 e1 e2
        simp [derCol, List.range_succ, cumAssign, sliceDown2, sliceDown2.go]
        norm_num
        ring
    · have e3 := hpre 3 (by omega)
      refine ⟨1, ?_, rfl⟩
      match d, hdl with
      | [a, b, c, g], _ =>
        simp at e0 e1 e2 e3
        subst e0 e1 e2 e3
        simp [derCol, List.range_succ, cumAssign, sliceDown2, sliceDown2.go, List.replicate]
        norm_num
        ring
  obtain ⟨l, hdl, hkl⟩ := hder
  obtain ⟨fp, hfp, hfe, hfc⟩ : ∃ fp, t.diff 1 = some fp ∧ fp.eps = t.eps ∧ fp.coeffs = ⟨2 + l, [[c1, 4 * c2] ++ List.replicate l 0]⟩ := by
    have hm : computeDerCoeffs (simplifyCoeffs t.coeffs t.eps) = some ⟨2 + l, [[c1, 4 * c2] ++ List.replicate l 0]⟩ := by
      rw [computeDerCoeffs, if_neg (by omega)]
      simp only [Arr.mapCols, hcols, List.map_cons, List.map_nil, hdl, hkn, hkl]
    obtain ⟨fp, hfp, e1, -, -, -, e5⟩ := mk'_some (⟨2 + l, [[c1, 4 * c2] ++ List.replicate l 0]⟩ : Arr ℝ) (by simp [Arr.m]) t.eps t.ishappy
      false t.hscale t.maxLength
    refine ⟨fp, ?_, e1, ?_⟩
    · rw [Tech.diff]
      rw [if_neg (by omega), hm]
      exact hfp
    · rw [e5]; rfl
  have h4 : |4 * c2| = 4 * |c2| := by rw [abs_mul]; norm_num
  rw [derivRoots, hfp, Option.bind_some, if_pos (by rw [hc]; rfl)]
  apply roots_linear eig fuel fp l c1 (4 * c2) hfc (by rw [hfe]; exact h0) (by rw [hfe]; exact h1) _ hab
  rw [hfe, h4]
  linarith [abs_nonneg c2]

/-- C86 for quadratics `c0 + c1 T_1 + c2 T_2` whose last coefficient is not negligible and whose vertex is in the domain:
`minandmax` returns the minimum and the maximum on the domain. -/
theorem C86_quadratic_partial (eig : List ℝ → List ℂ) (fuel : ℕ) (f : ChebFun) (hd : f.dom.e0 < f.dom.e1) (c0 c1 c2 : ℝ)
    (hc : f.onefun.coeffs = ⟨3, [[c0, c1, c2]]⟩) (h0 : 0 < f.onefun.eps) (h1 : f.onefun.eps < 1)
    (h2 : f.onefun.eps ^ ((1 : ℝ) / 3) < |c2|) (hv : |c1| ≤ 4 * |c2|) :
    ∃ p, f.minandmax eig (fuel + 1) = some [p] ∧
      p.1.2 ∈ Set.Icc f.dom.e0 f.dom.e1 ∧ p.2.2 ∈ Set.Icc f.dom.e0 f.dom.e1 ∧
      p.1.1 = chebEval [c0, c1, c2] (bwd f.dom p.1.2) ∧ p.2.1 = chebEval [c0, c1, c2] (bwd f.dom p.2.2) ∧
      ∀ x ∈ Set.Icc f.dom.e0 f.dom.e1, p.1.1 ≤ chebEval [c0, c1, c2] (bwd f.dom x) ∧
        chebEval [c0, c1, c2] (bwd f.dom x) ≤ p.2.1 := by
  have hc2 : 0 < |c2| := lt_of_le_of_lt (rpow_nonneg h0.le _) h2
  have hc2' : c2 ≠ 0 := abs_pos.mp hc2
  have h4 : |4 * c2| = 4 * |c2| := by rw [abs_mul]; norm_num
  have hr := derivRoots_quadratic eig fuel f.onefun c0 c1 c2 hc h0 h1 h2 (by rw [h4]; nlinarith)
  have hp : f.onefun.Proper := ⟨by rw [hc]; simp [Arr.WF], by rw [hc]; simp [Arr.m]⟩
  have hm1 : f.onefun.coeffs.m = 1 := by rw [hc]; rfl
  obtain ⟨q, hq⟩ : ∃ q, f.minandmax eig (fuel + 1) = some q := by
    simp only [derivRoots, if_pos hm1] at hr
    obtain ⟨fp, hfp, hrr⟩ := Option.bind_eq_some_iff.mp hr
    simp only [ChebFun.minandmax, Tech.minandmax, if_pos hm1, hfp, Option.bind_some, minmaxCol, hrr, Option.map_some]
    exact ⟨_, rfl⟩
  obtain ⟨hlen, hcol⟩ := C86_extrema_partial eig (fuel + 1) f hp hd q hq (by
    intro i hi rr hrr
    have hi0 : i = 0 := by rw [hc] at hi; simpa using hi
    subst hi0
    rw [hr, Option.some.injEq] at hrr
    subst hrr
    have hcc : f.onefun.coeffs.cols[0] = [c0, c1, c2] := by simp [hc]
    rw [hcc]
    constructor
    · intro _ x _ hdx
      have hev : chebEval [c0, c1, c2] = fun x => c0 + c1 * x + c2 * (2 * x ^ 2 - 1) := by
        funext x
        simp [chebEval, sum_range_succ, Polynomial.Chebyshev.T_two]
      have hderiv : deriv (chebEval [c0, c1, c2]) x = c1 + c2 * (2 * (2 * x)) := by
        rw [hev]
        have : HasDerivAt (fun x : ℝ => c0 + c1 * x + c2 * (2 * x ^ 2 - 1)) (c1 + c2 * (2 * (2 * x))) x := by
          have h1 : HasDerivAt (fun x : ℝ => x ^ 2) (2 * x) x := by simpa using hasDerivAt_pow 2 x
          have h2 := ((hasDerivAt_id x).const_mul c1).const_add c0
          have h3 := ((h1.const_mul 2).sub_const 1).const_mul c2
          have h5 := h2.add h3
          rw [mul_one] at h5
          exact h5
        exact this.deriv
      rw [hderiv] at hdx
      rw [List.mem_singleton, eq_div_iff (by positivity)]
      linarith
    · intro x hx
      rw [List.mem_singleton] at hx
      rw [hx, Set.mem_Icc, ← abs_le, abs_div, abs_neg, h4]
      exact div_le_one_of_le₀ hv (by positivity))
  have hql : q.length = 1 := by rw [hlen, hm1]
  obtain ⟨p, rfl⟩ := List.length_eq_one_iff.mp hql
  obtain ⟨p', hp', rest⟩ := hcol 0 (by rw [hc]; simp)
  simp only [List.getElem?_cons_zero, Option.some.injEq] at hp'
  subst hp'
  have hcc : f.onefun.coeffs.cols[0]'(by rw [hc]; simp) = [c0, c1, c2] := by simp [hc]
  rw [hcc] at rest
  exact ⟨p, hq, rest⟩

/-- The hypotheses of `C86_quadratic_partial` (and so those of `C86_extrema_partial`) are met by `3 T_2 + T_1` on `[0, 3]`. -/
example : let f : ChebFun := ⟨⟨0, 3⟩, ⟨⟨3, [[0, 1, 3]]⟩, 1 / 1000, 1, 10, true⟩⟩
    f.dom.e0 < f.dom.e1 ∧ 0 < f.onefun.eps ∧ f.onefun.eps < 1 ∧ f.onefun.eps ^ ((1 : ℝ) / 3) < |(3 : ℝ)| ∧
      |(1 : ℝ)| ≤ 4 * |(3 : ℝ)| := by
  refine ⟨by norm_num, by norm_num, by norm_num, ?_, ?_⟩
  · refine (cbrt_lt _ 1 (by norm_num) (by norm_num) (by norm_num)).trans ?_
    rw [abs_of_pos (by norm_num)]; norm_num
  · rw [abs_of_pos, abs_of_pos] <;> norm_num

/-- The coefficients of `2 + x - x²/4`. -/
noncomputable def parab : List ℝ := [15 / 8, 1, -1 / 8]

lemma parab_eval (x : ℝ) : chebEval parab x = 2 + x - x ^ 2 / 4 := by
  simp [chebEval, parab, sum_range_succ, Polynomial.Chebyshev.T_two]
  ring

/-- C86 is false: for `f(x) = 2 + x - x²/4` on `[-1, 1]` the reported maximum is `3`, attained at `x = 2`, outside the
domain, and `norm(f, np.inf)` is `3`, although `0 ≤ f ≤ 11/4` on `[-1, 1]` (for any eigenvalue routine and any tolerance below
`1e-3`). -/
theorem C86_fails (eig : List ℝ → List ℂ) (fuel : ℕ) (f : ChebFun) (hdom : f.dom = ⟨-1, 1⟩)
    (hc : f.onefun.coeffs = ⟨3, [parab]⟩) (h0 : 0 < f.onefun.eps) (h1 : f.onefun.eps < 1 / 1000) :
    f.minandmax eig (fuel + 1) = some [((3 / 4, -1), (3, 2))] ∧ f.norm eig (fuel + 1) .inf false = some 3 ∧
      ∀ x ∈ Set.Icc (-1 : ℝ) 1, |chebEval parab x| ≤ 11 / 4 := by
  classical
  set t := f.onefun with htdef
  have hp : t.Proper := ⟨by rw [hc]; simp [Arr.WF, parab], by rw [hc]; simp [Arr.m]⟩
  have hr := derivRoots_quadratic eig fuel t (15 / 8) 1 (-1 / 8) hc h0 (by linarith)
    ((cbrt_lt t.eps (1 / 10) (by norm_num) h0 (by linarith)).trans (by rw [abs_of_neg (by norm_num)]; norm_num))
    (by norm_num)
  have hm1 : t.coeffs.m = 1 := by rw [hc]; rfl
  simp only [derivRoots, if_pos hm1] at hr
  obtain ⟨fp, hfp, hroots⟩ := Option.bind_eq_some_iff.mp hr
  norm_num at hroots
  have hpts : chebpts2 3 = [-1, 0, 1] := by
    have e1 : sin (-(π * 2) / 4) = -1 := by
      rw [show -(π * 2) / 4 = -(π / 2) by ring, sin_neg, sin_pi_div_two]
    have e2 : sin (π * 2 / 4) = 1 := by rw [show π * 2 / 4 = π / 2 by ring, sin_pi_div_two]
    simp only [chebpts2, List.range_succ, List.range_zero, List.nil_append, List.map_cons, List.map_nil, List.cons_append]
    norm_num
    exact ⟨e1, e2⟩
  have hclen : ∀ x, clenshawScalar x parab = 2 + x - x ^ 2 / 4 := fun x => by
    rw [clenshaw_cheb x parab (by simp [parab]), parab_eval]
  have hpv : polyvalCol parab = [3 / 4, 2, 11 / 4] := by
    rw [polyvalCol_eq _ (by simp [parab]), show parab.length = 3 from rfl, hpts]
    simp only [List.map_cons, List.map_nil, parab_eval]
    norm_num
  have hmm : t.minandmax eig (fuel + 1) = some [((3 / 4, -1), (3, 2))] := by
    rw [Tech.minandmax, hfp, Option.bind_some]
    simp only
    rw [if_pos (by rw [hc]; rfl), hc]
    simp only [List.getD_cons_zero, minmaxCol, hroots, Option.map_some, Option.some.injEq, List.cons.injEq, and_true,
      Prod.mk.injEq, List.cons_append, List.nil_append]
    constructor
    · simp only [minCol, List.map_cons, List.map_nil, hclen, hpv]
      norm_num [argmin]
    · simp only [maxCol, List.map_cons, List.map_nil, hclen, hpv]
      norm_num [argmaxL, argmin]
  have hmf : f.minandmax eig (fuel + 1) = some [((3 / 4, -1), (3, 2))] := by
    rw [ChebFun.minandmax, ← htdef, hmm, hdom]
    simp only [Option.map_some, List.map_cons, List.map_nil, fwd]
    norm_num
  refine ⟨hmf, ?_, ?_⟩
  · simp only [ChebFun.norm, Bool.false_eq_true, if_false, ChebFun.normInf, hmf, Option.map_some, List.flatMap_cons,
      List.flatMap_nil, maxAbs]
    norm_num
  · intro x hx
    rw [parab_eval, abs_le]
    constructor <;> nlinarith [hx.1, hx.2]

end Funpy.Props
