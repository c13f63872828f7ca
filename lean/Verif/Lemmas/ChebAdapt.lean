import Verif.Model.ChebNorm
import Verif.Props.ChebRefine

/-!
# What the adaptive constructor returns, in terms of coefficients
-/

namespace Funpy.Props
open Spec Cheb Real Finset Mapping

/-- `d` arises from `c` by discarding coefficients of modulus at most `δ`. -/
def Chopped (δ : ℝ) (c d : List ℝ) : Prop :=
  ∀ l, d.getD l 0 = c.getD l 0 ∨ (d.getD l 0 = 0 ∧ |c.getD l 0| ≤ δ)

lemma Chopped.refl (δ : ℝ) (c : List ℝ) : Chopped δ c c := fun _ => Or.inl rfl

lemma Chopped.trans {δ : ℝ} {c d e : List ℝ} (h1 : Chopped δ c d) (h2 : Chopped δ d e) (h0 : 0 ≤ δ) : Chopped δ c e := by
  intro l
  rcases h2 l with h | ⟨h, h'⟩
  · rw [h]; exact h1 l
  · rcases h1 l with k | ⟨k, k'⟩
    · right; rw [← k]; exact ⟨h, h'⟩
    · right; exact ⟨h, k'⟩

lemma Chopped.mono {δ ε : ℝ} {c d : List ℝ} (h : Chopped δ c d) (hle : δ ≤ ε) : Chopped ε c d := fun l =>
  (h l).imp id fun ⟨a, b⟩ => ⟨a, b.trans hle⟩

lemma Chopped.error {δ : ℝ} {c d : List ℝ} (h : Chopped δ c d) (h0 : 0 ≤ δ) (x : ℝ) (hx : |x| ≤ 1) :
    |chebEval d x - chebEval c x| ≤ c.length * δ := by
  have hT : ∀ k : ℕ, |(Polynomial.Chebyshev.T ℝ (k : ℤ)).eval x| ≤ 1 := fun k =>
    Polynomial.Chebyshev.abs_eval_T_real_le_one (k : ℤ) hx
  rw [chebEval_eq_of_getD d (max c.length d.length) (by omega), chebEval_eq_of_getD c (max c.length d.length) (by omega),
    ← sum_sub_distrib]
  have hterm : ∀ k ∈ range (max c.length d.length), |d.getD k 0 * (Polynomial.Chebyshev.T ℝ (k : ℤ)).eval x
      - c.getD k 0 * (Polynomial.Chebyshev.T ℝ (k : ℤ)).eval x| ≤ if k < c.length then δ else 0 := by
    intro k _
    rw [← sub_mul, abs_mul]
    refine (mul_le_of_le_one_right (abs_nonneg _) (hT k)).trans ?_
    rcases h k with h1 | ⟨h1, h2⟩
    · rw [h1, sub_self, abs_zero]; split_ifs <;> simp [h0]
    · rw [h1, zero_sub, abs_neg]
      split_ifs with hk
      · exact h2
      · rw [getD_ge' _ _ _ (by omega), abs_zero]
  refine (abs_sum_le_sum_abs _ _).trans ((sum_le_sum hterm).trans ?_)
  rw [← sum_filter, sum_const, nsmul_eq_mul]
  apply mul_le_mul_of_nonneg_right _ h0
  have : ((range (max c.length d.length)).filter (· < c.length)) ⊆ range c.length := by
    intro k hk; simp only [mem_filter, mem_range] at hk ⊢; exact hk.2
  have := card_le_card this
  rw [card_range] at this
  exact_mod_cast this

/-- The interpolant of `f` on `n` points (one column). -/
noncomputable def interp (f : ℝ → ℝ) (n : ℕ) : List ℝ := polyfitCol ((chebpts2 n).map f)

lemma interp_length (f : ℝ → ℝ) (n : ℕ) : (interp f n).length = n := by
  rw [interp, polyfitCol_length]; simp [chebpts2_length]

lemma polyfit_sample (fs : List (ℝ → ℝ)) (n : ℕ) :
    polyfit (sample fs (chebpts2 n)) = ⟨n, fs.map fun f => interp f n⟩ := by
  simp [polyfit, sample, Arr.mapCols, interp, chebpts2_length]

lemma interp_wf (fs : List (ℝ → ℝ)) (n : ℕ) : (⟨n, fs.map fun f => interp f n⟩ : Arr ℝ).WF := by
  intro c hc
  obtain ⟨f, _, rfl⟩ := List.mem_map.mp hc
  exact interp_length f n

/-- The interpolant agrees with the function at the grid points. -/
lemma interp_eval (f : ℝ → ℝ) (n : ℕ) (hn : 0 < n) (x : ℝ) (hx : x ∈ chebpts2 n) : chebEval (interp f n) x = f x := by
  have := C24_giveup_interpolates [f] n hn
  rw [polyfit_sample] at this
  simp only [List.map_cons, List.map_nil, List.cons.injEq, and_true] at this
  exact List.map_inj_left.mp this x hx

/-- The interpolant of a series with at most `n` terms is the series itself. -/
lemma interp_series (c : List ℝ) (f : ℝ → ℝ) (n : ℕ) (hn : 0 < n) (hc : c.length ≤ n) (h : ∀ x ∈ chebpts2 n, f x = chebEval c x)
    (k : ℕ) : (interp f n).getD k 0 = c.getD k 0 := by
  have hpl : (prolongCol c (n : ℤ)).length = n := by rw [prolongCol_length]; omega
  have hne : prolongCol c (n : ℤ) ≠ [] := by
    intro h0; rw [h0] at hpl; simp at hpl; omega
  have hev : ∀ x, chebEval (prolongCol c (n : ℤ)) x = chebEval c x := by
    intro x
    apply chebEval_congr_getD
    intro i
    rw [prolongCol_getD]
    split_ifs with hi
    · rfl
    · rw [getD_ge' _ _ _ (by omega)]
  have : interp f n = prolongCol c (n : ℤ) := by
    rw [← polyfit_polyval_col _ hne, polyvalCol_eq _ hne, hpl, interp]
    congr 1
    apply List.map_congr_left
    intro x hx
    rw [h x hx, hev x]
  rw [this, prolongCol_getD]
  split_ifs with hi
  · rfl
  · rw [getD_ge' _ _ _ (by omega)]

/-- If the happiness check succeeds, the coefficients from the returned cutoff on are small. -/
lemma happy_drop (fs : List (ℝ → ℝ)) (t : Tech) (n : ℕ) (hn : 2 ≤ n) (heps : 0 < t.eps) (hhs : 0 < t.hscale)
    (hh : (fitted t fs n).happy.1 = true) (i : ℕ) (hi : i < fs.length)
    (htol : max t.hscale (maxAbs ((chebpts2 n).map fs[i])) * t.eps < 1) (k : ℕ) (hk : (fitted t fs n).happy.2 ≤ k) :
    |(interp fs[i] n).getD k 0| ≤ (max t.hscale (maxAbs ((chebpts2 n).map fs[i])) * t.eps) ^ ((1 : ℝ) / 3) := by
  set a : Arr ℝ := ⟨n, fs.map fun f => interp f n⟩ with ha
  have haw : a.WF := interp_wf fs n
  have han : a.n = n := rfl
  have hft : (fitted t fs n).coeffs = a := by rw [ha, ← polyfit_sample]; rfl
  have hvw : (sample fs (chebpts2 n)).WF := sample_wf _ _
  have hvn : (sample fs (chebpts2 n)).n = n := chebpts2_length n
  have ham : a.m = fs.length := by simp [ha, Arr.m]
  set tol := max t.hscale (maxAbs ((chebpts2 n).map fs[i])) * t.eps with htl
  have htol0 : 0 < tol := mul_pos (lt_of_lt_of_le hhs (le_max_left _ _)) heps
  have hvs : (vscale a).getD i 0 = maxAbs ((chebpts2 n).map fs[i]) := by
    rw [vscale, if_neg (by omega), ha, ← polyfit_sample, C07_val_fit _ hvw (by omega)]
    rw [getD_lt' (List.map _ _) _ _ (by simpa [sample] using hi)]
    simp [sample]
  set tols := (vscale a).map fun w => max t.hscale w * t.eps with htols
  have htlen : tols.length = fs.length := by rw [htols, List.length_map, vscale_length, ham]
  -- the padded array used by the check
  set b : Arr ℝ := if n < 17 then polyfit (polyval (prolong a ((17 : ℕ) : ℤ))) else a with hb
  have hbcols : b.cols.length = fs.length ∧ ∀ j, j < fs.length → ∀ l, (b.cols.getD j []).getD l 0 = (a.cols.getD j []).getD l 0 := by
    rw [hb]
    split_ifs with h17
    · have hpw : (prolong a ((17 : ℕ) : ℤ)).WF := by
        intro c hc
        obtain ⟨d, hd, rfl⟩ := List.mem_map.mp hc
        rw [prolongCol_length]; rfl
      rw [C07_fit_val _ hpw (by simp [prolong, Arr.mapCols])]
      refine ⟨by simp [prolong, Arr.mapCols, ha], fun j hj l => ?_⟩
      have hja : j < a.cols.length := by simpa [ha] using hj
      simp only [prolong, Arr.mapCols]
      rw [getD_lt' (List.map _ _) _ _ (by simpa using hja), List.getElem_map, prolongCol_getD, getD_lt' a.cols _ _ hja]
      split_ifs with hl
      · rfl
      · rw [getD_ge' _ _ _ (by rw [haw _ (List.getElem_mem hja), han]; omega)]
    · exact ⟨by simp [ha], fun j _ l => rfl⟩
  have hhap : (fitted t fs n).happy = ((happinessCheck.go n b.cols tols true 0).1,
      (happinessCheck.go n b.cols tols true 0).2 + 1) := by
    simp only [Tech.happy, happinessCheck, hft, han]
    rfl
  rw [hhap] at hh hk
  simp only at hh hk
  obtain ⟨hlt, hle⟩ := (go_spec n b.cols tols true 0 (by rw [htlen, hbcols.1]) hh).2 i (by rw [hbcols.1]; exact hi)
  have htg : tols.getD i 0 = tol := by
    have hil : i < (vscale a).length := by rw [vscale_length, ham]; exact hi
    rw [htols, getD_lt' (List.map _ _) _ _ (by simpa using hil), List.getElem_map, htl, ← hvs, getD_lt' _ _ _ hil]
  rw [htg] at hlt hle
  have hcg : ∀ l, (b.cols.getD i []).getD l 0 = (interp fs[i] n).getD l 0 := by
    intro l
    rw [hbcols.2 i hi l, getD_lt' a.cols _ _ (by simpa [ha] using hi)]
    simp [ha]
  have hlen : n ≤ (b.cols.getD i []).length := by
    rw [getD_lt' b.cols _ _ (by rw [hbcols.1]; exact hi)]
    have : ∀ c ∈ b.cols, n ≤ c.length := by
      rw [hb]
      split_ifs with h17
      · have hpw : (prolong a ((17 : ℕ) : ℤ)).WF := by
          intro c hc
          obtain ⟨d, hd, rfl⟩ := List.mem_map.mp hc
          rw [prolongCol_length]; rfl
        rw [C07_fit_val _ hpw (by simp [prolong, Arr.mapCols])]
        intro c hc
        rw [hpw c hc]
        simp [prolong, Arr.mapCols]; omega
      · intro c hc
        rw [haw c hc]
    exact this _ (List.getElem_mem _)
  rcases standardChop_spec (b.cols.getD i []) tol htol0 htol with h | ⟨_, h⟩
  · omega
  · rw [← hcg]; exact h k (by omega)

lemma chopped_prolong (c : List ℝ) (N : ℤ) (δ : ℝ) (h : ∀ k : ℕ, N ≤ k → |c.getD k 0| ≤ δ) : Chopped δ c (prolongCol c N) := by
  intro l
  rw [prolongCol_getD]
  split_ifs with hl
  · exact Or.inl rfl
  · exact Or.inr ⟨rfl, h l (by omega)⟩

lemma maxAbs_le (l : List ℝ) (B : ℝ) (hB : 0 ≤ B) (h : ∀ a ∈ l, |a| ≤ B) : maxAbs l ≤ B := by
  unfold maxAbs
  have : ∀ (l : List ℝ) (b : ℝ), b ≤ B → (∀ a ∈ l, a ≤ B) → l.foldl max b ≤ B := by
    intro l
    induction l with
    | nil => intro b hb _; exact hb
    | cons a l ih =>
      intro b hb h
      exact ih _ (max_le hb (h a (by simp))) fun x hx => h x (by simp [hx])
  apply this _ _ hB
  intro a ha
  obtain ⟨x, hx, rfl⟩ := List.mem_map.mp ha
  exact h x hx

lemma maxAbs_nonneg' (l : List ℝ) : 0 ≤ maxAbs l := by
  unfold maxAbs
  have : ∀ (l : List ℝ) (b : ℝ), 0 ≤ b → 0 ≤ l.foldl max b := by
    intro l
    induction l with
    | nil => intro b hb; exact hb
    | cons a l ih => intro b hb; exact ih _ (le_max_of_le_left hb)
  exact this _ _ le_rfl

lemma chebpts2_mem_abs (n : ℕ) (hn : 2 ≤ n) (x : ℝ) (hx : x ∈ chebpts2 n) : |x| ≤ 1 := by
  obtain ⟨M, rfl⟩ : ∃ M, n = M + 1 := ⟨n - 1, by omega⟩
  obtain ⟨j, hj, rfl⟩ := List.mem_iff_getElem.mp hx
  rw [chebpts2_length] at hj
  rw [← getD_lt' _ 0 _ (by rw [chebpts2_length]; exact hj), chebpts2_getD M (by omega) j (by omega)]
  exact abs_cos_le_one _

/-- The simplification step of the constructor discards coefficients of modulus at most `eps^(1/3)`. -/
lemma simplify_chopped (a : Arr ℝ) (hw : a.WF) (eps : ℝ) (h0 : 0 < eps) (h1 : eps < 1) (j : ℕ) (hj : j < a.cols.length) :
    ∃ d, (simplifyCoeffs a eps).cols[j]? = some d ∧ Chopped (eps ^ ((1 : ℝ) / 3)) a.cols[j] d := by
  obtain ⟨k, _, _, _, _, hcol⟩ := C22_prefix a hw eps h0 h1
  obtain ⟨d, hd, hl, h2, h3⟩ := hcol j hj
  refine ⟨d, hd, fun l => ?_⟩
  by_cases h : l < k
  · exact Or.inl (h2 l h)
  · exact Or.inr ⟨getD_ge' _ _ _ (by omega), h3 l (by omega)⟩

/-- The adaptive constructor: the result consists of chopped interpolants of the user's functions on one of the
Chebyshev grids of the sequence of sizes, not longer than `maxLength`. -/
lemma ofCallable_run (fs : List (ℝ → ℝ)) (hfs : fs ≠ []) (eps : ℝ) (ml ms : ℕ) (hs : ℝ) (hhs : 0 < hs) (h0 : 0 < eps)
    (hlen : firstN (max 9 (min ml ms)) ≤ ml) (B : ℝ) (hB1 : 1 ≤ B) (hB : hs ≤ B) (hBe : B * eps < 1)
    (hbd : ∀ f ∈ fs, ∀ x, |x| ≤ 1 → |f x| ≤ B) :
    ∃ t, ofCallable fs eps ml ms hs = some t ∧ t.Proper ∧ t.eps = eps ∧ t.hscale = hs ∧ t.maxLength = ml ∧
      t.coeffs.m = fs.length ∧
      ∃ j, sizeSeq .nested (max 9 (min ml ms)) j ≤ ml ∧
        (∀ i, i < j → (fitted ⟨⟨0, []⟩, eps, hs, ml, false⟩ fs (sizeSeq .nested (max 9 (min ml ms)) i)).happy.1 = false) ∧
        (∀ i (hi : i < fs.length), ∃ d, t.coeffs.cols[i]? = some d ∧
        Chopped ((B * eps) ^ ((1 : ℝ) / 3)) (interp fs[i] (sizeSeq .nested (max 9 (min ml ms)) j)) d) ∧
        ∃ r, populate .nested fs (max 9 (min ml ms)) (ml + 1) ⟨⟨0, []⟩, eps, hs, ml, false⟩ ⟨0, []⟩ = some r ∧
          r.2.1 = sample fs (chebpts2 (sizeSeq .nested (max 9 (min ml ms)) j)) ∧ Tech.mk' r.1.coeffs eps false true hs ml = some t := by
  have h1 : eps < 1 := by nlinarith
  have hδ : 0 ≤ (B * eps) ^ ((1 : ℝ) / 3) := by positivity
  have hεδ : eps ^ ((1 : ℝ) / 3) ≤ (B * eps) ^ ((1 : ℝ) / 3) := by
    apply rpow_le_rpow h0.le _ (by norm_num); nlinarith
  set t0 : Tech := ⟨⟨0, []⟩, eps, hs, ml, false⟩ with ht0
  obtain ⟨r, hr, j, _, hun, hj, hv, hfin⟩ := C24_terminates .nested fs hfs (max 9 (min ml ms)) t0 rfl (ml + 1) le_rfl hlen
  set N := sizeSeq .nested (max 9 (min ml ms)) j with hN
  have hN2 : 2 ≤ N := by have := sizeSeq_ge .nested (max 9 (min ml ms)) j; omega
  -- the coefficients after `populate`
  have hcoef : r.1.coeffs.WF ∧ 0 < r.1.coeffs.n ∧ r.1.coeffs.m = fs.length ∧ ∀ i (hi : i < fs.length),
      ∃ d, r.1.coeffs.cols[i]? = some d ∧ Chopped ((B * eps) ^ ((1 : ℝ) / 3)) (interp fs[i] N) d := by
    rw [hv, polyfit_sample] at hfin
    rcases hfin with ⟨_, hh, h⟩ | ⟨_, _, _, h⟩
    · rw [h]
      refine ⟨?_, by simp [prolong, Arr.mapCols], by simp [prolong, Arr.mapCols, Arr.m], fun i hi => ?_⟩
      · intro c hc
        obtain ⟨d, _, rfl⟩ := List.mem_map.mp hc
        rw [prolongCol_length]; simp [prolong, Arr.mapCols]
      · refine ⟨prolongCol (interp fs[i] N) (((fitted t0 fs N).happy.2 : ℤ) + 1), by simp [prolong, Arr.mapCols, hi], ?_⟩
        have hmax : max t0.hscale (maxAbs ((chebpts2 N).map fs[i])) ≤ B := by
          apply max_le hB
          apply maxAbs_le _ _ (by linarith)
          intro a ha
          obtain ⟨x, hx, rfl⟩ := List.mem_map.mp ha
          exact hbd _ (List.getElem_mem hi) x (chebpts2_mem_abs N hN2 x hx)
        have hmul : max t0.hscale (maxAbs ((chebpts2 N).map fs[i])) * t0.eps ≤ B * eps :=
          mul_le_mul_of_nonneg_right hmax h0.le
        apply chopped_prolong
        intro k hk
        refine (happy_drop fs t0 N hN2 h0 hhs hh i hi (lt_of_le_of_lt hmul hBe) k (by omega)).trans ?_
        exact rpow_le_rpow (mul_nonneg (le_max_of_le_left hhs.le) h0.le) hmul (by norm_num)
    · rw [h]
      refine ⟨interp_wf fs N, by show 0 < N; omega, by simp [Arr.m], fun i hi => ⟨interp fs[i] N, by simp [hi], Chopped.refl _ _⟩⟩
  obtain ⟨hw, hn, hm, hcols⟩ := hcoef
  have hm0 : r.1.coeffs.m ≠ 0 := by
    rw [hm]; exact fun h => hfs (List.length_eq_zero_iff.mp h)
  obtain ⟨t, ht, e1, e2, e3, _, e5⟩ := mk'_some r.1.coeffs (Nat.mul_ne_zero (by omega) hm0) eps false true hs ml
  refine ⟨t, by simp only [ofCallable, ← ht0, hr, Option.bind_some, ht], ?_, e1, e2, e3, ?_, j, hj, fun i hi => hun i (by omega) hi, ?_, r, hr, hv, ht⟩
  · constructor
    · rw [e5]; split_ifs
      · exact simplify_wf _ _
      · exact hw
    · rw [e5]; split_ifs
      · exact Nat.mul_ne_zero (simplify_n_pos _ _).ne' (by rw [simplify_m]; exact hm0)
      · exact Nat.mul_ne_zero (by omega) hm0
  · rw [e5]; split_ifs
    · rw [simplify_m, hm]
    · exact hm
  · intro i hi
    obtain ⟨d, hd, hch⟩ := hcols i hi
    rw [e5]
    split_ifs
    · have hj' : i < r.1.coeffs.cols.length := by have : r.1.coeffs.cols.length = fs.length := hm; omega
      obtain ⟨d', hd', hch'⟩ := simplify_chopped r.1.coeffs hw eps h0 h1 i hj'
      have : r.1.coeffs.cols[i] = d := by
        rw [List.getElem?_eq_getElem hj'] at hd; exact Option.some.inj hd
      rw [this] at hch'
      exact ⟨d', hd', hch.trans (hch'.mono hεδ) hδ⟩
    · exact ⟨d, hd, hch⟩

/-- `ofCallable_run` without the run. -/
lemma ofCallable_spec_hs (fs : List (ℝ → ℝ)) (hfs : fs ≠ []) (eps : ℝ) (ml ms : ℕ) (hs : ℝ) (hhs : 0 < hs) (h0 : 0 < eps)
    (hlen : firstN (max 9 (min ml ms)) ≤ ml) (B : ℝ) (hB1 : 1 ≤ B) (hB : hs ≤ B) (hBe : B * eps < 1)
    (hbd : ∀ f ∈ fs, ∀ x, |x| ≤ 1 → |f x| ≤ B) :
    ∃ t, ofCallable fs eps ml ms hs = some t ∧ t.Proper ∧ t.eps = eps ∧ t.hscale = hs ∧ t.maxLength = ml ∧
      t.coeffs.m = fs.length ∧
      ∃ j, sizeSeq .nested (max 9 (min ml ms)) j ≤ ml ∧
        (∀ i, i < j → (fitted ⟨⟨0, []⟩, eps, hs, ml, false⟩ fs (sizeSeq .nested (max 9 (min ml ms)) i)).happy.1 = false) ∧
        ∀ i (hi : i < fs.length), ∃ d, t.coeffs.cols[i]? = some d ∧
        Chopped ((B * eps) ^ ((1 : ℝ) / 3)) (interp fs[i] (sizeSeq .nested (max 9 (min ml ms)) j)) d := by
  obtain ⟨t, h1, h2, h3, h4, h5, h6, j, h7, h8, h9, _⟩ := ofCallable_run fs hfs eps ml ms hs hhs h0 hlen B hB1 hB hBe hbd
  exact ⟨t, h1, h2, h3, h4, h5, h6, j, h7, h8, h9⟩

/-- `ofCallable_spec_hs` for the default horizontal scale. -/
lemma ofCallable_spec (fs : List (ℝ → ℝ)) (hfs : fs ≠ []) (eps : ℝ) (ml ms : ℕ) (h0 : 0 < eps)
    (hlen : firstN (max 9 (min ml ms)) ≤ ml) (B : ℝ) (hB : 1 ≤ B) (hBe : B * eps < 1)
    (hbd : ∀ f ∈ fs, ∀ x, |x| ≤ 1 → |f x| ≤ B) :
    ∃ t, ofCallable fs eps ml ms = some t ∧ t.Proper ∧ t.eps = eps ∧ t.hscale = 1 ∧ t.maxLength = ml ∧
      t.coeffs.m = fs.length ∧
      ∃ j, sizeSeq .nested (max 9 (min ml ms)) j ≤ ml ∧
        (∀ i, i < j → (fitted ⟨⟨0, []⟩, eps, 1, ml, false⟩ fs (sizeSeq .nested (max 9 (min ml ms)) i)).happy.1 = false) ∧
        ∀ i (hi : i < fs.length), ∃ d, t.coeffs.cols[i]? = some d ∧
        Chopped ((B * eps) ^ ((1 : ℝ) / 3)) (interp fs[i] (sizeSeq .nested (max 9 (min ml ms)) j)) d :=
  ofCallable_spec_hs fs hfs eps ml ms 1 one_pos h0 hlen B hB hB hBe hbd

end Funpy.Props
