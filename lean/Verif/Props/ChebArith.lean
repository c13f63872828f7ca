import Verif.Lemmas.ChebArith
import Verif.Props.ChebBasic
import Verif.Props.ChebTransform
import Verif.Props.ChebChop

/-!
# C12 – C14: arithmetic
-/

namespace Funpy.Props
open Spec Cheb Real Finset Polynomial Mapping

/-- Values of all columns of a `chebtech` at the point `x` (what `t(x)` returns by `C02_eval`). -/
noncomputable def tv (t : Tech) (x : ℝ) : List ℝ := t.coeffs.cols.map fun c => chebEval c x

/-! ## C12 -/

lemma map_zip_add' (l1 l2 : List (List ℝ)) (n : ℕ) (h1 : ∀ c ∈ l1, c.length = n)
    (h2 : ∀ c ∈ l2, c.length = n) (x : ℝ) :
    (List.zipWith (List.zipWith (· + ·)) l1 l2).map (fun c => chebEval c x)
      = List.zipWith (· + ·) (l1.map fun c => chebEval c x) (l2.map fun c => chebEval c x) := by
  rw [List.map_zipWith, List.zipWith_map]
  induction l1 generalizing l2 with
  | nil => simp
  | cons a l1 ih =>
    cases l2 with
    | nil => simp
    | cons b l2 =>
      simp only [List.zipWith_cons_cons]
      rw [ih l2 (fun c hc => h1 c (by simp [hc])) (fun c hc => h2 c (by simp [hc]))]
      congr 1
      have ha : a.length = n := h1 a (by simp)
      have hb : b.length = n := h2 b (by simp)
      unfold chebEval
      rw [List.length_zipWith, ha, hb, min_self, ← sum_add_distrib]
      apply sum_congr rfl
      intro k hk
      rw [mem_range] at hk
      rw [getD_lt' _ _ _ (by rw [List.length_zipWith]; omega), List.getElem_zipWith,
        getD_lt' a _ _ (by omega), getD_lt' b _ _ (by omega), add_mul]

private lemma zip_wf (l1 l2 : List (List ℝ)) (n : ℕ) (h1 : ∀ c ∈ l1, c.length = n)
    (h2 : ∀ c ∈ l2, c.length = n) (f : ℝ → ℝ → ℝ) :
    ∀ c ∈ List.zipWith (List.zipWith f) l1 l2, c.length = n := by
  intro c hc
  obtain ⟨i, hi, rfl⟩ := List.mem_iff_getElem.mp hc
  rw [List.getElem_zipWith, List.length_zipWith, h1 _ (List.getElem_mem _), h2 _ (List.getElem_mem _),
    min_self]

/-- The arrays actually added: both operands prolonged to the common length. -/
private lemma addCoeffs_spec (a b : Arr ℝ) (ha : a.WF) (hb : b.WF) (hm : a.m = b.m) :
    (addCoeffs a b).n = max a.n b.n ∧ (addCoeffs a b).WF ∧ (addCoeffs a b).m = a.m ∧
    ∀ x, (addCoeffs a b).cols.map (fun c => chebEval c x)
      = List.zipWith (· + ·) (a.cols.map fun c => chebEval c x) (b.cols.map fun c => chebEval c x) := by
  set N := max a.n b.n with hN
  have e1 : (if a.n < b.n then prolong a b.n else a) = prolong a (N : ℕ) := by
    split_ifs with h
    · congr 1; omega
    · rw [show ((N : ℕ) : ℤ) = (a.n : ℤ) by omega, C05_same a ha]
  have e2 : (if b.n < a.n then prolong b a.n else b) = prolong b (N : ℕ) := by
    split_ifs with h
    · congr 1; omega
    · rw [show ((N : ℕ) : ℤ) = (b.n : ℤ) by omega, C05_same b hb]
  have hpa : ∀ c ∈ (prolong a (N : ℕ)).cols, c.length = N := by
    intro c hc; rw [(C05_shape a (N : ℕ)).2.2 c hc, (C05_shape a (N : ℕ)).1]; omega
  have hpb : ∀ c ∈ (prolong b (N : ℕ)).cols, c.length = N := by
    intro c hc; rw [(C05_shape b (N : ℕ)).2.2 c hc, (C05_shape b (N : ℕ)).1]; omega
  have hn : (prolong a (N : ℕ)).n = N := by rw [(C05_shape a (N : ℕ)).1]; omega
  simp only [addCoeffs, e1, e2, zipArr]
  refine ⟨hn, ?_, ?_, ?_⟩
  · intro c hc
    rw [zip_wf _ _ N hpa hpb _ c hc]; exact hn.symm
  · have h1 := (C05_shape a (N : ℕ)).2.1
    have h2 := (C05_shape b (N : ℕ)).2.1
    simp only [Arr.m, List.length_zipWith] at *
    omega
  · intro x
    rw [map_zip_add' _ _ N hpa hpb, C05_pad_preserves a ha _ (by omega),
      C05_pad_preserves b hb _ (by omega)]

private lemma abs_chebEval_le (c : List ℝ) (B x : ℝ) (hx : |x| ≤ 1) (hB : ∀ z ∈ c, |z| ≤ B) :
    |chebEval c x| ≤ c.length * B := by
  unfold chebEval
  refine (abs_sum_le_sum_abs _ _).trans ?_
  have : ∀ k ∈ range c.length, |c.getD k 0 * (Chebyshev.T ℝ (k : ℤ)).eval x| ≤ B := by
    intro k hk
    rw [mem_range] at hk
    rw [abs_mul]
    have hT := Chebyshev.abs_eval_T_real_le_one (k : ℤ) hx
    refine (mul_le_of_le_one_right (abs_nonneg _) hT).trans ?_
    rw [getD_lt' _ _ _ hk]; exact hB _ (List.getElem_mem _)
  refine (sum_le_sum this).trans ?_
  simp

/-- C12: `f + g` is the pointwise sum, unless all coefficients of the sum are below
`0.2 * f.eps * max(vscl)`; then the result is the zero function, which is off by at most
`0.2 * f.eps * max(vscl)` per coefficient. -/
theorem C12_add (f g : Tech) (hf : f.Proper) (hg : g.Proper) (hm : f.coeffs.m = g.coeffs.m) :
    ∃ s, f.add g = some s ∧ s.Proper ∧ s.coeffs.m = f.coeffs.m ∧ s.eps = max f.eps g.eps ∧
      ((∀ x, tv s x = List.zipWith (· + ·) (tv f x) (tv g x)) ∨
       ((∀ x, ∀ v ∈ tv s x, v = 0) ∧ ∀ x, |x| ≤ 1 →
          ∀ v ∈ List.zipWith (· + ·) (tv f x) (tv g x),
            |v| ≤ (max f.coeffs.n g.coeffs.n : ℕ) *
              (0.2 * (f.eps * max (vsclMax f.coeffs) (vsclMax g.coeffs))))) := by
  obtain ⟨h1, h2, h3, h4⟩ := addCoeffs_spec f.coeffs g.coeffs hf.1 hg.1 hm
  have hfn := hf.n_pos
  have hfm := hf.m_ne
  classical
  simp only [Tech.add]
  split_ifs with hz
  · obtain ⟨s, hs, e1, _, _, _, e5⟩ := mk'_false ⟨1, f.coeffs.cols.map fun _ => [0]⟩
      (by simpa [Arr.m] using hfm) (max f.eps g.eps) (f.ishappy && g.ishappy) 1 (1 + 2 ^ 14)
    refine ⟨s, hs, ⟨?_, ?_⟩, ?_, e1, Or.inr ⟨?_, ?_⟩⟩
    · rw [e5]; intro c hc; obtain ⟨_, _, rfl⟩ := List.mem_map.mp hc; rfl
    · rw [e5]; simpa [Arr.m] using hfm
    · rw [e5]; simp [Arr.m]
    · intro x v hv
      rw [tv, e5] at hv
      obtain ⟨c, hc, rfl⟩ := List.mem_map.mp hv
      obtain ⟨_, _, rfl⟩ := List.mem_map.mp hc
      simp [chebEval]
    · intro x hx v hv
      have := h4 x
      simp only [tv] at hv
      rw [← this] at hv
      obtain ⟨c, hc, rfl⟩ := List.mem_map.mp hv
      have hb := abs_chebEval_le c _ x hx fun z hz' => (hz c hc z hz').le
      rwa [h2 c hc, h1] at hb
  · obtain ⟨s, hs, e1, _, _, _, e5⟩ := mk'_false (addCoeffs f.coeffs g.coeffs)
      (by rw [h1, h3]; exact Nat.mul_ne_zero (by omega) hfm)
      (max f.eps g.eps) (f.ishappy && g.ishappy) 1 (1 + 2 ^ 14)
    refine ⟨s, hs, ⟨?_, ?_⟩, ?_, e1, Or.inl ?_⟩
    · rw [e5]; exact h2
    · rw [e5, h1, h3]; exact Nat.mul_ne_zero (by omega) hfm
    · rw [e5]; exact h3
    · intro x; simp only [tv]; rw [e5]; exact h4 x

/-- C12: the collapse to zero happens only below the threshold: if some coefficient of the sum
reaches it, `f + g` is exactly the pointwise sum. -/
theorem C12_add_exact (f g : Tech) (hf : f.Proper) (hg : g.Proper) (hm : f.coeffs.m = g.coeffs.m)
    (hbig : ∃ c ∈ (addCoeffs f.coeffs g.coeffs).cols, ∃ z ∈ c,
      0.2 * (f.eps * max (vsclMax f.coeffs) (vsclMax g.coeffs)) ≤ |z|) :
    ∃ s, f.add g = some s ∧ ∀ x, tv s x = List.zipWith (· + ·) (tv f x) (tv g x) := by
  obtain ⟨h1, h2, h3, h4⟩ := addCoeffs_spec f.coeffs g.coeffs hf.1 hg.1 hm
  have hfn := hf.n_pos
  classical
  simp only [Tech.add]
  rw [if_neg]
  · obtain ⟨s, hs, e1, _, _, _, e5⟩ := mk'_false (addCoeffs f.coeffs g.coeffs)
      (by rw [h1, h3]; exact Nat.mul_ne_zero (by omega) hf.m_ne)
      (max f.eps g.eps) (f.ishappy && g.ishappy) 1 (1 + 2 ^ 14)
    exact ⟨s, hs, fun x => by simp only [tv]; rw [e5]; exact h4 x⟩
  · intro h
    obtain ⟨c, hc, z, hz, hle⟩ := hbig
    exact absurd (h c hc z hz) (not_lt.mpr hle)

private lemma vscl_neg (a : Arr ℝ) (hw : a.WF) (hn : 0 < a.n) :
    vsclMax (a.mapCols a.n fun c => c.map ((-1) * ·)) = vsclMax a := by
  unfold vsclMax
  congr 1
  unfold vscale
  have hw' : (a.mapCols a.n fun c => c.map ((-1 : ℝ) * ·)).WF := by
    intro c hc; obtain ⟨d, hd, rfl⟩ := List.mem_map.mp hc
    rw [List.length_map, hw d hd]; rfl
  have hev : ∀ (c : List ℝ) (x : ℝ), chebEval (c.map ((-1 : ℝ) * ·)) x = -chebEval c x := by
    intro c x
    have : c.map ((-1 : ℝ) * ·) = c.map (· * (-1)) := by simp [mul_comm]
    simp only [this, chebEval_eq_eval, chebPoly_map_mul, eval_mul, eval_C]
    ring
  by_cases h1 : a.n = 1
  · rw [if_pos h1, if_pos (by exact h1)]
    simp only [Arr.mapCols, List.map_map]
    apply List.map_congr_left
    intro c _
    have := getD_map' ((-1 : ℝ) * ·) 0 c 0
    rw [mul_zero] at this
    simp only [Function.comp, this]
    rw [neg_one_mul, abs_neg]
  · rw [if_neg h1, if_neg (by exact h1), C06_values _ hw' hn, C06_values a hw hn]
    simp only [Arr.mapCols, List.map_map]
    apply List.map_congr_left
    intro c _
    simp only [Function.comp, maxAbs, List.map_map]
    congr 1
    apply List.map_congr_left
    intro x _
    simp only [Function.comp, hev, abs_neg]

/-- C12: `-f` is the pointwise negative. -/
theorem C12_neg (f : Tech) (hf : f.Proper) :
    ∃ s, f.neg = some s ∧ s.Proper ∧ s.coeffs.n = f.coeffs.n ∧ s.coeffs.m = f.coeffs.m ∧
      s.eps = f.eps ∧ vsclMax s.coeffs = vsclMax f.coeffs ∧ ∀ x, tv s x = (tv f x).map (- ·) := by
  obtain ⟨s, hs, e1, _, _, _, e5⟩ := mk'_false (f.coeffs.mapCols f.coeffs.n fun c => c.map ((-1) * ·))
    (by simpa [Arr.mapCols, Arr.m] using hf.2) f.eps f.ishappy 1 f.maxLength
  refine ⟨s, hs, ⟨?_, ?_⟩, ?_, ?_, e1, ?_, ?_⟩
  · rw [e5]; intro c hc; obtain ⟨d, hd, rfl⟩ := List.mem_map.mp hc
    rw [List.length_map, hf.1 d hd]; rfl
  · rw [e5]; simpa [Arr.mapCols, Arr.m] using hf.2
  · rw [e5]; rfl
  · rw [e5]; simp [Arr.mapCols, Arr.m]
  · rw [e5]; exact vscl_neg f.coeffs hf.1 hf.n_pos
  · intro x
    simp only [tv, e5, Arr.mapCols, List.map_map]
    apply List.map_congr_left
    intro c _
    have : c.map ((-1) * ·) = c.map (· * (-1)) := by simp [mul_comm]
    simp only [Function.comp, this, chebEval_eq_eval, chebPoly_map_mul, eval_mul, eval_C]
    ring

/-- C12: `f - g` is the sum of `f` and the pointwise negative of `g`; pointwise difference up to
the same collapse to zero as for `+`. -/
theorem C12_sub (f g : Tech) (hf : f.Proper) (hg : g.Proper) (hm : f.coeffs.m = g.coeffs.m) :
    ∃ s, f.sub g = some s ∧ s.Proper ∧
      ((∀ x, tv s x = List.zipWith (· - ·) (tv f x) (tv g x)) ∨
       ((∀ x, ∀ v ∈ tv s x, v = 0) ∧ ∀ x, |x| ≤ 1 →
          ∀ v ∈ List.zipWith (· - ·) (tv f x) (tv g x),
            |v| ≤ (max f.coeffs.n g.coeffs.n : ℕ) *
              (0.2 * (f.eps * max (vsclMax f.coeffs) (vsclMax g.coeffs))))) := by
  obtain ⟨n, hn, hp, hnn, hnm, _, hvs, hv⟩ := C12_neg g hg
  obtain ⟨s, hs, hsp, _, _, hcase⟩ := C12_add f n hf hp (by rw [hnm]; exact hm)
  have e : ∀ x, List.zipWith (· + ·) (tv f x) (tv n x) = List.zipWith (· - ·) (tv f x) (tv g x) := by
    intro x; rw [hv, List.zipWith_map_right]; simp only [sub_eq_add_neg]
  refine ⟨s, by simp only [Tech.sub, hn, Option.bind_some]; exact hs, hsp, ?_⟩
  simp only [e] at hcase
  rcases hcase with h | ⟨h, h'⟩
  · exact Or.inl h
  · refine Or.inr ⟨h, fun x hx v hvm => ?_⟩
    have := h' x hx v hvm
    rwa [hnn, hvs] at this

private lemma zip_shift (l : List (List ℝ)) (hne : ∀ c ∈ l, c ≠ []) (s : List ℝ) (x : ℝ) :
    List.zipWith (fun c y => chebEval (c.set 0 (c.getD 0 0 + y)) x) l s
      = List.zipWith (fun c y => chebEval c x + y) l s := by
  apply List.ext_getElem
  · simp
  · intro i h1 h2
    simp only [List.length_zipWith] at h1
    simp only [List.getElem_zipWith]
    set a := l[i] with ha'
    have ha := hne a (List.getElem_mem _)
    have hpos := List.length_pos_iff.mpr ha
    unfold chebEval
    rw [List.length_set]
    obtain ⟨n, hn⟩ : ∃ n, a.length = n + 1 := ⟨a.length - 1, by omega⟩
    rw [hn, sum_range_succ', sum_range_succ']
    have h1 : ∀ k b, (a.set 0 (a.getD 0 0 + b)).getD (k + 1) 0 = a.getD (k + 1) 0 := by
      intro k b; rw [getD_set', if_neg (by omega)]
    have h2 : ∀ b, (a.set 0 (a.getD 0 0 + b)).getD 0 0 = a.getD 0 0 + b := by
      intro b; rw [getD_set', if_pos ⟨rfl, hpos⟩]
    simp only [h1, h2, Nat.cast_zero, Chebyshev.T_zero, eval_one]
    ring

/-- C12: adding a number (or one number per column) is pointwise. -/
theorem C12_addConst (f : Tech) (hf : f.Proper) (s : List ℝ) (hs : s.length = f.coeffs.m) :
    ∃ r, f.addConst s = some r ∧ ∀ x, tv r x = List.zipWith (· + ·) (tv f x) s := by
  obtain ⟨r, hr, _, _, _, _, e5⟩ := mk'_false
    ⟨f.coeffs.n, List.zipWith (fun c x => c.set 0 (c.getD 0 0 + x)) f.coeffs.cols s⟩
    (by
      have := hf.2
      simp only [Arr.m, List.length_zipWith] at *
      rw [hs, min_self]; exact this) f.eps f.ishappy 1 (1 + 2 ^ 14)
  refine ⟨r, hr, fun x => ?_⟩
  simp only [tv, e5]
  rw [List.map_zipWith, List.zipWith_map_left]
  exact zip_shift _ (fun c hc => hf.col_ne hc) s x

/-- C12: multiplication by a number is pointwise. -/
theorem C12_mulNum (f : Tech) (hf : f.Proper) (s : ℝ) :
    ∃ r, f.mulNum s = some r ∧ r.Proper ∧ r.coeffs.n = f.coeffs.n ∧
      ∀ x, tv r x = (tv f x).map (· * s) := by
  obtain ⟨r, hr, e1, _, _, _, e5⟩ := mk'_false (f.coeffs.mapCols f.coeffs.n fun c => c.map (· * s))
    (by simpa [Arr.mapCols, Arr.m] using hf.2) f.eps f.ishappy 1 (1 + 2 ^ 14)
  refine ⟨r, hr, ⟨?_, ?_⟩, ?_, ?_⟩
  · rw [e5]; intro c hc; obtain ⟨d, hd, rfl⟩ := List.mem_map.mp hc
    rw [List.length_map, hf.1 d hd]; rfl
  · rw [e5]; simpa [Arr.mapCols, Arr.m] using hf.2
  · rw [e5]; rfl
  · intro x
    simp only [tv, e5, Arr.mapCols, List.map_map]
    apply List.map_congr_left
    intro c _
    simp only [Function.comp, chebEval_eq_eval, chebPoly_map_mul, eval_mul, eval_C]
    ring

/-- C12: division by a number is pointwise, up to the simplification of the result when the function
is happy: an array `r` of the exact quotients is either returned or simplified. -/
theorem C12_divNum (f : Tech) (hf : f.Proper) (s : ℝ) :
    ∃ g r, f.divScalar s = some g ∧ r.WF ∧ r.n = f.coeffs.n ∧
      (g.coeffs = r ∨ g.coeffs = simplifyCoeffs r f.eps) ∧
      ∀ x, r.cols.map (fun c => chebEval c x) = (tv f x).map (· / s) := by
  obtain ⟨g, hg, e1, _, _, _, e5⟩ := mk'_some (f.coeffs.mapCols f.coeffs.n fun c => c.map (· / s))
    (by simpa [Arr.mapCols, Arr.m] using hf.2) f.eps f.ishappy true 1 (1 + 2 ^ 14)
  refine ⟨g, f.coeffs.mapCols f.coeffs.n fun c => c.map (· / s), hg, ?_, rfl, ?_, ?_⟩
  · intro c hc; obtain ⟨d, hd, rfl⟩ := List.mem_map.mp hc
    rw [List.length_map, hf.1 d hd]; rfl
  · rw [e5]; split_ifs <;> simp
  · intro x
    simp only [tv, Arr.mapCols, List.map_map]
    apply List.map_congr_left
    intro c _
    simp only [Function.comp, chebEval_eq_eval, chebPoly_map_div, eval_mul, eval_C]
    ring

/-- C12: the in-place form `f += g` gives the pointwise sum exactly (there is no collapse to zero)
and leaves the right operand the same function, although it may be prolonged. -/
theorem C12_iadd (f g : Tech) (hf : f.Proper) (hg : g.Proper) (hm : f.coeffs.m = g.coeffs.m) (x : ℝ) :
    tv (f.iadd g).1 x = List.zipWith (· + ·) (tv f x) (tv g x) ∧ tv (f.iadd g).2 x = tv g x ∧
      (f.iadd g).2.eps = g.eps := by
  obtain ⟨_, _, _, h4⟩ := addCoeffs_spec f.coeffs g.coeffs hf.1 hg.1 hm
  refine ⟨?_, ?_, ?_⟩
  · rw [tv, tv, tv, ← h4 x]
    simp only [Tech.iadd, addCoeffs]
    split_ifs <;> rfl
  · simp only [Tech.iadd, tv]
    split_ifs with h
    · exact C05_pad_preserves _ hg.1 _ (by omega) x
    · rfl
  · simp only [Tech.iadd]; split_ifs <;> rfl

noncomputable def exF : Tech := { coeffs := ⟨3, [[1, 2, 3], [0, 1, 5]]⟩, eps := 1 / 1000 }
noncomputable def exG : Tech := { coeffs := ⟨2, [[1, -2], [4, 1]]⟩, eps := 1 / 1000 }

example : exF.Proper ∧ exG.Proper ∧ exF.coeffs.m = exG.coeffs.m := by
  refine ⟨⟨?_, ?_⟩, ⟨?_, ?_⟩, rfl⟩ <;> simp [exF, exG, Arr.WF, Arr.m]
example : (addCoeffs exF.coeffs exG.coeffs).cols = [[2, 0, 3], [4, 2, 5]] := by
  norm_num [addCoeffs, exF, exG, zipArr, prolong, prolongCol, Arr.mapCols, show Int.toNat 3 = 3 from rfl]

/-! ## C13 -/

/-- C13: the coefficient-space product of two arrays with equally many columns has
`len f + len g - 1` rows and evaluates to the pointwise product: no aliasing in the FFT circulant. -/
theorem C13_product (a b : Arr ℝ) (ha : a.WF) (hb : b.WF) (hna : 0 < a.n) (hnb : 0 < b.n)
    (hm : a.m = b.m) :
    (coeffTimesMain a b).1.n = a.n + b.n - 1 ∧ (coeffTimesMain a b).1.WF ∧
    (coeffTimesMain a b).1.m = a.m ∧
    ∀ x, (coeffTimesMain a b).1.cols.map (fun c => chebEval c x)
      = List.zipWith (· * ·) (a.cols.map fun c => chebEval c x) (b.cols.map fun c => chebEval c x) := by
  have hne : ∀ (e : Arr ℝ), e.WF → 0 < e.n → ∀ c ∈ e.cols, c ≠ [] := by
    intro e he hn c hc h0
    have := he c hc
    rw [h0] at this; simp at this; omega
  simp only [coeffTimesMain, Arr.mapCols, List.zipWith_map]
  have key : ∀ i (hi : i < a.cols.length) (hj : i < b.cols.length),
      (coeffTimesCol (a.cols[i] ++ List.replicate (b.n - 1) 0) (b.cols[i] ++ List.replicate (a.n - 1) 0)).length
        = a.n + b.n - 1 ∧
      chebPoly (coeffTimesCol (a.cols[i] ++ List.replicate (b.n - 1) 0)
        (b.cols[i] ++ List.replicate (a.n - 1) 0)) = chebPoly a.cols[i] * chebPoly b.cols[i] := by
    intro i hi hj
    have h1 := ha _ (List.getElem_mem hi)
    have h2 := hb _ (List.getElem_mem hj)
    have := coeffTimes_padded a.cols[i] b.cols[i] (hne a ha hna _ (List.getElem_mem hi))
      (hne b hb hnb _ (List.getElem_mem hj))
    rwa [h1, h2] at this
  refine ⟨by omega, ?_, ?_, ?_⟩
  · intro c hc
    obtain ⟨i, hi, rfl⟩ := List.mem_iff_getElem.mp hc
    simp only [List.length_zipWith] at hi
    rw [List.getElem_zipWith, (key i (by omega) (by omega)).1]
    simp only; omega
  · simp only [Arr.m, List.length_zipWith] at *; omega
  · intro x
    apply List.ext_getElem
    · simp
    · intro i h1 h2
      simp only [List.length_map, List.length_zipWith] at h1
      simp only [List.getElem_map, List.getElem_zipWith, chebEval_eq_eval]
      rw [(key i (by omega) (by omega)).2, eval_mul]

private lemma pos_iff (a b : Arr ℝ) (ha : a.WF) (hb : b.WF) (h : (coeffTimesMain a b).2 = true) (x : ℝ) :
    a.cols.map (fun c => chebEval c x) = b.cols.map fun c => chebEval c x := by
  simp only [coeffTimesMain, Arr.mapCols] at h
  replace h := of_decide_eq_true h
  have pad : ∀ (c : List ℝ) (n : ℕ), chebEval (c ++ List.replicate n 0) x = chebEval c x := by
    intro c n
    apply chebEval_congr_getD
    intro k
    rw [getD_append']
    split_ifs with h
    · rfl
    · rw [getD_replicate', getD_ge' c _ _ (by omega)]
  have := congrArg (List.map fun c => chebEval c x) h
  simp only [List.map_map, Function.comp_def, pad] at this
  exact this

/-- Coefficient columns of the same length are determined by their function. -/
lemma eq_of_chebEval_eq {u v : List ℝ} (hl : u.length = v.length)
    (h : ∀ x, chebEval u x = chebEval v x) : u = v := by
  by_cases h0 : u.length = 0
  · have h1 : v.length = 0 := by omega
    rw [List.eq_nil_of_length_eq_zero h0, List.eq_nil_of_length_eq_zero h1]
  have hu : (⟨u.length, [u]⟩ : Arr ℝ).WF := by intro c hc; simp at hc; simp [hc]
  have hv : (⟨u.length, [v]⟩ : Arr ℝ).WF := by intro c hc; simp at hc; simp [hc, hl]
  have e : polyval ⟨u.length, [u]⟩ = polyval ⟨u.length, [v]⟩ := by
    have e1 := C06_values _ hu (by simp only; omega)
    have e2 := C06_values _ hv (by simp only; omega)
    have : (polyval ⟨u.length, [u]⟩).cols = (polyval ⟨u.length, [v]⟩).cols := by
      rw [e1, e2]
      simp only [List.map_cons, List.map_nil]
      rw [show chebEval u = chebEval v from funext h]
    simp only [polyval, Arr.mapCols] at this ⊢
    rw [this]
  have h1 := C07_fit_val _ hu (by simp only; omega)
  have h2 := C07_fit_val _ hv (by simp only; omega)
  rw [e, h2] at h1
  simpa using h1.symm

/-- The flag computed by the product: it says whether the two factors are the same function. -/
private lemma same_flag (f g : Tech) (hf : f.Proper) (hg : g.Proper) :
    (coeffTimesMain f.coeffs g.coeffs).2 = true ↔ ∀ x, tv f x = tv g x := by
  refine ⟨fun h x => pos_iff _ _ hf.1 hg.1 h x, fun h => ?_⟩
  have hlen : f.coeffs.cols.length = g.coeffs.cols.length := by
    have := congrArg List.length (h 0)
    simpa [tv] using this
  simp only [coeffTimesMain, Arr.mapCols]
  apply decide_eq_true
  apply List.ext_getElem
  · simpa using hlen
  intro i h1 h2
  simp only [List.length_map] at h1 h2
  simp only [List.getElem_map]
  have h3 := hf.1 _ (List.getElem_mem h1)
  have h4 := hg.1 _ (List.getElem_mem h2)
  have hn := hf.n_pos
  have hn' := hg.n_pos
  apply eq_of_chebEval_eq
  · simp only [List.length_append, List.length_replicate, h3, h4]; omega
  intro x
  have pad : ∀ (c : List ℝ) (n : ℕ), chebEval (c ++ List.replicate n 0) x = chebEval c x := by
    intro c n
    apply chebEval_congr_getD
    intro k
    rw [getD_append']
    split_ifs with h
    · rfl
    · rw [getD_replicate', getD_ge' c _ _ (by omega)]
  rw [pad, pad]
  have := congrArg (fun l => l[i]?) (h x)
  simpa [tv, List.getElem?_map, h1, h2] using this

/-- C13: for two different non-constant functions `f * g` is the exact product, simplified with the
larger of the two tolerances. -/
theorem C13_mul (f g : Tech) (hf : f.Proper) (hg : g.Proper) (hm : f.coeffs.m = g.coeffs.m)
    (hfn : 2 ≤ f.coeffs.n) (hgn : 2 ≤ g.coeffs.n) (hne : ∃ x, tv f x ≠ tv g x) :
    ∃ s P, f.mul g = some s ∧ P.WF ∧ P.n = f.coeffs.n + g.coeffs.n - 1 ∧
      (∀ x, P.cols.map (fun c => chebEval c x) = List.zipWith (· * ·) (tv f x) (tv g x)) ∧
      s.coeffs = simplifyCoeffs P (max f.eps g.eps) ∧ s.eps = max f.eps g.eps := by
  replace hne : (coeffTimesMain f.coeffs g.coeffs).2 = false := by
    rw [Bool.eq_false_iff]
    intro h
    obtain ⟨x, hx⟩ := hne
    exact hx ((same_flag f g hf hg).1 h x)
  obtain ⟨h1, h2, h3, h4⟩ := C13_product f.coeffs g.coeffs hf.1 hg.1 hf.n_pos hg.n_pos hm
  obtain ⟨s, hs, e1, _, _, _, e5⟩ := mk'_false
    (simplifyCoeffs (coeffTimesMain f.coeffs g.coeffs).1 (max f.eps g.eps))
    (by rw [simplify_m, h3]; exact Nat.mul_ne_zero (simplify_n_pos _ _).ne' hf.m_ne)
    (max f.eps g.eps) (f.ishappy && g.ishappy) 1 (1 + 2 ^ 14)
  refine ⟨s, _, ?_, h2, h1, h4, e5, e1⟩
  simp only [Tech.mul]
  rw [if_neg (by omega), if_neg (by omega), hne]
  exact hs

/-- C13: squaring.  When the two factors are the same function the code replaces the values of the
simplified product at its Chebyshev points by their absolute values: the result takes only
non-negative values there. -/
theorem C13_square_nonneg (f g : Tech) (hf : f.Proper) (hg : g.Proper) (hm : f.coeffs.m = g.coeffs.m)
    (hfn : 2 ≤ f.coeffs.n) (hgn : 2 ≤ g.coeffs.n) (hfg : ∀ x, tv f x = tv g x) :
    ∃ s, f.mul g = some s ∧ s.coeffs.WF ∧ 0 < s.coeffs.n ∧
      ∀ c ∈ s.coeffs.cols, ∀ x ∈ chebpts2 s.coeffs.n, 0 ≤ chebEval c x := by
  have heq := (same_flag f g hf hg).2 hfg
  obtain ⟨h1, h2, h3, h4⟩ := C13_product f.coeffs g.coeffs hf.1 hg.1 hf.n_pos hg.n_pos hm
  set c := simplifyCoeffs (coeffTimesMain f.coeffs g.coeffs).1 (max f.eps g.eps) with hc
  have hcw : c.WF := simplify_wf _ _
  have hcn : 0 < c.n := simplify_n_pos _ _
  have hcm : c.m = f.coeffs.m := (simplify_m _ _).trans h3
  set v := (polyval c).mapCols c.n fun v => v.map abs with hv
  have hvw : v.WF := by
    intro d hd
    obtain ⟨e, he, rfl⟩ := List.mem_map.mp hd
    rw [C06_values c hcw hcn] at he
    obtain ⟨u, _, rfl⟩ := List.mem_map.mp he
    simp [chebpts2_length, hv, Arr.mapCols]
  have hvm : v.m = c.m := by simp [hv, polyval, Arr.mapCols, Arr.m]
  have hpm : (polyfit v).m = c.m := by rw [← hvm]; simp [polyfit, Arr.mapCols, Arr.m]
  have hpn : (polyfit v).n = c.n := rfl
  obtain ⟨s, hs, e1, _, _, _, e5⟩ := mk'_false (polyfit v)
    (by rw [hpm, hpn, hcm]; exact Nat.mul_ne_zero hcn.ne' hf.m_ne)
    (max f.eps g.eps) (f.ishappy && g.ishappy) 1 (1 + 2 ^ 14)
  have hint := C07_interpolates v hvw hcn
  refine ⟨s, ?_, ?_, ?_, ?_⟩
  · simp only [Tech.mul]
    rw [if_neg (by omega), if_neg (by omega), heq]
    exact hs
  · rw [e5]
    intro d hd
    obtain ⟨e, he, rfl⟩ := List.mem_map.mp hd
    rw [polyfitCol_length]; exact hvw e he
  · rw [e5]; exact hcn
  · intro d hd x hx
    rw [e5] at hd hx
    have h5 : (chebpts2 v.n).map (chebEval d) ∈ v.cols := by
      rw [← hint]; exact List.mem_map_of_mem hd
    obtain ⟨w, _, hw⟩ := List.mem_map.mp h5
    have h6 : chebEval d x ∈ (chebpts2 v.n).map (chebEval d) := List.mem_map_of_mem hx
    rw [← hw] at h6
    obtain ⟨y, _, hy⟩ := List.mem_map.mp h6
    rw [← hy]; exact abs_nonneg y

/-- C13: if simplification discards nothing, multiplying a function by itself gives exactly its
square (the absolute value is then the identity). -/
theorem C13_square_exact (f g : Tech) (hf : f.Proper) (hg : g.Proper) (hm : f.coeffs.m = g.coeffs.m)
    (hfn : 2 ≤ f.coeffs.n) (hgn : 2 ≤ g.coeffs.n) (hfg : ∀ x, tv f x = tv g x)
    (hex : f.coeffs.n + g.coeffs.n - 1
      ≤ (simplifyCoeffs (coeffTimesMain f.coeffs g.coeffs).1 (max f.eps g.eps)).n) :
    ∃ s, f.mul g = some s ∧ ∀ x, tv s x = (tv f x).map (· ^ 2) := by
  have heq := (same_flag f g hf hg).2 hfg
  obtain ⟨h1, h2, h3, h4⟩ := C13_product f.coeffs g.coeffs hf.1 hg.1 hf.n_pos hg.n_pos hm
  set c := simplifyCoeffs (coeffTimesMain f.coeffs g.coeffs).1 (max f.eps g.eps) with hc
  have hcw : c.WF := simplify_wf _ _
  have hcn : 0 < c.n := simplify_n_pos _ _
  have hcm : c.m = f.coeffs.m := (simplify_m _ _).trans h3
  have hcv : ∀ x, c.cols.map (fun c => chebEval c x) = (tv f x).map (· ^ 2) := by
    intro x
    rw [hc, C22_lossless _ h2 _ (by rw [h1]; exact hex), h4, ← pos_iff _ _ hf.1 hg.1 heq x,
      List.zipWith_self]
    simp only [tv, sq]
  have habs : (polyval c).mapCols c.n (fun v => v.map abs) = polyval c := by
    have : ∀ v ∈ (polyval c).cols, v.map abs = v := by
      intro v hv
      rw [C06_values c hcw hcn] at hv
      obtain ⟨d, hd, rfl⟩ := List.mem_map.mp hv
      rw [List.map_map]
      apply List.map_congr_left
      intro x _
      apply abs_of_nonneg
      have h5 : chebEval d x ∈ c.cols.map (fun c => chebEval c x) := List.mem_map_of_mem hd
      rw [hcv] at h5
      obtain ⟨y, _, hy⟩ := List.mem_map.mp h5
      rw [← hy]; positivity
    simp only [Arr.mapCols]
    rw [List.map_congr_left this, List.map_id']
    rfl
  obtain ⟨s, hs, e1, _, _, _, e5⟩ := mk'_false c
    (by rw [hcm]; exact Nat.mul_ne_zero hcn.ne' hf.m_ne)
    (max f.eps g.eps) (f.ishappy && g.ishappy) 1 (1 + 2 ^ 14)
  refine ⟨s, ?_, ?_⟩
  · simp only [Tech.mul]
    rw [if_neg (by omega), if_neg (by omega), heq, ← hc]
    simp only [if_true]
    rw [habs, C07_fit_val c hcw hcn]
    exact hs
  · intro x; rw [← hcv x, tv, e5]

/-- The hypotheses of `C13_mul` and of the two theorems on squares are met. -/
example : exF.Proper ∧ 2 ≤ exF.coeffs.n ∧ (∀ x, tv exF x = tv exF x) ∧ ∃ x, tv exF x ≠ tv exG x := by
  have hp : exF.Proper := ⟨by simp [exF, Arr.WF], by simp [exF, Arr.m]⟩
  refine ⟨hp, by simp [exF], fun _ => rfl, 0, ?_⟩
  simp [tv, exF, exG, chebEval, Finset.sum_range_succ]

/-! ## C14 -/

/-- C14 is false of the code: an array-valued function (two or more columns, two or more
coefficients) cannot be multiplied with a constant array-valued function: `AssertionError`. -/
theorem C14_array_constant_fails (f g : Tech) (hf : 2 ≤ f.coeffs.n) (hm : 2 ≤ f.coeffs.m)
    (hg : g.coeffs.n = 1) (hgm : g.coeffs.m = f.coeffs.m) : f.mul g = none ∧ g.mul f = none := by
  have key : f.mulArr g.coeffs = none := by
    rw [Tech.mulArr, if_neg (by rw [hg, hgm]; omega), if_neg (by omega)]
  constructor
  · rw [Tech.mul, if_neg (by omega), if_pos hg, key]
  · rw [Tech.mul, if_pos hg, key]

/-- C14, the part that holds: for single-column functions multiplication by a constant function is
pointwise, in either order.  Missing for the full property: more than one column
(`C14_array_constant_fails`). -/
theorem C14_scalar_partial (f g : Tech) (hf : f.Proper) (hg : g.Proper) (hfm : f.coeffs.m = 1)
    (hgm : g.coeffs.m = 1) (hgn : g.coeffs.n = 1) (hfn : 2 ≤ f.coeffs.n) :
    ∃ s, f.mul g = some s ∧ g.mul f = some s ∧
      ∀ x, tv s x = List.zipWith (· * ·) (tv f x) (tv g x) := by
  obtain ⟨s, hs, _, _, hv⟩ := C12_mulNum f hf ((g.coeffs.cols.headD []).getD 0 0)
  have key : f.mulArr g.coeffs = some s := by
    rw [Tech.mulArr, if_pos (by rw [hgn, hgm]), hs]
  refine ⟨s, ?_, ?_, fun x => ?_⟩
  · rw [Tech.mul, if_neg (by omega), if_pos hgn, key]
  · rw [Tech.mul, if_pos hgn, key]
  · rw [hv]
    simp only [Arr.m] at hfm hgm
    obtain ⟨c, hc⟩ := List.length_eq_one_iff.mp hgm
    obtain ⟨d, hd⟩ := List.length_eq_one_iff.mp hfm
    have hcl : c.length = 1 := by rw [hg.1 c (by rw [hc]; simp), hgn]
    obtain ⟨y, rfl⟩ := List.length_eq_one_iff.mp hcl
    simp [tv, hc, hd, chebEval]

/-- C14: two constant functions multiply pointwise, whatever the number of columns. -/
theorem C14_constant_constant (f g : Tech) (hf : f.Proper) (hg : g.Proper) (hfn : f.coeffs.n = 1)
    (hgn : g.coeffs.n = 1) (hm : f.coeffs.m = g.coeffs.m) :
    ∃ s, f.mul g = some s ∧ ∀ x, tv s x = List.zipWith (· * ·) (tv f x) (tv g x) := by
  have cst : ∀ (t : Tech), t.Proper → t.coeffs.n = 1 → ∀ c ∈ t.coeffs.cols, ∃ y, c = [y] := by
    intro t ht hn c hc
    exact List.length_eq_one_iff.mp (by rw [ht.1 c hc, hn])
  rw [Tech.mul, if_pos hfn, Tech.mulArr]
  split_ifs with h1 h2
  · obtain ⟨s, hs, _, _, hv⟩ := C12_mulNum g hg ((f.coeffs.cols.headD []).getD 0 0)
    refine ⟨s, hs, fun x => ?_⟩
    have hfm : f.coeffs.m = 1 := by rw [hfn, one_mul] at h1; exact h1
    have hgm : g.coeffs.m = 1 := by omega
    simp only [Arr.m] at hfm hgm
    obtain ⟨c, hc⟩ := List.length_eq_one_iff.mp hfm
    obtain ⟨d, hd⟩ := List.length_eq_one_iff.mp hgm
    obtain ⟨y, rfl⟩ := cst f hf hfn c (by rw [hc]; simp)
    obtain ⟨z, rfl⟩ := cst g hg hgn d (by rw [hd]; simp)
    rw [hv]
    simp [tv, hc, hd, chebEval, mul_comm]
  · obtain ⟨s, hs, _, _, _, _, e5⟩ := mk'_false (zipArr (· * ·) g.coeffs f.coeffs)
      (by
        have h3 := hf.m_ne
        simp only [zipArr, Arr.m, List.length_zipWith, hgn] at *
        omega) g.eps g.ishappy 1 (1 + 2 ^ 14)
    refine ⟨s, hs, fun x => ?_⟩
    simp only [tv, e5, zipArr]
    apply List.ext_getElem
    · simp [min_comm]
    · intro i h1 h2
      simp only [List.length_map, List.length_zipWith] at h1
      simp only [List.getElem_map, List.getElem_zipWith]
      obtain ⟨y, hy⟩ := cst f hf hfn f.coeffs.cols[i] (List.getElem_mem (by omega))
      obtain ⟨z, hz⟩ := cst g hg hgn g.coeffs.cols[i] (List.getElem_mem (by omega))
      rw [hy, hz]
      simp [chebEval, mul_comm]
  · exfalso; exact h2 ⟨by omega, hm.symm⟩

noncomputable def exC : Tech := { coeffs := ⟨1, [[7], [3]]⟩, eps := 1 / 1000 }
example : exF.mul exC = none ∧ exC.mul exF = none :=
  C14_array_constant_fails exF exC (by simp [exF]) (by simp [exF, Arr.m]) (by simp [exC])
    (by simp [exC, exF, Arr.m])

end Funpy.Props
