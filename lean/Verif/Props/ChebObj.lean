import Verif.Model.ChebObj
import Verif.Props.ChebArith
import Verif.Props.ChebCalc

/-!
# C18, C19, C25 – C27: stacking, column selection, flattening, domains, copies, persistence
-/

namespace Funpy.Props
open Spec Cheb Real Finset Polynomial Mapping

/-! ## C18 -/

private lemma foldl_max_le (l : List Tech) (a : ℕ) :
    a ≤ l.foldl (fun a s => max a s.coeffs.n) a ∧
    ∀ t ∈ l, t.coeffs.n ≤ l.foldl (fun a s => max a s.coeffs.n) a := by
  induction l generalizing a with
  | nil => simp
  | cons s l ih =>
    obtain ⟨h1, h2⟩ := ih (max a s.coeffs.n)
    simp only [List.foldl_cons, List.mem_cons]
    refine ⟨by omega, ?_⟩
    rintro t (rfl | ht)
    · omega
    · exact h2 t ht

/-- C18: stacking a non-empty list of functions succeeds, whatever their lengths, and the columns of
the stack are, as functions, the columns of the inputs in order. -/
theorem C18_hstack (ts : List Tech) (hne : ts ≠ []) (hp : ∀ t ∈ ts, t.Proper) :
    ∃ s, Cheb.hstack ts = some s ∧ s.Proper ∧ s.coeffs.m = (ts.map fun t => t.coeffs.m).sum ∧
      ∀ x, tv s x = ts.flatMap fun t => tv t x := by
  obtain ⟨t, rest, rfl⟩ := List.exists_cons_of_ne_nil hne
  set n : ℕ := (t :: rest).foldl (fun a s => max a s.coeffs.n) 0 with hn
  have hle := (foldl_max_le (t :: rest) 0).2
  rw [← hn] at hle
  have hm : ((t :: rest).flatMap fun s => (prolong s.coeffs n).cols).length
      = ((t :: rest).map fun t => t.coeffs.m).sum := by
    rw [List.length_flatMap]
    congr 1
    apply List.map_congr_left
    intro s _
    exact (C05_shape s.coeffs n).2.1
  have htp := hp t (by simp)
  have h0 : (⟨n, (t :: rest).flatMap fun s => (prolong s.coeffs n).cols⟩ : Arr ℝ).n *
      (⟨n, (t :: rest).flatMap fun s => (prolong s.coeffs n).cols⟩ : Arr ℝ).m ≠ 0 := by
    apply Nat.mul_ne_zero
    · have := hle t (by simp); have := htp.n_pos
      show n ≠ 0; omega
    · show ((t :: rest).flatMap fun s => (prolong s.coeffs n).cols).length ≠ 0
      rw [hm, List.map_cons, List.sum_cons]
      have := htp.m_ne; omega
  obtain ⟨s, hs, -, -, -, -, hc⟩ := mk'_false _ h0
    (rest.foldl (fun a s => max a s.eps) t.eps) ((t :: rest).all fun s => s.ishappy)
    (rest.foldl (fun a s => max a s.hscale) t.hscale)
    (rest.foldl (fun a s => max a s.maxLength) t.maxLength)
  refine ⟨s, hs, ⟨?_, by rw [hc]; exact h0⟩, by rw [hc]; exact hm, ?_⟩
  · rw [hc]
    intro c hcm
    rw [List.mem_flatMap] at hcm
    obtain ⟨u, _, hu⟩ := hcm
    have := (C05_shape u.coeffs (n : ℤ)).2.2 c hu
    rw [this, (C05_shape u.coeffs (n : ℤ)).1]
    simp
  · intro x
    simp only [tv]
    rw [hc]
    simp only [List.map_flatMap]
    rw [List.flatMap_def, List.flatMap_def]
    congr 1
    apply List.map_congr_left
    intro u hu
    exact C05_pad_preserves u.coeffs (hp u hu).wf n (by exact_mod_cast hle u hu) x

/-- C18: an empty list is refused. -/
theorem C18_hstack_empty : Cheb.hstack [] = none := rfl

/-- C18: `t[i]` is, as a function, column `i` of `t`, and it exists exactly for `0 ≤ i < m`. -/
theorem C18_getItem (t : Tech) (hp : t.Proper) (i : ℤ) :
    (0 ≤ i ∧ i < t.coeffs.m → ∃ s, t.getItem i = some s ∧ s.Proper ∧
      ∀ x, (tv s x) = [(tv t x).getD i.toNat 0]) ∧
    (i < 0 ∨ (t.coeffs.m : ℤ) ≤ i → t.getItem i = none) := by
  constructor
  · rintro ⟨h0, h1⟩
    have hi : i.toNat < t.coeffs.cols.length := by
      have : (t.coeffs.cols.length : ℤ) = t.coeffs.m := rfl
      omega
    have hcol : t.coeffs.cols.getD i.toNat [] = t.coeffs.cols[i.toNat] := getD_lt' _ _ _ hi
    have hz : (⟨t.coeffs.n, [t.coeffs.cols.getD i.toNat []]⟩ : Arr ℝ).n *
      (⟨t.coeffs.n, [t.coeffs.cols.getD i.toNat []]⟩ : Arr ℝ).m ≠ 0 := by
      have := hp.n_pos
      show t.coeffs.n * 1 ≠ 0
      omega
    obtain ⟨s, hs, -, -, -, -, hc⟩ := mk'_false _ hz t.eps t.ishappy 1 t.maxLength
    refine ⟨s, ?_, ⟨?_, by rw [hc]; exact hz⟩, ?_⟩
    · rw [Tech.getItem, if_neg (by omega)]; exact hs
    · rw [hc]
      intro c hcm
      simp only [List.mem_singleton] at hcm
      rw [hcm, hcol]
      exact hp.wf _ (List.getElem_mem _)
    · intro x
      simp only [tv]
      rw [hc, hcol, getD_lt' (t.coeffs.cols.map _) _ _ (by simpa using hi)]
      simp
  · intro h
    rw [Tech.getItem, if_pos h]

/-- C18: a slice `t[a:b]` with `0 ≤ a < b ≤ m` has exactly the columns `a, …, b-1`; slices starting
below 0 or ending above `m` raise. -/
theorem C18_getSlice (t : Tech) (hp : t.Proper) (a b : ℕ) (hab : a < b) :
    (b ≤ t.coeffs.m → ∃ s, t.getSlice a b = some s ∧ s.coeffs.m = b - a ∧
      ∀ x, tv s x = (List.range (b - a)).map fun j => (tv t x).getD (a + j) 0) ∧
    (t.coeffs.m < b → t.getSlice a b = none) := by
  constructor
  · intro hb
    have hb' : b ≤ t.coeffs.cols.length := hb
    have hlen : ((t.coeffs.cols.take b).drop a).length = b - a := by simp; omega
    have hz : (⟨t.coeffs.n, (t.coeffs.cols.take b).drop a⟩ : Arr ℝ).n *
      (⟨t.coeffs.n, (t.coeffs.cols.take b).drop a⟩ : Arr ℝ).m ≠ 0 := by
      have := hp.n_pos
      refine Nat.mul_ne_zero (by show t.coeffs.n ≠ 0; omega) ?_
      show ((t.coeffs.cols.take b).drop a).length ≠ 0
      omega
    obtain ⟨s, hs, -, -, -, -, hc⟩ := mk'_false _ hz t.eps t.ishappy 1 t.maxLength
    refine ⟨s, ?_, by rw [hc]; exact hlen, ?_⟩
    · rw [Tech.getSlice, if_neg (by omega)]
      simp only [show ¬ ((b : ℤ) < 0) by omega, if_false, Int.toNat_natCast]
      exact hs
    · intro x
      simp only [tv]
      rw [hc]
      apply List.ext_getElem (by simp; omega)
      intro j h1 h2
      simp at h1 h2
      simp only [List.getElem_map, List.getElem_drop, List.getElem_take, List.getElem_range]
      rw [getD_lt' (List.map _ _) _ _ (by simp; omega)]
      simp
  · intro hb
    rw [Tech.getSlice, if_pos (by omega)]

/-- C18 for `Fun` objects on a common domain: `np.hstack(fs)[i](x)` is column `i` of the concatenated
columns of the inputs. -/
theorem C18_fun (fs : List ChebFun) (hne : fs ≠ []) (d : Ends) (hd : ∀ f ∈ fs, f.dom = d)
    (hp : ∀ f ∈ fs, f.onefun.Proper) :
    ∃ s, ChebFun.hstack fs = some s ∧ s.dom = d ∧ s.onefun.Proper ∧
      (∀ x, vals s x = fs.flatMap fun f => vals f x) ∧
      ∀ i : ℕ, i < s.onefun.coeffs.m →
        ∃ u, s.getItem i = some u ∧ u.dom = d ∧
          ∀ x, vals u x = [(fs.flatMap fun f => vals f x).getD i 0] := by
  obtain ⟨f, rest, rfl⟩ := List.exists_cons_of_ne_nil hne
  obtain ⟨s, hs, hsp, _, hv⟩ := C18_hstack ((f :: rest).map ChebFun.onefun) (by simp)
    (by intro t ht; rw [List.mem_map] at ht; obtain ⟨g, hg, rfl⟩ := ht; exact hp g hg)
  have hval : ∀ x, vals ⟨f.dom, s⟩ x = (f :: rest).flatMap fun f => vals f x := by
    intro x
    have h1 := hv (bwd d x)
    have hfd : f.dom = d := hd f (by simp)
    rw [List.flatMap_map] at h1
    have h2 : (f :: rest).flatMap (fun g => tv g.onefun (bwd d x)) =
        (f :: rest).flatMap fun g => vals g x := by
      rw [List.flatMap_def, List.flatMap_def]
      congr 1
      apply List.map_congr_left
      intro g hg
      simp only [vals, tv, hd g hg]
    rw [← h2, ← h1]
    simp only [vals, tv, hfd]
  refine ⟨⟨f.dom, s⟩, ?_, hd f (by simp), hsp, hval, ?_⟩
  · simp only [ChebFun.hstack, hs]; rfl
  · intro i hi
    obtain ⟨u, hu, _, huv⟩ := (C18_getItem s hsp i).1 ⟨by omega, by exact_mod_cast hi⟩
    refine ⟨⟨f.dom, u⟩, ?_, hd f (by simp), ?_⟩
    · simp only [ChebFun.getItem, hu]; rfl
    · intro x
      rw [← hval]
      exact huv (bwd f.dom x)

example : ∃ s, Cheb.hstack [exF, exG] = some s ∧ s.coeffs.m = 4 :=
  let ⟨s, h1, _, h2, _⟩ := C18_hstack [exF, exG] (by simp)
    (by simp only [List.mem_cons, List.not_mem_nil, or_false]
        rintro t (rfl | rfl) <;> constructor <;> simp [exF, exG, Arr.WF, Arr.m])
  ⟨s, h1, h2⟩

/-! ## C19 -/

private lemma flatten_drop_take (n : ℕ) : ∀ (l : List (List ℝ)), (∀ c ∈ l, c.length = n) → ∀ j,
    j < l.length → (l.flatten.drop (j * n)).take n = l.getD j []
  | [], _, j, hj => by simp at hj
  | c :: l, h, j, hj => by
    have hc : c.length = n := h c (by simp)
    cases j with
    | zero => simp [hc.symm]
    | succ j =>
      have hj' : j < l.length := by simpa using hj
      have ih := flatten_drop_take n l (fun c hc => h c (by simp [hc])) j hj'
      rw [List.flatten_cons, show (j + 1) * n = c.length + j * n by rw [hc]; ring,
        List.drop_append, List.drop_of_length_le (by omega)]
      simp only [Nat.add_sub_cancel_left, List.nil_append]
      rw [ih]; rfl

private lemma range_flatten (n : ℕ) : ∀ (m : ℕ) (v : List ℝ), v.length = n * m →
    ((List.range m).map fun j => (v.drop (j * n)).take n).flatten = v
  | 0, v, hv => by
    have : v = [] := List.length_eq_zero_iff.mp (by simpa using hv)
    simp [this]
  | m + 1, v, hv => by
    rw [List.range_succ_eq_map, List.map_cons, List.flatten_cons, List.map_map]
    have ih := range_flatten n m (v.drop n) (by rw [List.length_drop, hv, Nat.mul_succ]; omega)
    have h2 : ((fun j => (v.drop (j * n)).take n) ∘ Nat.succ) =
        fun j => ((v.drop n).drop (j * n)).take n := by
      funext j
      simp only [Function.comp, List.drop_drop]
      congr 2
      rw [Nat.succ_mul, add_comm]
    rw [h2, ih]
    simp

/-- C19: rebuilding a function from its flattened coefficients restores the coefficient array and the
domain, for every shape. -/
theorem C19_from_flatten (f : ChebFun) (hp : f.onefun.Proper) (eps : ℝ) :
    ∃ g, ChebFun.fromCoeffs eps f.dom f.flatten f.onefun.coeffs.m = some g ∧
      g.onefun.coeffs = f.onefun.coeffs ∧ g.dom = f.dom := by
  have hlen : f.flatten.length = f.onefun.coeffs.n * f.onefun.coeffs.m := by
    simp only [ChebFun.flatten, Arr.flattenF, List.length_flatten]
    rw [List.map_congr_left (g := fun _ => f.onefun.coeffs.n) (fun c hc => hp.wf c hc)]
    simp [Arr.m, mul_comm]
  have hmod : f.flatten.length % f.onefun.coeffs.m = 0 := by rw [hlen, Nat.mul_mod_left]
  have hdiv : f.flatten.length / f.onefun.coeffs.m = f.onefun.coeffs.n := by
    rw [hlen, Nat.mul_div_cancel _ (Nat.pos_of_ne_zero hp.m_ne)]
  have harr : reshapeF f.flatten f.onefun.coeffs.n f.onefun.coeffs.m = f.onefun.coeffs := by
    simp only [reshapeF]
    have : ((List.range f.onefun.coeffs.m).map
        fun j => (f.flatten.drop (j * f.onefun.coeffs.n)).take f.onefun.coeffs.n)
        = f.onefun.coeffs.cols := by
      apply List.ext_getElem (by simp [Arr.m])
      intro j h1 h2
      rw [List.getElem_map, List.getElem_range]
      simp only [ChebFun.flatten, Arr.flattenF]
      rw [flatten_drop_take _ _ hp.wf j h2, getD_lt' _ _ _ h2]
    rw [this]
  obtain ⟨t, ht, -, -, -, -, hc⟩ := mk'_false f.onefun.coeffs hp.size eps false
    (ChebFun.hscale f.dom) (1 + 2 ^ 14)
  refine ⟨⟨f.dom, t⟩, ?_, hc, rfl⟩
  rw [ChebFun.fromCoeffs, if_neg hp.m_ne, if_neg (by rw [hmod]; simp), hdiv, harr, ht]
  rfl

/-- C19: conversely, a non-empty vector whose length is a multiple of `m` is accepted and flattening
returns it; column `j` consists of the entries `j n, …, j n + n - 1`. -/
theorem C19_flatten_from (eps : ℝ) (d : Ends) (v : List ℝ) (m : ℕ) (hv : v ≠ []) (hm : m ∣ v.length) :
    ∃ g, ChebFun.fromCoeffs eps d v m = some g ∧ g.flatten = v ∧ g.dom = d ∧
      g.onefun.coeffs.m = m ∧ g.onefun.coeffs.n = v.length / m ∧ g.onefun.coeffs.WF := by
  have hvl : 0 < v.length := List.length_pos_iff.mpr hv
  have hm0 : m ≠ 0 := by rintro rfl; rw [zero_dvd_iff] at hm; omega
  have hlen : v.length / m * m = v.length := Nat.div_mul_cancel hm
  have hz : (reshapeF v (v.length / m) m).n * (reshapeF v (v.length / m) m).m ≠ 0 := by
    simp only [reshapeF, Arr.m, List.length_map, List.length_range]
    omega
  obtain ⟨t, ht, -, -, -, -, hc⟩ := mk'_false _ hz eps false (ChebFun.hscale d) (1 + 2 ^ 14)
  refine ⟨⟨d, t⟩, ?_, ?_, rfl, ?_, ?_, ?_⟩
  · rw [ChebFun.fromCoeffs, if_neg hm0, if_neg (by rw [Nat.mod_eq_zero_of_dvd hm]; simp), ht]
    rfl
  · simp only [ChebFun.flatten, Arr.flattenF]
    rw [hc]
    exact range_flatten _ m v hlen.symm
  · simp only [hc]; simp [reshapeF, Arr.m]
  · simp only [hc]; simp [reshapeF]
  · simp only [hc]
    intro c hcm
    simp only [reshapeF, List.mem_map, List.mem_range] at hcm
    obtain ⟨j, hj, rfl⟩ := hcm
    simp only [reshapeF, List.length_take, List.length_drop]
    have : (j + 1) * (v.length / m) ≤ m * (v.length / m) := Nat.mul_le_mul_right _ hj
    rw [mul_comm m, hlen, Nat.succ_mul] at this
    omega

/-- C19: construction is refused when the number of functions does not divide the length (in
particular for zero functions). -/
theorem C19_refused (eps : ℝ) (d : Ends) (v : List ℝ) (m : ℕ) (hm : ¬ m ∣ v.length ∨ m = 0) :
    ChebFun.fromCoeffs eps d v m = none := by
  rw [ChebFun.fromCoeffs]
  split_ifs with h0 h1
  · rfl
  · rfl
  · rcases hm with hm | hm
    · exact absurd (Nat.dvd_of_mod_eq_zero (by push Not at h1; exact h1)) hm
    · exact absurd hm h0

example : (reshapeF ([1, 2, 3, 4, 5, 6] : List ℕ) 3 2).cols = [[1, 2, 3], [4, 5, 6]] := by decide
example : (Arr.flattenF (⟨3, [[1, 2, 3], [4, 5, 6]]⟩ : Arr ℕ)) = [1, 2, 3, 4, 5, 6] := by decide

/-! ## C25 -/

/-- C25 is false: functions on `[0,1]` and `[-1,1]` can be combined when the first one is the one
with the larger end points; the operation is then carried out on the underlying coefficients and the
result lives on the first domain. -/
theorem C25_mismatch_accepted (op : Tech → Tech → Option Tech) (t u r : Tech) (h : op t u = some r) :
    ChebFun.ufunc2 op ⟨⟨0, 1⟩, t⟩ ⟨⟨-1, 1⟩, u⟩ = some ⟨⟨0, 1⟩, r⟩ ∧
    ChebFun.ufunc2 op ⟨⟨-1, 1⟩, u⟩ ⟨⟨0, 1⟩, t⟩ = none := by
  constructor
  · simp only [ChebFun.ufunc2, ChebFun.domainOk, h]
    norm_num
  · simp only [ChebFun.ufunc2, ChebFun.domainOk]
    norm_num

/-- C25 (what is enforced): a `ValueError` is raised as soon as an end point of the second operand
exceeds the corresponding end point of the first by `1e-8` or more; missing: mismatches in the other
direction are not detected, see `C25_mismatch_accepted`. -/
theorem C25_detected_partial (op : Tech → Tech → Option Tech) (f g : ChebFun)
    (h : 1e-8 ≤ g.dom.e0 - f.dom.e0 ∨ 1e-8 ≤ g.dom.e1 - f.dom.e1) :
    ChebFun.ufunc2 op f g = none := by
  have : ChebFun.domainOk f.dom g.dom = false := by
    simp only [ChebFun.domainOk, decide_eq_false_iff_not]
    rintro ⟨h1, h2⟩
    rcases h with h | h <;> linarith
  simp [ChebFun.ufunc2, this]

/-- C25: every mismatch of at least `1e-8` in some end point is detected for at least one order of
the operands. -/
theorem C25_one_order_partial (op : Tech → Tech → Option Tech) (f g : ChebFun)
    (h : 1e-8 ≤ |g.dom.e0 - f.dom.e0| ∨ 1e-8 ≤ |g.dom.e1 - f.dom.e1|) :
    ChebFun.ufunc2 op f g = none ∨ ChebFun.ufunc2 op g f = none := by
  rcases h with h | h <;> rcases le_abs.mp h with h | h
  · exact Or.inl (C25_detected_partial op f g (Or.inl h))
  · exact Or.inr (C25_detected_partial op g f (Or.inl (by linarith)))
  · exact Or.inl (C25_detected_partial op f g (Or.inr h))
  · exact Or.inr (C25_detected_partial op g f (Or.inr (by linarith)))

/-- C25: operands on the same domain are never refused by the check, and the result has that
domain. -/
theorem C25_same_domain (op : Tech → Tech → Option Tech) (f g : ChebFun) (h : f.dom = g.dom) :
    ChebFun.ufunc2 op f g = (op f.onefun g.onefun).map fun t => ⟨f.dom, t⟩ := by
  have : ∀ d, ChebFun.domainOk d d = true := by
    intro d; simp only [ChebFun.domainOk]; norm_num
  rw [ChebFun.ufunc2, ← h]
  simp only [this, Bool.and_self, if_true]
  cases op f.onefun g.onefun <;> rfl

/-- C25/C12: the sum of two functions on a common domain, when not flushed to zero, has the sum of
the values at every point of the domain. -/
theorem C25_add_values (f g : ChebFun) (hd : f.dom = g.dom) (hf : f.onefun.Proper)
    (hg : g.onefun.Proper) (hm : f.onefun.coeffs.m = g.onefun.coeffs.m)
    (hbig : ∃ c ∈ (addCoeffs f.onefun.coeffs g.onefun.coeffs).cols, ∃ z ∈ c,
      0.2 * (f.onefun.eps * max (vsclMax f.onefun.coeffs) (vsclMax g.onefun.coeffs)) ≤ |z|) :
    ∃ s, ChebFun.ufunc2 Tech.add f g = some s ∧ s.dom = f.dom ∧
      ∀ x, vals s x = List.zipWith (· + ·) (vals f x) (vals g x) := by
  obtain ⟨s, hs, hv⟩ := C12_add_exact f.onefun g.onefun hf hg hm hbig
  refine ⟨⟨f.dom, s⟩, by rw [C25_same_domain _ _ _ hd, hs]; rfl, rfl, ?_⟩
  intro x
  have := hv (bwd f.dom x)
  simp only [vals, ← hd]
  exact this

/-! ## C26 -/

/-- A constructed `chebtech` records its happiness: it is marked happy unless the happiness test
failed for its coefficients and settings. -/
def Recorded (t : Tech) : Prop := t.ishappy = true ∨ t.happy.1 = false

/-- Every object returned by the constructor without simplification records its happiness. -/
theorem C26_constructed_recorded (a : Arr ℝ) (eps : ℝ) (hap : Bool) (hs : ℝ) (ml : ℕ) (t : Tech)
    (h : Tech.mk' a eps hap false hs ml = some t) : Recorded t := by
  by_cases h0 : a.n * a.m = 0
  · rw [mk'_none a h0] at h; cases h
  · rw [Tech.mk', if_neg h0] at h
    cases hap
    · simp only [Bool.false_eq_true, if_false, Option.some.injEq] at h
      subst h
      simp only [Recorded, Tech.happy]
      by_cases hh : (happinessCheck a ((vscale a).map fun v => max hs v * eps)).1 = true
      · left; exact hh
      · right; simpa using hh
    · simp only [Bool.false_eq_true, if_true, if_false, Option.some.injEq] at h
      subst h
      left; rfl

/-- C26: `np.copy` returns an equal object: same coefficients, `eps`, `hscale`, `maxLength` and
happiness. -/
theorem C26_copy (t : Tech) (hp : t.Proper) (hr : Recorded t) : t.copy = some t := by
  rw [Tech.copy, Tech.mk', if_neg hp.size]
  rcases hr with h | h
  · obtain ⟨c, e, s, ml, hap⟩ := t
    simp only at h
    subst h
    simp
  · obtain ⟨c, e, s, ml, hap⟩ := t
    cases hap
    · simp only [Tech.happy] at h
      simp [Tech.happy, h]
    · simp

/-- C26 for `Fun` objects: `np.copy(f)` equals `f`. -/
theorem C26_fun_copy (f : ChebFun) (hp : f.onefun.Proper) (hr : Recorded f.onefun) :
    f.copy = some f := by
  simp only [ChebFun.copy, C26_copy _ hp hr]; rfl

/-- C26: what `copy.deepcopy` preserves (coefficients, domain, `eps`, `maxLength`, a positive
happiness flag).  Missing: `hscale`, which becomes `eps`. -/
theorem C26_deepcopy_partial (f : ChebFun) (hp : f.onefun.Proper) :
    ∃ g, f.deepcopy = some g ∧ g.dom = f.dom ∧ g.onefun.coeffs = f.onefun.coeffs ∧
      g.onefun.eps = f.onefun.eps ∧ g.onefun.maxLength = f.onefun.maxLength ∧
      (f.onefun.ishappy = true → g.onefun.ishappy = true) ∧ g.onefun.hscale = f.onefun.eps := by
  obtain ⟨t, ht, h1, h2, h3, h4, h5⟩ := mk'_false f.onefun.coeffs hp.size f.onefun.eps
    f.onefun.ishappy f.onefun.eps f.onefun.maxLength
  refine ⟨⟨f.dom, t⟩, ?_, rfl, h5, h1, h3, h4, h2⟩
  simp only [ChebFun.deepcopy, Tech.deepcopy, ht]; rfl

/-- C26 is false for `copy.deepcopy`: the copy of any function whose `hscale` differs from its `eps`
has a different `hscale`. -/
theorem C26_deepcopy_hscale_lost (f g : ChebFun) (hp : f.onefun.Proper)
    (hne : f.onefun.hscale ≠ f.onefun.eps) (h : f.deepcopy = some g) :
    g.onefun.hscale ≠ f.onefun.hscale := by
  obtain ⟨g', hg', -, -, -, -, -, hs⟩ := C26_deepcopy_partial f hp
  rw [h] at hg'
  rw [Option.some.inj hg', hs]
  exact hne.symm

/-- C26, storage: after `np.copy` or `copy.deepcopy` the original is unchanged, the copy has the
copied coefficients, an in-place write through the copy is not visible through the original and a
write through the original is not visible through the copy. -/
theorem C26_no_shared_storage (h h' : Heap) (o o' : Obj) (t : Tech) (ht : o.view h = some t)
    (hc : o.copy h = some (h', o') ∨ o.deepcopy h = some (h', o')) (hp : t.Proper) (a : Arr ℝ) :
    o.view h' = some t ∧
    (∃ t', o'.view h' = some t' ∧ t'.coeffs = t.coeffs ∧
      o'.view (o.write h' a) = some t' ∧ o.view (o'.write h' a) = some t) := by
  have hlt : o.addr < h.length := by
    by_contra hge
    simp [Obj.view, List.getElem?_eq_none (by omega : h.length ≤ o.addr)] at ht
  have key : ∀ c : Tech, c.coeffs = t.coeffs → h' = h ++ [c.coeffs] → o' = Obj.at h.length c →
      o.view h' = some t ∧
      (∃ t', o'.view h' = some t' ∧ t'.coeffs = t.coeffs ∧
        o'.view (o.write h' a) = some t' ∧ o.view (o'.write h' a) = some t) := by
    intro c hcc e1 e2
    subst e1 e2
    have v1 : o.view (h ++ [c.coeffs]) = some t := by
      rw [← ht]; simp only [Obj.view, List.getElem?_append_left hlt]
    refine ⟨v1, c, ?_, hcc, ?_, ?_⟩
    · simp [Obj.view, Obj.at]
    · simp only [Obj.view, Obj.at, Obj.write]
      rw [List.getElem?_set_ne (by omega)]
      simp
    · rw [← v1]
      simp only [Obj.view, Obj.at, Obj.write]
      rw [List.getElem?_set_ne (by omega)]
  rcases hc with hc | hc
  · obtain ⟨c, hcs, -, -, -, -, hcc⟩ := mk'_false t.coeffs hp.size t.eps t.ishappy t.hscale t.maxLength
    simp only [Obj.copy, ht, Tech.copy, hcs, Option.bind_eq_bind, Option.bind_some,
      Option.some.injEq, Prod.mk.injEq] at hc
    exact key c hcc hc.1.symm hc.2.symm
  · obtain ⟨c, hcs, -, -, -, -, hcc⟩ := mk'_false t.coeffs hp.size t.eps t.ishappy t.eps t.maxLength
    simp only [Obj.deepcopy, ht, Tech.deepcopy, hcs, Option.bind_eq_bind, Option.bind_some,
      Option.some.injEq, Prod.mk.injEq] at hc
    exact key c hcc hc.1.symm hc.2.symm

example : ∃ g, (⟨⟨0, 1⟩, exF⟩ : ChebFun).deepcopy = some g ∧ g.onefun.hscale ≠ exF.hscale := by
  have hp : exF.Proper := by constructor <;> simp [exF, Arr.WF, Arr.m]
  obtain ⟨g, hg, _⟩ := C26_deepcopy_partial ⟨⟨0, 1⟩, exF⟩ hp
  exact ⟨g, hg, C26_deepcopy_hscale_lost _ g hp (by norm_num [exF]) hg⟩

example : (⟨0, 1 / 1000, 1, 17, true⟩ : Obj).view [exF.coeffs]
    = some { exF with maxLength := 17, ishappy := true } := rfl

/-! ## C27 -/

/-- C27: reading back what was written restores coefficients, settings and domain. -/
theorem C27_roundtrip (f : ChebFun) (hp : f.onefun.Proper) (hr : Recorded f.onefun) :
    ChebFun.fromHDF5 f.writeHDF5 = some f := by
  have := C26_copy f.onefun hp hr
  simp only [Tech.copy] at this
  simp only [ChebFun.fromHDF5, ChebFun.writeHDF5, Tech.fromHDF5, Tech.writeHDF5, if_true, this]
  rfl

/-- C27: whatever the happiness flag, coefficients, domain, `eps`, `hscale` and `maxLength` survive. -/
theorem C27_data (f : ChebFun) (hp : f.onefun.Proper) :
    ∃ g, ChebFun.fromHDF5 f.writeHDF5 = some g ∧ g.dom = f.dom ∧
      g.onefun.coeffs = f.onefun.coeffs ∧ g.onefun.eps = f.onefun.eps ∧
      g.onefun.hscale = f.onefun.hscale ∧ g.onefun.maxLength = f.onefun.maxLength := by
  obtain ⟨t, ht, h1, h2, h3, h4, h5⟩ := mk'_false f.onefun.coeffs hp.size f.onefun.eps
    f.onefun.ishappy f.onefun.hscale f.onefun.maxLength
  refine ⟨⟨f.dom, t⟩, ?_, rfl, h5, h1, h2, h3⟩
  simp only [ChebFun.fromHDF5, ChebFun.writeHDF5, Tech.fromHDF5, Tech.writeHDF5, if_true, ht]
  rfl

example : Recorded { exF with ishappy := true } ∧ { exF with ishappy := true : Tech }.Proper :=
  ⟨Or.inl rfl, by constructor <;> simp [exF, Arr.WF, Arr.m]⟩

end Funpy.Props
