import Verif.Model.RieszFun
import Verif.Props.TrigCalc

/-!
# C111: functionals on Sobolev spaces (funpy/support/Functional.py)
-/

namespace Funpy.Props
open Spec Trig Finset Complex ComplexConjugate Riesz

/-! ### Specification -/

/-- The inner product of the Sobolev space `H^k` of an interval: `Σ_{o ≤ k} ∫ conj(F⁽ᵒ⁾) U⁽ᵒ⁾`. -/
noncomputable def sobolev (k : ℕ) (a b : ℝ) (F U : ℝ → ℂ) : ℂ :=
  ∑ o ∈ range (k + 1), ∫ x in a..b, conj (iteratedDeriv o F x) * iteratedDeriv o U x

/-- The functions on the domain represented by a periodic `Fun`, one per column. -/
noncomputable def columnFuns (f : TrigFun) : List (ℝ → ℂ) :=
  f.onefun.cols.map fun c x => trigEval c (Mapping.bwd f.dom x)

/-! ### Parseval -/

private lemma trigEval_exp (c : List ℂ) (h : c.length % 2 = 1 ∨ c.getD 0 0 = 0) (x : ℝ) :
    trigEval c x = ∑ k ∈ range c.length, c.getD k 0 * cexp (I * Real.pi * (wave c.length k) * x) := by
  unfold trigEval
  apply sum_congr rfl
  intro k _
  unfold trigMode
  split_ifs with h0
  · rcases h with h | h
    · omega
    · rw [h0.2, h]; simp
  · rfl

private lemma parseval (c d : List ℂ) (hl : d.length = c.length) (hc : c.length % 2 = 1 ∨ c.getD 0 0 = 0)
    (hd : d.length % 2 = 1 ∨ d.getD 0 0 = 0) :
    ∫ x in (-1 : ℝ)..1, conj (trigEval c x) * trigEval d x
      = ∑ k ∈ range c.length, 2 * conj (c.getD k 0) * d.getD k 0 := by
  have key : ∀ x : ℝ, conj (trigEval c x) * trigEval d x = ∑ k ∈ range c.length, ∑ l ∈ range c.length,
      (conj (c.getD k 0) * d.getD l 0) *
        cexp (I * Real.pi * ((wave c.length l - wave c.length k : ℤ) : ℂ) * x) := by
    intro x
    rw [trigEval_exp c hc, trigEval_exp d hd, map_sum, sum_mul_sum, hl]
    apply sum_congr rfl; intro k _
    apply sum_congr rfl; intro l _
    rw [map_mul, ← Complex.exp_conj, mul_mul_mul_comm, ← Complex.exp_add]
    congr 2
    simp
    ring
  simp only [key]
  rw [intervalIntegral.integral_finsetSum]
  · apply sum_congr rfl
    intro k hk
    rw [intervalIntegral.integral_finsetSum]
    · simp only [intervalIntegral.integral_const_mul, integral_mode]
      rw [Finset.sum_eq_single k]
      · rw [if_pos (by ring)]; ring
      · intro l _ hlk
        rw [if_neg (by unfold wave; omega), mul_zero]
      · intro h; exact absurd hk h
    · intro l _
      apply Continuous.intervalIntegrable; fun_prop
  · intro k _
    apply Continuous.intervalIntegrable; fun_prop

private lemma bwd_aff (d : Ends) (h : d.e0 < d.e1) (x : ℝ) :
    Mapping.bwd d x = (0.5 * Mapping.diff d)⁻¹ * x + (-(d.e0 + d.e1) / (d.e1 - d.e0)) := by
  have : d.e1 - d.e0 ≠ 0 := by linarith
  unfold Mapping.bwd Mapping.diff
  field_simp
  ring

/-- One column, one order. -/
private lemma integral_order (D : Ends) (h : D.e0 < D.e1) (o : ℕ) (c d : List ℂ) (hl : d.length = c.length) (h0 : c.length ≠ 0)
    (hc : c.length % 2 = 1 ∨ c.getD 0 0 = 0) (hd : d.length % 2 = 1 ∨ d.getD 0 0 = 0) :
    ∫ x in D.e0..D.e1, conj (iteratedDeriv o (fun x => trigEval c (Mapping.bwd D x)) x)
        * iteratedDeriv o (fun x => trigEval d (Mapping.bwd D x)) x
      = ∑ k ∈ range c.length, 2 * ((0.5 * Mapping.diff D : ℝ) : ℂ) *
        conj ((diffCol o c).getD k 0 / (((0.5 * Mapping.diff D : ℝ) : ℂ) ^ (2 * o))) * (diffCol o d).getD k 0 := by
  set r : ℝ := 0.5 * Mapping.diff D with hr
  have hr0 : 0 < r := by rw [hr]; unfold Mapping.diff; linarith
  have hrc : (r : ℂ) ≠ 0 := by exact_mod_cast hr0.ne'
  have hfun : ∀ e : List ℂ, (fun y => trigEval e (Mapping.bwd D y)) = fun y : ℝ => trigEval e
      (r⁻¹ * y + -(D.e0 + D.e1) / (D.e1 - D.e0)) := by
    intro e; funext y; rw [bwd_aff D h]
  have z : ∀ e : List ℂ, e.length % 2 = 1 ∨ e.getD 0 0 = 0 → (diffCol o e).length % 2 = 1 ∨ (diffCol o e).getD 0 0 = 0 := by
    intro e he
    rw [diffCol_length]
    rcases he with he | he
    · exact Or.inl he
    · right
      rcases Nat.eq_zero_or_pos e.length with h' | h'
      · rw [getD_ge' _ _ _ (by rw [diffCol_length]; omega)]
      · rw [diffCol_getD _ _ _ h', he, zero_mul]
  have hd' : ∀ e : List ℂ, e.length ≠ 0 → (e.length % 2 = 1 ∨ e.getD 0 0 = 0) → ∀ x : ℝ,
      iteratedDeriv o (fun x => trigEval e (Mapping.bwd D x)) x
        = ((r⁻¹ : ℝ) : ℂ) ^ o * trigEval (diffCol o e) (r⁻¹ * x + -(D.e0 + D.e1) / (D.e1 - D.e0)) := by
    intro e he hz x
    rw [hfun e]
    exact diffCol_eval o e he (by tauto) _ _ x
  simp only [hd' c h0 hc, hd' d (by omega) hd]
  rw [intervalIntegral.integral_comp_mul_add (fun y => conj (((r⁻¹ : ℝ) : ℂ) ^ o * trigEval (diffCol o c) y)
    * (((r⁻¹ : ℝ) : ℂ) ^ o * trigEval (diffCol o d) y)) (inv_ne_zero hr0.ne')]
  rw [hr, ← bwd_aff D h, ← bwd_aff D h, ← hr, inv_inv]
  have e0 : Mapping.bwd D D.e0 = -1 := by
    have : D.e1 - D.e0 ≠ 0 := by linarith
    unfold Mapping.bwd Mapping.diff; field_simp; ring
  have e1 : Mapping.bwd D D.e1 = 1 := by
    have : D.e1 - D.e0 ≠ 0 := by linarith
    unfold Mapping.bwd Mapping.diff; field_simp; ring
  rw [e0, e1]
  have : ∀ y : ℝ, conj (((r⁻¹ : ℝ) : ℂ) ^ o * trigEval (diffCol o c) y) * (((r⁻¹ : ℝ) : ℂ) ^ o * trigEval (diffCol o d) y)
      = (((r⁻¹ : ℝ) : ℂ) ^ (2 * o)) * (conj (trigEval (diffCol o c) y) * trigEval (diffCol o d) y) := by
    intro y
    rw [map_mul, map_pow, Complex.conj_ofReal, two_mul, pow_add]; ring
  simp only [this]
  rw [intervalIntegral.integral_const_mul, parseval _ _ (by rw [diffCol_length, diffCol_length, hl]) (z c hc) (z d hd), diffCol_length,
    Complex.real_smul, mul_sum, mul_sum]
  apply sum_congr rfl
  intro k _
  rw [map_div₀, map_pow, Complex.conj_ofReal]
  push_cast
  rw [inv_pow]
  ring

/-! ### The loops -/

/-- The contribution of order `o`. -/
private noncomputable def contrib (r : ℝ) (n o : ℕ) (cs ds : List (List ℂ)) : ℂ :=
  (List.zipWith (fun c d => ∑ k ∈ range n, 2 * (r : ℂ) * conj ((diffCol o c).getD k 0 / ((r : ℂ) ^ (2 * o)))
    * (diffCol o d).getD k 0) cs ds).sum

private lemma zip_sum (c d : List ℂ) (s : ℂ) (hl : d.length = c.length) :
    (List.zipWith (· * ·) (c.map fun z => s * conj z) d).sum = ∑ k ∈ range c.length, s * conj (c.getD k 0) * d.getD k 0 := by
  induction c generalizing d with
  | nil => simp
  | cons a c ih =>
    cases d with
    | nil => simp at hl
    | cons b d =>
      simp only [List.map_cons, List.zipWith_cons_cons, List.sum_cons, List.length_cons, sum_range_succ']
      rw [ih d (by simpa using hl)]
      simp only [List.getD_cons_succ, List.getD_cons_zero]
      ring

private lemma dot_flat (s : ℂ) : ∀ (cs ds : List (List ℂ)) (n : ℕ), cs.length = ds.length → (∀ c ∈ cs, c.length = n) →
    (∀ d ∈ ds, d.length = n) → dot (cs.flatMap fun c => c.map fun z => s * conj z) ds.flatten
      = .ok (List.zipWith (fun c d => ∑ k ∈ range n, s * conj (c.getD k 0) * d.getD k 0) cs ds).sum := by
  have main : ∀ (cs ds : List (List ℂ)) (n : ℕ), cs.length = ds.length → (∀ c ∈ cs, c.length = n) → (∀ d ∈ ds, d.length = n) →
      (cs.flatMap fun c => c.map fun z => s * conj z).length = ds.flatten.length ∧
      (List.zipWith (· * ·) (cs.flatMap fun c => c.map fun z => s * conj z) ds.flatten).sum
        = (List.zipWith (fun c d => ∑ k ∈ range n, s * conj (c.getD k 0) * d.getD k 0) cs ds).sum := by
    intro cs
    induction cs with
    | nil => intro ds n h _ _; cases ds <;> simp at h ⊢
    | cons c cs ih =>
      intro ds n h hc hd
      cases ds with
      | nil => simp at h
      | cons d ds =>
        obtain ⟨i1, i2⟩ := ih ds n (by simpa using h) (fun c h => hc c (by simp [h])) (fun d h => hd d (by simp [h]))
        have hcn := hc c (by simp)
        have hdn := hd d (by simp)
        have hl : (c.map fun z => s * conj z).length = d.length := by simp [hcn, hdn]
        constructor
        · simp only [List.flatMap_cons, List.length_append, List.flatten_cons, i1, hl]
        · simp only [List.flatMap_cons, List.flatten_cons, List.zipWith_cons_cons, List.sum_cons]
          rw [List.zipWith_append hl, List.sum_append, i2, zip_sum c d s (by omega), hcn]
  intro cs ds n h hc hd
  obtain ⟨h1, h2⟩ := main cs ds n h hc hd
  unfold dot
  rw [if_pos h1, h2]

private lemma step_cols (f : TrigFun) (r : ℝ) (hr : r = f.rescale) :
    (divBy (f.diff 1) r).onefun.cols = f.onefun.cols.map fun c => (diffCol 1 c).map fun z => z / ((r : ℂ) ^ 2) := by
  subst hr
  simp only [divBy, TrigFun.diff, Tech.diff, Tech.ofBoth, Tech.ofCoeffs, Tech.make, List.map_map]
  apply List.map_congr_left
  intro c _
  simp only [Function.comp, List.map_map]
  apply List.map_congr_left
  intro z _
  simp only [Function.comp, pow_one]
  rw [div_div, pow_two]

private lemma step_getD (r : ℝ) (o : ℕ) (c : List ℂ) (k : ℕ) (hk : k < c.length) :
    (diffCol o ((diffCol 1 c).map fun z => z / ((r : ℂ) ^ 2))).getD k 0 / (r : ℂ) ^ (2 * o)
      = (diffCol (o + 1) c).getD k 0 / (r : ℂ) ^ (2 * (o + 1)) := by
  rw [diffCol_getD _ _ _ (by simp [diffCol_length]; exact hk), diffCol_getD _ _ _ hk]
  simp only [List.length_map, diffCol_length]
  rw [getD_lt' (List.map _ _) _ _ (by simp [diffCol_length]; exact hk), List.getElem_map, ← getD_lt' _ 0 _ (by rw [diffCol_length]; exact hk),
    diffCol_getD _ _ _ hk]
  rw [show 2 * (o + 1) = 2 + 2 * o by ring, pow_add, pow_add, div_mul_eq_mul_div, div_div]
  congr 1
  ring

private lemma diffCol_succ_getD (o : ℕ) (d : List ℂ) (k : ℕ) (hk : k < d.length) :
    (diffCol o (diffCol 1 d)).getD k 0 = (diffCol (o + 1) d).getD k 0 := by
  rw [diffCol_getD _ _ _ (by rw [diffCol_length]; exact hk), diffCol_getD _ _ _ hk, diffCol_getD _ _ _ hk, diffCol_length, pow_succ]
  ring

private lemma contrib_step (r : ℝ) (n o : ℕ) (cs ds : List (List ℂ)) (hc : ∀ c ∈ cs, c.length = n) (hd : ∀ d ∈ ds, d.length = n) :
    contrib r n o (cs.map fun c => (diffCol 1 c).map fun z => z / ((r : ℂ) ^ 2)) (ds.map (diffCol 1)) = contrib r n (o + 1) cs ds := by
  unfold contrib
  congr 1
  induction cs generalizing ds with
  | nil => simp
  | cons c cs ih =>
    cases ds with
    | nil => simp
    | cons d ds =>
      simp only [List.map_cons, List.zipWith_cons_cons]
      rw [ih ds (fun c h => hc c (by simp [h])) (fun d h => hd d (by simp [h]))]
      congr 1
      apply sum_congr rfl
      intro k hk
      have hk' := mem_range.mp hk
      rw [step_getD r o c k (by rw [hc c (by simp)]; exact hk'), diffCol_succ_getD o d k (by rw [hd d (by simp)]; exact hk')]

private lemma dot_row (r : ℝ) (n : ℕ) (f : TrigFun) (ds : List (List ℂ)) (hl : f.onefun.cols.length = ds.length)
    (hc : ∀ c ∈ f.onefun.cols, c.length = n) (hd : ∀ d ∈ ds, d.length = n) :
    dot (row r f) ds.flatten = .ok (contrib r n 0 f.onefun.cols ds) := by
  unfold row
  rw [dot_flat _ _ _ n hl hc hd]
  congr 1
  unfold contrib
  congr 1
  have h0 : ∀ e : List ℂ, diffCol 0 e = e := by
    intro e; unfold diffCol; apply List.ext_getElem <;> simp
  simp only [h0, mul_zero, pow_zero, div_one]

private lemma loop_eq (n : ℕ) (hn : n ≠ 1) (k : ℕ) : ∀ (r : ℝ) (f : TrigFun) (ds : List (List ℂ)) (s : ℂ), r = f.rescale →
    f.onefun.cols.length = ds.length → (∀ c ∈ f.onefun.cols, c.length = n) → (∀ d ∈ ds, d.length = n) →
    callLoop n (rows r k f).tail ds s = .ok (s + ∑ o ∈ range k, contrib r n (o + 1) f.onefun.cols ds) := by
  induction k with
  | zero => intro r f ds s _ _ _ _; simp [rows, callLoop]
  | succ k ih =>
    intro r f ds s hr hl hc hd
    have hcols := step_cols f r hr
    set f' := divBy (f.diff 1) r with hf'
    have hl' : f'.onefun.cols.length = (ds.map (diffCol 1)).length := by rw [hcols]; simpa using hl
    have hc' : ∀ c ∈ f'.onefun.cols, c.length = n := by
      rw [hcols]; intro c h
      obtain ⟨e, he, rfl⟩ := List.mem_map.mp h
      rw [List.length_map, diffCol_length]; exact hc e he
    have hd' : ∀ d ∈ ds.map (diffCol 1), d.length = n := by
      intro d h
      obtain ⟨e, he, rfl⟩ := List.mem_map.mp h
      rw [diffCol_length]; exact hd e he
    have hr' : r = f'.rescale := by rw [hr]; rfl
    have hrows : rows r k f' = row r f' :: (rows r k f').tail := by cases k <;> rfl
    show callLoop n (rows r k f') ds s = _
    rw [hrows, callLoop, if_neg hn, dot_row r n f' _ hl' hc' hd']
    show callLoop n (rows r k f').tail (ds.map (diffCol 1)) _ = _
    rw [ih r f' _ _ hr' hl' hc' hd', hcols, sum_range_succ']
    congr 1
    simp only [contrib_step r n _ f.onefun.cols ds hc hd]
    ring

private lemma loop_one (rs : List (List ℂ)) (ds : List (List ℂ)) (s : ℂ) : callLoop 1 rs ds s = .ok s := by
  induction rs with
  | nil => rfl
  | cons r rs ih => rw [callLoop, if_pos rfl, ih]

private lemma contrib_one (r : ℝ) (o : ℕ) (cs ds : List (List ℂ)) (hc : ∀ c ∈ cs, c.length = 1) :
    contrib r 1 (o + 1) cs ds = 0 := by
  unfold contrib
  induction cs generalizing ds with
  | nil => simp
  | cons c cs ih =>
    cases ds with
    | nil => simp
    | cons d ds =>
      rw [List.zipWith_cons_cons, List.sum_cons, ih ds (fun c h => hc c (by simp [h]))]
      have h1 := hc c (by simp)
      rw [sum_range_one, diffCol_getD _ _ _ (by omega), h1]
      simp [wave]

private lemma contrib_integral (D : Ends) (h : D.e0 < D.e1) (n o : ℕ) (hn : n ≠ 0) (cs ds : List (List ℂ))
    (hc : ∀ c ∈ cs, c.length = n ∧ (n % 2 = 1 ∨ c.getD 0 0 = 0)) (hd : ∀ d ∈ ds, d.length = n ∧ (n % 2 = 1 ∨ d.getD 0 0 = 0)) :
    contrib (0.5 * Mapping.diff D) n o cs ds = (List.zipWith (fun F U : ℝ → ℂ =>
      ∫ x in D.e0..D.e1, conj (iteratedDeriv o F x) * iteratedDeriv o U x)
      (cs.map fun c x => trigEval c (Mapping.bwd D x)) (ds.map fun d x => trigEval d (Mapping.bwd D x))).sum := by
  unfold contrib
  congr 1
  induction cs generalizing ds with
  | nil => simp
  | cons c cs ih =>
    cases ds with
    | nil => simp
    | cons d ds =>
      simp only [List.map_cons, List.zipWith_cons_cons]
      rw [ih ds (fun c h => hc c (by simp [h])) (fun d h => hd d (by simp [h]))]
      congr 1
      obtain ⟨c1, c2⟩ := hc c (by simp)
      obtain ⟨d1, d2⟩ := hd d (by simp)
      rw [integral_order D h o c d (by omega) (by omega) (by rw [c1]; exact c2) (by rw [d1]; exact d2), c1]

private lemma zip_add {α β : Type} (f g : α → β → ℂ) (l : List α) (m : List β) :
    (List.zipWith f l m).sum + (List.zipWith g l m).sum = (List.zipWith (fun a b => f a b + g a b) l m).sum := by
  induction l generalizing m with
  | nil => simp
  | cons a l ih =>
    cases m with
    | nil => simp
    | cons b m => simp only [List.zipWith_cons_cons, List.sum_cons, ← ih]; ring

/-- C111 (partial: trigonometric spectral basis, importable top-level package, odd number of coefficients or vanishing unpaired mode):
`Functional(f, basis='trigspec', order=k)(u)` is the inner product of `f` and `u` in `H^k` of the domain, summed over the columns. -/
theorem C111_sobolev_partial (f u : TrigFun) (k : ℕ) (hd : f.dom.e0 < f.dom.e1) (hdom : u.dom = f.dom)
    (hf : f.onefun.Proper) (hu : u.onefun.Proper) (hn : u.onefun.n = f.onefun.n) (hm : u.onefun.cols.length = f.onefun.cols.length)
    (hpar : f.onefun.n % 2 = 1 ∨ ((∀ c ∈ f.onefun.cols, c.getD 0 0 = 0) ∧ ∀ c ∈ u.onefun.cols, c.getD 0 0 = 0)) :
    ∃ F, construct true .trigspec k f = .ok F ∧
      callFun F u = .ok (List.zipWith (sobolev k f.dom.e0 f.dom.e1) (columnFuns f) (columnFuns u)).sum := by
  refine ⟨_, rfl, ?_⟩
  set n := f.onefun.n with hnn
  have hr : f.rescale = 0.5 * Mapping.diff f.dom := rfl
  have hrows : rows f.rescale k f = row f.rescale f :: (rows f.rescale k f).tail := by cases k <;> rfl
  have hcl : ∀ c ∈ f.onefun.cols, c.length = n := hf.wf
  have hdl : ∀ d ∈ u.onefun.cols, d.length = n := fun d h => by rw [hu.wf d h, hn]
  have hc : ∀ c ∈ f.onefun.cols, c.length = n ∧ (n % 2 = 1 ∨ c.getD 0 0 = 0) := fun c h => ⟨hcl c h, by
    rcases hpar with hp | hp
    · exact Or.inl hp
    · exact Or.inr (hp.1 c h)⟩
  have hd2 : ∀ d ∈ u.onefun.cols, d.length = n ∧ (n % 2 = 1 ∨ d.getD 0 0 = 0) := fun d h => ⟨hdl d h, by
    rcases hpar with hp | hp
    · exact Or.inl hp
    · exact Or.inr (hp.2 d h)⟩
  have hval : callFun (rows f.rescale k f) u = .ok (∑ o ∈ range (k + 1), contrib f.rescale n o f.onefun.cols u.onefun.cols) := by
    unfold callFun
    rw [hrows, call, dot_row f.rescale n f _ hm.symm hcl hdl]
    show callLoop u.onefun.n _ _ _ = _
    rw [hn, sum_range_succ']
    by_cases h1 : n = 1
    · rw [h1, loop_one]
      congr 1
      rw [sum_eq_zero (fun o _ => contrib_one _ _ _ _ (by rw [← h1]; exact hcl)), zero_add]
    · rw [loop_eq n h1 k f.rescale f _ _ rfl hm.symm hcl hdl]
      congr 1
      ring
  rw [hval]
  congr 1
  have : ∀ o, contrib f.rescale n o f.onefun.cols u.onefun.cols = (List.zipWith (fun F U : ℝ → ℂ =>
      ∫ x in f.dom.e0..f.dom.e1, conj (iteratedDeriv o F x) * iteratedDeriv o U x) (columnFuns f) (columnFuns u)).sum := by
    intro o
    rw [hr, contrib_integral f.dom hd n o hf.pos _ _ hc hd2]
    simp only [columnFuns, hdom]
  simp only [this]
  have fold : ∀ K, ∑ o ∈ range K, (List.zipWith (fun F U : ℝ → ℂ =>
      ∫ x in f.dom.e0..f.dom.e1, conj (iteratedDeriv o F x) * iteratedDeriv o U x) (columnFuns f) (columnFuns u)).sum
      = (List.zipWith (fun F U : ℝ → ℂ => ∑ o ∈ range K,
        ∫ x in f.dom.e0..f.dom.e1, conj (iteratedDeriv o F x) * iteratedDeriv o U x) (columnFuns f) (columnFuns u)).sum := by
    intro K
    induction K with
    | zero =>
      simp only [sum_range_zero]
      have : ∀ (l m : List (ℝ → ℂ)), (List.zipWith (fun _ _ => (0 : ℂ)) l m).sum = 0 := by
        intro l
        induction l with
        | nil => simp
        | cons a l ih => intro m; cases m with
          | nil => simp
          | cons b m => simp [ih]
      rw [this]
    | succ K ih => simp only [sum_range_succ, ih, zip_add]
  exact fold (k + 1)

/-- C111: for scalar functions the functional may be called with the vector of coefficients as well. -/
theorem C111_vector_partial (F : List (List ℂ)) (u : TrigFun) (c : List ℂ) (hu : u.onefun.Proper) (hc : u.onefun.cols = [c]) :
    callVec F u.onefun.n 1 c = callFun F u := by
  have hl : c.length = u.onefun.n := hu.wf c (by rw [hc]; simp)
  unfold callVec callFun
  rw [if_pos (by omega), hc]
  congr 1
  simp only [reshape, List.range_one, List.map_cons, List.map_nil, mul_one, add_zero]
  congr 1
  apply ext_getD 0 (by simp [hl])
  intro k hk
  rw [getD_map_range, if_pos (by simpa using hk)]

/-- C111, failure: for systems a vector of coefficients (the columns one after the other) is not the function with these
coefficients: the functional generated by `f = (1, 0)` maps `u = (e^{iπx}, 1)` to `0`, but the vector of the coefficients of `u` to `2`. -/
theorem C111_vector_fails :
    let f : TrigFun := ⟨⟨-1, 1⟩, Tech.ofCoeffs 3 [[0, 1, 0], [0, 0, 0]] 1e-10⟩
    let u : TrigFun := ⟨⟨-1, 1⟩, Tech.ofCoeffs 3 [[0, 0, 1], [0, 1, 0]] 1e-10⟩
    ∃ F, construct true .trigspec 0 f = .ok F ∧ callFun F u = .ok 0 ∧ callVec F 3 2 [0, 0, 1, 0, 1, 0] = .ok 2 := by
  refine ⟨_, rfl, ?_, ?_⟩
  · norm_num [callFun, call, rows, row, dot, Tech.ofCoeffs, Tech.make, TrigFun.rescale, Mapping.diff, callLoop, Except.bind]
  · norm_num [callVec, call, rows, row, dot, Tech.ofCoeffs, Tech.make, TrigFun.rescale, Mapping.diff, callLoop, Except.bind, reshape,
      List.range_succ]

/-- C111, failure: for an even number of coefficients with an unpaired mode already the `L²` functional is wrong: the functional of
`cos πx` maps `cos πx` to `2`, the integral is `1`. -/
theorem C111_even_fails :
    let f : TrigFun := ⟨⟨-1, 1⟩, Tech.ofCoeffs 2 [[1, 0]] 1e-10⟩
    (∃ F, construct true .trigspec 0 f = .ok F ∧ callFun F f = .ok 2) ∧
    (columnFuns f).map (fun F => F 0) = [1] ∧ (List.zipWith (sobolev 0 (-1) 1) (columnFuns f) (columnFuns f)).sum = 1 := by
  have hb : ∀ x : ℝ, Mapping.bwd ⟨-1, 1⟩ x = x := by intro x; simp only [Mapping.bwd, Mapping.diff]; ring
  have hc : ∀ x : ℝ, trigEval [1, 0] x = ((Real.cos (Real.pi * x) : ℝ) : ℂ) := by
    intro x; simp [trigEval, trigMode, sum_range_succ]
  refine ⟨⟨_, rfl, ?_⟩, ?_, ?_⟩
  · norm_num [callFun, call, rows, row, dot, Tech.ofCoeffs, Tech.make, TrigFun.rescale, Mapping.diff, callLoop, Except.bind]
  · simp [columnFuns, Tech.ofCoeffs, Tech.make, hb, hc]
  · simp only [columnFuns, Tech.ofCoeffs, Tech.make, List.map_cons, List.map_nil, List.zipWith_cons_cons, List.zipWith_nil_right,
      List.sum_cons, List.sum_nil, add_zero, sobolev, zero_add, sum_range_one, iteratedDeriv_zero, hb, hc, Complex.conj_ofReal,
      ← Complex.ofReal_mul]
    rw [intervalIntegral.integral_ofReal]
    have : ∫ x in (-1 : ℝ)..1, Real.cos (Real.pi * x) * Real.cos (Real.pi * x) = 1 := by
      have h := intervalIntegral.integral_comp_mul_left (a := -1) (b := 1) (fun y => Real.cos y ^ 2) Real.pi_ne_zero
      simp only [← pow_two]
      rw [h, integral_cos_sq]
      simp [Real.pi_ne_zero]
    rw [this]; simp

/-- C111, failure: with the other bases for discretised functions no functional can be constructed, and the trigonometric one
only when the package directory itself is on the module search path. -/
theorem C111_bases_fails (p : Bool) (k : ℕ) (f : TrigFun) :
    construct p .coeff k f = .error .moduleNotFound ∧ construct p .value k f = .error .nameError ∧
    construct p .trigval k f = .error .typeError ∧ construct false .trigspec k f = .error .moduleNotFound :=
  ⟨rfl, rfl, rfl, rfl⟩

example : (Tech.ofCoeffs 3 [[1, 2, 3]] 1e-10).Proper ∧ (Tech.ofCoeffs 3 [[1, 2, 3]] 1e-10).n % 2 = 1 ∧
    (⟨⟨0, 4⟩, Tech.ofCoeffs 3 [[1, 2, 3]] 1e-10⟩ : TrigFun).dom.e0 < 4 :=
  ⟨ofCoeffs_proper _ (by norm_num) _ _ (by simp), rfl, by norm_num⟩

end Funpy.Props
