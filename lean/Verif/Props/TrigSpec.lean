import Verif.Lemmas.TrigSpec
import Verif.Props.TrigCalc

/-!
# C94: the Fourier spectral discretisation of a linear operator
-/

namespace Funpy.Props
open Matrix Complex Finset Spec Trig TrigSpec

/-- The aggregation operator with sensing radius one: `½ ∫_0^1 (u(x + r) - u(x - r)) dr`. -/
noncomputable def aggregate (u : ℝ → ℂ) (x : ℝ) : ℂ := (∫ r in (0 : ℝ)..1, (u (x + r) - u (x - r))) / 2

/-- A coefficient function of an operator on the domain `e`: switched-off entries stand for zero. -/
noncomputable def coefFun (e : Ends) (p : Bool × List ℂ) (x : ℝ) : ℂ := if p.1 then trigEval p.2 (Mapping.bwd e x) else 0

/-- What the operator described by `s` does to a function: `Σ aⱼ u⁽ʲ⁾ + Σ c ∫ d u + Σ bⱼ (A u)⁽ʲ⁾`. -/
noncomputable def applyOp (e : Ends) (s : Source) (u : ℝ → ℂ) (x : ℝ) : ℂ :=
  (∑ j ∈ range s.coeff.length, coefFun e (s.coeff.getD j (false, [])) x * iteratedDeriv j u x)
  + (s.integral.map fun p => trigEval p.1 (Mapping.bwd e x) * ∫ y in e.e0..e.e1, trigEval p.2 (Mapping.bwd e y) * u y).sum
  + ∑ j ∈ range s.nl.length, coefFun e (s.nl.getD j (false, [])) x * iteratedDeriv j (aggregate u) x

/-- The function on `e` with the given Fourier coefficients. -/
noncomputable def fourierFun {n : ℕ} (e : Ends) (u : Fin n → ℂ) (x : ℝ) : ℂ := trigEval (List.ofFn u) (Mapping.bwd e x)

private lemma ofFn_getD {n : ℕ} (u : Fin n → ℂ) (k : Fin n) : (List.ofFn u).getD k 0 = u k := by
  rw [getD_lt' _ _ _ (by simp), List.getElem_ofFn]

private lemma ofFn_eval {n : ℕ} (hn : n % 2 = 1) (u : Fin n → ℂ) (y : ℝ) :
    trigEval (List.ofFn u) y = ∑ k : Fin n, u k * cexp (I * Real.pi * (wave n k) * y) := by
  rw [trigEval_odd _ (by simpa using hn), List.length_ofFn, ← Fin.sum_univ_eq_sum_range fun k =>
    (List.ofFn u).getD k 0 * cexp (I * Real.pi * (wave n k) * y)]
  apply sum_congr rfl
  intro k _
  rw [getD_lt' _ _ _ (by simp), List.getElem_ofFn]

private lemma fourier_mul_mode (F : ℝ → ℂ) (a w : ℤ) : fourier (fun y => F y * cexp (I * Real.pi * a * y)) w = fourier F (w - a) := by
  unfold fourier
  congr 2
  funext y
  rw [mul_assoc, ← Complex.exp_add]
  congr 2
  push_cast; ring

private lemma fourier_finset_sum {ι : Type*} (s : Finset ι) (F : ι → ℝ → ℂ) (hF : ∀ i ∈ s, Continuous (F i)) (w : ℤ) :
    fourier (fun y => ∑ i ∈ s, F i y) w = ∑ i ∈ s, fourier (F i) w := by
  unfold fourier
  rw [← sum_div]
  congr 1
  rw [← intervalIntegral.integral_finsetSum]
  · congr 1; funext y; rw [sum_mul]
  · intro i hi
    have := hF i hi
    exact Continuous.intervalIntegrable (by fun_prop) _ _

private lemma fourier_const_mul (a : ℂ) (F : ℝ → ℂ) (w : ℤ) : fourier (fun y => a * F y) w = a * fourier F w := by
  unfold fourier
  simp only [mul_assoc, intervalIntegral.integral_const_mul]
  ring

/-- Multiplication: the product with the matrix gives the Fourier coefficients of the product of the functions. -/
lemma multmat_mulVec {n : ℕ} (hn : n % 2 = 1) (c : List ℂ) (hc : c.length ≠ 0) (v : Fin n → ℂ) (i : Fin n) :
    (multmat n c *ᵥ v) i = fourier (fun y => trigEval c y * trigEval (List.ofFn v) y) (wave n i) := by
  have hcont := continuous_trigEval c
  simp only [ofFn_eval hn, mul_sum]
  rw [fourier_finset_sum _ _ (by intro k _; fun_prop)]
  show ∑ k, multmat n c i k * v k = _
  apply sum_congr rfl
  intro k _
  rw [multmat_apply _ _ hc]
  have : (fun y : ℝ => trigEval c y * (v k * cexp (I * Real.pi * (wave n k) * y)))
      = fun y : ℝ => v k * (trigEval c y * cexp (I * Real.pi * (wave n k) * y)) := by funext y; ring
  rw [this, fourier_const_mul, fourier_mul_mode, mul_comm]
  congr 2
  simp only [wave]; ring

private lemma waveArr_odd {n : ℕ} (hn : n % 2 = 1) (k : ℕ) : (waveArr n k : ℂ) = (wave n k : ℂ) := by
  obtain ⟨m, rfl⟩ : ∃ m, n = 2 * m + 1 := ⟨n / 2, by omega⟩
  rw [waveArr, if_pos hn, wave, show (2 * m + 1) / 2 = m by omega]
  push_cast; ring

private lemma discDiff_mulVec {n : ℕ} (hn : n % 2 = 1) (m : ℕ) (len : ℝ) (u : Fin n → ℂ) (i : Fin n) :
    (discDiff n m len *ᵥ u) i = ((2 * Real.pi / len : ℝ) * I * (wave n i : ℂ)) ^ m * u i := by
  rw [discDiff]
  by_cases hm : m = 0
  · subst hm; simp
  rw [if_neg hm, diffmat, if_pos (by omega), if_pos hn, Matrix.diagonal_pow, smul_mulVec, smul_mulVec, Pi.smul_apply, Pi.smul_apply,
    mulVec_diagonal, Pi.pow_apply, waveArr_odd hn, smul_eq_mul, smul_eq_mul, mul_pow, mul_pow]
  push_cast; ring

/-- Differentiation matrices differentiate. -/
lemma discDiff_eval {n : ℕ} (hn : n % 2 = 1) (m : ℕ) (e : Ends) (u : Fin n → ℂ) (x : ℝ) :
    fourierFun e (discDiff n m (Mapping.diff e) *ᵥ u) x = iteratedDeriv m (fourierFun e u) x := by
  have h1 : (fourierFun e u) = fun x : ℝ => trigEval (List.ofFn u) ((2 / Mapping.diff e) * x + (-(e.e0 + e.e1) / Mapping.diff e)) := by
    funext x; rw [fourierFun, Cheb.bwd_eq]
  rw [h1, diffCol_odd _ _ (by simpa using hn), ← Cheb.bwd_eq, fourierFun, ofFn_eval hn, trigEval_odd _ (by rw [diffCol_length]; simpa using hn),
    diffCol_length, List.length_ofFn, ← Fin.sum_univ_eq_sum_range fun k =>
    (diffCol m (List.ofFn u)).getD k 0 * cexp (I * Real.pi * (wave n k) * (Mapping.bwd e x : ℝ)), mul_sum]
  apply sum_congr rfl
  intro k _
  rw [diffCol_getD _ _ _ (by simp), ofFn_getD, discDiff_mulVec hn, List.length_ofFn]
  rw [← mul_assoc]
  congr 1
  rw [mul_comm (u k), ← mul_assoc, ← mul_pow]
  congr 2
  push_cast; ring

/-- The aggregation matrix aggregates. -/
lemma discAgg_eval {n : ℕ} (hn : n % 2 = 1) (e : Ends) (he : e.e0 < e.e1) (u : Fin n → ℂ) (x : ℝ) :
    fourierFun e ((discAgg n 0 (Mapping.diff e)).getD 0 *ᵥ u) x = aggregate (fourierFun e u) x := by
  have hd : Mapping.diff e ≠ 0 := by unfold Mapping.diff; linarith
  have hdc : (Mapping.diff e : ℂ) ≠ 0 := by exact_mod_cast hd
  have hagg : (discAgg n 0 (Mapping.diff e)).getD 0
      = diagonal fun k : Fin n => genM0 (waveArr n k) (1 / (0.5 * Mapping.diff e) * Real.pi) := by
    simp [discAgg, aggmat]
  have hu : ∀ x : ℝ, fourierFun e u x = ∑ k : Fin n, u k * cexp (I * Real.pi * (wave n k) * (Mapping.bwd e x : ℝ)) := fun x => ofFn_eval hn u _
  rw [hagg, fourierFun, ofFn_eval hn, aggregate]
  simp only [hu, ← sum_sub_distrib]
  rw [intervalIntegral.integral_finsetSum, sum_div]
  swap
  · intro k _
    apply Continuous.intervalIntegrable
    simp only [Cheb.bwd_eq]
    fun_prop
  apply sum_congr rfl
  intro k _
  rw [mulVec_diagonal]
  set w : ℤ := wave n k with hw
  set κ : ℝ := 2 * Real.pi / Mapping.diff e * w with hκ
  set E : ℂ := cexp (I * Real.pi * w * (Mapping.bwd e x : ℝ)) with hE
  have hint : ∀ r : ℝ, u k * cexp (I * Real.pi * w * (Mapping.bwd e (x + r) : ℝ)) - u k * cexp (I * Real.pi * w * (Mapping.bwd e (x - r) : ℝ))
      = (u k * E * (2 * I)) * ((Real.sin (κ * r) : ℝ) : ℂ) := by
    intro r
    have h1 : (I * Real.pi * w * (Mapping.bwd e (x + r) : ℝ) : ℂ) = I * Real.pi * w * (Mapping.bwd e x : ℝ) + (κ * r : ℝ) * I := by
      rw [Cheb.bwd_eq, Cheb.bwd_eq, hκ]; push_cast; field_simp; ring
    have h2 : (I * Real.pi * w * (Mapping.bwd e (x - r) : ℝ) : ℂ) = I * Real.pi * w * (Mapping.bwd e x : ℝ) + (-(κ * r : ℝ)) * I := by
      rw [Cheb.bwd_eq, Cheb.bwd_eq, hκ]; push_cast; field_simp; ring
    rw [h1, h2, Complex.exp_add, Complex.exp_add, ← hE, Complex.ofReal_sin, Complex.sin]
    have hI : I * I = -1 := Complex.I_mul_I
    linear_combination (-(u k * E * (cexp (-(κ * r : ℝ) * I) - cexp ((κ * r : ℝ) * I)))) * hI
  simp only [hint]
  rw [intervalIntegral.integral_const_mul, intervalIntegral.integral_ofReal]
  have hwr : waveArr n k = w := by exact_mod_cast waveArr_odd hn k
  have hRk : 1 / (0.5 * Mapping.diff e) * Real.pi * (w : ℝ) = κ := by
    rw [hκ, show (0.5 : ℝ) = 1 / 2 by norm_num]; field_simp
  have hmul : genM0 (waveArr n k) (1 / (0.5 * Mapping.diff e) * Real.pi) = I * ((∫ r in (0 : ℝ)..1, Real.sin (κ * r) : ℝ) : ℂ) := by
    rw [genM0, hwr, hRk]
    congr 2
    by_cases h0 : w = 0
    · have : κ = 0 := by rw [hκ, h0]; simp
      simp [h0, this]
    · have hκ0 : κ ≠ 0 := by
        rw [hκ]
        have : (w : ℝ) ≠ 0 := by exact_mod_cast h0
        positivity
      rw [if_neg (by exact_mod_cast h0), intervalIntegral.integral_comp_mul_left _ hκ0, integral_sin]
      simp; field_simp
  rw [hmul]
  ring

private lemma fourier_add (F G : ℝ → ℂ) (hF : Continuous F) (hG : Continuous G) (w : ℤ) :
    fourier (fun y => F y + G y) w = fourier F w + fourier G w := by
  unfold fourier
  rw [← add_div]
  congr 1
  rw [← intervalIntegral.integral_add (Continuous.intervalIntegrable (by fun_prop) _ _) (Continuous.intervalIntegrable (by fun_prop) _ _)]
  congr 1; funext y; ring

private lemma continuous_fourierFun {n : ℕ} (e : Ends) (u : Fin n → ℂ) : Continuous (fourierFun e u) := by
  have := continuous_trigEval (List.ofFn u)
  have h : fourierFun e u = fun x : ℝ => trigEval (List.ofFn u) ((2 / Mapping.diff e) * x + (-(e.e0 + e.e1) / Mapping.diff e)) := by
    funext x; rw [fourierFun, Cheb.bwd_eq]
  rw [h]; fun_prop

private lemma continuous_coefFun (e : Ends) (p : Bool × List ℂ) : Continuous (coefFun e p) := by
  have := continuous_trigEval p.2
  have h : coefFun e p = fun x : ℝ => if p.1 then trigEval p.2 ((2 / Mapping.diff e) * x + (-(e.e0 + e.e1) / Mapping.diff e)) else 0 := by
    funext x; rw [coefFun, Cheb.bwd_eq]
  rw [h]
  by_cases hp : p.1
  · simp only [hp, if_true]; fun_prop
  · simp only [hp]; exact continuous_const

private lemma sum_mapIdx {α M : Type*} [AddCommMonoid M] (l : List α) (d : α) (f : ℕ → α → M) :
    (l.mapIdx f).sum = ∑ j ∈ range l.length, f j (l.getD j d) := by
  induction l generalizing f with
  | nil => simp
  | cons a l ih =>
    rw [List.mapIdx_cons, List.sum_cons, ih, List.length_cons, sum_range_succ', add_comm]
    rfl

private lemma bwd_fwd' (e : Ends) (he : e.e0 < e.e1) (y : ℝ) : Mapping.bwd e (Mapping.fwd e y) = y := by
  have : e.e1 - e.e0 ≠ 0 := by linarith
  simp only [Mapping.bwd, Mapping.fwd, Mapping.diff]
  field_simp; ring

private lemma continuous_fwd (e : Ends) : Continuous (Mapping.fwd e) := by unfold Mapping.fwd; fun_prop

private lemma discInt_mulVec {n : ℕ} (hn : n % 2 = 1) (e : Ends) (he : e.e0 < e.e1) (u : Fin n → ℂ) (i : Fin n) :
    (discInt n (Mapping.diff e) *ᵥ u) i = if (i : ℕ) = n / 2 then ∫ y in e.e0..e.e1, fourierFun e u y else 0 := by
  have hpos : 0 < Mapping.diff e := by unfold Mapping.diff; linarith
  have hI : ∫ y in e.e0..e.e1, fourierFun e u y = (Mapping.diff e : ℂ) * u ⟨n / 2, by omega⟩ := by
    have h1 : (fourierFun e u) = fun x : ℝ => trigEval (List.ofFn u) ((2 / Mapping.diff e) * x + (-(e.e0 + e.e1) / Mapping.diff e)) := by
      funext x; rw [fourierFun, Cheb.bwd_eq]
    rw [h1, intervalIntegral.integral_comp_mul_add (fun y => trigEval (List.ofFn u) y) (by positivity), ← Cheb.bwd_eq, ← Cheb.bwd_eq]
    have ha : Mapping.bwd e e.e0 = -1 := by simp only [Mapping.bwd, Mapping.diff] at *; field_simp; ring
    have hb : Mapping.bwd e e.e1 = 1 := by simp only [Mapping.bwd, Mapping.diff] at *; field_simp; ring
    rw [ha, hb, integral_trigEval _ (by simp; omega), List.length_ofFn, ofFn_getD u ⟨n / 2, by omega⟩, Complex.real_smul]
    have : (Mapping.diff e : ℂ) ≠ 0 := by exact_mod_cast hpos.ne'
    push_cast; field_simp
  rw [discInt, smul_mulVec, smul_mulVec, Pi.smul_apply, Pi.smul_apply, hI]
  have hind : (if n % 2 = 1 then (n + 1) / 2 - 1 else n / 2) = n / 2 := by rw [if_pos hn]; omega
  have : (intmat n *ᵥ u) i = if (i : ℕ) = n / 2 then 2 * u ⟨n / 2, by omega⟩ else 0 := by
    show ∑ j, intmat n i j * u j = _
    simp only [intmat, hind]
    by_cases hi : (i : ℕ) = n / 2
    · rw [if_pos hi, sum_eq_single (⟨n / 2, by omega⟩ : Fin n)]
      · simp [hi]
      · intro b _ hb
        rw [if_neg, zero_mul]
        rintro ⟨_, h2⟩
        exact hb (Fin.ext h2)
      · simp
    · rw [if_neg hi]; apply sum_eq_zero; intro j _; simp [hi]
  rw [this]
  split_ifs
  · simp only [smul_eq_mul]; ring
  · simp

/-- C94: for an odd number of modes the assembled matrix turns the Fourier coefficients of `u` into those Fourier coefficients of
`Σ aⱼ u⁽ʲ⁾ + c ∫ u + Σ bⱼ (A u)⁽ʲ⁾` which the discretisation keeps. -/
theorem C94_assemble_partial (n : ℕ) (hn : n % 2 = 1) (e : Ends) (he : e.e0 < e.e1) (s : Source)
    (hc : ∀ p ∈ s.coeff, p.2.length ≠ 0) (hb : ∀ p ∈ s.nl, p.2.length ≠ 0)
    (hint : s.integral = [] ∨ ∃ c d, s.integral = [(c, d)] ∧ c.length ≠ 0 ∧ ∀ x, trigEval d x = 1) (u : Fin n → ℂ) (i : Fin n) :
    (assemble n (Mapping.diff e) s *ᵥ u) i = fourier (fun y => applyOp e s (fourierFun e u) (Mapping.fwd e y)) (wave n i) := by
  have hfw := continuous_fwd e
  have hder : ∀ m, iteratedDeriv m (fourierFun e u) = fourierFun e (discDiff n m (Mapping.diff e) *ᵥ u) := fun m =>
    funext fun x => (discDiff_eval hn m e u x).symm
  have hagg : aggregate (fourierFun e u) = fourierFun e ((discAgg n 0 (Mapping.diff e)).getD 0 *ᵥ u) :=
    funext fun x => (discAgg_eval hn e he u x).symm
  have hder2 : ∀ m, iteratedDeriv m (aggregate (fourierFun e u))
      = fourierFun e (discDiff n m (Mapping.diff e) *ᵥ ((discAgg n 0 (Mapping.diff e)).getD 0 *ᵥ u)) := fun m => by
    rw [hagg]; exact funext fun x => (discDiff_eval hn m e _ x).symm
  -- one term
  have hterm : ∀ (p : Bool × List ℂ), (p.1 = true → p.2.length ≠ 0) → ∀ v : Fin n → ℂ,
      (if p.1 then multmat n p.2 *ᵥ v else 0) i = fourier (fun y => coefFun e p (Mapping.fwd e y) * fourierFun e v (Mapping.fwd e y)) (wave n i) := by
    intro p hp v
    by_cases h : p.1
    · simp only [coefFun, fourierFun, bwd_fwd' e he, h, if_true]
      exact multmat_mulVec hn _ (hp h) v i
    · simp only [coefFun, h]
      simp [fourier]
  have hget : ∀ (l : List (Bool × List ℂ)), (∀ p ∈ l, p.2.length ≠ 0) → ∀ j, (l.getD j (false, [])).1 = true → (l.getD j (false, [])).2.length ≠ 0 := by
    intro l hl j hj
    by_cases h : j < l.length
    · rw [getD_lt' _ _ _ h]; exact hl _ (List.getElem_mem h)
    · rw [getD_ge' _ _ _ (by omega)] at hj; cases hj
  have hcc : ∀ p, Continuous (coefFun e p) := continuous_coefFun e
  have hcf : ∀ v : Fin n → ℂ, Continuous (fourierFun e v) := continuous_fourierFun e
  set J : ℝ → ℂ := fun x => (s.integral.map fun p => trigEval p.1 (Mapping.bwd e x) *
    ∫ y in e.e0..e.e1, trigEval p.2 (Mapping.bwd e y) * fourierFun e u y).sum with hJ
  have hJspec : Continuous (fun y => J (Mapping.fwd e y)) ∧
      ((match s.integral with
        | [] => (0 : Matrix (Fin n) (Fin n) ℂ)
        | p :: _ => multmat n p.1 * discInt n (Mapping.diff e)) *ᵥ u) i = fourier (fun y => J (Mapping.fwd e y)) (wave n i) := by
    rcases hint with h | ⟨c, d, h, hcl, hd⟩
    · rw [hJ, h]
      simp [fourier, continuous_const]
    · have hJ' : (fun y => J (Mapping.fwd e y)) = fun y => trigEval c y * ∫ y in e.e0..e.e1, fourierFun e u y := by
        funext y
        rw [hJ, h]
        simp only [List.map_cons, List.map_nil, List.sum_cons, List.sum_nil, add_zero, hd, one_mul, bwd_fwd' e he]
      have := continuous_trigEval c
      rw [hJ', h]
      refine ⟨by fun_prop, ?_⟩
      show ((multmat n c * discInt n (Mapping.diff e)) *ᵥ u) i = _
      rw [← mulVec_mulVec, multmat_mulVec hn c hcl]
      congr 1
      funext y
      congr 1
      rw [ofFn_eval hn]
      simp only [discInt_mulVec hn e he]
      rw [sum_eq_single (⟨n / 2, by omega⟩ : Fin n)]
      · simp [wave]
      · intro b _ hb2
        rw [if_neg, zero_mul]
        intro h2; exact hb2 (Fin.ext h2)
      · simp
  have hop : (fun y => applyOp e s (fourierFun e u) (Mapping.fwd e y)) = fun y =>
      (∑ j ∈ range s.coeff.length, coefFun e (s.coeff.getD j (false, [])) (Mapping.fwd e y) *
        fourierFun e (discDiff n j (Mapping.diff e) *ᵥ u) (Mapping.fwd e y))
      + J (Mapping.fwd e y)
      + ∑ j ∈ range s.nl.length, coefFun e (s.nl.getD j (false, [])) (Mapping.fwd e y) *
        fourierFun e (discDiff n j (Mapping.diff e) *ᵥ ((discAgg n 0 (Mapping.diff e)).getD 0 *ᵥ u)) (Mapping.fwd e y) := by
    funext y
    simp only [applyOp, hder, hder2, hJ]
  have hc1 : ∀ p v, Continuous fun y => coefFun e p (Mapping.fwd e y) * fourierFun e v (Mapping.fwd e y) := fun p v =>
    ((hcc p).comp hfw).mul ((hcf v).comp hfw)
  rw [hop, fourier_add _ _ (by
      refine Continuous.add ?_ hJspec.1
      exact continuous_finset_sum _ fun j _ => hc1 _ _) (continuous_finset_sum _ fun j _ => hc1 _ _),
    fourier_add _ _ (continuous_finset_sum _ fun j _ => hc1 _ _) hJspec.1, fourier_finset_sum _ _ (fun j _ => hc1 _ _),
    fourier_finset_sum _ _ (fun j _ => hc1 _ _), ← hJspec.2]
  unfold assemble
  simp only []
  rw [add_mulVec, add_mulVec, Pi.add_apply, Pi.add_apply, sum_mapIdx _ (false, []), sum_mapIdx _ (false, [])]
  simp only [sum_mulVec, Finset.sum_apply]
  congr 1
  · congr 1
    apply sum_congr rfl
    intro j _
    rw [← hterm _ (hget _ hc j)]
    split_ifs
    · rw [mulVec_mulVec]
    · simp
  · apply sum_congr rfl
    intro j _
    rw [← hterm _ (hget _ hb j)]
    split_ifs
    · rw [mulVec_mulVec, mulVec_mulVec]
    · simp

/-- The operator applied to a trigonometric polynomial gives a continuous function. -/
lemma continuous_applyOp (n : ℕ) (hn : n % 2 = 1) (e : Ends) (he : e.e0 < e.e1) (s : Source) (u : Fin n → ℂ) :
    Continuous (applyOp e s (fourierFun e u)) := by
  have hder : ∀ m, iteratedDeriv m (fourierFun e u) = fourierFun e (discDiff n m (Mapping.diff e) *ᵥ u) := fun m =>
    funext fun x => (discDiff_eval hn m e u x).symm
  have hagg : aggregate (fourierFun e u) = fourierFun e ((discAgg n 0 (Mapping.diff e)).getD 0 *ᵥ u) :=
    funext fun x => (discAgg_eval hn e he u x).symm
  have hder2 : ∀ m, iteratedDeriv m (aggregate (fourierFun e u))
      = fourierFun e (discDiff n m (Mapping.diff e) *ᵥ ((discAgg n 0 (Mapping.diff e)).getD 0 *ᵥ u)) := fun m => by
    rw [hagg]; exact funext fun x => (discDiff_eval hn m e _ x).symm
  have hcc : ∀ p, Continuous (coefFun e p) := continuous_coefFun e
  have hcf : ∀ v : Fin n → ℂ, Continuous (fourierFun e v) := continuous_fourierFun e
  have hte : ∀ c : List ℂ, Continuous fun x => trigEval c (Mapping.bwd e x) := fun c => by
    have := hcc (true, c)
    exact this.congr fun x => by simp [coefFun]
  unfold applyOp
  simp only [hder, hder2]
  refine ((continuous_finset_sum _ fun j _ => (hcc _).mul (hcf _)).add ?_).add (continuous_finset_sum _ fun j _ => (hcc _).mul (hcf _))
  generalize s.integral = l
  induction l with
  | nil => simpa using continuous_const
  | cons p l ih =>
    simp only [List.map_cons, List.sum_cons]
    exact ((hte p.1).mul continuous_const).add ih

/-- The Fourier coefficient of a finite sum of continuous functions. -/
lemma fourier_sum_fin {m : ℕ} (F : Fin m → ℝ → ℂ) (hF : ∀ i, Continuous (F i)) (w : ℤ) :
    fourier (fun y => ∑ i, F i y) w = ∑ i, fourier (F i) w := fourier_finset_sum _ F (fun i _ => hF i) w

/-- C94: in terms of functions, the discretised operator is the truncated Fourier series of the operator applied to `u`. -/
theorem C94_truncated_series_partial (n : ℕ) (hn : n % 2 = 1) (e : Ends) (he : e.e0 < e.e1) (s : Source)
    (hc : ∀ p ∈ s.coeff, p.2.length ≠ 0) (hb : ∀ p ∈ s.nl, p.2.length ≠ 0)
    (hint : s.integral = [] ∨ ∃ c d, s.integral = [(c, d)] ∧ c.length ≠ 0 ∧ ∀ x, trigEval d x = 1) (u : Fin n → ℂ) (x : ℝ) :
    fourierFun e (assemble n (Mapping.diff e) s *ᵥ u) x
      = partialSum (fun y => applyOp e s (fourierFun e u) (Mapping.fwd e y)) ((n + 1) / 2) (Mapping.bwd e x) := by
  rw [fourierFun, ofFn_eval hn, partialSum]
  simp only [C94_assemble_partial n hn e he s hc hb hint u]
  symm
  refine sum_bij' (fun w _ => (⟨(w + (n / 2 : ℕ)).toNat % n, Nat.mod_lt _ (by omega)⟩ : Fin n)) (fun k _ => wave n k) ?_ ?_ ?_ ?_ ?_
  · intro w _; exact mem_univ _
  · intro k _
    have := k.2
    rw [mem_Ioo, wave]; omega
  · intro w hw
    rw [mem_Ioo] at hw
    simp only [wave]
    rw [Nat.mod_eq_of_lt (by omega)]; omega
  · intro k _
    have := k.2
    apply Fin.ext
    simp only [wave]
    rw [Nat.mod_eq_of_lt (by omega)]; omega
  · intro w hw
    rw [mem_Ioo] at hw
    have : wave n ((w + (n / 2 : ℕ)).toNat % n) = w := by
      rw [wave, Nat.mod_eq_of_lt (by omega)]; omega
    simp only [this]

/-- C94: dropping the entries below the machine precision changes the result by at most that precision times the size of `u`. -/
theorem C94_dropped_entries (n : ℕ) (len eps : ℝ) (s : Source) (u : Fin n → ℂ) (i : Fin n) :
    ‖(quasi2diffmat n len eps s *ᵥ u) i - (assemble n len s *ᵥ u) i‖ ≤ |eps| * ∑ j, ‖u j‖ := by
  show ‖∑ j, quasi2diffmat n len eps s i j * u j - ∑ j, assemble n len s i j * u j‖ ≤ _
  rw [← sum_sub_distrib, mul_sum]
  refine (norm_sum_le _ _).trans (sum_le_sum fun j _ => ?_)
  rw [← sub_mul, norm_mul]
  refine mul_le_mul_of_nonneg_right ?_ (norm_nonneg _)
  unfold quasi2diffmat
  split_ifs with h
  · rw [zero_sub, norm_neg]; exact h.le.trans (le_abs_self _)
  · simp

/-- The hypotheses of the C94 theorems hold for `u'' - (2 cos πx) u + 3∫u + 2 (A u)'` on `[0, 3]` with five modes. -/
example : let s : Source := ⟨[(true, [-1, 0, -1]), (false, [0]), (true, [1])], [([3], [1])], [(false, [0]), (true, [2])]⟩
    5 % 2 = 1 ∧ (0 : ℝ) < 3 ∧ (∀ p ∈ s.coeff, p.2.length ≠ 0) ∧ (∀ p ∈ s.nl, p.2.length ≠ 0) ∧
    (s.integral = [] ∨ ∃ c d, s.integral = [(c, d)] ∧ c.length ≠ 0 ∧ ∀ x, trigEval d x = 1) := by
  refine ⟨by norm_num, by norm_num, by simp, by simp, Or.inr ⟨[3], [1], rfl, by simp, ?_⟩⟩
  intro x; simp [trigEval, trigMode, wave]

/-- C94 fails for an even number of modes: with two modes on `[-1, 1]`, multiplying the constant one by `2 cos πx` gives `cos πx`
(which lies in the space of the discretisation, as does `2 cos πx`). -/
theorem C94_even_fails : (∀ x : ℝ, trigEval [1, 0, 1] x = 2 * Real.cos (Real.pi * x)) ∧
    (∀ x, fourierFun ⟨-1, 1⟩ (![0, 1] : Fin 2 → ℂ) x = 1) ∧
    ∀ x : ℝ, fourierFun ⟨-1, 1⟩ (assemble 2 2 ⟨[(true, [1, 0, 1])], [], []⟩ *ᵥ ![0, 1]) x = Real.cos (Real.pi * x) := by
  have h1 : ∀ x : ℝ, trigEval [1, 0, 1] x = 2 * Real.cos (Real.pi * x) := by
    intro x
    rw [trigEval_odd _ (by simp)]
    simp only [sum_range_succ, List.length_cons, List.length_nil, range_zero, sum_empty, wave]
    have : (Real.cos (Real.pi * x) : ℂ) = (cexp ((Real.pi * x : ℝ) * I) + cexp (-(Real.pi * x : ℝ) * I)) / 2 := by
      rw [Complex.ofReal_cos, Complex.cos]
    rw [this]
    have e1 : ∀ a b : ℂ, a = b → cexp a = cexp b := fun _ _ h => by rw [h]
    rw [show ((Real.pi * x : ℝ) * I : ℂ) = I * Real.pi * x by push_cast; ring, show (-(Real.pi * x : ℝ) * I : ℂ) = -(I * Real.pi * x) by push_cast; ring]
    norm_num
    ring
  refine ⟨h1, ?_, ?_⟩
  · intro x
    simp [fourierFun, trigEval, trigMode, sum_range_succ, wave]
  · intro x
    have hA : assemble 2 2 ⟨[(true, [1, 0, 1])], [], []⟩ = multmat 2 [1, 0, 1] := by
      simp [assemble, discDiff]
    have hv : (multmat 2 [1, 0, 1] *ᵥ (![0, 1] : Fin 2 → ℂ)) = ![1, 0] := by
      funext i
      have hs : ∀ w, fourier (trigEval [1, 0, 1]) w = _ := fun w => fourier_odd [1, 0, 1] (by simp) w
      fin_cases i
      · show ∑ j, multmat 2 [1, 0, 1] 0 j * (![0, 1] : Fin 2 → ℂ) j = 1
        rw [Fin.sum_univ_two, multmat_apply _ _ (by simp), multmat_apply _ _ (by simp), hs, hs]
        simp
      · show ∑ j, multmat 2 [1, 0, 1] 1 j * (![0, 1] : Fin 2 → ℂ) j = 0
        rw [Fin.sum_univ_two, multmat_apply _ _ (by simp), multmat_apply _ _ (by simp), hs, hs]
        simp
    have hb : Mapping.bwd ⟨-1, 1⟩ x = x := by simp only [Mapping.bwd, Mapping.diff]; ring
    rw [hA, hv, fourierFun, hb]
    simp [trigEval, trigMode, sum_range_succ]

/-- C94 fails for integral terms: the integrand is ignored.  With `d = 2 cos πx` on `[-1, 1]` the term `∫ d u` of the constant one is zero,
the matrix gives `∫ u = 2`. -/
theorem C94_integrand_fails : (∀ x, fourierFun ⟨-1, 1⟩ (![0, 1, 0] : Fin 3 → ℂ) x = 1) ∧
    (∀ x, applyOp ⟨-1, 1⟩ ⟨[], [([1], [1, 0, 1])], []⟩ (fun _ => 1) x = 0) ∧
    ∀ x, fourierFun ⟨-1, 1⟩ (assemble 3 2 ⟨[], [([1], [1, 0, 1])], []⟩ *ᵥ ![0, 1, 0]) x = 2 := by
  have hb : ∀ x, Mapping.bwd ⟨-1, 1⟩ x = x := by intro x; simp only [Mapping.bwd, Mapping.diff]; ring
  refine ⟨?_, ?_, ?_⟩
  · intro x
    rw [fourierFun, ofFn_eval (by norm_num)]
    simp [Fin.sum_univ_three, wave]
  · intro x
    simp only [applyOp, hb, mul_one]
    have := integral_trigEval [1, 0, 1] (by simp)
    simp [this]
  · intro x
    have hA : assemble 3 2 ⟨[], [([1], [1, 0, 1])], []⟩ = discInt 3 2 := by
      simp [assemble, multmat]
    have hv : (discInt 3 2 *ᵥ (![0, 1, 0] : Fin 3 → ℂ)) = ![0, 2, 0] := by
      have hM : ∀ i j, discInt 3 2 i j = if (i : ℕ) = 1 ∧ (j : ℕ) = 1 then 2 else 0 := by
        intro i j
        rw [discInt, Matrix.smul_apply, Matrix.smul_apply, intmat]
        norm_num
      funext i
      show ∑ j, discInt 3 2 i j * (![0, 1, 0] : Fin 3 → ℂ) j = _
      simp only [hM]
      fin_cases i <;> simp [Fin.sum_univ_three]
    rw [hA, hv, fourierFun, ofFn_eval (by norm_num)]
    simp [Fin.sum_univ_three, wave]

/-- C94 fails for `aggregation(1)`: the derivative of the aggregation term comes out with the wrong sign and scaled by `len/2π`, for every (odd) number of
modes and every interval. -/
theorem C94_agg_derivative_fails (n : ℕ) (hn : n % 2 = 1) (len : ℝ) (hl : 0 < len) :
    (discAgg n 1 len).getD 0 = -((len / (2 * Real.pi) : ℝ) : ℂ) • (discDiff n 1 len * (discAgg n 0 len).getD 0) := by
  have h0 : (discAgg n 0 len).getD 0 = diagonal fun k : Fin n => genM0 (waveArr n k) (1 / (0.5 * len) * Real.pi) := by
    simp [discAgg, aggmat]
  have h1 : (discAgg n 1 len).getD 0 = diagonal fun k : Fin n => genM1 (waveArr n k) (1 / (0.5 * len) * Real.pi) := by
    simp [discAgg, aggmat]
  have h2 : discDiff n 1 len = diagonal fun k : Fin n => ((2 * Real.pi / len : ℝ) : ℂ) * (I * (waveArr n k : ℂ)) := by
    rw [discDiff, if_neg (by norm_num), diffmat, if_pos (by norm_num), if_pos hn]
    ext i j
    simp only [pow_one, Matrix.smul_apply, diagonal_apply, smul_eq_mul]
    split_ifs <;> simp
  rw [h0, h1, h2, diagonal_mul_diagonal, ← diagonal_smul]
  congr 1
  funext k
  simp only [genM0, genM1, Pi.smul_apply, smul_eq_mul]
  by_cases h : waveArr n k = 0
  · simp [h]
  · rw [if_neg h, if_neg h]
    have hlc : (len : ℂ) ≠ 0 := by exact_mod_cast hl.ne'
    have hpc : (Real.pi : ℂ) ≠ 0 := by exact_mod_cast Real.pi_ne_zero
    have hwc : (waveArr n k : ℂ) ≠ 0 := by exact_mod_cast h
    generalize Real.cos (1 / (0.5 * len) * Real.pi * waveArr n k) = C
    rw [show (0.5 : ℝ) = 1 / 2 by norm_num]
    push_cast
    field_simp
    linear_combination (1 - (C : ℂ)) * Complex.I_sq

end Funpy.Props
