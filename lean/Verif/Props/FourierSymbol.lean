import Verif.Props.FourierConv

/-!
# C132: constant coefficients: the Fourier discretisation is the symbol of the operator
-/

namespace Funpy.Props
open Spec Trig TrigSpec Matrix Finset Complex FourierStab FCv

/-- All coefficient functions of the operator are constants; at most one integral term `a ∫ u`. -/
def FSy.IsConst (s : Source) : Prop :=
  (∀ p ∈ s.coeff, p.2.length = 1) ∧ (∀ p ∈ s.nl, p.2.length = 1) ∧ (s.integral = [] ∨ ∃ a, s.integral = [([a], [1])])

/-- The value of a constant coefficient. -/
def FSy.cst (p : Bool × List ℂ) : ℂ := if p.1 then p.2.getD 0 0 else 0

/-- The factor `i(1 - cos θ)/θ`, `θ = 2πk/len`, by which the aggregation operator multiplies the mode `k`. -/
noncomputable def FSy.aggFac (len : ℝ) (k : ℤ) : ℂ :=
  I * ((if k = 0 then 0 else (1 - Real.cos (2 * Real.pi * k / len)) / (2 * Real.pi * k / len) : ℝ) : ℂ)

/-- The symbol `Σ cⱼ (iθ)ʲ + [k = 0] a len + Σ bⱼ (iθ)ʲ · i(1 - cos θ)/θ`, `θ = 2πk/len`. -/
noncomputable def FSy.symbol (len : ℝ) (s : Source) (k : ℤ) : ℂ :=
  (∑ j ∈ range s.coeff.length, FSy.cst (s.coeff.getD j (false, [])) * (I * (2 * Real.pi * k / len : ℝ)) ^ j)
  + (if k = 0 then (s.integral.map fun p => p.1.getD 0 0 * (len : ℂ)).sum else 0)
  + ∑ j ∈ range s.nl.length, FSy.cst (s.nl.getD j (false, [])) * (I * (2 * Real.pi * k / len : ℝ)) ^ j * FSy.aggFac len k

/-- The mode `exp(iπk y)`, `y ∈ [-1, 1]` the coordinate on the interval. -/
noncomputable def FSy.mode (e : Ends) (k : ℤ) (x : ℝ) : ℂ := cexp (I * Real.pi * k * (Mapping.bwd e x : ℝ))

open FSy

/-! ### Proofs -/

lemma FSy.dmul_eq (e : Ends) (k : ℤ) : dmul e k = I * (2 * Real.pi * k / Mapping.diff e : ℝ) := by
  unfold dmul
  push_cast
  ring

lemma FSy.amul_eq (e : Ends) (he : e.e0 < e.e1) (k : ℤ) : amul e k = aggFac (Mapping.diff e) k := by
  have hd : 0 < Mapping.diff e := by unfold Mapping.diff; linarith
  have h : 1 / (0.5 * Mapping.diff e) * Real.pi * k = 2 * Real.pi * k / Mapping.diff e := by
    field_simp
    norm_num
    ring
  unfold amul genM0 aggFac
  rw [h]
  simp only [Int.cast_eq_zero]

lemma FSy.trigEval_one (c : List ℂ) (hc : c.length = 1) (y : ℝ) : trigEval c y = c.getD 0 0 := by
  rw [trigEval_odd _ (by rw [hc]), hc]
  simp [wave]

lemma FSy.coef_const (e : Ends) (l : List (Bool × List ℂ)) (hl : ∀ p ∈ l, p.2.length = 1) (j : ℕ) (hj : j < l.length) (x : ℝ) :
    coefFun e (l.getD j (false, [])) x = cst (l.getD j (false, [])) := by
  unfold coefFun cst
  rw [trigEval_one]
  rw [getD_lt' _ _ _ hj]
  exact hl _ (List.getElem_mem hj)

lemma FSy.fn_add (e : Ends) (a b : Co) (x : ℝ) : fn e (a + b) x = fn e a x + fn e b x := by simp [fn]

lemma FSy.fn_smul (e : Ends) (t : ℂ) (a : Co) (x : ℝ) : fn e (t • a) x = t * fn e a x := by simp [fn]

lemma FSy.fn_sum {ι : Type*} (e : Ends) (S : Finset ι) (a : ι → Co) (x : ℝ) : fn e (∑ i ∈ S, a i) x = ∑ i ∈ S, fn e (a i) x := by
  unfold fn
  rw [map_sum, Finset.sum_apply]

/-- the operator multiplies coefficients by the symbol -/
lemma FSy.applyOp_sym (e : Ends) (he : e.e0 < e.e1) (s : Source) (hs : IsConst s) (a : Co) (x : ℝ) :
    applyOp e s (fn e a) x = fn e (FourierStab.diag (symbol (Mapping.diff e) s) a) x := by
  obtain ⟨h1, h2, h3⟩ := hs
  have hR : FourierStab.diag (symbol (Mapping.diff e) s) a
      = (∑ j ∈ range s.coeff.length, cst (s.coeff.getD j (false, [])) • FourierStab.diag (fun k => dmul e k ^ j) a)
      + (s.integral.map fun p => p.1.getD 0 0 * (Mapping.diff e : ℂ)).sum • Finsupp.single 0 (a 0)
      + ∑ j ∈ range s.nl.length, cst (s.nl.getD j (false, [])) • FourierStab.diag (fun k => dmul e k ^ j) (FourierStab.diag (amul e) a) := by
    ext k
    rw [Finsupp.add_apply, Finsupp.add_apply, Finsupp.finsetSum_apply, Finsupp.finsetSum_apply, FourierStab.diag_apply, symbol, _root_.add_mul, _root_.add_mul, sum_mul, sum_mul]
    congr 1
    · congr 1
      · refine sum_congr rfl fun j _ => ?_
        rw [Finsupp.smul_apply, FourierStab.diag_apply, dmul_eq, smul_eq_mul]
        ring
      · rw [Finsupp.smul_apply, smul_eq_mul, Finsupp.single_apply]
        by_cases hk : k = 0
        · subst hk
          simp
        · rw [if_neg hk, if_neg (Ne.symm hk)]
          simp
    · refine sum_congr rfl fun j _ => ?_
      rw [Finsupp.smul_apply, FourierStab.diag_apply, FourierStab.diag_apply, dmul_eq, amul_eq e he, smul_eq_mul]
      ring
  rw [hR, fn_add, fn_add, fn_sum, fn_sum]
  unfold applyOp
  congr 1
  · congr 1
    · refine sum_congr rfl fun j hj => ?_
      rw [coef_const e _ h1 j (Finset.mem_range.mp hj), fn_smul, fn_iter]
    · rw [fn_smul]
      have h0 : fn e (Finsupp.single 0 (a 0)) x = a 0 := by rw [fn, ev_single]; simp
      rw [h0]
      rcases h3 with h | ⟨t, h⟩
      · rw [h]; simp
      · rw [h]
        simp only [List.map_cons, List.map_nil, List.sum_cons, List.sum_nil, add_zero, trigEval_one [t] rfl, trigEval_one [1] rfl]
        simp only [List.getD_cons_zero, one_mul]
        rw [fn_int e he]
        ring
  · refine sum_congr rfl fun j hj => ?_
    rw [coef_const e _ h2 j (Finset.mem_range.mp hj), fn_smul, fn_agg e he, fn_iter]

lemma FSy.fn_mode (e : Ends) (k : ℤ) (t : ℂ) (x : ℝ) : fn e (Finsupp.single k t) x = t * mode e k x := by
  unfold fn mode
  rw [ev_single]

/-- **C132, the symbol.**  The modes are eigenfunctions of a constant coefficient operator, with the symbol as eigenvalue. -/
theorem C132_symbol (e : Ends) (he : e.e0 < e.e1) (s : Source) (hs : IsConst s) (k : ℤ) (x : ℝ) :
    applyOp e s (mode e k) x = symbol (Mapping.diff e) s k * mode e k x := by
  have h : mode e k = fn e (Finsupp.single k 1) := by funext x; rw [fn_mode, one_mul]
  rw [h, applyOp_sym e he s hs]
  have h2 : FourierStab.diag (symbol (Mapping.diff e) s) (Finsupp.single k 1) = symbol (Mapping.diff e) s k • Finsupp.single k 1 := by
    ext j
    rw [FourierStab.diag_apply, Finsupp.smul_apply, Finsupp.single_apply, smul_eq_mul]
    by_cases hj : k = j
    · rw [hj]
    · simp [hj]
  rw [h2, fn_smul]

lemma FSy.assemble_diag (n : ℕ) (hn : n % 2 = 1) (e : Ends) (he : e.e0 < e.e1) (s : Source) (hs : IsConst s) :
    assemble n (Mapping.diff e) s = diagonal fun i : Fin n => symbol (Mapping.diff e) s (wave n i) := by
  apply Matrix.ext_of_mulVec_single
  intro j
  funext i
  have h := C94_assemble_partial n hn e he s (fun p hp => by rw [hs.1 p hp]; norm_num) (fun p hp => by rw [hs.2.1 p hp]; norm_num)
    (by
      rcases hs.2.2 with h | ⟨t, h⟩
      · exact Or.inl h
      · exact Or.inr ⟨[t], [1], h, by simp, fun x => by rw [trigEval_one _ rfl]; rfl⟩) (Pi.single j 1) i
  rw [h, mulVec_diagonal]
  have hb : ∀ y, Mapping.bwd e (Mapping.fwd e y) = y := by
    intro y
    have : e.e1 - e.e0 ≠ 0 := by linarith
    simp only [Mapping.bwd, Mapping.fwd, Mapping.diff]
    field_simp; ring
  have h2 : (fun y => applyOp e s (fourierFun e (Pi.single j (1 : ℂ))) (Mapping.fwd e y)) = ev (FourierStab.diag (symbol (Mapping.diff e) s) (FCv.toCo (Pi.single j (1 : ℂ)))) := by
    funext y
    rw [← fn_toCo hn, applyOp_sym e he s hs, fn, hb]
  rw [h2, fourier_ev, FourierStab.diag_apply, toCo_wave]

/-- **C132, the matrix is diagonal.**  For a constant coefficient operator and an odd number of modes the matrix is diagonal; its entries are
the values of the symbol, except that those of modulus below `eps` are replaced by zero. -/
theorem C132_diagonal (n : ℕ) (hn : n % 2 = 1) (e : Ends) (he : e.e0 < e.e1) (eps : ℝ) (s : Source) (hs : IsConst s) :
    quasi2diffmat n (Mapping.diff e) eps s = diagonal fun i : Fin n =>
      if ‖symbol (Mapping.diff e) s (wave n i)‖ < eps then 0 else symbol (Mapping.diff e) s (wave n i) := by
  funext i j
  unfold quasi2diffmat
  rw [assemble_diag n hn e he s hs]
  by_cases hij : i = j
  · subst hij
    simp only [diagonal_apply_eq]
  · simp only [diagonal_apply_ne _ hij, ite_self]

/-- **C132, regularity.**  The matrix is regular exactly when no value of the symbol at the modes is below `eps`. -/
theorem C132_regular_iff (n : ℕ) (hn : n % 2 = 1) (e : Ends) (he : e.e0 < e.e1) (eps : ℝ) (heps : 0 < eps) (s : Source) (hs : IsConst s) :
    (∀ f : Fin n → ℂ, ∃! v : Fin n → ℂ, quasi2diffmat n (Mapping.diff e) eps s *ᵥ v = f) ↔
      ∀ i : Fin n, eps ≤ ‖symbol (Mapping.diff e) s (wave n i)‖ := by
  rw [C132_diagonal n hn e he eps s hs]
  constructor
  · intro h i
    by_contra hlt
    obtain ⟨v, hv, -⟩ := h (Pi.single i 1)
    have := congrFun hv i
    rw [mulVec_diagonal, if_pos (not_le.mp hlt), zero_mul, Pi.single_eq_same] at this
    exact zero_ne_one this
  · intro h f
    have hne : ∀ i : Fin n, symbol (Mapping.diff e) s (wave n i) ≠ 0 := fun i h0 => by
      have := h i
      rw [h0, norm_zero] at this
      linarith
    refine ⟨fun i => f i / symbol (Mapping.diff e) s (wave n i), ?_, fun v hv => ?_⟩
    · funext i
      rw [mulVec_diagonal, if_neg (not_lt.mpr (h i)), mul_div_cancel₀ _ (hne i)]
    · funext i
      rw [← hv, mulVec_diagonal, if_neg (not_lt.mpr (h i)), mul_div_cancel_left₀ _ (hne i)]

/-- **C132, resonance.**  In general the discrete problem is solvable exactly when the right hand side has no component in the modes at which the
symbol is below `eps`. -/
theorem C132_solvable_iff (n : ℕ) (hn : n % 2 = 1) (e : Ends) (he : e.e0 < e.e1) (eps : ℝ) (heps : 0 < eps) (s : Source) (hs : IsConst s) (f : Fin n → ℂ) :
    (∃ v : Fin n → ℂ, quasi2diffmat n (Mapping.diff e) eps s *ᵥ v = f) ↔
      ∀ i : Fin n, ‖symbol (Mapping.diff e) s (wave n i)‖ < eps → f i = 0 := by
  rw [C132_diagonal n hn e he eps s hs]
  constructor
  · rintro ⟨v, rfl⟩ i hi
    rw [mulVec_diagonal, if_pos hi, zero_mul]
  · intro h
    refine ⟨fun i => f i / symbol (Mapping.diff e) s (wave n i), ?_⟩
    funext i
    rw [mulVec_diagonal]
    by_cases hi : ‖symbol (Mapping.diff e) s (wave n i)‖ < eps
    · rw [if_pos hi, zero_mul, h i hi]
    · rw [if_neg hi, mul_div_cancel₀]
      intro h0
      rw [h0, norm_zero] at hi
      exact hi heps

/-- **C132, the eigenvalues** of the matrix are the values of the symbol at the modes (zero for those below `eps`). -/
theorem C132_eigenvalues (n : ℕ) (hn : n % 2 = 1) (e : Ends) (he : e.e0 < e.e1) (eps : ℝ) (s : Source) (hs : IsConst s) (l : ℂ) :
    (∃ v : Fin n → ℂ, v ≠ 0 ∧ quasi2diffmat n (Mapping.diff e) eps s *ᵥ v = l • v) ↔
      ∃ i : Fin n, l = if ‖symbol (Mapping.diff e) s (wave n i)‖ < eps then 0 else symbol (Mapping.diff e) s (wave n i) := by
  rw [C132_diagonal n hn e he eps s hs]
  constructor
  · rintro ⟨v, hv, h⟩
    obtain ⟨i, hi⟩ := Function.ne_iff.mp hv
    refine ⟨i, ?_⟩
    have := congrFun h i
    rw [mulVec_diagonal, Pi.smul_apply, smul_eq_mul] at this
    exact (mul_right_cancel₀ hi this).symm
  · rintro ⟨i, rfl⟩
    refine ⟨Pi.single i 1, by simp, ?_⟩
    funext j
    rw [mulVec_diagonal, Pi.smul_apply, smul_eq_mul]
    by_cases hj : j = i
    · rw [hj]
    · simp [Pi.single_eq_of_ne hj]

lemma FSy.applyOp_fourierFun (n : ℕ) (hn : n % 2 = 1) (e : Ends) (he : e.e0 < e.e1) (s : Source) (hs : IsConst s) (v : Fin n → ℂ) (x : ℝ) :
    applyOp e s (fourierFun e v) x = fourierFun e (fun i => symbol (Mapping.diff e) s (wave n i) * v i) x := by
  rw [← fn_toCo hn, ← fn_toCo hn, applyOp_sym e he s hs]
  congr 1
  unfold FCv.toCo
  rw [map_sum]
  refine sum_congr rfl fun i _ => ?_
  ext k
  rw [FourierStab.diag_apply, Finsupp.single_apply, Finsupp.single_apply]
  by_cases hk : wave n i = k
  · rw [if_pos hk, if_pos hk, ← hk]
  · rw [if_neg hk, if_neg hk, mul_zero]

/-- **C132, the solution is exact.**  Whenever the matrix is regular, the computed function solves the differential equation exactly, at every point, already
for the number of modes of the right hand side. -/
theorem C132_exact (n : ℕ) (hn : n % 2 = 1) (e : Ends) (he : e.e0 < e.e1) (eps : ℝ) (heps : 0 < eps) (s : Source) (hs : IsConst s)
    (hreg : ∀ f : Fin n → ℂ, ∃! v : Fin n → ℂ, quasi2diffmat n (Mapping.diff e) eps s *ᵥ v = f) (f v : Fin n → ℂ)
    (hv : quasi2diffmat n (Mapping.diff e) eps s *ᵥ v = f) (x : ℝ) : applyOp e s (fourierFun e v) x = fourierFun e f x := by
  rw [C132_regular_iff n hn e he eps heps s hs] at hreg
  rw [applyOp_fourierFun n hn e he s hs]
  congr 1
  funext i
  rw [← hv, C132_diagonal n hn e he eps s hs, mulVec_diagonal, if_neg (not_lt.mpr (hreg i))]

/-- **C132, the residual of dropped modes.**  In general the residual is at most `eps` times the sum of the moduli of the coefficients. -/
theorem C132_residual (n : ℕ) (hn : n % 2 = 1) (e : Ends) (he : e.e0 < e.e1) (eps : ℝ) (heps : 0 < eps) (s : Source) (hs : IsConst s) (f v : Fin n → ℂ)
    (hv : quasi2diffmat n (Mapping.diff e) eps s *ᵥ v = f) (x : ℝ) :
    ‖applyOp e s (fourierFun e v) x - fourierFun e f x‖ ≤ eps * ∑ i, ‖v i‖ := by
  rw [applyOp_fourierFun n hn e he s hs, ← fn_toCo hn, ← fn_toCo hn]
  have h1 : ∀ a : Fin n → ℂ, fn e (FCv.toCo a) x = ∑ i, a i * mode e (wave n i) x := by
    intro a
    unfold FCv.toCo
    rw [fn_sum]
    exact sum_congr rfl fun i _ => fn_mode e _ _ x
  rw [h1, h1, ← sum_sub_distrib, mul_sum]
  refine (norm_sum_le _ _).trans (sum_le_sum fun i _ => ?_)
  have hm : ‖mode e (wave n i) x‖ = 1 := by
    unfold mode
    rw [show I * Real.pi * (wave n i : ℂ) * (Mapping.bwd e x : ℝ) = ((Real.pi * wave n i * Mapping.bwd e x : ℝ) : ℂ) * I by push_cast; ring, Complex.norm_exp_ofReal_mul_I]
  rw [← sub_mul, norm_mul, hm, mul_one, ← hv, C132_diagonal n hn e he eps s hs, mulVec_diagonal, ← sub_mul, norm_mul]
  refine mul_le_mul_of_nonneg_right ?_ (norm_nonneg _)
  split_ifs with h
  · rw [sub_zero]; exact h.le
  · rw [sub_self, norm_zero]; exact heps.le

end Funpy.Props
