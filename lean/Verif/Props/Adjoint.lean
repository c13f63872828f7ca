import Verif.Model.LinOp
import Verif.Props.OpDisc
import Verif.Props.NewtonMat
import Verif.Props.Convergence
import Verif.Lemmas.Adjoint

/-!
# C130: the adjoint returned by `linop`
-/

namespace Funpy.Props
open Spec Cheb UltraS OpDisc Matrix Finset
open scoped ContDiff

/-- Specification: the operator `Σ_j (-1)^j a_j v^(j) + Σ_i d_i ∫ c_i v` with the data of `s`. -/
noncomputable def adjLin (e : Ends) (s : Source) (v : ℝ → ℝ) (y : ℝ) : ℝ :=
  (s.coeff.mapIdx fun j p => if p.1 then (-1) ^ j * (chebEval p.2 (Mapping.bwd e y) * iteratedDeriv j v y) else 0).sum
    + (s.integral.map fun p => chebEval p.2 (Mapping.bwd e y) *
        ∫ t in e.e0..e.e1, chebEval p.1 (Mapping.bwd e t) * v t).sum

/-- All products occurring in the adjoint of `v` with `dg` coefficients are represented exactly. -/
def AdjFits (n dg : ℕ) (s : Source) : Prop :=
  (∀ j (hj : j < s.coeff.length), s.coeff[j].1 = true →
      MultExact n s.coeff[j].2 j ∧ s.coeff[j].2.length + (dg - j) ≤ n + 1) ∧
  (∀ p ∈ s.integral, MultExact n p.2 0 ∧ p.2.length ≤ n ∧ MultExact n p.1 0 ∧ p.1.length + dg ≤ n + 1)

variable {n : ℕ}

namespace AdjAux

lemma assemble_adj (len : ℝ) (out : ℕ) (s : Source) :
    quasi2diffmat n len out s (adjoint := true)
      = quasi2diffmat n len out ⟨s.coeff, []⟩ (adjoint := true) + quasi2diffmat n len out ⟨[], s.integral.map fun p => (p.2, p.1)⟩ := by
  unfold quasi2diffmat
  simp [Function.comp_def, List.map_map]

lemma series_add (lam : ℕ) (v w : Fin n → ℝ) (x : ℝ) : ultraSeries lam (v + w) x = ultraSeries lam v x + ultraSeries lam w x := by
  simp only [ultraSeries, Pi.add_apply, add_mul, sum_add_distrib]

lemma mapM_some {α β : Type*} (l : List α) (f : α → Option β) (g : α → β) (h : ∀ a ∈ l, f a = some (g a)) :
    l.mapM f = some (l.map g) := by
  induction l with
  | nil => rfl
  | cons a l ih =>
    rw [List.mapM_cons, h a (by simp), ih fun b hb => h b (by simp [hb])]
    rfl

end AdjAux
open AdjAux

/-- **C130.**  The adjoint matrix discretises `Σ_j (-1)^j a_j v^(j) + Σ_i d_i ∫ c_i v`, if all products fit. -/
theorem C130_represents (e : Ends) (hn : 2 ≤ n) (he : e.e0 < e.e1) (out : ℕ) (s : Source) (hout : s.coeff.length ≤ out + 1)
    (v : Fin n → ℝ) (dg : ℕ) (hv : ∀ i : Fin n, dg ≤ i → v i = 0) (hfit : AdjFits n dg s) (y : ℝ) :
    ultraSeries out (quasi2diffmat n (Mapping.diff e) out s (adjoint := true) *ᵥ v) (Mapping.bwd e y) = adjLin e s (funOf e v) y := by
  rw [assemble_adj, add_mulVec, series_add, C65_adjoint_partial n hn e out s.coeff hout v dg hv hfit.1 y,
    C65_quasi2diffmat_partial n hn e he.ne out _ (by simp) v dg hv (by simp) ?_ y]
  · simp only [List.mapIdx_nil, List.sum_nil, zero_add, List.map_map, Function.comp_def, ultraSeries_zero_eq]
    rfl
  · intro p hp
    obtain ⟨q, hq, rfl⟩ := List.mem_map.mp hp
    exact hfit.2 q hq

/-- **C130.**  What `linop()` returns: the matrix of `matrix()`, and an adjoint matrix which applied to the coefficients of `v` gives the linear
parts of the boundary conditions and the first `n - r` coefficients (in the output basis) of `Σ_j (-1)^j a_j v^(j) + Σ_i d_i ∫ c_i v`. -/
theorem C130_linop (d : Disc n) (hn : 2 ≤ n) (he : d.e.e0 < d.e.e1) (hb : ∀ b ∈ d.bcs, BC.PointsIn d.e b ∧ BC.Mentions b)
    (hne : d.bcs ≠ []) (hout : d.src.coeff.length ≤ d.r + 1) :
    ∃ M N P, OpDisc.linop d = some (M, N, P) ∧ OpDisc.matrix d = some M ∧
      ∀ (v : Fin n → ℝ) (dg : ℕ), (∀ i : Fin n, dg ≤ i → v i = 0) → AdjFits n dg d.src →
        ∃ w : Fin n → ℝ, (∀ y, ultraSeries d.r w (Mapping.bwd d.e y) = adjLin d.e d.src (funOf d.e v) y) ∧
          N.map (· ⬝ᵥ v) = d.bcs.map (fun b => BC.sem (funOf d.e v) b - BC.sem (fun _ => 0) b) ++ keepRows d.r w := by
  let R : BC → Fin n → ℝ := fun b i => ((b.row d.e d.eps n).getD []).getD i 0
  have hR : constraintRows d = some (d.bcs.map R) := by
    apply mapM_some
    intro b hbm
    obtain ⟨row, h1, -, -⟩ := C97_row b d.e he d.eps n hn (hb b hbm).1 (hb b hbm).2
    rw [h1]; simp [R, h1]
  refine ⟨_, _, _, by rw [OpDisc.linop, if_neg hne, hR]; rfl, by rw [OpDisc.matrix, hR]; rfl, ?_⟩
  intro v dg hv hfit
  refine ⟨quasi2diffmat n (Mapping.diff d.e) d.r d.src (adjoint := true) *ᵥ v, fun y => C130_represents d.e hn he d.r d.src hout v dg hv hfit y, ?_⟩
  rw [List.map_append, List.map_map]
  congr 1
  · apply List.map_congr_left
    intro b hbm
    obtain ⟨row, h1, h2, h3⟩ := C97_row b d.e he d.eps n hn (hb b hbm).1 (hb b hbm).2
    have h4 := h3 (List.ofFn v) (by simp)
    rw [show (fun t => chebEval (List.ofFn v) (Mapping.bwd d.e t)) = funOf d.e v from rfl] at h4
    rw [← h4]
    simp only [Function.comp, R, h1, Option.getD_some, dotProduct]
    have hz := zip_quad' row (List.ofFn v) n h2 (by simp) id
    rw [List.map_id] at hz
    rw [hz, Finset.sum_range]
    apply Finset.sum_congr rfl
    intro i _
    rw [getD_lt' (List.ofFn v) _ _ (by simp)]
    simp
  · simp only [keepRows, List.map_map]
    rfl

/-- non-vacuity: `u'' + 3 u'` with `u(0) = 1`, `u(1) = 2`. -/
example (hn : 4 ≤ n) : let d : Disc n := ⟨⟨0, 1⟩, 2, 0, ⟨[(false, []), (true, [3]), (true, [1])], []⟩,
      [.sub (.ev .u 0) (.const 1), .sub (.ev .u 1) (.const 2)]⟩
    (∀ b ∈ d.bcs, BC.PointsIn d.e b ∧ BC.Mentions b) ∧ d.bcs ≠ [] ∧ d.src.coeff.length ≤ d.r + 1 ∧ AdjFits n n d.src ∧ 0 < d.r ∧ d.r ≤ n := by
  refine ⟨?_, by simp, by simp, ⟨?_, by simp⟩, by simp, by show 2 ≤ n; omega⟩
  · intro b hb
    simp only [List.mem_cons, List.not_mem_nil, or_false] at hb
    rcases hb with rfl | rfl <;> simp [BC.PointsIn, BC.Mentions]
  · intro j hj hf
    simp only [List.length_cons, List.length_nil] at hj
    interval_cases j
    · simp at hf
    · exact ⟨Or.inl (by simp), by simp; omega⟩
    · exact ⟨Or.inl (by simp), by simp; omega⟩

namespace AdjAux

/-- the coefficient functions as polynomials on the interval -/
noncomputable def coefPoly (e : Ends) (s : Source) (j : ℕ) : Polynomial ℝ :=
  if (s.coeff.getD j (false, [])).1 then (chebPoly (s.coeff.getD j (false, [])).2).comp
    (Polynomial.C (2 / Mapping.diff e) * Polynomial.X + Polynomial.C (-(e.e0 + e.e1) / Mapping.diff e)) else 0

lemma eval_coefPoly (e : Ends) (s : Source) (j : ℕ) (y : ℝ) : (coefPoly e s j).eval y
    = if (s.coeff.getD j (false, [])).1 then chebEval (s.coeff.getD j (false, [])).2 (Mapping.bwd e y) else 0 := by
  unfold coefPoly
  split_ifs with h
  · rw [Polynomial.eval_comp, bwd_eq, chebEval_eq_eval]; simp
  · simp

/-- the integral part -/
noncomputable def intPart (e : Ends) (l : List (List ℝ × List ℝ)) (u : ℝ → ℝ) (y : ℝ) : ℝ :=
  (l.map fun p => chebEval p.1 (Mapping.bwd e y) * ∫ t in e.e0..e.e1, chebEval p.2 (Mapping.bwd e t) * u t).sum

lemma applyLin_eq (e : Ends) (s : Source) (u : ℝ → ℝ) (y : ℝ) :
    applyLin e s u y = ∑ j ∈ range s.coeff.length, (coefPoly e s j).eval y * iteratedDeriv j u y + intPart e s.integral u y := by
  rw [applyLin, Cvg.mapIdx_sum _ _ (false, []), intPart]
  congr 1
  apply sum_congr rfl
  intro j _
  rw [eval_coefPoly]
  split_ifs <;> simp

lemma adjLin_eq (e : Ends) (s : Source) (v : ℝ → ℝ) (y : ℝ) :
    adjLin e s v y = ∑ j ∈ range s.coeff.length, (-1) ^ j * ((coefPoly e s j).eval y * iteratedDeriv j v y)
      + intPart e (s.integral.map fun p => (p.2, p.1)) v y := by
  rw [adjLin, Cvg.mapIdx_sum _ _ (false, []), intPart, List.map_map]
  congr 1
  apply sum_congr rfl
  intro j _
  rw [eval_coefPoly]
  split_ifs <;> simp

lemma chebEval_cont (e : Ends) (c : List ℝ) : Continuous fun t => chebEval c (Mapping.bwd e t) := by
  obtain ⟨al, be, h⟩ := NMat.bwd_affine e
  simp only [h]
  exact (NMat.chebEval_contDiff c al be).continuous

lemma intPart_cont (e : Ends) (l : List (List ℝ × List ℝ)) (u : ℝ → ℝ) : Continuous (intPart e l u) := by
  induction l with
  | nil =>
    have : intPart e [] u = fun _ => 0 := by funext y; simp [intPart]
    rw [this]
    exact continuous_const
  | cons p l ih =>
    have : intPart e (p :: l) u = fun y => chebEval p.1 (Mapping.bwd e y) * (∫ t in e.e0..e.e1, chebEval p.2 (Mapping.bwd e t) * u t)
        + intPart e l u y := by
      funext y; simp [intPart]
    rw [this]
    exact ((chebEval_cont e p.1).mul continuous_const).add ih

lemma intPart_pair (e : Ends) (l : List (List ℝ × List ℝ)) (u v : ℝ → ℝ) (hu : Continuous u) (hv : Continuous v) :
    ∫ t in e.e0..e.e1, v t * intPart e l u t = ∫ t in e.e0..e.e1, intPart e (l.map fun p => (p.2, p.1)) v t * u t := by
  induction l with
  | nil => simp [intPart]
  | cons p l ih =>
    have h1 : ∀ t, v t * intPart e (p :: l) u t = (∫ t in e.e0..e.e1, chebEval p.2 (Mapping.bwd e t) * u t) * (chebEval p.1 (Mapping.bwd e t) * v t)
        + v t * intPart e l u t := by
      intro t; simp [intPart]; ring
    have h2 : ∀ t, intPart e ((p :: l).map fun p => (p.2, p.1)) v t * u t
        = (∫ t in e.e0..e.e1, chebEval p.1 (Mapping.bwd e t) * v t) * (chebEval p.2 (Mapping.bwd e t) * u t)
        + intPart e (l.map fun p => (p.2, p.1)) v t * u t := by
      intro t; simp [intPart]; ring
    simp only [h1, h2]
    rw [intervalIntegral.integral_add, intervalIntegral.integral_add, ih, intervalIntegral.integral_const_mul,
      intervalIntegral.integral_const_mul, mul_comm]
    · exact (continuous_const.mul ((chebEval_cont e p.2).mul hu)).intervalIntegrable _ _
    · exact ((intPart_cont e _ v).mul hu).intervalIntegrable _ _
    · exact (continuous_const.mul ((chebEval_cont e p.1).mul hv)).intervalIntegrable _ _
    · exact (hv.mul (intPart_cont e _ u)).intervalIntegrable _ _

/-- both sides of the duality as sums over the orders -/
lemma pair_split (e : Ends) (s : Source) (u v : ℝ → ℝ) (hu : ContDiff ℝ ∞ u) (hv : ContDiff ℝ ∞ v) :
    (∫ t in e.e0..e.e1, v t * applyLin e s u t) - (∫ t in e.e0..e.e1, adjLin e s v t * u t)
      = ∑ j ∈ range s.coeff.length, ((∫ t in e.e0..e.e1, ((coefPoly e s j).eval t * v t) * iteratedDeriv j u t)
          - (-1) ^ j * ∫ t in e.e0..e.e1, ((coefPoly e s j).eval t * iteratedDeriv j v t) * u t) := by
  have hc : ∀ j, Continuous fun t => (coefPoly e s j).eval t := fun j => (Adj.poly_smooth _).continuous
  have hu' : ∀ j, Continuous (iteratedDeriv j u) := fun j => (Adj.iteratedDeriv_smooth hu j).continuous
  have hv' : ∀ j, Continuous (iteratedDeriv j v) := fun j => (Adj.iteratedDeriv_smooth hv j).continuous
  have h1 : ∀ t, v t * applyLin e s u t = ∑ j ∈ range s.coeff.length, ((coefPoly e s j).eval t * v t) * iteratedDeriv j u t
      + v t * intPart e s.integral u t := by
    intro t
    rw [applyLin_eq, mul_add, mul_sum]
    congr 1
    exact sum_congr rfl fun j _ => by ring
  have h2 : ∀ t, adjLin e s v t * u t = ∑ j ∈ range s.coeff.length, (-1) ^ j * (((coefPoly e s j).eval t * iteratedDeriv j v t) * u t)
      + intPart e (s.integral.map fun p => (p.2, p.1)) v t * u t := by
    intro t
    rw [adjLin_eq, add_mul, sum_mul]
    congr 1
    exact sum_congr rfl fun j _ => by ring
  simp only [h1, h2]
  rw [intervalIntegral.integral_add, intervalIntegral.integral_add, intPart_pair e _ u v hu.continuous hv.continuous,
    intervalIntegral.integral_finsetSum, intervalIntegral.integral_finsetSum, add_sub_add_right_eq_sub, ← sum_sub_distrib]
  · exact sum_congr rfl fun j _ => by rw [intervalIntegral.integral_const_mul]
  · intro j _
    exact (continuous_const.mul (((hc j).mul (hv' j)).mul hu.continuous)).intervalIntegrable _ _
  · intro j _
    exact (((hc j).mul hv.continuous).mul (hu' j)).intervalIntegrable _ _
  · exact (continuous_finsetSum _ fun j _ => continuous_const.mul (((hc j).mul (hv' j)).mul hu.continuous)).intervalIntegrable _ _
  · exact ((intPart_cont e _ v).mul hu.continuous).intervalIntegrable _ _
  · exact (continuous_finsetSum _ fun j _ => ((hc j).mul hv.continuous).mul (hu' j)).intervalIntegrable _ _
  · exact (hv.continuous.mul (intPart_cont e _ u)).intervalIntegrable _ _

lemma coef_const (e : Ends) (he : e.e0 < e.e1) (s : Source) (j : ℕ) (hj : j < s.coeff.length) :
    Polynomial.derivative (coefPoly e s j) = 0 ↔ (s.coeff[j].1 = true → ∃ c, ∀ x, chebEval s.coeff[j].2 x = c) := by
  have hg : s.coeff.getD j (false, []) = s.coeff[j] := by simp [hj]
  constructor
  · intro h hf
    have h1 := Polynomial.eq_C_of_derivative_eq_zero h
    refine ⟨(coefPoly e s j).coeff 0, fun x => ?_⟩
    have h2 := eval_coefPoly e s j (Mapping.fwd e x)
    rw [hg, if_pos hf, (C01_inverse e he).1, h1, Polynomial.eval_C] at h2
    rw [← h2, h1, Polynomial.coeff_C_zero]
  · intro h
    by_cases hf : s.coeff[j].1 = true
    · obtain ⟨c, hc⟩ := h hf
      have : coefPoly e s j = Polynomial.C c := Polynomial.funext fun y => by
        rw [eval_coefPoly, hg, if_pos hf, hc, Polynomial.eval_C]
      rw [this, Polynomial.derivative_C]
    · rw [coefPoly, hg, if_neg hf, Polynomial.derivative_zero]

end AdjAux

/-- **C130 (duality).**  If the coefficients of the terms of positive order are constant, the operator that the adjoint matrix discretises is the adjoint:
`∫ v L u = ∫ u L* v` for all smooth `u` and `v` whose boundary terms `v^(k) u^(l)`, `k + l + 1 = j`, vanish for every order `j` that is present.  The
integral terms may have any factors.  What is missing: variable coefficients, for which it is false (`C130_constant_iff`). -/
theorem C130_duality_partial (e : Ends) (he : e.e0 < e.e1) (s : Source)
    (hconst : ∀ j (hj : j < s.coeff.length), 1 ≤ j → s.coeff[j].1 = true → ∃ c, ∀ x, chebEval s.coeff[j].2 x = c)
    (u v : ℝ → ℝ) (hu : ContDiff ℝ ∞ u) (hv : ContDiff ℝ ∞ v)
    (hbd : ∀ j (hj : j < s.coeff.length), s.coeff[j].1 = true → ∀ k l, k + l + 1 = j →
      iteratedDeriv k v e.e0 * iteratedDeriv l u e.e0 = 0 ∧ iteratedDeriv k v e.e1 * iteratedDeriv l u e.e1 = 0) :
    ∫ t in e.e0..e.e1, v t * applyLin e s u t = ∫ t in e.e0..e.e1, adjLin e s v t * u t := by
  rw [← sub_eq_zero, pair_split e s u v hu hv]
  apply sum_eq_zero
  intro j hj
  have hj : j < s.coeff.length := by simpa using hj
  by_cases hf : s.coeff[j].1 = true
  · rcases Nat.eq_zero_or_pos j with h0 | h0
    · subst h0
      simp
    · have hd := (coef_const e he s j hj).mpr (hconst j hj h0)
      rw [Polynomial.eq_C_of_derivative_eq_zero hd]
      simp only [Polynomial.eval_C, mul_assoc]
      rw [intervalIntegral.integral_const_mul, intervalIntegral.integral_const_mul,
        Adj.by_parts e.e0 e.e1 j v u hv hu (fun k l h => hbd j hj hf k l h)]
      ring
  · have : coefPoly e s j = 0 := by
      rw [coefPoly, show s.coeff.getD j (false, []) = s.coeff[j] by simp [hj], if_neg hf]
    simp [this]

/-- **C130 (exactly the constant coefficients).**  The operator that the adjoint matrix discretises is the adjoint of the operator, tested with all smooth
functions `v` that vanish at the ends of the interval together with their derivatives of all orders that occur, if and only if all coefficients of terms of positive order are constant. -/
theorem C130_constant_iff (e : Ends) (he : e.e0 < e.e1) (s : Source) :
    (∀ u v : ℝ → ℝ, ContDiff ℝ ∞ u → ContDiff ℝ ∞ v →
        (∀ k < s.coeff.length, iteratedDeriv k v e.e0 = 0 ∧ iteratedDeriv k v e.e1 = 0) →
        ∫ t in e.e0..e.e1, v t * applyLin e s u t = ∫ t in e.e0..e.e1, adjLin e s v t * u t) ↔
      ∀ j (hj : j < s.coeff.length), 1 ≤ j → s.coeff[j].1 = true → ∃ c, ∀ x, chebEval s.coeff[j].2 x = c := by
  constructor
  · intro h
    set N := s.coeff.length with hN
    let om : Polynomial ℝ := (Polynomial.X - Polynomial.C e.e0) ^ N * (Polynomial.X - Polynomial.C e.e1) ^ N
    have hom : om ≠ 0 := mul_ne_zero (pow_ne_zero _ (Polynomial.X_sub_C_ne_zero _)) (pow_ne_zero _ (Polynomial.X_sub_C_ne_zero _))
    have hvan : ∀ (q : Polynomial ℝ) k, k < N → (Polynomial.derivative^[k] (om * q)).eval e.e0 = 0 ∧
        (Polynomial.derivative^[k] (om * q)).eval e.e1 = 0 := by
      intro q k hk
      constructor
      · rw [show om * q = (Polynomial.X - Polynomial.C e.e0) ^ N * ((Polynomial.X - Polynomial.C e.e1) ^ N * q) by simp only [om]; ring]
        exact Adj.deriv_low _ _ _ hk _
      · rw [show om * q = (Polynomial.X - Polynomial.C e.e1) ^ N * ((Polynomial.X - Polynomial.C e.e0) ^ N * q) by simp only [om]; ring]
        exact Adj.deriv_low _ _ _ hk _
    have hdef : ∀ q, Adj.defect N (coefPoly e s) (om * q) = 0 := by
      intro q
      set v := om * q with hv
      set D := Adj.defect N (coefPoly e s) v with hD
      apply Adj.poly_zero_of_sq he
      have h1 := h (fun t => D.eval t) (fun t => v.eval t) (Adj.poly_smooth _) (Adj.poly_smooth _) (by
        intro k hk
        rw [Adj.iteratedDeriv_poly]
        exact hvan q k hk)
      rw [← sub_eq_zero, pair_split e s _ _ (Adj.poly_smooth _) (Adj.poly_smooth _)] at h1
      have hpt : ∀ t, D.eval t * D.eval t = ∑ j ∈ range N, (-1) ^ j * ((Polynomial.derivative^[j] (coefPoly e s j * v)).eval t * D.eval t
          - (coefPoly e s j).eval t * (Polynomial.derivative^[j] v).eval t * D.eval t) := by
        intro t
        conv_lhs => rw [show D.eval t * D.eval t = D.eval t * (Adj.defect N (coefPoly e s) v).eval t from rfl]
        rw [Adj.defect, Polynomial.eval_finsetSum, mul_sum]
        apply sum_congr rfl
        intro j _
        simp only [Polynomial.eval_mul, Polynomial.eval_sub, Polynomial.eval_pow, Polynomial.eval_neg, Polynomial.eval_one]
        ring
      simp only [hpt]
      rw [intervalIntegral.integral_finsetSum, ← h1]
      · apply sum_congr rfl
        intro j hj
        have hj : j < N := by simpa using hj
        have hp : ∀ t, (coefPoly e s j).eval t * v.eval t = (coefPoly e s j * v).eval t := fun t => (Polynomial.eval_mul).symm
        have hbp := Adj.by_parts e.e0 e.e1 j (fun t => (coefPoly e s j * v).eval t) (fun t => D.eval t) (Adj.poly_smooth _) (Adj.poly_smooth _) (by
          intro k l hkl
          simp only [Adj.iteratedDeriv_poly]
          rw [show coefPoly e s j * v = om * (coefPoly e s j * q) from mul_left_comm _ _ _]
          have := hvan (coefPoly e s j * q) k (by omega)
          rw [this.1, this.2]; simp)
        simp only [hp]
        rw [hbp, ← mul_sub, intervalIntegral.integral_const_mul, intervalIntegral.integral_sub]
        · simp only [Adj.iteratedDeriv_poly]
        · exact ((Adj.poly_smooth _).continuous.mul (Adj.poly_smooth _).continuous).intervalIntegrable _ _
        · exact (((Adj.poly_smooth _).continuous.mul (Adj.poly_smooth _).continuous).mul (Adj.poly_smooth _).continuous).intervalIntegrable _ _
      · intro j _
        apply Continuous.intervalIntegrable
        have := fun p : Polynomial ℝ => (Adj.poly_smooth p).continuous
        exact continuous_const.mul (((this _).mul (this _)).sub (((this _).mul (this _)).mul (this _)))
    intro j hj h1
    exact (coef_const e he s j hj).mp (Adj.const_of_defect N (coefPoly e s) om hom hdef j h1 hj)
  · intro h u v hu hv hz
    refine C130_duality_partial e he s h u v hu hv fun j hj _ k l hkl => ?_
    rw [(hz k (by omega)).1, (hz k (by omega)).2]
    simp

/-- **C130 (matrices).**  The duality for the matrices: with constant coefficients in the terms of positive order, `∫ v (L u) = ∫ (N v) u`, where `L u` and `N v` are
the functions whose coefficients are the assembled matrices times the coefficients of `u` and `v`.  What is missing: variable coefficients. -/
theorem C130_matrix_partial (e : Ends) (hn : 2 ≤ n) (he : e.e0 < e.e1) (out : ℕ) (s : Source) (hout : s.coeff.length ≤ out + 1)
    (hconst : ∀ j (hj : j < s.coeff.length), 1 ≤ j → s.coeff[j].1 = true → ∃ c, ∀ x, chebEval s.coeff[j].2 x = c)
    (u v : Fin n → ℝ) (du dv : ℕ) (hu : ∀ i : Fin n, du ≤ i → u i = 0) (hv : ∀ i : Fin n, dv ≤ i → v i = 0)
    (hfu : Fits n du s) (hfv : AdjFits n dv s)
    (hbd : ∀ j (hj : j < s.coeff.length), s.coeff[j].1 = true → ∀ k l, k + l + 1 = j →
      iteratedDeriv k (funOf e v) e.e0 * iteratedDeriv l (funOf e u) e.e0 = 0 ∧
      iteratedDeriv k (funOf e v) e.e1 * iteratedDeriv l (funOf e u) e.e1 = 0) :
    ∫ t in e.e0..e.e1, funOf e v t * ultraSeries out (quasi2diffmat n (Mapping.diff e) out s *ᵥ u) (Mapping.bwd e t)
      = ∫ t in e.e0..e.e1, ultraSeries out (quasi2diffmat n (Mapping.diff e) out s (adjoint := true) *ᵥ v) (Mapping.bwd e t) * funOf e u t := by
  have hsm : ∀ x : Fin n → ℝ, ContDiff ℝ ∞ (funOf e x) := by
    intro x
    obtain ⟨al, be, h⟩ := NMat.bwd_affine e
    have : funOf e x = fun t => chebEval (List.ofFn x) (al * t + be) := by funext t; rw [funOf, h]
    rw [this]
    exact NMat.chebEval_contDiff _ _ _
  have h1 : ∀ t, ultraSeries out (quasi2diffmat n (Mapping.diff e) out s *ᵥ u) (Mapping.bwd e t) = applyLin e s (funOf e u) t := by
    intro t
    rw [C65_quasi2diffmat_partial n hn e he.ne out s hout u du hu hfu.1 hfu.2 t]
    simp only [ultraSeries_zero_eq]
    rfl
  simp only [h1, C130_represents e hn he out s hout v dv hv hfv]
  exact C130_duality_partial e he s hconst _ _ (hsm u) (hsm v) hbd

/-- non-vacuity: `u'' + 3 u' + x u + x ∫ u` on `[-1, 1]`, with `u = 1 - x²` and `v = (1 - x²) (1 + x)`, which vanish at the ends. -/
example : let s : Source := ⟨[(true, [0, 1]), (true, [3]), (true, [1])], [([0, 1], [1])]⟩
    let u : Fin 8 → ℝ := ![1 / 2, 0, -1 / 2, 0, 0, 0, 0, 0]
    let v : Fin 8 → ℝ := ![1 / 2, 1 / 4, -1 / 2, -1 / 4, 0, 0, 0, 0]
    (∀ j (hj : j < s.coeff.length), 1 ≤ j → s.coeff[j].1 = true → ∃ c, ∀ x, chebEval s.coeff[j].2 x = c) ∧
    Fits 8 4 s ∧ AdjFits 8 4 s ∧ funOf ⟨-1, 1⟩ u (-1) = 0 ∧ funOf ⟨-1, 1⟩ u 1 = 0 ∧ funOf ⟨-1, 1⟩ v (-1) = 0 ∧ funOf ⟨-1, 1⟩ v 1 = 0 := by
  refine ⟨?_, ⟨?_, ?_⟩, ⟨?_, ?_⟩, ?_, ?_, ?_, ?_⟩
  · intro j hj h1 _
    simp only [List.length_cons, List.length_nil] at hj
    interval_cases j
    · exact ⟨3, fun x => by simp [chebEval]⟩
    · exact ⟨1, fun x => by simp [chebEval]⟩
  · intro j hj _
    simp only [List.length_cons, List.length_nil] at hj
    interval_cases j
    · exact ⟨Or.inr (Or.inl ⟨by simp, by simp, Or.inl (by omega), by omega⟩), by simp⟩
    · exact ⟨Or.inl (by simp), by simp⟩
    · exact ⟨Or.inl (by simp), by simp⟩
  · intro p hp
    simp only [List.mem_singleton] at hp
    subst hp
    exact ⟨Or.inr (Or.inl ⟨by simp, by simp, Or.inl (by omega), by omega⟩), by simp, Or.inl (by simp), by simp⟩
  · intro j hj _
    simp only [List.length_cons, List.length_nil] at hj
    interval_cases j
    · exact ⟨Or.inr (Or.inl ⟨by simp, by simp, Or.inl (by omega), by omega⟩), by simp⟩
    · exact ⟨Or.inl (by simp), by simp⟩
    · exact ⟨Or.inl (by simp), by simp⟩
  · intro p hp
    simp only [List.mem_singleton] at hp
    subst hp
    exact ⟨Or.inl (by simp), by simp, Or.inr (Or.inl ⟨by simp, by simp, Or.inl (by omega), by omega⟩), by simp⟩
  all_goals
    have hb : ∀ x, Mapping.bwd ⟨-1, 1⟩ x = x := by intro x; simp [Mapping.bwd, Mapping.diff]; ring
    unfold funOf
    rw [hb]
    simp [chebEval, sum_range_succ, Polynomial.Chebyshev.T_eval_one]
    norm_num

/-- **C130 fails for the documented case.**  The documentation of `quasi2diffmat` announces the adjoint for operators in the self-adjoint form
`(f u')' + h u`.  Such an operator is its own adjoint, but unless `f` is constant the operator returned is not. -/
theorem C130_selfadjoint_fails (e : Ends) (he : e.e0 < e.e1) (f g h : List ℝ)
    (hg : ∀ t, chebEval g (Mapping.bwd e t) = deriv (fun x => chebEval f (Mapping.bwd e x)) t) (hf : ¬ ∃ c, ∀ x, chebEval f x = c) :
    (∀ u v : ℝ → ℝ, ContDiff ℝ ∞ u → ContDiff ℝ ∞ v → (∀ k < 3, iteratedDeriv k v e.e0 = 0 ∧ iteratedDeriv k v e.e1 = 0) →
        ∫ t in e.e0..e.e1, v t * applyLin e ⟨[(true, h), (true, g), (true, f)], []⟩ u t
          = ∫ t in e.e0..e.e1, applyLin e ⟨[(true, h), (true, g), (true, f)], []⟩ v t * u t) ∧
    ∃ u v : ℝ → ℝ, ContDiff ℝ ∞ u ∧ ContDiff ℝ ∞ v ∧ (∀ k < 3, iteratedDeriv k v e.e0 = 0 ∧ iteratedDeriv k v e.e1 = 0) ∧
      ∫ t in e.e0..e.e1, v t * applyLin e ⟨[(true, h), (true, g), (true, f)], []⟩ u t
        ≠ ∫ t in e.e0..e.e1, adjLin e ⟨[(true, h), (true, g), (true, f)], []⟩ v t * u t := by
  constructor
  · intro u v hu hv hz
    have hsm : ContDiff ℝ ∞ fun x => chebEval f (Mapping.bwd e x) := by
      obtain ⟨al, be, h⟩ := NMat.bwd_affine e
      simp only [h]
      exact NMat.chebEval_contDiff _ _ _
    set F := fun x => chebEval f (Mapping.bwd e x) with hF
    have hd : ∀ w : ℝ → ℝ, ContDiff ℝ ∞ w → ContDiff ℝ ∞ (deriv w) := fun w hw => by simpa using Adj.iteratedDeriv_smooth hw 1
    have hL : ∀ w : ℝ → ℝ, ContDiff ℝ ∞ w → ∀ t, applyLin e ⟨[(true, h), (true, g), (true, f)], []⟩ w t
        = chebEval h (Mapping.bwd e t) * w t + deriv (fun x => F x * deriv w x) t := by
      intro w hw t
      have h2 : deriv (fun x => F x * deriv w x) t = deriv F t * deriv w t + F t * deriv (deriv w) t :=
        deriv_fun_mul (hsm.differentiable (by simp)).differentiableAt ((hd w hw).differentiable (by simp)).differentiableAt
      rw [h2]
      simp only [applyLin, List.mapIdx_cons, List.mapIdx_nil, List.sum_cons, List.sum_nil, List.map_nil, if_true, iteratedDeriv_zero,
        add_zero, hg, iteratedDeriv_succ]
      ring
    have hsmF : ∀ w : ℝ → ℝ, ContDiff ℝ ∞ w → ContDiff ℝ ∞ fun x => F x * deriv w x := fun w hw => hsm.mul (hd w hw)
    have hi : ∀ w z : ℝ → ℝ, ContDiff ℝ ∞ w → ContDiff ℝ ∞ z →
        ∫ t in e.e0..e.e1, z t * deriv (fun x => F x * deriv w x) t
          = z e.e1 * (F e.e1 * deriv w e.e1) - z e.e0 * (F e.e0 * deriv w e.e0) - ∫ t in e.e0..e.e1, deriv z t * (F t * deriv w t) := by
      intro w z hw hz
      apply intervalIntegral.integral_mul_deriv_eq_deriv_mul (u := z) (v := fun x => F x * deriv w x)
      · intro x _; exact (hz.differentiable (by simp)).differentiableAt.hasDerivAt
      · intro x _; exact ((hsmF w hw).differentiable (by simp)).differentiableAt.hasDerivAt
      · exact (hd z hz).continuous.intervalIntegrable _ _
      · exact (hd _ (hsmF w hw)).continuous.intervalIntegrable _ _
    simp only [hL u hu, hL v hv, mul_add, add_mul]
    have hH : Continuous fun t => chebEval h (Mapping.bwd e t) := chebEval_cont e h
    rw [intervalIntegral.integral_add, intervalIntegral.integral_add, hi u v hu hv]
    · have h3 := hi v u hv hu
      have h4 : ∫ t in e.e0..e.e1, deriv (fun x => F x * deriv v x) t * u t = ∫ t in e.e0..e.e1, u t * deriv (fun x => F x * deriv v x) t := by
        congr 1; funext t; ring
      have z0 := hz 0 (by omega)
      have z1 := hz 1 (by omega)
      simp only [iteratedDeriv_zero, iteratedDeriv_one] at z0 z1
      rw [h4, h3, z0.1, z0.2, z1.1, z1.2]
      have h5 : ∫ t in e.e0..e.e1, deriv v t * (F t * deriv u t) = ∫ t in e.e0..e.e1, deriv u t * (F t * deriv v t) := by
        congr 1; funext t; ring
      have h6 : ∫ t in e.e0..e.e1, v t * (chebEval h (Mapping.bwd e t) * u t) = ∫ t in e.e0..e.e1, chebEval h (Mapping.bwd e t) * v t * u t := by
        congr 1; funext t; ring
      rw [h5, h6]; ring
    · exact ((hH.mul hv.continuous).mul hu.continuous).intervalIntegrable _ _
    · exact ((hd _ (hsmF v hv)).continuous.mul hu.continuous).intervalIntegrable _ _
    · exact (hv.continuous.mul (hH.mul hu.continuous)).intervalIntegrable _ _
    · exact (hv.continuous.mul (hd _ (hsmF u hu)).continuous).intervalIntegrable _ _
  · by_contra hcon
    push Not at hcon
    exact hf ((C130_constant_iff e he _).mp (fun u v hu hv hz => hcon u v hu hv hz) 2 (by simp) (by omega) rfl)

/-- non-vacuity: `(x u')' = x u'' + u'` on `[-1, 1]`. -/
example : (∀ t, chebEval [1] (Mapping.bwd ⟨-1, 1⟩ t) = deriv (fun x => chebEval [0, 1] (Mapping.bwd ⟨-1, 1⟩ x)) t) ∧
    ¬ ∃ c, ∀ x, chebEval [(0 : ℝ), 1] x = c := by
  have h : ∀ x : ℝ, chebEval [0, 1] x = x := by intro x; simp [chebEval, sum_range_succ]
  have hb : ∀ x, Mapping.bwd ⟨-1, 1⟩ x = x := by intro x; simp [Mapping.bwd, Mapping.diff]; ring
  constructor
  · intro t
    simp only [h, hb]
    simp [chebEval]
  · rintro ⟨c, hc⟩
    have h0 := hc 0
    have h1 := hc 1
    rw [h] at h0 h1
    linarith

/-- **C130 fails without boundary conditions**: `linop()` raises. -/
theorem C130_no_constraints_fails (d : Disc n) (h : d.bcs = []) : OpDisc.linop d = none := by rw [OpDisc.linop, if_pos h]

/-- **C130 fails for the projection.**  The adjoint of the projection that `linop()` returns cannot be applied to any vector in the range of
the projection (the result of `matvec`) unless the projection order is zero: its matrix has the shape of the projection, not of the transpose.  The projection of `matrix()` has none. -/
theorem C130_rmatvec_fails (d : Disc n) (h0 : 0 < d.r) (hr : d.r ≤ n) :
    (∀ x y, (matrixProjection d).matvec x = some y → (matrixProjection d).rmatvec y = none) ∧
    ∀ M N P, OpDisc.linop d = some (M, N, P) → ∀ x y, P.matvec x = some y → P.rmatvec y = none := by
  constructor
  · intro x y _; rfl
  · intro M N P h x y hx
    rw [OpDisc.linop] at h
    split_ifs at h
    obtain ⟨B, -, hB⟩ := Option.map_eq_some_iff.mp h
    obtain ⟨-, hB⟩ := Prod.mk.inj hB
    obtain ⟨-, rfl⟩ := Prod.mk.inj hB
    simp only [RectProj.matvec, OpDisc.dot] at hx
    split_ifs at hx
    have hy : y.length = n - d.r := by rw [← Option.some.inj hx]; simp
    simp only [RectProj.rmatvec, OpDisc.dot]
    rw [if_neg (by omega)]

end Funpy.Props
