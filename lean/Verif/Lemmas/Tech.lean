import Verif.Model.Fun
import Verif.Lemmas.ChebCalc
import Mathlib.Analysis.Calculus.IteratedDeriv.Lemmas
import Mathlib.MeasureTheory.Integral.IntervalIntegral.Basic

namespace Funpy.Cheb
open Finset Real Polynomial Spec

/-- A proper array: rectangular, with at least one row and one column (every array that passes the
constructor's assertion, funpy/cheb/chebtech.py:60). -/
structure Tech.Proper (t : Tech) : Prop where
  wf : t.coeffs.WF
  size : t.coeffs.n * t.coeffs.m ≠ 0

lemma Tech.Proper.n_pos {t : Tech} (h : t.Proper) : 0 < t.coeffs.n :=
  Nat.pos_of_ne_zero fun h0 => h.2 (by rw [h0, zero_mul])

lemma Tech.Proper.m_ne {t : Tech} (h : t.Proper) : t.coeffs.m ≠ 0 :=
  fun h0 => h.2 (by rw [h0, mul_zero])

lemma Tech.Proper.col_ne {t : Tech} (h : t.Proper) {c : List ℝ} (hc : c ∈ t.coeffs.cols) : c ≠ [] := by
  intro h0
  have h1 := h.1 c hc
  have := h.n_pos
  rw [h0] at h1; simp at h1; omega

lemma mk'_some (a : Arr ℝ) (h : a.n * a.m ≠ 0) (eps : ℝ) (hap simp : Bool) (hs : ℝ) (ml : ℕ) :
    ∃ t, Tech.mk' a eps hap simp hs ml = some t ∧ t.eps = eps ∧ t.hscale = hs ∧ t.maxLength = ml ∧
      (hap = true → t.ishappy = true) ∧
      t.coeffs = if simp && t.ishappy then simplifyCoeffs a eps else a := by
  unfold Tech.mk'
  rw [if_neg h]
  refine ⟨_, rfl, ?_⟩
  cases hap <;> cases simp <;> simp [Tech.simplify] <;> split_ifs <;> simp_all

lemma mk'_none (a : Arr ℝ) (h : a.n * a.m = 0) (eps : ℝ) (hap simp : Bool) (hs : ℝ) (ml : ℕ) :
    Tech.mk' a eps hap simp hs ml = none := by simp [Tech.mk', h]

lemma mk'_false (a : Arr ℝ) (h : a.n * a.m ≠ 0) (eps : ℝ) (hap : Bool) (hs : ℝ) (ml : ℕ) :
    ∃ t, Tech.mk' a eps hap false hs ml = some t ∧ t.eps = eps ∧ t.hscale = hs ∧ t.maxLength = ml ∧
      (hap = true → t.ishappy = true) ∧ t.coeffs = a := by
  simpa using mk'_some a h eps hap false hs ml

lemma simplify_m (a : Arr ℝ) (eps : ℝ) : (simplifyCoeffs a eps).m = a.m := by
  rw [simplify_eq_prolong]; simp [prolong, Arr.mapCols, Arr.m]

lemma simplify_n_pos (a : Arr ℝ) (eps : ℝ) : 0 < (simplifyCoeffs a eps).n := by
  rw [simplify_n]; exact (keep_bounds a eps).1

lemma natDegree_chebPoly_lt (c : List ℝ) (hc : c ≠ []) : (chebPoly c).natDegree < c.length := by
  have hpos := List.length_pos_iff.mpr hc
  have : (chebPoly c).natDegree ≤ c.length - 1 := by
    unfold chebPoly
    apply natDegree_sum_le_of_forall_le
    intro k hk
    rw [mem_range] at hk
    refine (natDegree_C_mul_le _ _).trans ?_
    have := Chebyshev.natDegree_T ℝ (k : ℤ)
    rw [this]
    simp; omega
  omega

lemma chebPoly_replicate_zero (n : ℕ) : chebPoly (List.replicate n (0 : ℝ)) = 0 := by
  unfold chebPoly
  apply sum_eq_zero
  intro k _
  rw [getD_replicate']; simp

lemma chebPoly_map_mul (c : List ℝ) (s : ℝ) : chebPoly (c.map (· * s)) = C s * chebPoly c := by
  unfold chebPoly
  rw [List.length_map, mul_sum]
  apply sum_congr rfl
  intro k _
  have := getD_map' (· * s) 0 c k
  simp only [zero_mul] at this
  rw [this, C_mul]; ring

lemma chebPoly_map_div (c : List ℝ) (s : ℝ) : chebPoly (c.map (· / s)) = C s⁻¹ * chebPoly c := by
  rw [← chebPoly_map_mul]; simp only [div_eq_mul_inv]

lemma iteratedDeriv_poly_affine (p : ℝ[X]) (a b : ℝ) (k : ℕ) (x : ℝ) :
    iteratedDeriv k (fun x => p.eval (a * x + b)) x = a ^ k * (derivative^[k] p).eval (a * x + b) := by
  induction k generalizing x with
  | zero => simp
  | succ k ih =>
    rw [iteratedDeriv_succ]
    have : iteratedDeriv k (fun x => p.eval (a * x + b))
        = fun x => a ^ k * (derivative^[k] p).eval (a * x + b) := funext ih
    rw [this, Function.iterate_succ_apply']
    have h1 : HasDerivAt (fun x : ℝ => a * x + b) a x := by
      simpa using ((hasDerivAt_id x).const_mul a).add_const b
    have h2 := ((derivative^[k] p).hasDerivAt (a * x + b)).comp x h1
    have h3 := h2.const_mul (a ^ k)
    rw [pow_succ]
    refine h3.deriv.trans ?_
    ring

lemma bwd_eq (e : Ends) (x : ℝ) : Mapping.bwd e x
    = (2 / Mapping.diff e) * x + (-(e.e0 + e.e1) / Mapping.diff e) := by
  simp only [Mapping.bwd]; ring

lemma rescale_eq (f : ChebFun) : f.rescale = Mapping.diff f.dom / 2 := by
  simp only [ChebFun.rescale]; ring

end Funpy.Cheb
