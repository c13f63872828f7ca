import Mathlib.Analysis.Calculus.IteratedDeriv.Lemmas
import Mathlib.Analysis.Calculus.Deriv.Polynomial
import Mathlib.Analysis.Polynomial.Basic
import Mathlib.Analysis.Calculus.ContDiff.Polynomial
import Mathlib.Topology.Algebra.Polynomial
import Mathlib.MeasureTheory.Integral.IntervalIntegral.IntegrationByParts
import Mathlib.Algebra.Polynomial.Derivative
import Mathlib.Algebra.Polynomial.Roots

/-!
# Repeated integration by parts, and operators on polynomials
-/

namespace Funpy.Adj
open Polynomial Finset intervalIntegral
open scoped ContDiff

lemma iteratedDeriv_smooth {w : ℝ → ℝ} (hw : ContDiff ℝ ∞ w) (k : ℕ) : ContDiff ℝ ∞ (iteratedDeriv k w) :=
  by rw [iteratedDeriv_eq_iterate]; exact ContDiff.iterate_deriv k hw

/-- `∫ w u^(j) = (-1)^j ∫ w^(j) u` if the boundary terms vanish. -/
lemma by_parts (a b : ℝ) (j : ℕ) : ∀ (w u : ℝ → ℝ), ContDiff ℝ ∞ w → ContDiff ℝ ∞ u →
    (∀ k l, k + l + 1 = j → iteratedDeriv k w a * iteratedDeriv l u a = 0 ∧ iteratedDeriv k w b * iteratedDeriv l u b = 0) →
    ∫ t in a..b, w t * iteratedDeriv j u t = (-1) ^ j * ∫ t in a..b, iteratedDeriv j w t * u t := by
  induction j with
  | zero => intro w u _ _ _; simp
  | succ j ih =>
    intro w u hw hu h
    have hd : ContDiff ℝ ∞ (deriv w) := by simpa using iteratedDeriv_smooth hw 1
    have hj := iteratedDeriv_smooth hu j
    have h1 : ∫ t in a..b, w t * iteratedDeriv (j + 1) u t = w b * iteratedDeriv j u b - w a * iteratedDeriv j u a
        - ∫ t in a..b, deriv w t * iteratedDeriv j u t := by
      apply integral_mul_deriv_eq_deriv_mul (u := w) (v := iteratedDeriv j u)
      · intro x _
        exact (hw.differentiable (by simp)).differentiableAt.hasDerivAt
      · intro x _
        rw [iteratedDeriv_succ]
        exact (hj.differentiable (by simp)).differentiableAt.hasDerivAt
      · exact hd.continuous.intervalIntegrable _ _
      · exact (iteratedDeriv_smooth hu (j + 1)).continuous.intervalIntegrable _ _
    have h0 := h 0 j (by omega)
    simp only [iteratedDeriv_zero] at h0
    rw [h1, h0.1, h0.2, ih (deriv w) u hd hu ?_]
    · rw [← iteratedDeriv_succ']
      ring
    · intro k l hkl
      rw [← iteratedDeriv_succ']
      exact h (k + 1) l (by omega)

lemma iteratedDeriv_poly (p : ℝ[X]) (k : ℕ) : iteratedDeriv k (fun t => p.eval t) = fun t => (derivative^[k] p).eval t := by
  induction k with
  | zero => simp
  | succ k ih =>
    rw [iteratedDeriv_succ, ih, Function.iterate_succ_apply']
    funext t
    exact Polynomial.deriv _

lemma poly_smooth (p : ℝ[X]) : ContDiff ℝ ∞ fun t => p.eval t := by simpa using p.contDiff_aeval (𝕜 := ℝ) ∞

/-- A polynomial that is orthogonal to itself on an interval is zero. -/
lemma poly_zero_of_sq {a b : ℝ} (hab : a < b) (p : ℝ[X]) (h : ∫ t in a..b, p.eval t * p.eval t = 0) : p = 0 := by
  by_contra hp
  have hpos : 0 < ∫ t in a..b, p.eval t * p.eval t := by
    obtain ⟨c, hc, hr⟩ : ∃ c ∈ Set.Ioo a b, p.eval c ≠ 0 := by
      by_contra hcon
      push Not at hcon
      exact hp (Polynomial.eq_zero_of_infinite_isRoot p ((Set.Ioo_infinite hab).mono fun c hc => hcon c hc))
    apply integral_pos hab
    · exact ((poly_smooth p).continuous.mul (poly_smooth p).continuous).continuousOn
    · intro x _
      exact mul_self_nonneg _
    · exact ⟨c, ⟨hc.1.le, hc.2.le⟩, mul_self_pos.mpr hr⟩
  exact hpos.ne' h

/-- the derivatives of `(X - c)^m q` at `c` -/
lemma deriv_low (c : ℝ) (m k : ℕ) (hk : k < m) (q : ℝ[X]) : (derivative^[k] ((X - C c) ^ m * q)).eval c = 0 := by
  have h : (X - C c) ^ (m - k) ∣ derivative^[k] ((X - C c) ^ m * q) := pow_sub_dvd_iterate_derivative_of_pow_dvd k (dvd_mul_right _ _)
  obtain ⟨r, hr⟩ := (dvd_pow_self (X - C c) (by omega : m - k ≠ 0)).trans h
  rw [hr]; simp

lemma deriv_top (c : ℝ) (m : ℕ) (q : ℝ[X]) : (derivative^[m] ((X - C c) ^ m * q)).eval c = (m.factorial : ℝ) * q.eval c := by
  rw [iterate_derivative_mul, eval_finsetSum, Finset.sum_eq_single 0]
  · rw [Nat.sub_zero, iterate_derivative_X_sub_pow_self]
    simp
  · intro k hk hk0
    simp only [mem_range] at hk
    rw [iterate_derivative_X_sub_pow]
    have : m - (m - k) ≠ 0 := by omega
    simp [this]
  · simp

/-- The difference between the formal adjoint `Σ (-1)^j (A_j v)^(j)` and `Σ (-1)^j A_j v^(j)`. -/
noncomputable def defect (N : ℕ) (A : ℕ → ℝ[X]) (v : ℝ[X]) : ℝ[X] :=
  ∑ j ∈ range N, (-1) ^ j * (derivative^[j] (A j * v) - A j * derivative^[j] v)

lemma term_const (a : ℝ[X]) (ha : derivative a = 0) (j : ℕ) (v : ℝ[X]) : derivative^[j] (a * v) = a * derivative^[j] v := by
  rw [eq_C_of_derivative_eq_zero ha, iterate_derivative_C_mul]

lemma term_eval (a : ℝ[X]) (j m : ℕ) (c : ℝ) (q : ℝ[X]) (hm : j ≤ m + 1) :
    (derivative^[j] (a * ((X - C c) ^ m * q)) - a * derivative^[j] ((X - C c) ^ m * q)).eval c
      = if j = m + 1 then (m + 1 : ℝ) * (derivative a).eval c * ((m.factorial : ℝ) * q.eval c) else 0 := by
  rw [iterate_derivative_mul, Finset.sum_range_succ]
  simp only [Nat.choose_self, Nat.sub_self, one_smul, Function.iterate_zero, id_eq, add_sub_cancel_right]
  rw [eval_finsetSum]
  split_ifs with h
  · subst h
    rw [Finset.sum_range_succ, Finset.sum_eq_zero, zero_add]
    · rw [show m + 1 - m = 1 by omega, Function.iterate_one, nsmul_eq_mul, eval_mul, eval_natCast, eval_mul, deriv_top, Nat.choose_succ_self_right]
      push_cast
      ring
    · intro k hk
      rw [nsmul_eq_mul, eval_mul, eval_natCast, eval_mul, deriv_low c m k (by simpa using hk), mul_zero, mul_zero]
  · apply Finset.sum_eq_zero
    intro k hk
    have hk' : k < j := by simpa using hk
    rw [nsmul_eq_mul, eval_mul, eval_natCast, eval_mul, deriv_low c m k (by omega), mul_zero, mul_zero]

/-- If the defect vanishes on all multiples of a non-zero polynomial, the coefficients of positive order are constant. -/
lemma const_of_defect (N : ℕ) (A : ℕ → ℝ[X]) (om : ℝ[X]) (hom : om ≠ 0) (h : ∀ q, defect N A (om * q) = 0) :
    ∀ j, 1 ≤ j → j < N → derivative (A j) = 0 := by
  by_contra hcon
  push Not at hcon
  obtain ⟨j0, h0⟩ := hcon
  classical
  let S := (range N).filter fun j => 1 ≤ j ∧ derivative (A j) ≠ 0
  have hS : S.Nonempty := ⟨j0, by simp only [S, mem_filter, mem_range]; exact ⟨h0.2.1, h0.1, h0.2.2⟩⟩
  obtain ⟨J, hJ, hmax⟩ := S.exists_max_image id hS
  simp only [S, mem_filter, mem_range] at hJ
  obtain ⟨m, rfl⟩ : ∃ m, J = m + 1 := ⟨J - 1, by omega⟩
  obtain ⟨c, hc⟩ : ∃ c, (derivative (A (m + 1)) * om).eval c ≠ 0 := by
    by_contra hc
    push Not at hc
    have : derivative (A (m + 1)) * om = 0 := Polynomial.funext fun r => by rw [hc r, eval_zero]
    exact (mul_ne_zero hJ.2.2 hom) this
  have hd := congrArg (fun p => p.eval c) (h ((X - C c) ^ m))
  simp only [defect, eval_zero, eval_finsetSum] at hd
  rw [Finset.sum_eq_single (m + 1)] at hd
  · rw [mul_comm om, eval_mul, term_eval _ _ _ _ _ le_rfl, if_pos rfl] at hd
    rw [eval_mul] at hc
    have h1 : ((-1 : ℝ[X]) ^ (m + 1)).eval c ≠ 0 := by simp
    have := mul_ne_zero h1 (mul_ne_zero (mul_ne_zero (by positivity : (m + 1 : ℝ) ≠ 0) (left_ne_zero_of_mul hc))
      (mul_ne_zero (by positivity : (m.factorial : ℝ) ≠ 0) (right_ne_zero_of_mul hc)))
    exact this hd
  · intro j hj hne
    rcases Nat.lt_or_ge (m + 1) j with hlt | hge
    · have hz : derivative (A j) = 0 := by
        by_contra hz
        have := hmax j (by simp only [S, mem_filter]; exact ⟨hj, by omega, hz⟩)
        simp only [id] at this
        omega
      rw [term_const _ hz, sub_self, mul_zero, eval_zero]
    · rw [mul_comm om, eval_mul, term_eval _ _ _ _ _ hge, if_neg hne, mul_zero]
  · intro hn
    exact absurd (mem_range.mpr hJ.1) hn

end Funpy.Adj
