import Verif.Spec.Ultra
import Mathlib.Analysis.Calculus.Deriv.Polynomial
import Mathlib.Analysis.Calculus.Deriv.Mul
import Mathlib.Analysis.Calculus.Deriv.Add
import Mathlib.RingTheory.Polynomial.Chebyshev
import Mathlib.Tactic.Linarith
import Mathlib.Tactic.LinearCombination
import Mathlib.Tactic.FieldSimp
import Mathlib.Tactic.Ring
import Mathlib.Tactic.Positivity

/-! Identities between ultraspherical polynomials of neighbouring parameters. -/

namespace Spec
open Finset Polynomial

lemma gegenbauer_rec (lam : ℝ) (n : ℕ) (x : ℝ) :
    ((n : ℝ) + 2) * gegenbauer lam (n + 2) x
      = 2 * (n + 1 + lam) * x * gegenbauer lam (n + 1) x - (n + 2 * lam) * gegenbauer lam n x := by
  rw [gegenbauer]
  field_simp

/-- `C_{n-1}`, with `C_{-1} = 0`. -/
noncomputable def gegPrev (lam : ℝ) : ℕ → ℝ → ℝ
  | 0, _ => 0
  | n + 1, x => gegenbauer lam n x

lemma gegenbauer_rec' (lam : ℝ) (n : ℕ) (x : ℝ) :
    ((n : ℝ) + 1) * gegenbauer lam (n + 1) x
      = 2 * (n + lam) * x * gegenbauer lam n x - (n - 1 + 2 * lam) * gegPrev lam n x := by
  cases n with
  | zero => simp [gegenbauer, gegPrev]
  | succ n =>
    have := gegenbauer_rec lam n x
    simp only [gegPrev]
    push_cast
    linear_combination this

lemma gegenbauer_pair (lam : ℝ) (x : ℝ) (n : ℕ) :
    ((n : ℝ) + 1) * gegenbauer lam (n + 1) x
        = 2 * lam * (x * gegenbauer (lam + 1) n x - gegPrev (lam + 1) n x) ∧
    ((n : ℝ) + 2 * lam) * gegenbauer lam n x
        = 2 * lam * (gegenbauer (lam + 1) n x - x * gegPrev (lam + 1) n x) := by
  induction n with
  | zero => simp [gegenbauer, gegPrev]
  | succ n ih =>
    obtain ⟨h1, h2⟩ := ih
    have hD := gegenbauer_rec' (lam + 1) n x
    have hC := gegenbauer_rec lam n x
    have hn : (n : ℝ) + 1 ≠ 0 := by positivity
    have key : ((n : ℝ) + 1 + 2 * lam) * gegenbauer lam (n + 1) x
        = 2 * lam * (gegenbauer (lam + 1) (n + 1) x - x * gegenbauer (lam + 1) n x) := by
      apply mul_left_cancel₀ hn
      linear_combination ((n : ℝ) + 1 + 2 * lam) * h1 - 2 * lam * hD
    constructor
    · simp only [gegPrev]
      push_cast
      linear_combination hC + x * key + x * h1 - h2
    · simp only [gegPrev]
      push_cast
      exact key

/-- `(n + lam) C_n^{(lam)} = lam (C_n^{(lam+1)} - C_{n-2}^{(lam+1)})` -/
lemma gegenbauer_convert (lam : ℝ) (n : ℕ) (x : ℝ) :
    ((n : ℝ) + 2 + lam) * gegenbauer lam (n + 2) x
      = lam * (gegenbauer (lam + 1) (n + 2) x - gegenbauer (lam + 1) n x) := by
  have h1 := (gegenbauer_pair lam x (n + 1)).1
  have h2 := (gegenbauer_pair lam x (n + 2)).2
  simp only [gegPrev] at h1 h2
  push_cast at h1 h2
  linear_combination (1 / 2) * h1 + (1 / 2) * h2

lemma gegenbauer_hasDeriv_aux (lam : ℝ) (n : ℕ) :
    (∀ x, HasDerivAt (gegenbauer lam n) (2 * lam * gegPrev (lam + 1) n x) x) ∧
    (∀ x, HasDerivAt (gegenbauer lam (n + 1)) (2 * lam * gegenbauer (lam + 1) n x) x) := by
  induction n with
  | zero =>
    constructor
    · intro x
      simp only [gegPrev, mul_zero]
      exact hasDerivAt_const x (1 : ℝ)
    · intro x
      have : HasDerivAt (fun x : ℝ => 2 * lam * x) (2 * lam * 1) x := (hasDerivAt_id x).const_mul _
      exact this
  | succ n ih =>
    refine ⟨ih.2, fun x => ?_⟩
    have h := ((((hasDerivAt_id x).const_mul (2 * ((n : ℝ) + 1 + lam))).mul (ih.2 x)).sub
      ((ih.1 x).const_mul ((n : ℝ) + 2 * lam))).div_const ((n : ℝ) + 2)
    have hfun : gegenbauer lam (n + 1 + 1) = fun x => (2 * (n + 1 + lam) * x * gegenbauer lam (n + 1) x -
        (n + 2 * lam) * gegenbauer lam n x) / (n + 2) := by
      funext x; rw [gegenbauer]
    rw [hfun]
    refine h.congr_deriv ?_
    have hD := gegenbauer_rec' (lam + 1) n x
    have hp := gegenbauer_pair lam x (n + 1)
    have hp1 := (gegenbauer_pair lam x n).1
    have hp2 := hp.2
    simp only [gegPrev] at hp2
    push_cast at hp2
    have hn : (n : ℝ) + 2 ≠ 0 := by positivity
    rw [div_eq_iff hn]
    simp only [id, mul_one]
    linear_combination (norm := (ring_nf)) hp1 + hp2 - 2 * lam * hD

lemma gegenbauer_hasDeriv (lam : ℝ) (n : ℕ) (x : ℝ) :
    HasDerivAt (gegenbauer lam (n + 1)) (2 * lam * gegenbauer (lam + 1) n x) x :=
  (gegenbauer_hasDeriv_aux lam n).2 x

lemma gegenbauer_one_U (n : ℕ) (x : ℝ) : gegenbauer 1 n x = (Chebyshev.U ℝ n).eval x := by
  induction n using Nat.twoStepInduction with
  | zero => simp [gegenbauer]
  | one => simp [gegenbauer]
  | more n h1 h2 =>
    have hn : (n : ℝ) + 2 ≠ 0 := by positivity
    have h := gegenbauer_rec 1 n x
    apply mul_left_cancel₀ hn
    rw [h, h1, h2]
    push_cast
    rw [Chebyshev.U_add_two]
    simp
    ring

lemma ultraBasis_zero (lam : ℕ) (x : ℝ) : ultraBasis lam 0 x = 1 := by
  cases lam <;> simp [ultraBasis, gegenbauer]

/-- Conversion of basis polynomials, factor form: `spconvert` columns. -/
lemma ultraBasis_one (lam : ℕ) (x : ℝ) :
    ultraBasis lam 1 x = (if lam = 0 then (1 / 2 : ℝ) else lam / (lam + 1)) * ultraBasis (lam + 1) 1 x := by
  cases lam with
  | zero => simp [ultraBasis, gegenbauer]
  | succ l =>
    simp only [ultraBasis, gegenbauer, Nat.succ_ne_zero, if_false]
    push_cast
    field_simp

lemma ultraBasis_convert (lam n : ℕ) (x : ℝ) :
    ultraBasis lam (n + 2) x = (if lam = 0 then (1 / 2 : ℝ) else lam / (lam + ((n : ℝ) + 2))) *
      (ultraBasis (lam + 1) (n + 2) x - ultraBasis (lam + 1) n x) := by
  cases lam with
  | zero =>
    simp only [ultraBasis, if_true, Nat.cast_zero, zero_add, gegenbauer_one_U]
    have h := Chebyshev.T_eq_U_sub_X_mul_U ℝ ((n : ℤ) + 2)
    have h2 := Chebyshev.U_add_two ℝ (n : ℤ)
    have h3 : (Chebyshev.T ℝ ((n : ℤ) + 2)).eval x = (Chebyshev.U ℝ ((n : ℤ) + 2)).eval x
        - x * (Chebyshev.U ℝ ((n : ℤ) + 1)).eval x := by
      rw [h]; simp; left; congr 2; ring
    have h4 := congrArg (Polynomial.eval x) h2
    simp only [eval_sub, eval_mul, eval_X, eval_ofNat] at h4
    push_cast
    rw [h3]
    linear_combination (1 / 2 : ℝ) * h4
  | succ l =>
    have h := gegenbauer_convert ((l : ℝ) + 1) n x
    simp only [ultraBasis, Nat.succ_ne_zero, if_false]
    push_cast
    have h' : (n : ℝ) + 2 + (l + 1) ≠ 0 := by positivity
    rw [← mul_right_inj' h', h]
    field_simp
    ring

lemma ultraBasis_deriv (lam n : ℕ) (x : ℝ) :
    HasDerivAt (ultraBasis lam (n + 1))
      ((if lam = 0 then (n : ℝ) + 1 else 2 * lam) * ultraBasis (lam + 1) n x) x := by
  cases lam with
  | zero =>
    have h : HasDerivAt (fun x => (Chebyshev.T ℝ ((n + 1 : ℕ) : ℤ)).eval x)
        ((derivative (Chebyshev.T ℝ ((n + 1 : ℕ) : ℤ))).eval x) x := Polynomial.hasDerivAt _ _
    have hd : (derivative (Chebyshev.T ℝ ((n + 1 : ℕ) : ℤ))).eval x
        = ((n : ℝ) + 1) * ultraBasis 1 n x := by
      rw [Chebyshev.T_derivative_eq_U]
      simp [ultraBasis, gegenbauer_one_U]
    simp only [if_true]
    rw [← hd]
    exact h
  | succ l =>
    have h := gegenbauer_hasDeriv ((l : ℝ) + 1) n x
    simp only [Nat.succ_ne_zero, if_false]
    have e : ultraBasis (l + 1) (n + 1) = gegenbauer ((l : ℝ) + 1) (n + 1) := by funext y; rfl
    rw [e]
    convert h using 2
    · push_cast; ring
    · simp [ultraBasis]

lemma ultraBasis_zero_deriv (lam : ℕ) (x : ℝ) : HasDerivAt (ultraBasis lam 0) 0 x := by
  have : ultraBasis lam 0 = fun _ => 1 := by funext y; exact ultraBasis_zero lam y
  rw [this]
  exact hasDerivAt_const x (1 : ℝ)

end Spec
