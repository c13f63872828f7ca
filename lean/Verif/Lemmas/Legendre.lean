import Mathlib.Algebra.Polynomial.Derivative
import Mathlib.Analysis.Calculus.Deriv.Polynomial
import Mathlib.Analysis.Calculus.Deriv.MeanValue
import Mathlib.MeasureTheory.Integral.IntervalIntegral.FundThmCalculus
import Mathlib.Tactic.LinearCombination

/-!
# Legendre polynomials

The three-term recurrence, derivative identities, orthogonality on `[-1,1]`, the bound by 1, expansions.
-/

namespace Funpy
open Polynomial Finset

/-- Legendre polynomials by Bonnet's recurrence. -/
noncomputable def legP : ℕ → Polynomial ℝ
  | 0 => 1
  | 1 => X
  | n + 2 => C ((2 * (n : ℝ) + 3) / (n + 2)) * X * legP (n + 1) - C (((n : ℝ) + 1) / (n + 2)) * legP n

lemma legP_rec (n : ℕ) : C ((n : ℝ) + 2) * legP (n + 2) = C (2 * (n : ℝ) + 3) * X * legP (n + 1) - C ((n : ℝ) + 1) * legP n := by
  have h : ((n : ℝ) + 2) ≠ 0 := by positivity
  rw [legP, mul_sub, ← mul_assoc, ← mul_assoc, ← mul_assoc, ← C_mul, ← C_mul, mul_div_cancel₀ _ h, mul_div_cancel₀ _ h]

/-- The derivative identities, simultaneously. -/
lemma legP_deriv (n : ℕ) :
    derivative (legP (n + 1)) = X * derivative (legP n) + C ((n : ℝ) + 1) * legP n ∧
    X * derivative (legP (n + 1)) - derivative (legP n) = C ((n : ℝ) + 1) * legP (n + 1) ∧
    (1 - X ^ 2) * derivative (legP (n + 1)) = C ((n : ℝ) + 1) * (legP n - X * legP (n + 1)) := by
  induction n with
  | zero =>
    simp [legP]
    ring
  | succ n ih =>
    obtain ⟨hB, hA, hD⟩ := ih
    have hr := legP_rec n
    have hn2 : C ((n : ℝ) + 2) ≠ 0 := by
      rw [Ne, C_eq_zero]; positivity
    have e1 : (C (((n + 1 : ℕ) : ℝ) + 1) : Polynomial ℝ) = C ((n : ℝ) + 1) + 1 := by
      rw [← C_1, ← C_add]; push_cast; ring_nf
    have e2 : (C ((n : ℝ) + 2) : Polynomial ℝ) = C ((n : ℝ) + 1) + 1 := by
      rw [← C_1, ← C_add]; ring_nf
    have e3 : (C (2 * (n : ℝ) + 3) : Polynomial ℝ) = 2 * C ((n : ℝ) + 1) + 1 := by
      rw [← C_1, show (2 : Polynomial ℝ) = C 2 from rfl, ← C_mul, ← C_add]; ring_nf
    rw [e1]
    rw [e2] at hn2
    rw [e2, e3] at hr
    set c : Polynomial ℝ := C ((n : ℝ) + 1) with hc
    have hdc : derivative c = 0 := by rw [hc, derivative_C]
    have hr' := congrArg derivative hr
    simp only [derivative_mul, derivative_sub, derivative_add, hdc, derivative_X, derivative_one, derivative_ofNat] at hr'
    have hB' : derivative (legP (n + 2)) = X * derivative (legP (n + 1)) + (c + 1) * legP (n + 1) := by
      apply mul_left_cancel₀ hn2
      linear_combination hr' + c * hA
    refine ⟨hB', ?_, ?_⟩
    · linear_combination X * hB' - hD - hr
    · linear_combination (1 - X ^ 2) * hB' + X * hD + X * hr

lemma legP_one (n : ℕ) : (legP n).eval 1 = 1 := by
  induction n using Nat.strong_induction_on with
  | _ n ih =>
    match n with
    | 0 => simp [legP]
    | 1 => simp [legP]
    | n + 2 =>
      have h : ((n : ℝ) + 2) ≠ 0 := by positivity
      simp only [legP, eval_sub, eval_mul, eval_C, eval_X, ih (n + 1) (by omega), ih n (by omega)]
      field_simp
      ring

lemma legP_neg_one (n : ℕ) : (legP n).eval (-1) = (-1) ^ n := by
  induction n using Nat.strong_induction_on with
  | _ n ih =>
    match n with
    | 0 => simp [legP]
    | 1 => simp [legP]
    | n + 2 =>
      have h : ((n : ℝ) + 2) ≠ 0 := by positivity
      simp only [legP, eval_sub, eval_mul, eval_C, eval_X, ih (n + 1) (by omega), ih n (by omega)]
      field_simp
      ring

lemma legP_degree (n : ℕ) : (legP n).natDegree ≤ n ∧ (legP n).coeff n ≠ 0 := by
  induction n using Nat.strong_induction_on with
  | _ n ih =>
    match n with
    | 0 => simp [legP]
    | 1 => simp [legP]
    | n + 2 =>
      obtain ⟨h1, h1'⟩ := ih (n + 1) (by omega)
      obtain ⟨h2, _⟩ := ih n (by omega)
      have h3 : ((C ((2 * (n : ℝ) + 3) / (n + 2)) * X * legP (n + 1) : Polynomial ℝ)).natDegree ≤ n + 2 := by
        rw [mul_assoc]
        refine (natDegree_C_mul_le _ _).trans ((natDegree_mul_le).trans ?_)
        rw [natDegree_X]; omega
      have h4 : ((C (((n : ℝ) + 1) / (n + 2)) * legP n : Polynomial ℝ)).natDegree ≤ n :=
        (natDegree_C_mul_le _ _).trans h2
      constructor
      · rw [legP]
        exact (natDegree_sub_le _ _).trans (max_le h3 (by omega))
      · rw [legP, coeff_sub, coeff_eq_zero_of_natDegree_lt (lt_of_le_of_lt h4 (by omega)), sub_zero, mul_assoc, coeff_C_mul,
          show n + 2 = (n + 1) + 1 from rfl, coeff_X_mul]
        exact mul_ne_zero (by positivity) h1'

/-- Integral over `[-1,1]`. -/
noncomputable def Lint (p : Polynomial ℝ) : ℝ := ∫ x in (-1 : ℝ)..1, p.eval x

lemma poly_intervalIntegrable (p : Polynomial ℝ) (a b : ℝ) : IntervalIntegrable (fun x => p.eval x) MeasureTheory.volume a b :=
  p.differentiable.continuous.intervalIntegrable a b

lemma Lint_add (p q : Polynomial ℝ) : Lint (p + q) = Lint p + Lint q := by
  simp only [Lint, eval_add]
  exact intervalIntegral.integral_add (poly_intervalIntegrable p _ _) (poly_intervalIntegrable q _ _)

lemma Lint_C_mul (c : ℝ) (p : Polynomial ℝ) : Lint (C c * p) = c * Lint p := by
  simp only [Lint, eval_mul, eval_C]
  exact intervalIntegral.integral_const_mul _ _

lemma Lint_sub (p q : Polynomial ℝ) : Lint (p - q) = Lint p - Lint q := by
  simp only [Lint, eval_sub]
  exact intervalIntegral.integral_sub (poly_intervalIntegrable p _ _) (poly_intervalIntegrable q _ _)

lemma Lint_derivative (p : Polynomial ℝ) : Lint (derivative p) = p.eval 1 - p.eval (-1) := by
  exact intervalIntegral.integral_eq_sub_of_hasDerivAt (f := fun x => p.eval x) (f' := fun x => (derivative p).eval x)
    (fun x _ => p.hasDerivAt x) (poly_intervalIntegrable _ _ _)

lemma Lint_legP_zero : Lint (legP 0) = 2 := by
  simp [Lint, legP]; norm_num

lemma Lint_legP (n : ℕ) : Lint (legP (n + 1)) = 0 := by
  have h1 := (legP_deriv (n + 1)).1
  have h2 := (legP_deriv n).2.1
  have h : C (2 * (n : ℝ) + 3) * legP (n + 1) = derivative (legP (n + 2)) - derivative (legP n) := by
    have e : (C (2 * (n : ℝ) + 3) : Polynomial ℝ) = C (((n + 1 : ℕ) : ℝ) + 1) + C ((n : ℝ) + 1) := by
      rw [← C_add]; push_cast; ring_nf
    rw [e]
    linear_combination -h1 - h2
  have h3 := congrArg Lint h
  rw [Lint_C_mul, Lint_sub, Lint_derivative, Lint_derivative, legP_one, legP_one, legP_neg_one, legP_neg_one] at h3
  have h4 : ((-1 : ℝ) ^ (n + 2)) = (-1) ^ n := by rw [pow_add]; norm_num
  rw [h4] at h3
  have : (2 * (n : ℝ) + 3) ≠ 0 := by positivity
  have h5 : (2 * (n : ℝ) + 3) * Lint (legP (n + 1)) = 0 := by rw [h3]; ring
  exact (mul_eq_zero.mp h5).resolve_left this

/-- Multiplication by `X`. -/
lemma legP_X_mul (n : ℕ) : C (2 * (n : ℝ) + 3) * (X * legP (n + 1)) = C ((n : ℝ) + 2) * legP (n + 2) + C ((n : ℝ) + 1) * legP n := by
  rw [legP_rec]; ring

lemma legP_orth (m : ℕ) : ∀ n, m < n → Lint (legP m * legP n) = 0 := by
  induction m using Nat.strong_induction_on with
  | _ m ih =>
    intro n hmn
    match m, ih, hmn with
    | 0, _, hmn =>
      obtain ⟨k, rfl⟩ : ∃ k, n = k + 1 := ⟨n - 1, by omega⟩
      rw [show legP 0 = 1 from rfl, one_mul, Lint_legP]
    | 1, ih, hmn =>
      obtain ⟨k, rfl⟩ : ∃ k, n = k + 2 := ⟨n - 2, by omega⟩
      have h := legP_X_mul (k + 1)
      have h3 := congrArg Lint h
      rw [Lint_C_mul, Lint_add, Lint_C_mul, Lint_C_mul, Lint_legP, Lint_legP] at h3
      have hne : (2 * ((k + 1 : ℕ) : ℝ) + 3) ≠ 0 := by positivity
      rw [show legP 1 = X from rfl]
      have h5 : (2 * ((k + 1 : ℕ) : ℝ) + 3) * Lint (X * legP (k + 2)) = 0 := by rw [h3]; ring
      exact (mul_eq_zero.mp h5).resolve_left hne
    | m + 2, ih, hmn =>
      obtain ⟨k, rfl⟩ : ∃ k, n = k + 1 := ⟨n - 1, by omega⟩
      have hx := legP_X_mul k
      have h0 : Lint (legP (m + 1) * (X * legP (k + 1))) = 0 := by
        have : C (2 * (k : ℝ) + 3) * (legP (m + 1) * (X * legP (k + 1)))
            = C ((k : ℝ) + 2) * (legP (m + 1) * legP (k + 2)) + C ((k : ℝ) + 1) * (legP (m + 1) * legP k) := by
          linear_combination legP (m + 1) * hx
        have h3 := congrArg Lint this
        rw [Lint_C_mul, Lint_add, Lint_C_mul, Lint_C_mul, ih (m + 1) (by omega) (k + 2) (by omega),
          ih (m + 1) (by omega) k (by omega)] at h3
        have hne : (2 * (k : ℝ) + 3) ≠ 0 := by positivity
        have h5 : (2 * (k : ℝ) + 3) * Lint (legP (m + 1) * (X * legP (k + 1))) = 0 := by rw [h3]; ring
        exact (mul_eq_zero.mp h5).resolve_left hne
      have hr := legP_rec m
      have : C ((m : ℝ) + 2) * (legP (m + 2) * legP (k + 1)) = C (2 * (m : ℝ) + 3) * (legP (m + 1) * (X * legP (k + 1)))
          - C ((m : ℝ) + 1) * (legP m * legP (k + 1)) := by linear_combination legP (k + 1) * hr
      have h3 := congrArg Lint this
      rw [Lint_C_mul, Lint_sub, Lint_C_mul, Lint_C_mul, h0, ih m (by omega) (k + 1) (by omega)] at h3
      have hne : ((m : ℝ) + 2) ≠ 0 := by positivity
      have h5 : ((m : ℝ) + 2) * Lint (legP (m + 2) * legP (k + 1)) = 0 := by rw [h3]; ring
      exact (mul_eq_zero.mp h5).resolve_left hne

lemma legP_norm (n : ℕ) : Lint (legP n * legP n) = 2 / (2 * n + 1) := by
  induction n with
  | zero => rw [show legP 0 = 1 from rfl, one_mul, ← show legP 0 = 1 from rfl, Lint_legP_zero]; norm_num
  | succ n ih =>
    match n, ih with
    | 0, _ =>
      have h := legP_rec 0
      have h3 := congrArg Lint h
      have h4 : Lint (legP 2) = 0 := Lint_legP 1
      rw [Lint_C_mul, Lint_sub, mul_assoc, Lint_C_mul, Lint_C_mul, Lint_legP_zero] at h3
      rw [show (0 : ℕ) + 2 = 2 from rfl, h4] at h3
      rw [show legP (0 + 1) = X from rfl] at h3 ⊢
      push_cast at h3 ⊢
      linarith
    | n + 1, ih =>
      have hr := legP_rec n
      have hx := legP_X_mul (n + 1)
      have e1 : C (2 * ((n + 1 : ℕ) : ℝ) + 3) * (legP (n + 1) * (X * legP (n + 2)))
          = C (((n + 1 : ℕ) : ℝ) + 2) * (legP (n + 1) * legP (n + 3)) + C (((n + 1 : ℕ) : ℝ) + 1) * (legP (n + 1) * legP (n + 1)) := by
        linear_combination legP (n + 1) * hx
      have e2 : C ((n : ℝ) + 2) * (legP (n + 2) * legP (n + 2)) = C (2 * (n : ℝ) + 3) * (legP (n + 1) * (X * legP (n + 2)))
          - C ((n : ℝ) + 1) * (legP n * legP (n + 2)) := by linear_combination legP (n + 2) * hr
      have f1 := congrArg Lint e1
      have f2 := congrArg Lint e2
      rw [Lint_C_mul, Lint_add, Lint_C_mul, Lint_C_mul, legP_orth (n + 1) (n + 3) (by omega), ih] at f1
      rw [Lint_C_mul, Lint_sub, Lint_C_mul, Lint_C_mul, legP_orth n (n + 2) (by omega)] at f2
      push_cast at f1 f2 ⊢
      have h1 : (2 * ((n : ℝ) + 1) + 1) ≠ 0 := by positivity
      have h2 : ((n : ℝ) + 2) ≠ 0 := by positivity
      have h3 : (2 * ((n : ℝ) + 1) + 3) ≠ 0 := by positivity
      have h4 : (2 * ((n : ℝ) + 1 + 1) + 1) ≠ 0 := by positivity
      rw [eq_div_iff h4]
      have g1 : Lint (legP (n + 1) * (X * legP (n + 2))) * ((2 * ((n : ℝ) + 1) + 3)) * (2 * ((n : ℝ) + 1) + 1) = 2 * ((n : ℝ) + 2) := by
        field_simp at f1
        linear_combination f1
      have g2 : ((n : ℝ) + 2) * (Lint (legP (n + 2) * legP (n + 2)) * (2 * ((n : ℝ) + 1 + 1) + 1)) = ((n : ℝ) + 2) * 2 := by
        linear_combination (2 * ((n : ℝ) + 1 + 1) + 1) * f2 + g1
      exact mul_left_cancel₀ h2 g2

/-! ### The bound by one -/

/-- Legendre's differential equation. -/
lemma legP_ode (n : ℕ) : (1 - X ^ 2) * derivative (derivative (legP (n + 1))) = 2 * X * derivative (legP (n + 1))
    - C (((n : ℝ) + 1) * (n + 2)) * legP (n + 1) := by
  obtain ⟨_, hA, hD⟩ := legP_deriv n
  have h := congrArg derivative hD
  simp only [derivative_mul, derivative_sub, derivative_one, derivative_X_pow, derivative_C, derivative_X] at h
  have e : (C (((n : ℝ) + 1) * (n + 2)) : Polynomial ℝ) = C ((n : ℝ) + 1) * (C ((n : ℝ) + 1) + 1) := by
    rw [← C_1, ← C_add, ← C_mul]; ring_nf
  rw [e]
  have e' : (C ((2 : ℕ) : ℝ) : Polynomial ℝ) = 2 := rfl
  rw [e'] at h
  linear_combination h - C ((n : ℝ) + 1) * hA

lemma legP_abs_le (n : ℕ) (x : ℝ) (hx : |x| ≤ 1) : |(legP n).eval x| ≤ 1 := by
  match n with
  | 0 => simp [legP]
  | n + 1 =>
    obtain ⟨hx1, hx2⟩ := abs_le.mp hx
    set P := legP (n + 1) with hP
    set a : ℝ := ((n : ℝ) + 1) * (n + 2) with ha
    have ha0 : 0 < a := by positivity
    set g : Polynomial ℝ := C a * P ^ 2 + (1 - X ^ 2) * derivative P ^ 2 with hg
    have hgd : derivative g = 2 * X * derivative P ^ 2 := by
      have hode := legP_ode n
      rw [← hP, ← ha] at hode
      simp only [hg, derivative_add, derivative_mul, derivative_C, derivative_sub, derivative_one, derivative_X_pow, pow_two, derivative_X]
      linear_combination 2 * derivative P * hode
    have hg1 : g.eval 1 = a := by simp [hg, hP, legP_one]
    have hgm1 : g.eval (-1) = a := by
      simp only [hg, eval_add, eval_mul, eval_C, eval_pow, eval_sub, eval_one, eval_X, hP, legP_neg_one]
      have : ((-1 : ℝ) ^ (n + 1)) ^ 2 = 1 := by rw [← pow_mul, mul_comm, pow_mul]; norm_num
      rw [this]; ring
    have hle : g.eval x ≤ a := by
      rcases le_total 0 x with h0 | h0
      · have : MonotoneOn (fun x => g.eval x) (Set.Icc 0 1) := by
          apply monotoneOn_of_deriv_nonneg (convex_Icc _ _) g.differentiable.continuous.continuousOn g.differentiable.differentiableOn
          intro y hy
          rw [interior_Icc] at hy
          rw [Polynomial.deriv, hgd]
          simp only [eval_mul, eval_pow, eval_X, eval_ofNat]
          have := hy.1
          positivity
        have := this ⟨h0, hx2⟩ ⟨zero_le_one, le_refl _⟩ hx2
        simpa [hg1] using this
      · have : AntitoneOn (fun x => g.eval x) (Set.Icc (-1) 0) := by
          apply antitoneOn_of_deriv_nonpos (convex_Icc _ _) g.differentiable.continuous.continuousOn g.differentiable.differentiableOn
          intro y hy
          rw [interior_Icc] at hy
          rw [Polynomial.deriv, hgd]
          simp only [eval_mul, eval_pow, eval_X, eval_ofNat]
          have := hy.2
          nlinarith [sq_nonneg (eval y (derivative P))]
        have := this ⟨le_refl _, by norm_num⟩ ⟨hx1, h0⟩ hx1
        simpa [hgm1] using this
    have h2 : a * (P.eval x) ^ 2 ≤ a := by
      have : g.eval x = a * (P.eval x) ^ 2 + (1 - x ^ 2) * (derivative P).eval x ^ 2 := by simp [hg]
      have h3 : 0 ≤ (1 - x ^ 2) * (derivative P).eval x ^ 2 := by
        apply mul_nonneg _ (sq_nonneg _)
        nlinarith
      linarith
    have h3 : (P.eval x) ^ 2 ≤ 1 := by
      by_contra h
      push Not at h
      nlinarith
    rw [← sq_abs] at h3
    have h4 := abs_nonneg (P.eval x)
    nlinarith

/-! ### Expansions -/

/-- Every polynomial of degree below `M` is a combination of the first `M` Legendre polynomials. -/
lemma legP_expand (M : ℕ) : ∀ p : Polynomial ℝ, p.degree < M → ∃ c : ℕ → ℝ, p = ∑ k ∈ range M, C (c k) * legP k := by
  induction M with
  | zero =>
    intro p hp
    refine ⟨fun _ => 0, ?_⟩
    have : p = 0 := by
      rw [← degree_eq_bot]
      exact Nat.WithBot.lt_zero_iff.mp hp
    simp [this]
  | succ M ih =>
    intro p hp
    obtain ⟨h1, h2⟩ := legP_degree M
    set q := p - C (p.coeff M / (legP M).coeff M) * legP M with hq
    have hqd : q.degree < M := by
      rw [degree_lt_iff_coeff_zero]
      intro k hk
      rw [hq, coeff_sub, coeff_C_mul]
      rcases hk.lt_or_eq with hlt | heq
      · rw [coeff_eq_zero_of_degree_lt (lt_of_lt_of_le hp (by exact_mod_cast hlt)),
          coeff_eq_zero_of_natDegree_lt (lt_of_le_of_lt h1 hlt)]
        ring
      · rw [← heq]; field_simp; ring
    obtain ⟨c, hc⟩ := ih q hqd
    refine ⟨fun k => if k = M then p.coeff M / (legP M).coeff M else c k, ?_⟩
    simp only [sum_range_succ, if_true]
    have : ∑ k ∈ range M, C (if k = M then p.coeff M / (legP M).coeff M else c k) * legP k = q := by
      rw [hc]
      apply sum_congr rfl
      intro k hk
      rw [if_neg (by have := mem_range.mp hk; omega)]
    rw [this, hq]
    ring

lemma Lint_sum {ι : Type} (s : Finset ι) (f : ι → Polynomial ℝ) : Lint (∑ i ∈ s, f i) = ∑ i ∈ s, Lint (f i) := by
  classical
  induction s using Finset.induction_on with
  | empty => simp [Lint]
  | insert a s ha ih => rw [sum_insert ha, sum_insert ha, Lint_add, ih]

lemma Lint_nonneg (p : Polynomial ℝ) : 0 ≤ Lint (p * p) := by
  apply intervalIntegral.integral_nonneg (by norm_num)
  intro x _
  rw [eval_mul]
  exact mul_self_nonneg _

/-- Sup-norm against `L²`-norm: `|p(x)|² ≤ M²/2 ∫ p²`. -/
lemma sup_le_L2 (M : ℕ) (p : Polynomial ℝ) (hp : p.degree < M) (x : ℝ) (hx : |x| ≤ 1) :
    (p.eval x) ^ 2 ≤ (M : ℝ) ^ 2 / 2 * Lint (p * p) := by
  obtain ⟨c, hc⟩ := legP_expand M p hp
  have hL : Lint (p * p) = ∑ k ∈ range M, c k ^ 2 * (2 / (2 * k + 1)) := by
    rw [hc, sum_mul_sum, Lint_sum]
    apply sum_congr rfl
    intro k hk
    rw [Lint_sum, sum_eq_single k]
    · rw [show C (c k) * legP k * (C (c k) * legP k) = C (c k * c k) * (legP k * legP k) by rw [C_mul]; ring, Lint_C_mul, legP_norm]
      ring
    · intro j _ hj
      rw [show C (c k) * legP k * (C (c j) * legP j) = C (c k * c j) * (legP k * legP j) by rw [C_mul]; ring, Lint_C_mul]
      rcases lt_or_gt_of_ne hj with h | h
      · rw [mul_comm (legP k), legP_orth j k h, mul_zero]
      · rw [legP_orth k j h, mul_zero]
    · intro h; exact absurd hk h
  have hev : p.eval x = ∑ k ∈ range M, (c k * √(2 / (2 * k + 1))) * (√((2 * k + 1) / 2) * (legP k).eval x) := by
    rw [hc, eval_finset_sum]
    apply sum_congr rfl
    intro k _
    rw [eval_mul, eval_C]
    have : √(2 / (2 * (k : ℝ) + 1)) * √((2 * (k : ℝ) + 1) / 2) = 1 := by
      rw [← Real.sqrt_mul (by positivity)]
      rw [div_mul_div_comm, mul_comm, div_self (by positivity), Real.sqrt_one]
    linear_combination -(c k * (legP k).eval x) * this
  have hcs := sum_mul_sq_le_sq_mul_sq (range M) (fun k => c k * √(2 / (2 * (k : ℝ) + 1))) (fun k => √((2 * (k : ℝ) + 1) / 2) * (legP k).eval x)
  rw [← hev] at hcs
  refine hcs.trans ?_
  have h1 : ∑ k ∈ range M, (c k * √(2 / (2 * (k : ℝ) + 1))) ^ 2 = Lint (p * p) := by
    rw [hL]
    apply sum_congr rfl
    intro k _
    rw [mul_pow, Real.sq_sqrt (by positivity)]
  have h2 : ∑ k ∈ range M, (√((2 * (k : ℝ) + 1) / 2) * (legP k).eval x) ^ 2 ≤ (M : ℝ) ^ 2 / 2 := by
    have h3 : ∀ N : ℕ, ∑ k ∈ range N, ((2 * (k : ℝ) + 1) / 2) = (N : ℝ) ^ 2 / 2 := by
      intro N
      induction N with
      | zero => simp
      | succ N ih => rw [sum_range_succ, ih]; push_cast; ring
    rw [← h3 M]
    apply sum_le_sum
    intro k _
    rw [mul_pow, Real.sq_sqrt (by positivity)]
    have := legP_abs_le k x hx
    have h4 : (legP k).eval x ^ 2 ≤ 1 := by
      rw [← sq_abs]; have := abs_nonneg ((legP k).eval x); nlinarith
    have h5 : (0 : ℝ) ≤ (2 * (k : ℝ) + 1) / 2 := by positivity
    nlinarith
  rw [h1, mul_comm]
  exact mul_le_mul_of_nonneg_right h2 (Lint_nonneg p)

end Funpy
