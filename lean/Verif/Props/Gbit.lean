import Verif.Lemmas.Gbit

/-!
# C83: the iterative linear solver `gbit`
-/

namespace Funpy.Props
open Funpy Funpy.Spec Funpy.Gbit Funpy.Newton

/-- C83: `gbit` terminates for all operators, preconditioners, inner products and options; it makes at most
`max_iter + 1` iterations, and reports failure exactly if it used at least `max_iter` of them. -/
theorem C83_terminates {V : Type} [AddCommGroup V] [Module ℝ V] (inner : V → V → ℝ) (A P : V → V) (b : V) (c : Cfg)
    (y : V) : ∃ r N, (∀ fuel, N ≤ fuel → gbit inner A P b c fuel y = .ok r) ∧ 1 ≤ r.2.2 ∧ r.2.2 ≤ c.maxIter + 1 ∧
      (r.2.1 = true ↔ r.2.2 < c.maxIter) := by
  obtain ⟨r, h1, h2, h3, h4, h5⟩ := outerLoop_term inner A P b c y (c.maxIter + 1) 0 y (by omega) (by omega) (by omega)
  refine ⟨r, c.maxIter + 1, fun fuel hf => ?_, h3, h2, h4, fun h => h5.resolve_left (by omega)⟩
  induction fuel, hf using Nat.le_induction with
  | base => exact h1
  | succ g _ ih => exact outerLoop_mono inner A P b c y _ _ _ _ ih

section
variable {V : Type} [NormedAddCommGroup V] [InnerProductSpace ℝ V]

/-- C83: success means that the returned point was reached by the good Broyden iteration, restarted at some `y1`, and
that its error estimate met the tolerance relative to the size of the solution (of the update, in simple mode). -/
theorem C83_success (A P : V → V) (b : V) (c : Cfg) (fuel : ℕ) (y0 : V) (r : V × Bool × ℕ)
    (h : gbit (fun x y => inner ℝ x y) A P b c fuel y0 = .ok r) (hs : r.2.1 = true) :
    ∃ y1 d t n, 1 ≤ n ∧ n ≤ c.iMax + 1 ∧ GbitSteps A P b c y1 d t n ∧ r.1 = gpath y1 d t n ∧
      (c.simple = false → gbEps d n ≤ c.rho * ‖r.1‖ * c.tol) ∧
      (c.simple = true → r.1 ≠ y0 ∧ gbEps d n ≤ c.rho * c.tol * ‖r.1 - y0‖) :=
  outerLoop_spec A P b c y0 fuel 0 y0 r h hs

/-- C83: in that iteration, unless a curvature `⟨d, H A d⟩` vanishes, every direction is the residual multiplied by the
current Broyden preconditioner, `d_i = H_i (b - A y_i)`, and the preconditioners satisfy the secant condition
`H_{i+1} A d_i = d_i`. -/
theorem C83_broyden (A P : V →ₗ[ℝ] V) (b : V) (c : Cfg) (y : V) (d : ℕ → V) (t : ℕ → ℝ) (n : ℕ)
    (h : GbitSteps A P b c y d t n) (hne : ∀ i < n, inner ℝ (d i) (gbH P d t i (A (d i))) ≠ 0) :
    (∀ i ≤ n, d i = gbH P d t i (b - A (gpath y d t i))) ∧ (∀ i < n, gbH P d t (i + 1) (A (d i)) = d i) :=
  gbit_broyden h hne

/-- The first pass through the inner loop with an exact preconditioner. -/
theorem gbit_exact_first (A P : V →ₗ[ℝ] V) (b : V) (c : Cfg) (y0 y xs : V) (iter : ℕ) (hPA : ∀ x, P (A x) = x) (hx : A xs = b)
    (hmin : c.tauMin ≤ 1) (hmax : 1 ≤ c.tauMax) (hit : iter ≤ c.maxIter) :
    innerLoop (fun x y : V => inner ℝ x y) A P c y0 0 iter y [P (b - A y)]
      [inner ℝ (P (b - A y)) (P (b - A y))] [] =
      if stopTest (fun x y : V => inner ℝ x y) c y0 xs 0 then (xs, iter + 1, true)
      else if c.epsLimit < 0 then (xs, iter + 1, false)
      else innerLoop (fun x y : V => inner ℝ x y) A P c y0 1 (iter + 1) xs [xs - y, 0] [‖xs - y‖ ^ 2, 0] [1] := by
  have hd : P (b - A y) = xs - y := by rw [← hx, ← map_sub, hPA]
  rw [hd, innerLoop, dif_pos ⟨Nat.zero_le _, hit⟩]
  have hup : update (fun x y : V => inner ℝ x y) [xs - y] [inner ℝ (xs - y) (xs - y)] [] 0
      (P (A ([xs - y].getD 0 0))) = xs - y := by
    simp [update, hPA]
  simp only [hup]
  simp only [List.getD_cons_zero]
  have htau : ∀ v : V, tOf c (tauOf c (inner ℝ v v) (inner ℝ v v)) = 1 ∧
      (1 - (1:ℝ) + tauOf c (inner ℝ v v) (inner ℝ v v)) • v - tauOf c (inner ℝ v v) (inner ℝ v v) • v = 0 := by
    intro v
    refine ⟨?_, by rw [sub_self, zero_add, sub_self]⟩
    unfold tauOf tOf
    by_cases h0 : (inner ℝ v v : ℝ) = 0
    · rw [if_pos h0, if_neg (by linarith), if_neg (by linarith)]
    · rw [if_neg h0, div_self h0, if_neg (by linarith), if_pos hmax]
  rw [if_neg (by omega), (htau (xs - y)).1, (htau (xs - y)).2, one_smul, inner_zero_left]
  have hy : y + (xs - y) = xs := by abel
  have he : epsilon ([inner ℝ (xs - y) (xs - y)] ++ [(0:ℝ)]) 0 = 0 := by simp [epsilon]
  rw [hy, he, real_inner_self_eq_norm_sq]
  rfl

/-- C83: with an exact preconditioner (`P A = 1`) and non-negative tolerances `gbit` returns the exact solution after a
single iteration. -/
theorem C83_exact_precond (A P : V →ₗ[ℝ] V) (b : V) (c : Cfg) (fuel : ℕ) (y0 xs : V) (hPA : ∀ x, P (A x) = x)
    (hx : A xs = b) (hmin : c.tauMin ≤ 1) (hmax : 1 ≤ c.tauMax) (hrho : 0 ≤ c.rho) (htol : 0 ≤ c.tol)
    (hne : c.simple = true → y0 ≠ xs) :
    gbit (fun x y => inner ℝ x y) A P b c (fuel + 1) y0 = .ok (xs, decide (1 < c.maxIter), 1) := by
  have hst : stopTest (fun x y : V => inner ℝ x y) c y0 xs 0 = true := by
    unfold stopTest
    cases hs : c.simple with
    | false =>
      simp only [Bool.false_eq_true, if_false, decide_eq_true_eq]
      rw [nrm_ip]; positivity
    | true =>
      simp only [if_true]
      have h0 : ¬ nrm (fun x y : V => inner ℝ x y) (xs - y0) = 0 := by
        rw [nrm_ip, norm_eq_zero, sub_eq_zero]; exact fun h => hne hs h.symm
      rw [if_neg h0]
      simp only [zero_div, decide_eq_true_eq]; positivity
  rw [gbit, outerLoop, gbit_exact_first A P b c y0 y0 xs 0 hPA hx hmin hmax (Nat.zero_le _)]
  simp only [hst, if_true, true_or, Bool.true_and, zero_add]

end

/-- Non-vacuity: `A = 2`, `P = 1/2` on the line. -/
example : gbit (fun x y : ℝ => inner ℝ x y) (2 • LinearMap.id : ℝ →ₗ[ℝ] ℝ) ((1 / 2 : ℝ) • LinearMap.id : ℝ →ₗ[ℝ] ℝ) 6
    ⟨2000, 10, 1 / 1000, 1 / 100, false, 1 / 100000000, 100, 10 ^ 20⟩ 1 0 = .ok (3, true, 1) := by
  have := C83_exact_precond (2 • LinearMap.id : ℝ →ₗ[ℝ] ℝ) ((1 / 2 : ℝ) • LinearMap.id : ℝ →ₗ[ℝ] ℝ) 6
    ⟨2000, 10, 1 / 1000, 1 / 100, false, 1 / 100000000, 100, 10 ^ 20⟩ 0 0 3 (by intro x; simp)
    (by norm_num) (by norm_num) (by norm_num) (by norm_num) (by norm_num) (by simp)
  simpa using this

section
variable {V : Type} [NormedAddCommGroup V] [InnerProductSpace ℝ V]

theorem foldl_zero (f : V → ℕ → V) (hf : ∀ m, f 0 m = 0) (l : List ℕ) : l.foldl f 0 = 0 := by
  induction l with
  | nil => rfl
  | cons m l ih => rw [List.foldl_cons, hf, ih]

theorem innerLoop_zero (A P : V →ₗ[ℝ] V) (c : Cfg) (y0 : V) (hs : c.simple = true) (i iter : ℕ) (ds : List V)
    (sg ts : List ℝ) (hz : ∀ j, ds.getD j 0 = 0) (hl : ds.length = i + 1) :
    (innerLoop (fun x y : V => inner ℝ x y) A P c y0 i iter y0 ds sg ts).1 = y0 ∧
      (innerLoop (fun x y : V => inner ℝ x y) A P c y0 i iter y0 ds sg ts).2.2 = false := by
  induction' hm : c.maxIter + 1 - iter using Nat.strong_induction_on with m ih generalizing i iter ds sg ts
  rw [innerLoop]
  split
  swap
  · exact ⟨rfl, rfl⟩
  rename_i hc
  have hup : update (fun x y : V => inner ℝ x y) ds sg ts i (P (A (ds.getD i 0))) = 0 := by
    rw [hz, map_zero, map_zero, update]
    exact foldl_zero _ (fun m => by rw [hz, hz]; simp) _
  have hst : ∀ e, stopTest (fun x y : V => inner ℝ x y) c y0 y0 e = false := by
    intro e
    rw [stopTest, hs, if_pos rfl, if_pos (by rw [nrm_ip]; simp)]
  simp only [hup]
  simp only [hz, smul_zero, sub_zero, add_zero, hst]
  split
  · exact ⟨rfl, rfl⟩
  simp only [Bool.false_eq_true, if_false]
  split
  · exact ⟨rfl, rfl⟩
  exact ih _ (by omega) _ _ _ _ _ (fun j => by
    rcases Nat.lt_or_ge j ds.length with h | h
    · rw [List.getD_append _ _ _ _ h]; exact hz j
    · rw [List.getD_append_right _ _ _ _ h]
      cases j - ds.length with
      | zero => rfl
      | succ n => rfl) (by simp [hl]) rfl

/-- C83 fails in simple mode for an exact initial guess: the stopping test needs a non-zero update, so `gbit` started at
the solution reports failure. (In the program the following steps even produce `nan`.) -/
theorem C83_simple_fails (A P : V →ₗ[ℝ] V) (b : V) (c : Cfg) (hs : c.simple = true) (fuel : ℕ) (y0 : V) (hy : A y0 = b)
    (r : V × Bool × ℕ) (h : gbit (fun x y => inner ℝ x y) A P b c fuel y0 = .ok r) : r.2.1 = false := by
  rw [gbit] at h
  generalize 0 = iter at h
  induction fuel generalizing iter with
  | zero => simp [outerLoop] at h
  | succ fuel ih =>
    rw [outerLoop] at h
    have h0 : P (b - A y0) = 0 := by rw [hy, sub_self, map_zero]
    rw [h0] at h
    obtain ⟨h1, h2⟩ := innerLoop_zero A P c y0 hs 0 iter [0] [inner ℝ (0:V) 0] []
      (fun j => by cases j with | zero => rfl | succ n => rfl) rfl
    simp only [h1, h2] at h
    split at h
    · cases h; rfl
    · exact ih _ h

end

end Funpy.Props
