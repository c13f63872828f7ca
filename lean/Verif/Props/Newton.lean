import Verif.Lemmas.Newton2
import Verif.Lemmas.NewtonQn
import Mathlib.Tactic.NormNum

/-!
# C52, C81, C82: the Newton drivers
-/

namespace Funpy.Props
open Funpy Funpy.Spec Funpy.Newton

variable {X R : Type} [AddCommGroup X] [Module ℝ X] [AddCommGroup R]

/-! ### newton_standard -/

/-- C52: `newton_standard` returns an iterate of Newton's method; the step count is at most `miter`, equals the number
of linearisations and of the iterate; success is reported exactly when the last correction met the tolerance, and no
earlier correction did. -/
theorem C52_standard (P : Problem X R) (inner : X → X → ℝ) (cb : ℕ → X → ℝ → ℝ → Bool) (tol : ℝ) (debug : Bool)
    (miter : ℕ) (x : X) (r : Result X) (h : newtonStandard P inner cb tol debug miter x = .ok r) :
    r.k ≤ miter ∧ r.neval = r.k ∧ r.x = newtonIter P x r.k ∧
      (r.success = true ↔ 0 < r.k ∧ Real.sqrt (inner (newtonCorr P x (r.k - 1)) (newtonCorr P x (r.k - 1))) ≤ tol) ∧
      (∀ j, j + 1 < r.k → tol < Real.sqrt (inner (newtonCorr P x j) (newtonCorr P x j))) := by
  obtain ⟨_, a2, a3, a4, a5, a6, _, _⟩ := standardLoop_spec P inner cb tol debug miter x 0 0 none r (Nat.zero_le _)
    (by simp) h
  exact ⟨a2, a3, a4, a6, fun j hj => not_le.mp (a5 j hj)⟩

/-- C52: if the linear solver always succeeds and no callback interferes, `newton_standard` returns, and it reports
success exactly if one of the first `miter` Newton corrections meets the tolerance; it stops at the first of them. -/
theorem C52_standard_complete (P : Problem X R) (inner : X → X → ℝ) (cb : ℕ → X → ℝ → ℝ → Bool) (tol : ℝ)
    (miter : ℕ) (x : X) (hs : ∀ x b, (P.solve x b).2 = true) (hcb : ∀ k d n t, cb k d n t = true) :
    ∃ r, newtonStandard P inner cb tol false miter x = .ok r ∧
      (r.success = true ↔ ∃ j < miter, Real.sqrt (inner (newtonCorr P x j) (newtonCorr P x j)) ≤ tol) := by
  obtain ⟨r, hr⟩ := standardLoop_ok P inner cb tol miter x 0 0 0 none hs
  refine ⟨r, hr, ?_⟩
  obtain ⟨_, a2, _, _, a5, a6, _, a8⟩ := standardLoop_spec P inner cb tol false miter x 0 0 none r (Nat.zero_le _)
    (by simp) hr
  constructor
  · intro h
    obtain ⟨h0, h1⟩ := a6.mp h
    exact ⟨r.k - 1, by omega, h1⟩
  · rintro ⟨j, hj, hle⟩
    by_contra hns
    have hf : r.success = false := by simpa using hns
    have hk : r.k = miter := by
      by_contra hne
      obtain ⟨nd, hc, _⟩ := a8 hf (by omega)
      rw [hcb] at hc; cases hc
    rcases Nat.lt_or_ge (j + 1) r.k with h1 | h1
    · exact a5 j h1 hle
    · have : j = r.k - 1 := by omega
      rw [this] at hle
      exact hns (a6.mpr ⟨by omega, hle⟩)

/-- Non-vacuity: the scalar problem `x - 1 = 0` with its exact solver, started at `0`: one full step, one zero step. -/
example : ∃ r, newtonStandard (X := ℝ) (R := ℝ) ⟨fun x => x - 1, fun _ b => (b, true)⟩ (fun x y => x * y)
    (fun _ _ _ _ => true) (1 / 2) false 5 0 = .ok r ∧ r.success = true := by
  obtain ⟨r, h, hs⟩ := C52_standard_complete (X := ℝ) (R := ℝ) ⟨fun x => x - 1, fun _ b => (b, true)⟩ (fun x y => x * y)
    (fun _ _ _ _ => true) (1 / 2) 5 0 (by simp) (by simp)
  refine ⟨r, h, hs.mpr ⟨1, by norm_num, ?_⟩⟩
  simp [newtonCorr, newtonIter]

/-- C52 fails for failing linear solvers: instead of reporting `success = False`, `newton_standard` raises `NameError`
(its module does not import `warnings`); so does an unsuccessful run with `debug=True`. -/
theorem C52_standard_fails (P : Problem X R) (inner : X → X → ℝ) (cb : ℕ → X → ℝ → ℝ → Bool) (tol : ℝ)
    (debug : Bool) (miter : ℕ) (x : X) :
    (0 < miter → (P.solve x (-P.F x)).2 = false →
      newtonStandard P inner cb tol debug miter x = .error .nameError) ∧
    newtonStandard P inner cb tol true 0 x = .error .nameError := by
  constructor
  · intro hm hs
    rw [newtonStandard, standardLoop, dif_neg (by omega)]
    simp [hs]
  · rw [newtonStandard, standardLoop, dif_pos (by omega)]
    rfl

/-! ### qnerr -/

/-- C52: `qnerr` as called by `nleq_err` makes at most `miter + 1` steps, and reports success only if the last added
correction met the tolerance. -/
theorem C52_qnerr_called (P : Problem X R) (inner : X → X → ℝ) (cb : ℕ → X → ℝ → ℝ → Bool) (tol thetaMax : ℝ)
    (itr miter : ℕ) (x0 x dx0 : X) (htol : 0 ≤ tol) :
    (qnerrCalled P inner cb tol thetaMax itr miter x0 x dx0).k ≤ miter + 1 ∧
    ((qnerrCalled P inner cb tol thetaMax itr miter x0 x dx0).success = true →
      ∃ y d, (qnerrCalled P inner cb tol thetaMax itr miter x0 x dx0).x = y + d ∧ Real.sqrt (inner d d) ≤ tol) := by
  obtain ⟨_, b, _, _⟩ := qnerrLoop_k P inner cb tol thetaMax itr miter x0 0 0 true x [dx0] [nrm inner dx0 ^ 2]
    (nrm inner dx0) (by omega) _ rfl
  refine ⟨b, fun hs => ?_⟩
  obtain ⟨y, d, σ, h1, h2, _, h3⟩ := qnerrLoop_success P inner cb tol thetaMax itr miter x0 0 0 true x [dx0]
    [nrm inner dx0 ^ 2] (nrm inner dx0) _ rfl rfl rfl hs
  refine ⟨y, d, h1, ?_⟩
  rcases h3 with h3 | h3 | h3
  · simp at h3
  · rw [← h3]
    calc Real.sqrt σ ≤ Real.sqrt (tol * tol) := Real.sqrt_le_sqrt h2
      _ = tol := Real.sqrt_mul_self htol
  · simp at h3

/-- C52: stand-alone `qnerr` with a tolerance of at most one. -/
theorem C52_qnerr_alone (P : Problem X R) (inner : X → X → ℝ) (cb : ℕ → X → ℝ → ℝ → Bool) (tol thetaMax : ℝ)
    (itr miter : ℕ) (x : X) (r : Result X) (htol : 0 ≤ tol) (htol1 : tol ≤ 1)
    (h : qnerrAlone P inner cb tol thetaMax itr miter x = .ok r) :
    r.k ≤ miter + 1 ∧ (r.success = true → ∃ y d, r.x = y + d ∧ Real.sqrt (inner d d) ≤ tol) := by
  rw [qnerrAlone] at h
  split at h
  · cases h
  split at h
  · cases h
  have h' := Except.ok.inj h
  obtain ⟨_, b, _, _⟩ := qnerrLoop_k P inner cb tol thetaMax itr miter x 1 0 false x _ _ _ (by omega) _ h'
  refine ⟨b, fun hs => ?_⟩
  obtain ⟨y, d, σ, h1, h2, _, h3⟩ := qnerrLoop_success P inner cb tol thetaMax itr miter x 1 0 false x _ _ _ _ h'
    rfl rfl hs
  refine ⟨y, d, h1, ?_⟩
  rcases h3 with h3 | h3 | h3
  · obtain ⟨_, _, hd, hσ, _, _⟩ := h3
    simp only [List.getD_cons_zero] at hd hσ
    rw [hσ] at h2
    rw [hd]
    exact h2.trans (by nlinarith)
  · rw [← h3]
    calc Real.sqrt σ ≤ Real.sqrt (tol * tol) := Real.sqrt_le_sqrt h2
      _ = tol := Real.sqrt_mul_self htol
  · simp at h3

/-- C52 fails for stand-alone `qnerr` with larger tolerances: the first step is compared with `tol²`, so with
`tol = 2` a first correction of size `3` counts as converged. -/
theorem C52_qnerr_alone_fails : ∃ r, qnerrAlone (X := ℝ) (R := ℝ) ⟨fun _ => -3, fun _ b => (b, true)⟩
    (fun x y => x * y) (fun _ _ _ _ => true) 2 (1 / 2) 0 25 0 = .ok r ∧ r.success = true ∧ r.k = 1 ∧ r.x = 3 := by
  refine ⟨⟨3, true, 1, 3, 1, some 0⟩, ?_, rfl, rfl, rfl⟩
  have h3 : nrm (fun x y : ℝ => x * y) 3 = 3 := by
    rw [nrm, Real.sqrt_mul_self (by norm_num)]
  rw [qnerrAlone]
  simp only [neg_neg]
  simp only [Bool.true_eq_false, if_false, h3]
  rw [qnerrLoop, dif_neg (by omega)]
  simp only [Bool.false_eq_true, if_false, List.getD_cons_zero, true_and]
  rw [if_pos (by norm_num)]
  norm_num

/-- C52 fails for stand-alone `qnerr` when the first linear solve or the first callback fails: the caller, unpacking
six values, gets a `ValueError`. -/
theorem C52_qnerr_tuple_fails (P : Problem X R) (inner : X → X → ℝ) (cb : ℕ → X → ℝ → ℝ → Bool) (tol thetaMax : ℝ)
    (itr miter : ℕ) (x : X) (h : (P.solve x (-P.F x)).2 = false) :
    qnerrAlone P inner cb tol thetaMax itr miter x = .error .valueError := by
  rw [qnerrAlone]; simp [h]

/-! ### nleq_err -/

/-- C52: `nleq_err` reports success only if the returned point is a point `y` plus a correction that the linear solver
returned for the residual of `y` and that met the tolerance, and only within `miter` steps. Unsuccessful runs make at
most `miter + 2` steps, at most `miter` without quasi-Newton steps. -/
theorem C52_nleq (P : Problem X R) (inner : X → X → ℝ) (cb : ℕ → X → ℝ → ℝ → Bool) (c : NleqCfg)
    (fuel : ℕ) (lam : ℝ) (x : X) (r : Result X) (h : nleqErr P inner cb c fuel lam x = .ok r) :
    (r.success = true → HonestSuccess P inner c.tol r ∧ 0 < r.k ∧ r.k ≤ c.miter) ∧
    r.k ≤ c.miter + 2 ∧ (c.useQnerr = false → r.k ≤ c.miter) ∧ r.neval ≤ r.k + 1 := by
  obtain ⟨_, a2, a3, _, a5, a6⟩ := nleqLoop_spec P inner cb c fuel 0 0 x none 0 lam false 0 none r (by omega) (by simp) h
  exact ⟨a3, a2, fun hq => a6 hq (Nat.zero_le _), a5 le_rfl⟩

/-- C52: `nleq_err` terminates for every behaviour of residual, linear solver, inner product and callback, provided
the minimal damping factor is positive. -/
theorem C52_nleq_terminates (P : Problem X R) (inner : X → X → ℝ) (cb : ℕ → X → ℝ → ℝ → Bool) (c : NleqCfg)
    (hmin : 0 < c.lamMin) (lam : ℝ) (x : X) :
    ∃ r N, ∀ fuel, N ≤ fuel → nleqErr P inner cb c fuel lam x = .ok r :=
  nleqErr_terminates P inner cb c hmin lam x

theorem nrm_mul (d : ℝ) : nrm (fun x y : ℝ => x * y) d = |d| := by
  rw [nrm, Real.sqrt_mul_self_eq_abs]

/-- The approximate scalar problem used in the counterexample. -/
noncomputable def exNewton : Problem ℝ ℝ := ⟨fun x => x, fun _ b => (9 / 10 * b, true)⟩

noncomputable def exNewtonCfg : NleqCfg := ⟨1 / 1000, 1 / 2, true, true, 1 / 10000, 1⟩

theorem exNewton_damp : damp exNewton (fun x y => x * y) exNewtonCfg 1 (-9 / 10) 1 1 false false =
    .ok (.accept (1 / 10) (1 / 10) (-9 / 100) (1 / 10) 1 true) := by
  rw [damp, if_neg (by norm_num [exNewtonCfg])]
  simp only [exNewton, exNewtonCfg, nrm_mul]
  norm_num [minQuot, abs_of_neg, abs_of_pos]

theorem exNewton_qn : qnerrCalled exNewton (fun x y => x * y) (fun _ _ _ _ => true) (1 / 1000) (1 / 2) 1 1 1 (1 / 10) (-9 / 10) =
    ⟨0, false, 2, 0, 0, some 1⟩ := by
  rw [qnerrCalled]
  simp only [nrm_mul]
  rw [qnerrLoop, dif_neg (by norm_num)]
  have h1 : Real.sqrt (1 / 100) = 1 / 10 := by
    rw [show (1 / 100 : ℝ) = (1 / 10) * (1 / 10) by norm_num, Real.sqrt_mul_self (by norm_num)]
  norm_num [exNewton, qnUpdate, h1, abs_of_neg]
  rw [qnerrLoop, dif_neg (by norm_num)]
  norm_num [exNewton, qnUpdate, h1, abs_of_neg]
  rw [qnerrLoop, dif_pos (by norm_num)]

/-- C52: the bound `miter` itself can be exceeded: a linear scalar problem with an approximate solver and `miter = 1`
reports three steps (two of them quasi-Newton steps). -/
theorem C52_nleq_count_fails : ∃ r, nleqErr exNewton (fun x y => x * y) (fun _ _ _ _ => true) exNewtonCfg 1 1 1 = .ok r ∧
      exNewtonCfg.miter = 1 ∧ r.k = 3 ∧ r.success = false ∧ r.x = 0 := by
  refine ⟨⟨0, false, 3, 0, 1, some 1⟩, ?_, rfl, rfl, rfl, rfl⟩
  have hdx : exNewton.solve 1 (-curRes exNewton.F none 1 0) = (-9 / 10, true) := by
    norm_num [exNewton, curRes]
  rw [nleqErr, nleqLoop, dif_neg (by norm_num [exNewtonCfg])]
  simp only [hdx]
  rw [if_neg (by simp), if_neg (by rw [nrm_mul]; norm_num [exNewtonCfg, abs_of_neg]), lamStart, exNewton_damp]
  simp only []
  rw [if_neg (by simp), if_pos (by simp [exNewtonCfg])]
  have : qnerrCalled exNewton (fun x y => x * y) (fun _ _ _ _ => true) exNewtonCfg.tol exNewtonCfg.thetaMax (0 + 1)
      (exNewtonCfg.miter - (0 + 1) + 1) 1 (1 / 10) (-9 / 10) = ⟨0, false, 2, 0, 0, some 1⟩ := exNewton_qn
  rw [this, nleqLoop, dif_pos (by simp [exNewtonCfg])]
  norm_num

/-! ### giant_gbit -/

/-- C52, positive part for `giant_gbit`: at most `max_iter + 1` steps and linearisations; success is only reported if a
correction within the tolerance was added to the last iterate - either the Newton correction of that iterate, or the
simplified correction that the linear solver returned for the residual of the *trial point* `y + d`. -/
theorem C52_giant_partial (P : InexactProblem X R) (inner : X → X → ℝ) (c : GiantCfg) (fuel : ℕ) (lam : ℝ) (x : X)
    (r : Result X) (h : giantGbit P inner c fuel lam x = .ok r) :
    r.k ≤ c.maxIter + 1 ∧ r.neval ≤ c.maxIter + 1 ∧
      (r.success = true → 0 < r.k ∧ ∃ y e, r.x = y + e ∧ Real.sqrt (inner e e) ≤ c.xtol ∧
        ((∃ t u, P.lin y (-P.F y) u t false = (e, true)) ∨
         (∃ d t u, P.lin y (-P.F (y + d)) u t true = (e, true) ∧ c.xtol < Real.sqrt (inner d d) ∧
           ∃ t' u', P.lin y (-P.F y) u' t' false = (d, true)))) := by
  obtain ⟨_, a2, a3, a4⟩ := giantLoop_spec P inner c fuel 0 0 x none 0 0 lam 0 r (by omega) (by simp) h
  refine ⟨a2, by omega, fun hs => ?_⟩
  obtain ⟨b1, b2⟩ := a4 hs
  refine ⟨b1, ?_⟩
  rcases b2 with ⟨y, t, u, h1, h2⟩ | ⟨y, d, t, u, h1, h2, h3, h4⟩
  · exact ⟨y, r.x - y, by abel, h2, Or.inl ⟨t, u, h1⟩⟩
  · exact ⟨y, r.x - y, by abel, h2, Or.inr ⟨d, t, u, h1, h3, h4⟩⟩

/-- C52: `giant_gbit` terminates for every behaviour of residual, linear solver and inner product. -/
theorem C52_giant_terminates (P : InexactProblem X R) (inner : X → X → ℝ) (c : GiantCfg) (hmin : 0 < c.lamMin)
    (lam : ℝ) (x : X) : ∃ r N, ∀ fuel, N ≤ fuel → giantGbit P inner c fuel lam x = .ok r :=
  giant_terminates P inner c hmin lam x

/-- A scalar problem with a root near `1` and the exact inverse `1` of its linearisation at `0`. -/
noncomputable def exGiant : InexactProblem ℝ ℝ := ⟨fun x => if x = 1 then -1 / 100 else x - 1, fun _ b _ _ _ => (b, true)⟩

noncomputable def exGiantCfg : GiantCfg := ⟨1 / 100, 50, true, false, 1 / 10, 1 / 10000, 0, 1 / 1000⟩

/-- C52 fails for `giant_gbit`: when the simplified correction at the trial point `y + d` meets the tolerance, it is
added to the old iterate `y` and the full step `d` is lost. Here the run from `0` reports success with `x = 1/100`,
whose residual is `-99/100`, although the full step leads to a point with residual `-1/100`. -/
theorem C52_giant_fails : ∃ r, giantGbit exGiant (fun x y => x * y) exGiantCfg 1 1 0 = .ok r ∧ r.success = true ∧
    r.x = 1 / 100 ∧ exGiant.F r.x = -99 / 100 ∧ ¬ ∃ y s d t u b, exGiant.lin s (-exGiant.F y) u t b = (d, true) ∧ r.x = y + d ∧
      |d| ≤ exGiantCfg.xtol := by
  refine ⟨⟨1 / 100, true, 1, 0, 1, some 0⟩, ?_, rfl, rfl, by norm_num [exGiant], ?_⟩
  · have hd : gdamp exGiant (fun x y => x * y) exGiantCfg 0 1 1 1 false = .ok (.converged (1 / 100)) := by
      rw [gdamp, if_neg (by norm_num [exGiantCfg])]
      simp only [exGiant, exGiantCfg, nrm_mul]
      norm_num [minInv, abs_of_pos]
    rw [giantGbit, giantLoop, dif_neg (by norm_num [exGiantCfg])]
    have hl : ∀ u t b, exGiant.lin 0 (-curRes exGiant.F none 0 0) u t b = (1, true) := by
      intro u t b; norm_num [exGiant, curRes]
    simp only [hl]
    simp only [Option.isSome_none, Bool.false_eq_true, and_false, if_false, Bool.true_eq_false]
    rw [if_neg (by rw [nrm_mul]; norm_num [exGiantCfg]), glamStart, hd]
    norm_num
  · rintro ⟨y, s, d, t, u, b, h1, h2, h3⟩
    simp only [exGiant, exGiantCfg, Prod.mk.injEq, and_true] at h1 h2 h3
    split_ifs at h1 with hy
    · subst hy; rw [← h1] at h2; norm_num at h2
    · rw [← h1] at h2; ring_nf at h2; norm_num at h2

/-! ### C81: the quasi-Newton steps -/

section qn
variable {X R : Type} [NormedAddCommGroup X] [InnerProductSpace ℝ X] [AddCommGroup R]

/-- C81: `qnerr` called after a full Newton step `d₀ = S(-F(x₀))` (`S` the linear solver set up at `x₀`) returns
`x₀ + d₀ + … + d_{n-1}`, where every `d_i` is the quasi-Newton step `-H_i F(x_i)` for Broyden's rank-one updates
`H_i` of `S`, these satisfy the secant condition `H_{i+1}(F(x_{i+1}) - F(x_i)) = x_{i+1} - x_i`, and consecutive
corrections contract by `thetaMax`. Success means `n` steps of which the last met the tolerance. -/
theorem C81_qnerr_secant (P : Problem X R) (cb : ℕ → X → ℝ → ℝ → Bool) (tol thetaMax : ℝ)
    (itr miter : ℕ) (x0 : X) (hθ : thetaMax < 1)
    (hS : ∀ a b, (P.solve x0 (a + b)).1 = (P.solve x0 a).1 + (P.solve x0 b).1)
    (hd : (P.solve x0 (-P.F x0)).1 ≠ 0) (r : Result X)
    (hr : qnerrCalled P (fun x y => inner ℝ x y) cb tol thetaMax itr miter x0 (x0 + (P.solve x0 (-P.F x0)).1)
      (P.solve x0 (-P.F x0)).1 = r) :
    ∃ (d : ℕ → X) (n : ℕ), d 0 = (P.solve x0 (-P.F x0)).1 ∧ r.x = path x0 d n ∧
      (∀ i < n, d i = broyden (fun b => (P.solve x0 b).1) d i (-P.F (path x0 d i))) ∧
      (∀ i, i + 1 < n →
        broyden (fun b => (P.solve x0 b).1) d (i + 1) (P.F (path x0 d (i + 1)) - P.F (path x0 d i)) =
          path x0 d (i + 1) - path x0 d i) ∧
      (∀ i, i + 1 < n →
        ‖broyden (fun b => (P.solve x0 b).1) d i (-P.F (path x0 d (i + 1)))‖ ≤ thetaMax * ‖d i‖) ∧
      (r.success = true → n = r.k ∧ 2 ≤ n ∧ ‖d (n - 1)‖ ≤ |tol|) := by
  rw [qnerrCalled] at hr
  have hq : QnSteps P x0 thetaMax (fun i => [(P.solve x0 (-P.F x0)).1].getD i 0) (0 + 1) := by
    refine ⟨fun i hi => ?_, fun i hi => by omega, fun i hi => by omega⟩
    have : i = 0 := by omega
    subst this
    rfl
  have hmap : [nrm (fun x y : X => inner ℝ x y) (P.solve x0 (-P.F x0)).1 ^ 2] =
      [(P.solve x0 (-P.F x0)).1].map fun d => ‖d‖ ^ 2 := by
    simp only [List.map_cons, List.map_nil]
    rw [nrm_ip]
  rw [hmap] at hr
  obtain ⟨d, n, h1, h2, h3, _, h5⟩ := qnerrLoop_steps P cb tol thetaMax hθ itr miter x0 hS 0 0 true _ _ _ r hr rfl hq
    rfl (fun _ => hd) (fun _ => Nat.zero_le _)
  refine ⟨d, n, h1 0 le_rfl, h3, h2.step, fun i hi => ?_, h2.contract, fun hs => ?_⟩
  · rw [h2.secant i hi, path, add_sub_cancel_left]
  · obtain ⟨a, _, c, e⟩ := h5 hs
    refine ⟨a, by have := e rfl; omega, ?_⟩
    rw [← pow_two] at c
    exact (abs_of_nonneg (norm_nonneg (d (n - 1)))).symm.le.trans (sq_le_sq.mp c)

/-- Non-vacuity: the scalar problem of the counterexample above, started at `1`. -/
example : (exNewton.solve 1 (-exNewton.F 1)).1 ≠ 0 ∧
    ∀ a b, (exNewton.solve 1 (a + b)).1 = (exNewton.solve 1 a).1 + (exNewton.solve 1 b).1 := by
  constructor
  · norm_num [exNewton]
  · intro a b; simp only [exNewton]; ring

/-- C81 fails for stand-alone `qnerr`: `sigma[0]` holds the norm instead of its square, so the first quasi-Newton
correction does not satisfy the secant condition unless the first step has norm one. Here `F(x) = x`, the approximate
solver is `9/10` and `x₀ = 2`: the second iterate should be the root `0` (as the secant condition implies for a
linear scalar problem). -/
theorem C81_alone_fails : ∃ r, qnerrAlone exNewton (fun x y => x * y) (fun _ _ _ _ => true) (1 / 4) 1 0 1 2 = .ok r ∧
    r.success = true ∧ r.k = 2 ∧ r.x = -4 / 205 := by
  have hs : Real.sqrt 9 / Real.sqrt 500 ≤ 1 := by
    rw [div_le_one (by positivity)]; exact Real.sqrt_le_sqrt (by norm_num)
  rw [qnerrAlone]
  simp only [nrm_mul]
  norm_num [exNewton, abs_of_neg]
  rw [qnerrLoop, dif_neg (by norm_num)]
  norm_num [qnUpdate, hs]
  rw [if_neg (not_lt.mpr hs), qnerrLoop, dif_neg (by norm_num)]
  norm_num

end qn

/-! ### C82: NewtonSeeker -/

omit [AddCommGroup X] [Module ℝ X] in
/-- C82: `NewtonSeeker.solve` with `method='giant'` returns the result of `giant_gbit` on the problem deflated with the
known solutions, and appends the solution to the known ones exactly if it was successful and learning is on. -/
theorem C82_seeker (giant nleq : List X → Except Err (Result X)) (learn : Bool) (known : List X) (r : Result X)
    (known' : List X) (h : seekerSolve giant nleq "giant" learn known = .ok (r, known')) :
    giant known = .ok r ∧ (r.success = true ∧ learn = true → known' = known ++ [r.x]) ∧
      (¬ (r.success = true ∧ learn = true) → known' = known) := by
  rw [seekerSolve, if_pos rfl] at h
  cases hg : giant known with
  | error e => rw [hg] at h; cases h
  | ok r' =>
    rw [hg] at h
    simp only [Except.map, Except.ok.injEq, Prod.mk.injEq] at h
    obtain ⟨h1, h2⟩ := h
    subst h1
    refine ⟨rfl, fun hh => ?_, fun hh => ?_⟩
    · rw [← h2, if_pos (by simp [hh.1, hh.2])]
    · rw [← h2, if_neg (by simpa using hh)]

omit [AddCommGroup X] [Module ℝ X] in
/-- C82 fails for `method='nleq'`: whatever `nleq_err` returns, `solve` raises (`ValueError`: six values unpacked into
five). -/
theorem C82_nleq_fails (giant nleq : List X → Except Err (Result X)) (learn : Bool) (known : List X) :
    (∃ e, seekerSolve giant nleq "nleq" learn known = .error e) ∧
    ∀ r, nleq known = .ok r → seekerSolve giant nleq "nleq" learn known = .error .valueError := by
  have hne : ¬ ("nleq" = "giant") := by decide
  constructor
  · rw [seekerSolve, if_neg hne, if_pos (Or.inl rfl)]
    cases nleq known with
    | error e => exact ⟨e, rfl⟩
    | ok r => exact ⟨_, rfl⟩
  · intro r hr
    rw [seekerSolve, if_neg hne, if_pos (Or.inl rfl), hr]

end Funpy.Props
