import Verif.Props.FourierSymbol
import Verif.Props.FourierUnique
import Mathlib.Analysis.Fourier.AddCircle
import Mathlib.MeasureTheory.Integral.IntervalIntegral.IntegrationByParts
import Mathlib.MeasureTheory.Integral.IntervalIntegral.Periodic

/-!
# C132: a constant coefficient periodic problem is uniquely solvable exactly when the symbol has no zero
-/

namespace Funpy.Props
open Spec Trig TrigSpec Matrix Finset Complex FourierStab FCv FUn FSy
open scoped ContDiff

/-- Fourier integral -/
noncomputable def FSy.fc (e : Ends) (w : ℝ → ℂ) (k : ℤ) : ℂ := ∫ y in e.e0..e.e1, w y * cexp (-(dmul e k * y))

lemma FSy.exp_period (e : Ends) (he : e.e0 < e.e1) (k : ℤ) (y : ℝ) : cexp (-(dmul e k * (y + Mapping.diff e : ℝ))) = cexp (-(dmul e k * y)) := by
  have hd : (Mapping.diff e : ℂ) ≠ 0 := by
    have : Mapping.diff e ≠ 0 := by unfold Mapping.diff; linarith
    exact_mod_cast this
  have h : -(dmul e k * (y + Mapping.diff e : ℝ)) = -(dmul e k * y) + ((-k : ℤ) : ℂ) * (2 * Real.pi * I) := by
    unfold dmul
    push_cast
    field_simp
    ring
  rw [h, Complex.exp_add, Complex.exp_int_mul_two_pi_mul_I, mul_one]

lemma FSy.e1_eq (e : Ends) : e.e1 = e.e0 + Mapping.diff e := by unfold Mapping.diff; ring

/-- a continuous periodic function all of whose Fourier integrals vanish is zero -/
lemma FSy.fc_zero (e : Ends) (he : e.e0 < e.e1) (w : ℝ → ℂ) (hw : Continuous w) (hp : Function.Periodic w (Mapping.diff e)) (h : ∀ k, fc e w k = 0) (x : ℝ) : w x = 0 := by
  have hd : 0 < Mapping.diff e := by unfold Mapping.diff; linarith
  haveI : Fact (0 < Mapping.diff e) := ⟨hd⟩
  let F : C(AddCircle (Mapping.diff e), ℂ) := ⟨hp.lift, continuous_coinduced_dom.mpr hw⟩
  have hF : ∀ y : ℝ, F (y : AddCircle (Mapping.diff e)) = w y := fun y => hp.lift_coe y
  have hc : ∀ k, fourierCoeff F k = 0 := by
    intro k
    rw [fourierCoeff_eq_intervalIntegral _ _ e.e0, ← e1_eq]
    have : ∀ y : ℝ, _root_.fourier (-k) (y : AddCircle (Mapping.diff e)) • F (y : AddCircle (Mapping.diff e)) = w y * cexp (-(dmul e k * y)) := by
      intro y
      rw [hF, fourier_coe_apply, smul_eq_mul, mul_comm]
      congr 2
      unfold dmul
      push_cast
      ring
    simp only [this]
    rw [show (∫ y in e.e0..e.e1, w y * cexp (-(dmul e k * y))) = fc e w k from rfl, h k, smul_zero]
  have hs := has_pointwise_sum_fourier_series_of_summable (f := F) (by rw [funext hc]; exact summable_zero) (x : AddCircle (Mapping.diff e))
  simp only [hc, zero_smul] at hs
  rw [← hF]
  exact hs.unique hasSum_zero

lemma FSy.fc_deriv (e : Ends) (he : e.e0 < e.e1) (w w' : ℝ → ℂ) (hw : ∀ y, HasDerivAt w (w' y) y) (hc : Continuous w') (hp : Function.Periodic w (Mapping.diff e)) (k : ℤ) :
    fc e w' k = dmul e k * fc e w k := by
  have hE : ∀ y : ℝ, HasDerivAt (fun y : ℝ => cexp (-(dmul e k * y))) (cexp (-(dmul e k * y)) * (-(dmul e k * 1))) y := by
    intro y
    have h1 : HasDerivAt (fun y : ℝ => -(dmul e k * (y : ℂ))) (-(dmul e k * 1)) y := (((hasDerivAt_id y).ofReal_comp).const_mul (dmul e k)).neg
    exact h1.cexp
  have hcw : Continuous w := continuous_iff_continuousAt.mpr fun y => (hw y).continuousAt
  have h := intervalIntegral.integral_mul_deriv_eq_deriv_mul (a := e.e0) (b := e.e1) (fun y _ => hw y) (fun y _ => hE y)
    (hc.intervalIntegrable _ _) (Continuous.intervalIntegrable (by fun_prop) _ _)
  rw [e1_eq e, hp, exp_period e he, ← e1_eq, sub_self, zero_sub] at h
  unfold fc
  rw [← intervalIntegral.integral_const_mul, ← neg_eq_iff_eq_neg.mpr h, ← intervalIntegral.integral_neg]
  congr 1
  funext y
  ring

lemma FSy.shift_int (e : Ends) (f : ℝ → ℂ) (hp : Function.Periodic f (Mapping.diff e)) (t : ℝ) : ∫ y in e.e0..e.e1, f (y + t) = ∫ y in e.e0..e.e1, f y := by
  rw [intervalIntegral.integral_comp_add_right, e1_eq, show e.e0 + Mapping.diff e + t = e.e0 + t + Mapping.diff e by ring]
  exact hp.intervalIntegral_add_eq _ _

lemma FSy.fc_shift (e : Ends) (he : e.e0 < e.e1) (w : ℝ → ℂ) (hp : Function.Periodic w (Mapping.diff e)) (t : ℝ) (k : ℤ) :
    fc e (fun y => w (y + t)) k = cexp (dmul e k * t) * fc e w k := by
  have h := shift_int e (fun y => w y * cexp (-(dmul e k * y))) (fun y => by
    show w (y + Mapping.diff e) * cexp (-(dmul e k * (y + Mapping.diff e : ℝ))) = _
    rw [hp, exp_period e he]) t
  unfold fc
  rw [← h, ← intervalIntegral.integral_const_mul]
  congr 1
  funext y
  rw [show w (y + t) * cexp (-(dmul e k * y)) = w (y + t) * (cexp (dmul e k * t) * cexp (-(dmul e k * (y + t : ℝ)))) by
    rw [← Complex.exp_add]; congr 2; push_cast; ring]
  ring

lemma FSy.agg_periodic (w : ℝ → ℂ) (T : ℝ) (hp : Function.Periodic w T) : Function.Periodic (aggregate w) T := by
  intro x
  unfold aggregate
  congr 2
  funext r
  rw [show x + T + r = x + r + T by ring, show x + T - r = x - r + T by ring, hp, hp]

lemma FSy.iter_periodic (w : ℝ → ℂ) (T : ℝ) (hp : Function.Periodic w T) (j : ℕ) : Function.Periodic (iteratedDeriv j w) T := by
  intro x
  have h := congrFun (iteratedDeriv_comp_add_const j w T) x
  rw [← h]
  congr 1
  funext y
  exact hp y

lemma FSy.dmul_ne (e : Ends) (he : e.e0 < e.e1) (k : ℤ) (hk : k ≠ 0) : dmul e k ≠ 0 := by
  have hd : Mapping.diff e ≠ 0 := by unfold Mapping.diff; linarith
  unfold dmul
  refine mul_ne_zero (mul_ne_zero ?_ I_ne_zero) (by exact_mod_cast hk)
  rw [Complex.ofReal_ne_zero]
  exact div_ne_zero (mul_ne_zero two_ne_zero Real.pi_ne_zero) hd

lemma FSy.fc_agg (e : Ends) (he : e.e0 < e.e1) (w : ℝ → ℂ) (hw : Continuous w) (hp : Function.Periodic w (Mapping.diff e)) (k : ℤ) :
    fc e (aggregate w) k = aggFac (Mapping.diff e) k * fc e w k := by
  have hd : Mapping.diff e ≠ 0 := by unfold Mapping.diff; linarith
  have hint : ∀ a b, IntervalIntegrable w MeasureTheory.volume a b := fun a b => hw.intervalIntegrable a b
  by_cases hk : k = 0
  · subst hk
    -- the mean of the aggregation vanishes
    have hz : aggFac (Mapping.diff e) 0 = 0 := by simp [aggFac]
    have h0 : ∀ u : ℝ → ℂ, fc e u 0 = ∫ y in e.e0..e.e1, u y := by
      intro u
      unfold fc dmul
      simp
    rw [hz, zero_mul, h0]
    set V : ℝ → ℂ := fun y => ∫ t in (0 : ℝ)..y, w t with hV
    set M : ℂ := ∫ t in (0 : ℝ)..Mapping.diff e, w t with hM
    have hVd : ∀ y, HasDerivAt V (w y) y := fun y =>
      intervalIntegral.integral_hasDerivAt_right (hint 0 y) (hw.stronglyMeasurableAtFilter _ _) hw.continuousAt
    have hVc : Continuous V := continuous_iff_continuousAt.mpr fun y => (hVd y).continuousAt
    have hVp : ∀ y, V (y + Mapping.diff e) = V y + M := by
      intro y
      have h1 : (∫ t in y..(y + Mapping.diff e), w t) = M := by
        have := hp.intervalIntegral_add_eq y 0
        rw [this, zero_add]
      rw [← h1]
      exact (intervalIntegral.integral_add_adjacent_intervals (hint _ _) (hint _ _)).symm
    set U : ℝ → ℂ := fun y => V y - M / Mapping.diff e * y with hU
    have hUc : Continuous U := by fun_prop
    have hdc : (Mapping.diff e : ℂ) ≠ 0 := by exact_mod_cast hd
    have hUp : Function.Periodic U (Mapping.diff e) := by
      intro y
      simp only [hU, hVp]
      push_cast
      field_simp
      ring
    have h1 : aggregate w = fun x => (U (x + 1) - U x - (U x - U (x + (-1)))) / 2 := by
      rw [FCv.agg_prim w hw]
      funext x
      simp only [hU, hV]
      rw [show x - 1 = x + (-1) by ring]
      push_cast
      ring
    clear_value U
    rw [h1, intervalIntegral.integral_div, intervalIntegral.integral_sub (Continuous.intervalIntegrable (by fun_prop) _ _) (Continuous.intervalIntegrable (by fun_prop) _ _),
      intervalIntegral.integral_sub (Continuous.intervalIntegrable (by fun_prop) _ _) (Continuous.intervalIntegrable (by fun_prop) _ _),
      intervalIntegral.integral_sub (Continuous.intervalIntegrable (by fun_prop) _ _) (Continuous.intervalIntegrable (by fun_prop) _ _),
      shift_int e U hUp, shift_int e U hUp]
    simp
  · have h1 := fc_deriv e he (aggregate w) _ (FCv.agg_hasDeriv w hw) (by fun_prop) (agg_periodic w _ hp) k
    have h2 : fc e (fun x => (w (x + 1) - w x - (w x - w (x - 1))) / 2) k = (cexp (dmul e k * (1 : ℝ)) - 1 - (1 - cexp (dmul e k * (-1 : ℝ)))) / 2 * fc e w k := by
      have ha := fc_shift e he w hp 1 k
      have hb := fc_shift e he w hp (-1) k
      have : fc e (fun x => (w (x + 1) - w x - (w x - w (x - 1))) / 2) k
          = (fc e (fun y => w (y + 1)) k - fc e w k - (fc e w k - fc e (fun y => w (y + (-1))) k)) / 2 := by
        unfold fc
        rw [← intervalIntegral.integral_sub (Continuous.intervalIntegrable (by fun_prop) _ _) (Continuous.intervalIntegrable (by fun_prop) _ _),
          ← intervalIntegral.integral_sub (Continuous.intervalIntegrable (by fun_prop) _ _) (Continuous.intervalIntegrable (by fun_prop) _ _),
          ← intervalIntegral.integral_sub (Continuous.intervalIntegrable (by fun_prop) _ _) (Continuous.intervalIntegrable (by fun_prop) _ _),
          ← intervalIntegral.integral_div]
        congr 1
        funext y
        beta_reduce
        rw [show y - 1 = y + (-1) by ring]
        ring
      rw [this, ha, hb]
      ring
    have h3 : (cexp (dmul e k * (1 : ℝ)) - 1 - (1 - cexp (dmul e k * (-1 : ℝ)))) / 2 = dmul e k * aggFac (Mapping.diff e) k := by
      rw [dmul_eq]
      unfold aggFac
      rw [if_neg hk]
      set θ : ℝ := 2 * Real.pi * k / Mapping.diff e with hθ
      have hθ0 : θ ≠ 0 := by
        rw [hθ]
        exact div_ne_zero (mul_ne_zero (mul_ne_zero two_ne_zero Real.pi_ne_zero) (by exact_mod_cast hk)) hd
      have hθc : (θ : ℂ) ≠ 0 := by exact_mod_cast hθ0
      rw [show I * (θ : ℂ) * ((1 : ℝ) : ℂ) = (θ : ℂ) * I by push_cast; ring, show I * (θ : ℂ) * ((-1 : ℝ) : ℂ) = -(θ : ℂ) * I by push_cast; ring]
      push_cast
      rw [Complex.cos]
      field_simp
      rw [I_sq]
      ring
    rw [h2, h3, mul_assoc] at h1
    exact (mul_left_cancel₀ (dmul_ne e he k hk) h1).symm

lemma FSy.fc_iter (e : Ends) (he : e.e0 < e.e1) (r : ℕ) (w : ℝ → ℂ) (hw : ContDiff ℝ r w) (hp : Function.Periodic w (Mapping.diff e)) (k : ℤ) (j : ℕ) (hj : j ≤ r) :
    fc e (iteratedDeriv j w) k = dmul e k ^ j * fc e w k := by
  induction j with
  | zero => rw [iteratedDeriv_zero, pow_zero, one_mul]
  | succ j ih =>
    have hdiff : Differentiable ℝ (iteratedDeriv j w) := hw.differentiable_iteratedDeriv j (by exact_mod_cast (by omega : j < r))
    have h := fc_deriv e he (iteratedDeriv j w) (iteratedDeriv (j + 1) w) (fun y => by
      rw [iteratedDeriv_succ]
      exact (hdiff y).hasDerivAt) (hw.continuous_iteratedDeriv (j + 1) (by exact_mod_cast hj)) (iter_periodic w _ hp j) k
    rw [h, ih (by omega), pow_succ]
    ring

lemma FSy.agg_cont (w : ℝ → ℂ) (hw : Continuous w) : Continuous (aggregate w) :=
  continuous_iff_continuousAt.mpr fun y => (FCv.agg_hasDeriv w hw y).continuousAt

lemma FSy.fc_sum {ι : Type*} (e : Ends) (S : Finset ι) (f : ι → ℝ → ℂ) (hf : ∀ i ∈ S, Continuous (f i)) (k : ℤ) :
    fc e (fun x => ∑ i ∈ S, f i x) k = ∑ i ∈ S, fc e (f i) k := by
  unfold fc
  simp only [sum_mul]
  exact intervalIntegral.integral_finsetSum fun i hi => (((hf i hi).mul (by fun_prop)).intervalIntegrable _ _)

lemma FSy.fc_add (e : Ends) (f g : ℝ → ℂ) (hf : Continuous f) (hg : Continuous g) (k : ℤ) : fc e (fun x => f x + g x) k = fc e f k + fc e g k := by
  unfold fc
  simp only [_root_.add_mul]
  exact intervalIntegral.integral_add ((hf.mul (by fun_prop)).intervalIntegrable _ _) ((hg.mul (by fun_prop)).intervalIntegrable _ _)

lemma FSy.fc_cmul (e : Ends) (c : ℂ) (f : ℝ → ℂ) (k : ℤ) : fc e (fun x => c * f x) k = c * fc e f k := by
  unfold fc
  rw [← intervalIntegral.integral_const_mul]
  congr 1
  funext y
  ring

lemma FSy.fc_const (e : Ends) (he : e.e0 < e.e1) (c : ℂ) (k : ℤ) : fc e (fun _ => c) k = if k = 0 then (Mapping.diff e : ℂ) * c else 0 := by
  by_cases hk : k = 0
  · subst hk
    unfold fc dmul
    simp [Mapping.diff]
  · rw [if_neg hk]
    have h := fc_deriv e he (fun _ => c) (fun _ => 0) (fun y => hasDerivAt_const y c) continuous_const (fun _ => rfl) k
    have h0 : fc e (fun _ => 0) k = 0 := by unfold fc; simp
    rw [h0] at h
    rcases mul_eq_zero.mp h.symm with h | h
    · exact absurd h (dmul_ne e he k hk)
    · exact h

/-- the Fourier integrals of the operator are the symbol times those of the function -/
lemma FSy.fc_op (e : Ends) (he : e.e0 < e.e1) (s : Source) (hs : IsConst s) (r : ℕ) (h1 : s.coeff.length ≤ r + 1) (h2 : s.nl.length ≤ r + 1)
    (w : ℝ → ℂ) (hw : ContDiff ℝ r w) (hp : Function.Periodic w (Mapping.diff e)) (k : ℤ) :
    fc e (applyOp e s w) k = symbol (Mapping.diff e) s k * fc e w k := by
  have hit : ∀ j ≤ r, Continuous (iteratedDeriv j w) := fun j hj => hw.continuous_iteratedDeriv j (by exact_mod_cast hj)
  have hform : applyOp e s w = fun x => ((∑ j ∈ range s.coeff.length, cst (s.coeff.getD j (false, [])) * iteratedDeriv j w x)
      + (s.integral.map fun p => p.1.getD 0 0).sum * ∫ y in e.e0..e.e1, w y)
      + ∑ j ∈ range s.nl.length, cst (s.nl.getD j (false, [])) * aggregate (iteratedDeriv j w) x := by
    funext x
    unfold applyOp
    congr 1
    · congr 1
      · exact sum_congr rfl fun j hj => by rw [coef_const e _ hs.1 j (Finset.mem_range.mp hj)]
      · rcases hs.2.2 with h | ⟨t, h⟩
        · rw [h]; simp
        · rw [h]
          simp only [List.map_cons, List.map_nil, List.sum_cons, List.sum_nil, add_zero, trigEval_one [t] rfl, trigEval_one [1] rfl]
          simp only [List.getD_cons_zero, one_mul]
    · refine sum_congr rfl fun j hj => ?_
      rw [coef_const e _ hs.2.1 j (Finset.mem_range.mp hj), FUn.agg_iter r w hw j (by have := Finset.mem_range.mp hj; omega)]
  have hcA : ∀ j ∈ range s.coeff.length, Continuous fun x => cst (s.coeff.getD j (false, [])) * iteratedDeriv j w x := fun j hj =>
    continuous_const.mul (hit j (by have := Finset.mem_range.mp hj; omega))
  have hcB : ∀ j ∈ range s.nl.length, Continuous fun x => cst (s.nl.getD j (false, [])) * aggregate (iteratedDeriv j w) x := fun j hj =>
    continuous_const.mul (agg_cont _ (hit j (by have := Finset.mem_range.mp hj; omega)))
  have hSA : Continuous fun x => ∑ j ∈ range s.coeff.length, cst (s.coeff.getD j (false, [])) * iteratedDeriv j w x := continuous_finsetSum _ hcA
  have hSB : Continuous fun x => ∑ j ∈ range s.nl.length, cst (s.nl.getD j (false, [])) * aggregate (iteratedDeriv j w) x := continuous_finsetSum _ hcB
  have hSC : Continuous fun x => (∑ j ∈ range s.coeff.length, cst (s.coeff.getD j (false, [])) * iteratedDeriv j w x)
      + (s.integral.map fun p => p.1.getD 0 0).sum * ∫ y in e.e0..e.e1, w y := hSA.add continuous_const
  rw [hform, fc_add e _ _ hSC hSB, fc_add e _ _ hSA continuous_const, fc_sum e _ _ hcA, fc_sum e _ _ hcB, fc_const e he, symbol, _root_.add_mul, _root_.add_mul, sum_mul, sum_mul]
  congr 1
  · congr 1
    · refine sum_congr rfl fun j hj => ?_
      rw [fc_cmul, fc_iter e he r w hw hp k j (by have := Finset.mem_range.mp hj; omega), dmul_eq]
      ring
    · by_cases hk : k = 0
      · subst hk
        have h0 : fc e w 0 = ∫ y in e.e0..e.e1, w y := by unfold fc dmul; simp
        rw [if_pos rfl, if_pos rfl, h0, List.sum_map_mul_right]
        ring
      · rw [if_neg hk, if_neg hk, zero_mul]
  · refine sum_congr rfl fun j hj => ?_
    have hj' : j ≤ r := by have := Finset.mem_range.mp hj; omega
    rw [fc_cmul, fc_agg e he _ (hit j hj') (iter_periodic w _ hp j), fc_iter e he r w hw hp k j hj', dmul_eq]
    ring

/-- **C132, unique solvability.**  A constant coefficient periodic problem has only the zero solution for the right hand side zero exactly when the symbol has
no zero. -/
theorem C132_unique_iff (e : Ends) (he : e.e0 < e.e1) (s : Source) (hs : IsConst s) (r : ℕ) (h1 : s.coeff.length ≤ r + 1) (h2 : s.nl.length ≤ r + 1) :
    UniquePer e s r ↔ ∀ k : ℤ, symbol (Mapping.diff e) s k ≠ 0 := by
  constructor
  · intro h k h0
    have hm : mode e k = fn e (Finsupp.single k 1) := by funext x; rw [fn_mode, one_mul]
    have := h (mode e k) (by rw [hm]; exact (fn_contDiff e _).of_le (by exact_mod_cast le_top)) (by rw [hm]; exact fn_periodic e he _) (fun x => by
      rw [C132_symbol e he s hs, h0, zero_mul]) 0
    exact Complex.exp_ne_zero _ this
  · intro h w hw hp h0 x
    refine fc_zero e he w hw.continuous hp (fun k => ?_) x
    have hk := fc_op e he s hs r h1 h2 w hw hp k
    rw [show applyOp e s w = fun _ => 0 from funext h0] at hk
    have hz : fc e (fun _ => 0) k = 0 := by unfold fc; simp
    rw [hz] at hk
    exact (mul_eq_zero.mp hk.symm).resolve_left (h k)

/-- **C132, the discrete solution is the solution.**  If the symbol has no zero and the matrix with an odd number of modes is regular, then the computed function is
the only periodic function that solves the equation with the right hand side `f`. -/
theorem C132_is_solution (n : ℕ) (hn : n % 2 = 1) (e : Ends) (he : e.e0 < e.e1) (eps : ℝ) (heps : 0 < eps) (s : Source) (hs : IsConst s)
    (r : ℕ) (h1 : s.coeff.length ≤ r + 1) (h2 : s.nl.length ≤ r + 1) (hsym : ∀ k : ℤ, symbol (Mapping.diff e) s k ≠ 0)
    (hbig : ∀ i : Fin n, eps ≤ ‖symbol (Mapping.diff e) s (wave n i)‖) (f v : Fin n → ℂ)
    (hv : quasi2diffmat n (Mapping.diff e) eps s *ᵥ v = f) (w : ℝ → ℂ) (hw : ContDiff ℝ r w) (hp : Function.Periodic w (Mapping.diff e)) :
    (∀ x, applyOp e s w x = fourierFun e f x) ↔ w = fourierFun e v := by
  have hex := C132_exact n hn e he eps heps s hs ((C132_regular_iff n hn e he eps heps s hs).2 hbig) f v hv
  have hvc : ContDiff ℝ r (fourierFun e v) := by
    rw [← fn_toCo hn]
    exact (fn_contDiff e _).of_le (by exact_mod_cast le_top)
  have hvp : Function.Periodic (fourierFun e v) (Mapping.diff e) := by
    rw [← fn_toCo hn]
    exact fn_periodic e he _
  constructor
  · intro h
    funext x
    rw [← sub_eq_zero]
    refine fc_zero e he (fun x => w x - fourierFun e v x) (hw.continuous.sub hvc.continuous) (fun x => by
      show w (x + Mapping.diff e) - fourierFun e v (x + Mapping.diff e) = _
      rw [hp, hvp]) (fun k => ?_) x
    have ha := fc_op e he s hs r h1 h2 w hw hp k
    have hb := fc_op e he s hs r h1 h2 _ hvc hvp k
    rw [show applyOp e s w = fourierFun e f from funext h] at ha
    rw [show applyOp e s (fourierFun e v) = fourierFun e f from funext hex] at hb
    have hc : symbol (Mapping.diff e) s k * (fc e w k - fc e (fourierFun e v) k) = 0 := by rw [_root_.mul_sub, ← ha, ← hb, sub_self]
    have hd := (mul_eq_zero.mp hc).resolve_left (hsym k)
    rw [← hd]
    have hE : Continuous fun y : ℝ => cexp (-(dmul e k * y)) := by fun_prop
    have hI : IntervalIntegrable (fun y : ℝ => w y * cexp (-(dmul e k * y))) MeasureTheory.volume e.e0 e.e1 := (hw.continuous.mul hE).intervalIntegrable _ _
    have hJ : IntervalIntegrable (fun y : ℝ => fourierFun e v y * cexp (-(dmul e k * y))) MeasureTheory.volume e.e0 e.e1 := (hvc.continuous.mul hE).intervalIntegrable _ _
    unfold fc
    rw [← intervalIntegral.integral_sub hI hJ]
    congr 1
    funext y
    ring
  · rintro rfl
    exact hex

end Funpy.Props
