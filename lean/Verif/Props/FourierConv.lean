import Verif.Lemmas.FourierStab
import Verif.Props.TrigSpec
import Mathlib.Analysis.Calculus.IteratedDeriv.Lemmas
import Mathlib.Analysis.Calculus.DerivativeTest
import Mathlib.Analysis.InnerProductSpace.Calculus

/-!
# C128: the Fourier discretisation of a well-posed periodic problem is regular and converges
-/

namespace Funpy.Props
namespace FCv
end FCv
open Spec Trig TrigSpec Matrix Finset Complex FourierStab FCv
open scoped ContDiff

/-! ### Specification -/

/-- An operator `∑_{j ≤ r} a_j u^{(j)} + c ∫ u + ∑_{j < r} b_j (A u)^{(j)}` of order `r ≥ 1` whose leading coefficient is the constant `c ≠ 0`; the
coefficient functions are trigonometric polynomials. -/
def FCv.IsOp (s : Source) (r : ℕ) (c : ℂ) : Prop :=
  1 ≤ r ∧ c ≠ 0 ∧ s.coeff.length = r + 1 ∧ s.coeff.getD r (false, []) = (true, [c]) ∧ (∀ p ∈ s.coeff, p.2.length ≠ 0) ∧
  s.nl.length ≤ r ∧ (∀ p ∈ s.nl, p.2.length ≠ 0) ∧
  (s.integral = [] ∨ ∃ c d, s.integral = [(c, d)] ∧ c.length ≠ 0 ∧ ∀ x, trigEval d x = 1)

/-- The periodic problem is well-posed: `max |w| ≤ S max |L w|` for smooth periodic functions. -/
def FCv.WellPosedPer (e : Ends) (s : Source) (S : ℝ) : Prop :=
  ∀ w : ℝ → ℂ, ContDiff ℝ ∞ w → Function.Periodic w (Mapping.diff e) → ∀ M, (∀ x, ‖applyOp e s w x‖ ≤ M) → ∀ x, ‖w x‖ ≤ S * M

/-- No entry of the matrix is small enough to be dropped by `eliminate_zeros`. -/
def FCv.NoDrop (n : ℕ) (len eps : ℝ) (s : Source) : Prop := ∀ i j, assemble n len s i j = 0 ∨ eps ≤ ‖assemble n len s i j‖

/-! ### Proofs -/

lemma FCv.nodrop {n : ℕ} {len eps : ℝ} {s : Source} (h : NoDrop n len eps s) : quasi2diffmat n len eps s = assemble n len s := by
  funext i j
  unfold quasi2diffmat
  rcases h i j with h | h
  · rw [h, ite_self]
  · rw [if_neg (not_lt.mpr h)]

/-- the coefficients of a list -/
noncomputable def FCv.coOf (c : List ℂ) : Co := ∑ k ∈ range c.length, if c.length % 2 = 0 ∧ k = 0 then
  Finsupp.single ((c.length / 2 : ℕ) : ℤ) (c.getD k 0 / 2) + Finsupp.single (-((c.length / 2 : ℕ) : ℤ)) (c.getD k 0 / 2)
  else Finsupp.single (wave c.length k) (c.getD k 0)

lemma FCv.ev_coOf (c : List ℂ) (y : ℝ) : ev (coOf c) y = trigEval c y := by
  unfold coOf trigEval
  rw [map_sum, Finset.sum_apply]
  apply sum_congr rfl
  intro k _
  unfold trigMode
  split_ifs with h
  · rw [map_add, Pi.add_apply, ev_single, ev_single, Complex.ofReal_cos, Complex.cos]
    generalize c.length / 2 = m
    have h1 : (I * Real.pi * ((m : ℤ) : ℂ) * y : ℂ) = ((m * Real.pi * y : ℝ) : ℂ) * I := by push_cast; ring
    have h2 : (I * Real.pi * ((-(m : ℤ) : ℤ) : ℂ) * y : ℂ) = -((m * Real.pi * y : ℝ) : ℂ) * I := by push_cast; ring
    rw [h1, h2]
    ring
  · rw [ev_single]

/-- the coefficients of a vector -/
noncomputable def FCv.toCo {n : ℕ} (u : Fin n → ℂ) : Co := ∑ i : Fin n, Finsupp.single (wave n i) (u i)

lemma FCv.wave_inj {n : ℕ} (i j : ℕ) (h : wave n i = wave n j) : i = j := by
  unfold wave at h
  omega

lemma FCv.toCo_wave {n : ℕ} (u : Fin n → ℂ) (i : Fin n) : toCo u (wave n i) = u i := by
  unfold toCo
  rw [Finsupp.finsetSum_apply, sum_eq_single i]
  · simp
  · intro j _ hj
    rw [Finsupp.single_apply, if_neg]
    intro h
    exact hj (Fin.ext (wave_inj _ _ h))
  · simp

lemma FCv.toCo_out {n : ℕ} (hn : n % 2 = 1) (u : Fin n → ℂ) (k : ℤ) (h : n / 2 < k.natAbs) : toCo u k = 0 := by
  unfold toCo
  rw [Finsupp.finsetSum_apply]
  apply sum_eq_zero
  intro i _
  rw [Finsupp.single_apply, if_neg]
  unfold wave
  have := i.2
  omega

lemma FCv.exists_wave {n : ℕ} (hn : n % 2 = 1) (k : ℤ) (h : k.natAbs ≤ n / 2) : ∃ i : Fin n, wave n i = k := by
  refine ⟨⟨(k + (n / 2 : ℕ)).toNat, by omega⟩, ?_⟩
  unfold wave
  simp only
  omega

lemma FCv.toCo_surj {n : ℕ} (hn : n % 2 = 1) (a : Co) (ha : ∀ k : ℤ, n / 2 < k.natAbs → a k = 0) : toCo (fun i : Fin n => a (wave n i)) = a := by
  ext k
  by_cases h : k.natAbs ≤ n / 2
  · obtain ⟨i, rfl⟩ := exists_wave hn k h
    rw [toCo_wave]
  · rw [toCo_out hn _ k (by omega), ha k (by omega)]

/-- the function on the interval with the coefficients `a` -/
noncomputable def FCv.fn (e : Ends) (a : Co) (x : ℝ) : ℂ := ev a (Mapping.bwd e x)

lemma FCv.fn_toCo {n : ℕ} (hn : n % 2 = 1) (e : Ends) (u : Fin n → ℂ) : fn e (toCo u) = fourierFun e u := by
  funext x
  unfold fn fourierFun toCo
  rw [trigEval_odd _ (by simpa using hn), List.length_ofFn, ← Fin.sum_univ_eq_sum_range fun k =>
    (List.ofFn u).getD k 0 * cexp (I * Real.pi * (wave n k) * (Mapping.bwd e x : ℝ)), map_sum, Finset.sum_apply]
  apply sum_congr rfl
  intro k _
  rw [ev_single, getD_lt' _ _ _ (by simp), List.getElem_ofFn]

/-- the multiplier of the derivative -/
noncomputable def FCv.dmul (e : Ends) (k : ℤ) : ℂ := (2 * Real.pi / Mapping.diff e : ℝ) * I * k

lemma FCv.fn_hasDeriv (e : Ends) (a : Co) (x : ℝ) : HasDerivAt (fn e a) (fn e (FourierStab.diag (dmul e) a) x) x := by
  induction a using Finsupp.induction_linear with
  | zero =>
    have : fn e 0 = fun _ => 0 := by funext x; simp [fn]
    rw [map_zero, this]
    exact hasDerivAt_const x 0
  | add f g hf hg =>
    have h : fn e (f + g) = fun x => fn e f x + fn e g x := by funext x; simp [fn]
    have h2 : fn e (FourierStab.diag (dmul e) (f + g)) x = fn e (FourierStab.diag (dmul e) f) x + fn e (FourierStab.diag (dmul e) g) x := by simp [fn]
    rw [h, h2]
    exact hf.add hg
  | single k c =>
    have h : fn e (Finsupp.single k c) = fun x : ℝ => c * cexp (I * Real.pi * k * ((2 / Mapping.diff e : ℝ) * x + (-(e.e0 + e.e1) / Mapping.diff e : ℝ))) := by
      funext x
      show ev (Finsupp.single k c) (Mapping.bwd e x) = _
      rw [ev_single, Cheb.bwd_eq]
      push_cast
      rfl
    have h1 : HasDerivAt (fun x : ℝ => (I * Real.pi * k * ((2 / Mapping.diff e : ℝ) * x + (-(e.e0 + e.e1) / Mapping.diff e : ℝ)) : ℂ))
        (I * Real.pi * k * ((2 / Mapping.diff e : ℝ) * 1)) x :=
      (((hasDerivAt_id x).ofReal_comp.const_mul _).add_const _).const_mul _
    have h2 := (h1.cexp).const_mul c
    rw [h]
    refine h2.congr_deriv ?_
    symm
    unfold fn
    rw [diag_single, ev_single, Cheb.bwd_eq, dmul]
    push_cast
    ring

lemma FCv.diag_diag (μ ν : ℤ → ℂ) (a : Co) : FourierStab.diag μ (FourierStab.diag ν a) = FourierStab.diag (fun k => μ k * ν k) a := by
  ext k
  rw [FourierStab.diag_apply, FourierStab.diag_apply, FourierStab.diag_apply]
  ring

lemma FCv.fn_iter (e : Ends) (a : Co) (j : ℕ) : iteratedDeriv j (fn e a) = fn e (FourierStab.diag (fun k => dmul e k ^ j) a) := by
  induction j with
  | zero =>
    rw [iteratedDeriv_zero]
    congr 1
    ext k
    rw [FourierStab.diag_apply, pow_zero, one_mul]
  | succ j ih =>
    rw [iteratedDeriv_succ, ih]
    funext x
    rw [(fn_hasDeriv e _ x).deriv, diag_diag]
    simp only [pow_succ']

lemma FCv.fn_contDiff (e : Ends) (a : Co) : ContDiff ℝ ∞ (fn e a) := by
  rw [contDiff_infty]
  intro n
  rw [contDiff_nat_iff_iteratedDeriv]
  refine ⟨fun m _ => ?_, fun m _ => ?_⟩
  · rw [fn_iter]
    exact continuous_iff_continuousAt.mpr fun x => (fn_hasDeriv e _ x).continuousAt
  · rw [fn_iter]
    exact fun x => (fn_hasDeriv e _ x).differentiableAt

lemma FCv.fn_periodic (e : Ends) (he : e.e0 < e.e1) (a : Co) : Function.Periodic (fn e a) (Mapping.diff e) := by
  intro x
  have hd : Mapping.diff e ≠ 0 := by unfold Mapping.diff; linarith
  have h : Mapping.bwd e (x + Mapping.diff e) = Mapping.bwd e x + 2 := by
    rw [Cheb.bwd_eq, Cheb.bwd_eq]
    field_simp
    ring
  unfold fn
  rw [h, ev_apply, ev_apply]
  apply sum_congr rfl
  intro k _
  congr 1
  rw [Complex.exp_eq_exp_iff_exists_int]
  exact ⟨k, by push_cast; ring⟩

/-- the multiplier of the aggregation -/
noncomputable def FCv.amul (e : Ends) (k : ℤ) : ℂ := genM0 k (1 / (0.5 * Mapping.diff e) * Real.pi)

lemma FCv.fn_agg (e : Ends) (he : e.e0 < e.e1) (a : Co) : aggregate (fn e a) = fn e (FourierStab.diag (amul e) a) := by
  obtain ⟨m, hm⟩ := exists_bound a
  set n := 2 * m + 1 with hn
  have hodd : n % 2 = 1 := by omega
  have hd : n / 2 = m := by omega
  have ha := toCo_surj hodd a (by rw [hd]; exact hm)
  have h1 : FourierStab.diag (amul e) a = toCo ((discAgg n 0 (Mapping.diff e)).getD 0 *ᵥ fun i : Fin n => a (wave n i)) := by
    have hagg : (discAgg n 0 (Mapping.diff e)).getD 0
        = diagonal fun k : Fin n => genM0 (waveArr n k) (1 / (0.5 * Mapping.diff e) * Real.pi) := by
      simp [discAgg, aggmat]
    ext k
    rw [FourierStab.diag_apply]
    by_cases h : k.natAbs ≤ n / 2
    · obtain ⟨i, rfl⟩ := exists_wave hodd k h
      rw [toCo_wave, hagg, mulVec_diagonal, amul]
      congr 2
      have hn' : (n : ℝ) = 2 * m + 1 := by rw [hn]; push_cast; ring
      rw [waveArr, if_pos hodd, wave, hd, hn']
      push_cast
      ring
    · rw [toCo_out hodd _ k (by omega), hm k (by omega), mul_zero]
  conv_lhs => rw [← ha]
  rw [h1, fn_toCo hodd, fn_toCo hodd]
  exact funext fun x => (discAgg_eval hodd e he _ x).symm

lemma FCv.fn_int (e : Ends) (he : e.e0 < e.e1) (a : Co) : ∫ y in e.e0..e.e1, fn e a y = (Mapping.diff e : ℂ) * a 0 := by
  have hpos : 0 < Mapping.diff e := by unfold Mapping.diff; linarith
  have h1 : fn e a = fun x : ℝ => ev a ((2 / Mapping.diff e) * x + (-(e.e0 + e.e1) / Mapping.diff e)) := by
    funext x; rw [fn, Cheb.bwd_eq]
  rw [h1, intervalIntegral.integral_comp_mul_add (fun y => ev a y) (by positivity), ← Cheb.bwd_eq, ← Cheb.bwd_eq]
  have ha : Mapping.bwd e e.e0 = -1 := by simp only [Mapping.bwd, Mapping.diff] at *; field_simp; ring
  have hb : Mapping.bwd e e.e1 = 1 := by simp only [Mapping.bwd, Mapping.diff] at *; field_simp; ring
  have h2 := fourier_ev a 0
  unfold fourier at h2
  simp only [Int.cast_zero, mul_zero, zero_mul, neg_zero, Complex.exp_zero, mul_one] at h2
  rw [div_eq_iff (by norm_num)] at h2
  rw [ha, hb, h2, Complex.real_smul]
  have : (Mapping.diff e : ℂ) ≠ 0 := by exact_mod_cast hpos.ne'
  push_cast
  field_simp

/-- the coefficients of a coefficient function -/
noncomputable def FCv.qc (p : Bool × List ℂ) : Co := if p.1 then coOf p.2 else 0

lemma FCv.ev_qc (e : Ends) (p : Bool × List ℂ) (x : ℝ) : ev (qc p) (Mapping.bwd e x) = coefFun e p x := by
  unfold qc coefFun
  split_ifs
  · rw [ev_coOf]
  · simp

/-- the integral term -/
noncomputable def FCv.intTerm (e : Ends) (s : Source) : Co →ₗ[ℂ] Co := match s.integral with
  | [] => 0
  | p :: _ => (FourierStab.mul (coOf p.1)).comp (FourierStab.diag fun k => if k = 0 then (Mapping.diff e : ℂ) else 0)

/-- the lower order part -/
noncomputable def FCv.low (e : Ends) (s : Source) (r : ℕ) : Co →ₗ[ℂ] Co :=
  (∑ j ∈ range r, (FourierStab.mul (qc (s.coeff.getD j (false, [])))).comp (FourierStab.diag fun k => dmul e k ^ j)) + intTerm e s
    + ∑ j ∈ range s.nl.length, (FourierStab.mul (qc (s.nl.getD j (false, [])))).comp (FourierStab.diag fun k => dmul e k ^ j * amul e k)

lemma FCv.dmul_norm (e : Ends) (he : e.e0 < e.e1) (k : ℤ) : ‖dmul e k‖ = 2 * Real.pi / Mapping.diff e * k.natAbs := by
  have hd : 0 < Mapping.diff e := by unfold Mapping.diff; linarith
  have hω : 0 < 2 * Real.pi / Mapping.diff e := by positivity
  unfold dmul
  rw [norm_mul, norm_mul, Complex.norm_I, mul_one, Complex.norm_real, Real.norm_eq_abs, abs_of_pos hω]
  congr 1
  rw [Complex.norm_intCast, Nat.cast_natAbs]
  push_cast
  rfl

lemma FCv.dmul_le (e : Ends) (he : e.e0 < e.e1) (p j : ℕ) (hj : j ≤ p) (k : ℤ) :
    ‖dmul e k ^ j‖ ≤ (2 * Real.pi / Mapping.diff e + 1) ^ p * wt k ^ p := by
  have hd : 0 < Mapping.diff e := by unfold Mapping.diff; linarith
  have hω : 0 < 2 * Real.pi / Mapping.diff e := by positivity
  have hk := Nat.cast_nonneg (α := ℝ) k.natAbs
  rw [norm_pow, dmul_norm e he, ← mul_pow]
  have h1 : 2 * Real.pi / Mapping.diff e * k.natAbs ≤ (2 * Real.pi / Mapping.diff e + 1) * wt k := by
    unfold wt
    nlinarith
  have h2 : 1 ≤ (2 * Real.pi / Mapping.diff e + 1) * wt k := by
    have := one_le_wt k
    nlinarith
  calc _ ≤ ((2 * Real.pi / Mapping.diff e + 1) * wt k) ^ j := by gcongr
    _ ≤ _ := pow_le_pow_right₀ h2 hj

lemma FCv.amul_le (e : Ends) (he : e.e0 < e.e1) : ∃ B, 0 ≤ B ∧ ∀ k, ‖amul e k‖ ≤ B := by
  have hd : 0 < Mapping.diff e := by unfold Mapping.diff; linarith
  set R := 1 / (0.5 * Mapping.diff e) * Real.pi with hR
  have hR0 : 0 < R := by rw [hR, show (0.5 : ℝ) = 1 / 2 by norm_num]; positivity
  refine ⟨2 / R, by positivity, fun k => ?_⟩
  unfold amul genM0
  rw [norm_mul, Complex.norm_I, one_mul, Complex.norm_real, Real.norm_eq_abs]
  split_ifs with h
  · rw [abs_zero]; positivity
  · have hk : (1 : ℝ) ≤ |(k : ℝ)| := by
      have : k ≠ 0 := by exact_mod_cast h
      exact_mod_cast Int.one_le_abs this
    rw [abs_div, abs_mul, abs_of_pos hR0]
    have h1 : |1 - Real.cos (R * k)| ≤ 2 := by
      rw [abs_le]
      constructor <;> linarith [Real.cos_le_one (R * k), Real.neg_one_le_cos (R * k)]
    gcongr
    nlinarith

lemma FCv.term_bound (q : Co) (μ : ℤ → ℂ) (p s : ℕ) (B : ℝ) (hB : 0 ≤ B) (h : ∀ k, ‖μ k‖ ≤ B * wt k ^ p) :
    ∃ C, 0 ≤ C ∧ ∀ a, W s ((FourierStab.mul q).comp (FourierStab.diag μ) a) ≤ C * W (s + p) a := by
  refine ⟨W s q * B, mul_nonneg (W_nonneg _ _) hB, fun a => ?_⟩
  rw [LinearMap.comp_apply, mul_assoc]
  exact (W_mul _ _ _).trans (mul_le_mul_of_nonneg_left (W_diag μ s p B h a) (W_nonneg _ _))

lemma FCv.sum_bound {ι : Type*} (S : Finset ι) (T : ι → Co →ₗ[ℂ] Co) (s p : ℕ) (h : ∀ i ∈ S, ∃ C, 0 ≤ C ∧ ∀ a, W s (T i a) ≤ C * W (s + p) a) :
    ∃ C, 0 ≤ C ∧ ∀ a, W s ((∑ i ∈ S, T i) a) ≤ C * W (s + p) a := by
  classical
  induction S using Finset.induction_on with
  | empty => exact ⟨0, le_rfl, fun a => by simp [W_zero]⟩
  | insert i S hi ih =>
    obtain ⟨C, hC, h1⟩ := ih fun i hi => h i (mem_insert_of_mem hi)
    obtain ⟨D, hD, h2⟩ := h i (mem_insert_self _ _)
    refine ⟨D + C, by positivity, fun a => ?_⟩
    rw [sum_insert hi, LinearMap.add_apply, add_mul]
    exact (W_add _ _ _).trans (add_le_add (h2 a) (h1 a))

lemma FCv.low_bound (e : Ends) (he : e.e0 < e.e1) (s : Source) (r : ℕ) (hr : 1 ≤ r) (hnl : s.nl.length ≤ r) (t : ℕ) :
    ∃ C, 0 ≤ C ∧ ∀ a, W t (low e s r a) ≤ C * W (t + (r - 1)) a := by
  have hd : 0 < Mapping.diff e := by unfold Mapping.diff; linarith
  obtain ⟨C1, h1, hb1⟩ := sum_bound (range r) (fun j => (FourierStab.mul (qc (s.coeff.getD j (false, [])))).comp (FourierStab.diag fun k => dmul e k ^ j)) t (r - 1)
    (fun j hj => term_bound _ _ _ _ _ (by positivity) (dmul_le e he (r - 1) j (by rw [mem_range] at hj; omega)))
  obtain ⟨B, hB, ham⟩ := amul_le e he
  obtain ⟨C2, h2, hb2⟩ := sum_bound (range s.nl.length)
    (fun j => (FourierStab.mul (qc (s.nl.getD j (false, [])))).comp (FourierStab.diag fun k => dmul e k ^ j * amul e k)) t (r - 1)
    (fun j hj => term_bound _ _ _ _ ((2 * Real.pi / Mapping.diff e + 1) ^ (r - 1) * B) (by positivity) (fun k => by
      rw [norm_mul]
      have h3 := dmul_le e he (r - 1) j (by rw [mem_range] at hj; omega) k
      calc ‖dmul e k ^ j‖ * ‖amul e k‖ ≤ ((2 * Real.pi / Mapping.diff e + 1) ^ (r - 1) * wt k ^ (r - 1)) * B := by
            gcongr
            · exact mul_nonneg (by positivity) (pow_nonneg (wt_pos k).le _)
            · exact ham k
        _ = _ := by ring))
  obtain ⟨C3, h3, hb3⟩ : ∃ C, 0 ≤ C ∧ ∀ a, W t (intTerm e s a) ≤ C * W (t + (r - 1)) a := by
    unfold intTerm
    split
    · exact ⟨0, le_rfl, fun a => by simp [W_zero]⟩
    · refine term_bound _ _ _ _ (Mapping.diff e) hd.le fun k => ?_
      have h4 : 1 ≤ wt k ^ (r - 1) := one_le_pow₀ (one_le_wt k)
      split_ifs
      · rw [Complex.norm_real, Real.norm_eq_abs, abs_of_pos hd]
        nlinarith
      · rw [norm_zero]
        positivity
  refine ⟨C1 + C3 + C2, by positivity, fun a => ?_⟩
  unfold low
  rw [LinearMap.add_apply, LinearMap.add_apply, add_mul, add_mul]
  exact (W_add _ _ _).trans (add_le_add ((W_add _ _ _).trans (add_le_add (hb1 a) (hb3 a))) (hb2 a))

/-- the operator on coefficients -/
noncomputable def FCv.op (e : Ends) (he : e.e0 < e.e1) (s : Source) (r : ℕ) (c : ℂ) (hs : IsOp s r c) : Op where
  p := r - 1
  lead k := c * dmul e k ^ r
  γ := ‖c‖ * (Real.pi / Mapping.diff e) ^ r
  hγ := by
    have hd : 0 < Mapping.diff e := by unfold Mapping.diff; linarith
    have := norm_pos_iff.mpr hs.2.1
    positivity
  hlead k hk := by
    have hd : 0 < Mapping.diff e := by unfold Mapping.diff; linarith
    have hr := hs.1
    rw [show r - 1 + 1 = r by omega, norm_mul, norm_pow, dmul_norm e he, mul_assoc, ← mul_pow]
    have h1 : (1 : ℝ) ≤ k.natAbs := by exact_mod_cast (by omega : 1 ≤ k.natAbs)
    have := (wt_pos k).le
    have h2 : Real.pi / Mapping.diff e * wt k ≤ 2 * Real.pi / Mapping.diff e * k.natAbs := by
      unfold wt
      have : 0 < Real.pi / Mapping.diff e := by positivity
      rw [show 2 * Real.pi / Mapping.diff e = 2 * (Real.pi / Mapping.diff e) by ring]
      nlinarith
    gcongr
  K := low e s r
  hK t := low_bound e he s r hs.1 hs.2.2.2.2.2.1 t

/-- the coefficients of `L u` -/
lemma FCv.applyOp_fn (e : Ends) (he : e.e0 < e.e1) (s : Source) (r : ℕ) (c : ℂ) (hs : IsOp s r c) (a : Co) (x : ℝ) :
    applyOp e s (fn e a) x = ev ((op e he s r c hs).Lam a) (Mapping.bwd e x) := by
  rw [Op.Lam_apply, map_add, Pi.add_apply]
  show _ = ev (FourierStab.diag (fun k => c * dmul e k ^ r) a) _ + ev (low e s r a) _
  unfold low applyOp
  rw [LinearMap.add_apply, LinearMap.add_apply, map_add, map_add, Pi.add_apply, Pi.add_apply, hs.2.2.1, sum_range_succ, hs.2.2.2.1, fn_agg e he]
  have h1 : ∀ p : Bool × List ℂ, ∀ b : Co, ∀ j, coefFun e p x * iteratedDeriv j (fn e b) x
      = ev ((FourierStab.mul (qc p)).comp (FourierStab.diag fun k => dmul e k ^ j) b) (Mapping.bwd e x) := by
    intro p b j
    rw [LinearMap.comp_apply, ev_mul, ev_qc, fn_iter]
    rfl
  have h2 : coefFun e (true, [c]) x * iteratedDeriv r (fn e a) x = ev (FourierStab.diag (fun k => c * dmul e k ^ r) a) (Mapping.bwd e x) := by
    have h3 : coefFun e (true, [c]) x = c := by simp [coefFun, trigEval, trigMode, wave]
    rw [h3, fn_iter]
    have : FourierStab.diag (fun k => c * dmul e k ^ r) a = c • FourierStab.diag (fun k => dmul e k ^ r) a := by
      ext k
      rw [Finsupp.smul_apply, FourierStab.diag_apply, FourierStab.diag_apply, smul_eq_mul]
      ring
    rw [this, map_smul]
    rfl
  have h3 : (s.integral.map fun p => trigEval p.1 (Mapping.bwd e x) * ∫ y in e.e0..e.e1, trigEval p.2 (Mapping.bwd e y) * fn e a y).sum
      = ev (intTerm e s a) (Mapping.bwd e x) := by
    unfold intTerm
    rcases hs.2.2.2.2.2.2.2 with h | ⟨q, d, h, -, hd⟩
    · rw [h]
      simp
    · rw [h]
      simp only [List.map_cons, List.map_nil, List.sum_cons, List.sum_nil, add_zero, hd, one_mul]
      rw [LinearMap.comp_apply, ev_mul, ev_coOf, fn_int e he]
      congr 1
      have : FourierStab.diag (fun k => if k = 0 then (Mapping.diff e : ℂ) else 0) a = Finsupp.single 0 ((Mapping.diff e : ℂ) * a 0) := by
        ext k
        rw [FourierStab.diag_apply, Finsupp.single_apply]
        by_cases hk : k = 0
        · subst hk; simp
        · rw [if_neg hk, if_neg (Ne.symm hk), zero_mul]
      rw [this, ev_single]
      simp
  rw [h2, h3]
  simp only [h1]
  rw [LinearMap.sum_apply, LinearMap.sum_apply, map_sum, map_sum, Finset.sum_apply, Finset.sum_apply]
  have h4 : ∀ j, ev ((FourierStab.mul (qc (s.nl.getD j (false, [])))).comp (FourierStab.diag fun k => dmul e k ^ j) (FourierStab.diag (amul e) a)) (Mapping.bwd e x)
      = ev ((FourierStab.mul (qc (s.nl.getD j (false, [])))).comp (FourierStab.diag fun k => dmul e k ^ j * amul e k) a) (Mapping.bwd e x) := by
    intro j
    rw [LinearMap.comp_apply, LinearMap.comp_apply, diag_diag]
  simp only [h4]
  ring

lemma FCv.stable (e : Ends) (he : e.e0 < e.e1) (s : Source) (r : ℕ) (c : ℂ) (hs : IsOp s r c) (S : ℝ) (hwp : WellPosedPer e s S) :
    (op e he s r c hs).Stable S := by
  intro a M hM y
  have h := hwp (fn e a) (fn_contDiff e a) (fn_periodic e he a) M (fun x => by rw [applyOp_fn e he s r c hs]; exact hM _) (Mapping.fwd e y)
  have hb : Mapping.bwd e (Mapping.fwd e y) = y := by
    have : e.e1 - e.e0 ≠ 0 := by linarith
    simp only [Mapping.bwd, Mapping.fwd, Mapping.diff]
    field_simp; ring
  rwa [fn, hb] at h

lemma FCv.matrix_co (e : Ends) (he : e.e0 < e.e1) (s : Source) (r : ℕ) (c : ℂ) (hs : IsOp s r c) {n : ℕ} (hn : n % 2 = 1) (u : Fin n → ℂ) (i : Fin n) :
    (assemble n (Mapping.diff e) s *ᵥ u) i = (op e he s r c hs).Lam (toCo u) (wave n i) := by
  rw [C94_assemble_partial n hn e he s hs.2.2.2.2.1 hs.2.2.2.2.2.2.1 hs.2.2.2.2.2.2.2 u i, ← fourier_ev]
  congr 1
  funext y
  rw [← fn_toCo hn, applyOp_fn e he s r c hs]
  have hb : Mapping.bwd e (Mapping.fwd e y) = y := by
    have : e.e1 - e.e0 ≠ 0 := by linarith
    simp only [Mapping.bwd, Mapping.fwd, Mapping.diff]
    field_simp; ring
  rw [hb]

lemma FCv.agg_prim (u : ℝ → ℂ) (hc : Continuous u) : aggregate u
    = fun x => ((∫ t in (0 : ℝ)..(x + 1), u t) - (∫ t in (0 : ℝ)..x, u t) - ((∫ t in (0 : ℝ)..x, u t) - ∫ t in (0 : ℝ)..(x - 1), u t)) / 2 := by
  have hint : ∀ a b, IntervalIntegrable u MeasureTheory.volume a b := fun a b => hc.intervalIntegrable a b
  funext x
  unfold aggregate
  congr 1
  rw [intervalIntegral.integral_sub ((by fun_prop : Continuous fun r : ℝ => u (x + r)).intervalIntegrable _ _)
    ((by fun_prop : Continuous fun r : ℝ => u (x - r)).intervalIntegrable _ _), intervalIntegral.integral_comp_add_left (fun y => u y),
    intervalIntegral.integral_comp_sub_left (fun y => u y),
    intervalIntegral.integral_interval_sub_left (hint _ _) (hint _ _), intervalIntegral.integral_interval_sub_left (hint _ _) (hint _ _)]
  simp

lemma FCv.agg_contDiff (u : ℝ → ℂ) (hu : ContDiff ℝ ∞ u) : ContDiff ℝ ∞ (aggregate u) := by
  have hc := hu.continuous
  have hint : ∀ a b, IntervalIntegrable u MeasureTheory.volume a b := fun a b => hc.intervalIntegrable a b
  have hUd : ∀ y, HasDerivAt (fun y => ∫ t in (0 : ℝ)..y, u t) (u y) y := fun y =>
    intervalIntegral.integral_hasDerivAt_right (hint 0 y) (hc.stronglyMeasurableAtFilter _ _) hc.continuousAt
  rw [agg_prim u hc]
  set U : ℝ → ℂ := fun y => ∫ t in (0 : ℝ)..y, u t with hU
  have hUc : ContDiff ℝ ∞ U := by
    rw [contDiff_infty_iff_deriv]
    refine ⟨fun y => (hUd y).differentiableAt, ?_⟩
    have : deriv U = u := funext fun y => (hUd y).deriv
    rw [this]
    exact hu
  have h1 : ContDiff ℝ ∞ fun x : ℝ => U (x + 1) := hUc.comp (by fun_prop)
  have h2 : ContDiff ℝ ∞ fun x : ℝ => U (x - 1) := hUc.comp (by fun_prop)
  show ContDiff ℝ ∞ fun x : ℝ => (U (x + 1) - U x - (U x - U (x - 1))) / 2
  fun_prop

lemma FCv.agg_sub (u w : ℝ → ℂ) (hu : Continuous u) (hw : Continuous w) : aggregate (w - u) = aggregate w - aggregate u := by
  funext x
  rw [Pi.sub_apply]
  unfold aggregate
  rw [← sub_div, ← intervalIntegral.integral_sub (Continuous.intervalIntegrable (by fun_prop) _ _) (Continuous.intervalIntegrable (by fun_prop) _ _)]
  congr 1
  congr 1
  funext r
  rw [Pi.sub_apply, Pi.sub_apply]
  ring

lemma FCv.trig_cont (c : List ℂ) (e : Ends) : Continuous fun x => trigEval c (Mapping.bwd e x) := by
  have h : (fun x => trigEval c (Mapping.bwd e x)) = fn e (coOf c) := funext fun x => (ev_coOf c _).symm
  rw [h]
  exact (fn_contDiff e _).continuous

/-- the operator is linear -/
lemma FCv.applyOp_sub (e : Ends) (s : Source) (w u : ℝ → ℂ) (hw : ContDiff ℝ ∞ w) (hu : ContDiff ℝ ∞ u) (x : ℝ) :
    applyOp e s (fun y => w y - u y) x = applyOp e s w x - applyOp e s u x := by
  have h0 : (fun y => w y - u y) = w - u := rfl
  have hi : ∀ (f g : ℝ → ℂ) (j : ℕ), ContDiff ℝ ∞ f → ContDiff ℝ ∞ g → iteratedDeriv j (f - g) x = iteratedDeriv j f x - iteratedDeriv j g x := by
    intro f g j hf hg
    exact iteratedDeriv_sub (hf.contDiffAt.of_le (by exact_mod_cast le_top)) (hg.contDiffAt.of_le (by exact_mod_cast le_top))
  have hI : ∀ d : List ℂ, (∫ y in e.e0..e.e1, trigEval d (Mapping.bwd e y) * (w - u) y)
      = (∫ y in e.e0..e.e1, trigEval d (Mapping.bwd e y) * w y) - ∫ y in e.e0..e.e1, trigEval d (Mapping.bwd e y) * u y := by
    intro d
    have hw1 : Continuous fun y => trigEval d (Mapping.bwd e y) * w y := (trig_cont d e).mul hw.continuous
    have hu1 : Continuous fun y => trigEval d (Mapping.bwd e y) * u y := (trig_cont d e).mul hu.continuous
    rw [← intervalIntegral.integral_sub (hw1.intervalIntegrable _ _) (hu1.intervalIntegrable _ _)]
    congr 1
    funext y
    rw [Pi.sub_apply]
    ring
  have hm : ∀ l : List (List ℂ × List ℂ), (l.map fun p => trigEval p.1 (Mapping.bwd e x) * ∫ y in e.e0..e.e1, trigEval p.2 (Mapping.bwd e y) * (w - u) y).sum
      = (l.map fun p => trigEval p.1 (Mapping.bwd e x) * ∫ y in e.e0..e.e1, trigEval p.2 (Mapping.bwd e y) * w y).sum
        - (l.map fun p => trigEval p.1 (Mapping.bwd e x) * ∫ y in e.e0..e.e1, trigEval p.2 (Mapping.bwd e y) * u y).sum := by
    intro l
    induction l with
    | nil => simp
    | cons p l ih =>
      simp only [List.map_cons, List.sum_cons] at ih ⊢
      rw [ih, hI]
      ring
  rw [h0]
  unfold applyOp
  rw [agg_sub u w hu.continuous hw.continuous, hm]
  simp only [hi _ _ _ hw hu, hi _ _ _ (agg_contDiff w hw) (agg_contDiff u hu), mul_sub, sum_sub_distrib]
  ring

lemma FCv.regularC (e : Ends) (he : e.e0 < e.e1) (s : Source) (r : ℕ) (c : ℂ) (hs : IsOp s r c) (S : ℝ) (hS : 0 ≤ S) (hst : (op e he s r c hs).CStable S) :
    ∃ N, ∀ n, N ≤ n → n % 2 = 1 → ∀ f : Fin n → ℂ, ∃! x : Fin n → ℂ, assemble n (Mapping.diff e) s *ᵥ x = f := by
  obtain ⟨C, N, hC, hds⟩ := (op e he s r c hs).discrete_stability S hS hst 0
  refine ⟨2 * N, fun n hn hodd f => ?_⟩
  have hinj : Function.Injective (assemble n (Mapping.diff e) s).mulVecLin := by
    rw [← LinearMap.ker_eq_bot, LinearMap.ker_eq_bot']
    intro x hx
    have h1 := hds (n / 2) (by omega) (toCo x) (toCo_out hodd x)
    have h2 : lo (n / 2) ((op e he s r c hs).Lam (toCo x)) = 0 := by
      ext k
      rw [lo_apply]
      split_ifs with h
      · obtain ⟨i, rfl⟩ := exists_wave hodd k h
        rw [← matrix_co e he s r c hs hodd]
        exact congrFun hx i
      · rfl
    rw [h2, W_zero, mul_zero] at h1
    funext i
    have h3 := le_antisymm ((W_mono 0 _ (Nat.zero_le _) _).trans h1) (W_nonneg 0 (toCo x))
    have h4 := (coeff_bound (toCo x) 0 (fun y => (ev_bound _ y).trans h3.le) (wave n i))
    rw [toCo_wave] at h4
    exact norm_le_zero_iff.mp h4
  have hsurj := LinearMap.injective_iff_surjective.1 hinj
  obtain ⟨x, hx⟩ := hsurj f
  exact ⟨x, hx, fun y hy => hinj (by rw [hx]; exact hy)⟩

/-- **C128, regularity.**  For a well-posed periodic problem there is an `N` such that for every odd number `n ≥ N` of modes the discretised problem has
exactly one solution for every right-hand side. -/
theorem C128_regular (e : Ends) (he : e.e0 < e.e1) (s : Source) (r : ℕ) (c : ℂ) (eps : ℝ) (hs : IsOp s r c) (S : ℝ) (hS : 0 ≤ S) (hwp : WellPosedPer e s S) :
    ∃ N, ∀ n, N ≤ n → n % 2 = 1 → NoDrop n (Mapping.diff e) eps s → ∀ f : Fin n → ℂ, ∃! x : Fin n → ℂ, quasi2diffmat n (Mapping.diff e) eps s *ᵥ x = f := by
  obtain ⟨N, h⟩ := regularC e he s r c hs S hS (stable e he s r c hs S hwp).c
  refine ⟨N, fun n hn hodd hnd f => ?_⟩
  rw [nodrop hnd]
  exact h n hn hodd f

/-- **C128, spectral convergence.**  Let `u` be a smooth periodic solution of the well-posed problem `L u = f`, where `f` is a trigonometric polynomial.
Then the solutions of the discretised problems with an odd number of modes converge to `u` uniformly, faster than every power of `1 / n`. -/
theorem C128_converges (e : Ends) (he : e.e0 < e.e1) (s : Source) (r : ℕ) (c : ℂ) (eps : ℝ) (hs : IsOp s r c) (S : ℝ) (hS : 0 ≤ S) (hwp : WellPosedPer e s S)
    (f : List ℂ) (u : ℝ → ℂ) (hu : ContDiff ℝ ∞ u) (hper : Function.Periodic u (Mapping.diff e))
    (heq : ∀ x, applyOp e s u x = trigEval f (Mapping.bwd e x)) (t : ℕ) :
    ∃ C N, ∀ n, N ≤ n → n % 2 = 1 → NoDrop n (Mapping.diff e) eps s → ∀ v : Fin n → ℂ,
      quasi2diffmat n (Mapping.diff e) eps s *ᵥ v = (fun i : Fin n => fourier (trigEval f) (wave n i)) →
        ∀ x, ‖fourierFun e v x - u x‖ ≤ C / (n : ℝ) ^ t := by
  obtain ⟨C, N, hC, hdec⟩ := (op e he s r c hs).residual_decay S hS (stable e he s r c hs S hwp).c (coOf f) 0 t
  refine ⟨S * (C * 2 ^ t), 2 * N, fun n hn hodd hnd v hv x => ?_⟩
  rw [nodrop hnd] at hv
  have hf : trigEval f = ev (coOf f) := funext fun y => (ev_coOf f y).symm
  have h1 := hdec (n / 2) (by omega) (toCo v) (toCo_out hodd v) (by
    ext k
    rw [lo_apply, lo_apply]
    split_ifs with h
    · obtain ⟨i, rfl⟩ := exists_wave hodd k h
      rw [← matrix_co e he s r c hs hodd, hv]
      show fourier (trigEval f) (wave n i) = _
      rw [hf, fourier_ev]
    · rfl)
  have hn0 : (0 : ℝ) < (n : ℝ) ^ t := by
    have : 0 < n := by omega
    positivity
  have h2 : (n : ℝ) ^ t ≤ 2 ^ t * (((n / 2 : ℕ) : ℝ) + 1) ^ t := by
    rw [← mul_pow]
    gcongr
    exact_mod_cast (by omega : n ≤ 2 * (n / 2 + 1))
  have hres : ∀ z, ‖applyOp e s (fun y => fourierFun e v y - u y) z‖ ≤ C * 2 ^ t / (n : ℝ) ^ t := by
    intro z
    rw [← fn_toCo hodd, applyOp_sub e s _ _ (fn_contDiff e _) hu, heq, applyOp_fn e he s r c hs, hf, ← Pi.sub_apply, ← map_sub, le_div_iff₀ hn0]
    have h3 := ev_bound ((op e he s r c hs).Lam (toCo v) - coOf f) (Mapping.bwd e z)
    have h4 := W_nonneg 0 ((op e he s r c hs).Lam (toCo v) - coOf f)
    calc _ ≤ W 0 ((op e he s r c hs).Lam (toCo v) - coOf f) * (2 ^ t * (((n / 2 : ℕ) : ℝ) + 1) ^ t) := by gcongr
      _ = ((((n / 2 : ℕ) : ℝ) + 1) ^ t * W 0 ((op e he s r c hs).Lam (toCo v) - coOf f)) * 2 ^ t := by ring
      _ ≤ _ := by gcongr
  rw [mul_div_assoc]
  refine hwp _ ?_ ?_ _ hres x
  · rw [← fn_toCo hodd]
    exact (fn_contDiff e _).sub hu
  · intro y
    show fourierFun e v (y + Mapping.diff e) - u (y + Mapping.diff e) = _
    rw [hper y, ← fn_toCo hodd, fn_periodic e he _ y]

/-! ### elliptic problems -/

lemma FCv.agg_hasDeriv (u : ℝ → ℂ) (hc : Continuous u) (x : ℝ) :
    HasDerivAt (aggregate u) ((u (x + 1) - u x - (u x - u (x - 1))) / 2) x := by
  have hint : ∀ a b, IntervalIntegrable u MeasureTheory.volume a b := fun a b => hc.intervalIntegrable a b
  have hUd : ∀ y, HasDerivAt (fun y => ∫ t in (0 : ℝ)..y, u t) (u y) y := fun y =>
    intervalIntegral.integral_hasDerivAt_right (hint 0 y) (hc.stronglyMeasurableAtFilter _ _) hc.continuousAt
  set U : ℝ → ℂ := fun y => ∫ t in (0 : ℝ)..y, u t with hU
  rw [agg_prim u hc]
  have h1 : HasDerivAt (fun x : ℝ => U (x + 1)) (u (x + 1)) x := (hUd (x + 1)).comp_add_const x 1
  have h2 : HasDerivAt (fun x : ℝ => U (x - 1)) (u (x - 1)) x := (hUd (x - 1)).comp_sub_const x 1
  exact ((h1.sub (hUd x)).sub ((hUd x).sub h2)).div_const 2

lemma FCv.agg_bound (u : ℝ → ℂ) (B : ℝ) (h : ∀ x, ‖u x‖ ≤ B) (x : ℝ) : ‖aggregate u x‖ ≤ B := by
  unfold aggregate
  rw [norm_div]
  have h1 := intervalIntegral.norm_integral_le_of_norm_le_const (a := 0) (b := 1) (C := 2 * B) (f := fun r : ℝ => u (x + r) - u (x - r)) (fun r _ => by
    refine (norm_sub_le _ _).trans ?_
    linarith [h (x + r), h (x - r)])
  rw [show |(1 : ℝ) - 0| = 1 by norm_num] at h1
  rw [show ‖(2 : ℂ)‖ = 2 by norm_num]
  linarith

/-- at a maximum of `|w|` the real parts of `conj w * w'` and of `conj w * w''` are zero and at most zero -/
lemma FCv.at_max (w : ℝ → ℂ) (hw : ContDiff ℝ 2 w) (x : ℝ) (hx : ∀ y, ‖w y‖ ≤ ‖w x‖) :
    inner ℝ (w x) (iteratedDeriv 1 w x) = 0 ∧ inner ℝ (w x) (iteratedDeriv 2 w x) ≤ 0 := by
  have hd0 : ∀ y, HasDerivAt w (iteratedDeriv 1 w y) y := fun y => by
    rw [iteratedDeriv_one]
    exact ((hw.differentiable (by simp)) y).hasDerivAt
  have hd1 : ∀ y, HasDerivAt (iteratedDeriv 1 w) (iteratedDeriv 2 w y) y := fun y => by
    rw [show iteratedDeriv 2 w = deriv (iteratedDeriv 1 w) from iteratedDeriv_succ]
    exact ((hw.differentiable_iteratedDeriv 1 (by norm_num)) y).hasDerivAt
  set g : ℝ → ℝ := fun y => ‖w y‖ ^ 2 with hg
  have hg1 : ∀ y, HasDerivAt g (2 * inner ℝ (w y) (iteratedDeriv 1 w y)) y := fun y => (hd0 y).norm_sq
  have hg2 : ∀ y, HasDerivAt (deriv g) (2 * (inner ℝ (w y) (iteratedDeriv 2 w y) + inner ℝ (iteratedDeriv 1 w y) (iteratedDeriv 1 w y))) y := fun y => by
    have : deriv g = fun y => 2 * inner ℝ (w y) (iteratedDeriv 1 w y) := funext fun y => (hg1 y).deriv
    rw [this]
    exact ((hd0 y).inner ℝ (hd1 y)).const_mul 2
  have hmax : IsLocalMax g x := Filter.Eventually.of_forall fun y => by
    show ‖w y‖ ^ 2 ≤ ‖w x‖ ^ 2
    have := hx y
    gcongr
  have h1 : deriv g x = 0 := hmax.deriv_eq_zero
  have h2 : deriv (deriv g) x ≤ 0 := by
    by_contra hc
    push Not at hc
    have hmin := isLocalMin_of_deriv_deriv_pos hc h1 (hg1 x).continuousAt
    have hconst : g =ᶠ[nhds x] fun _ => g x := by
      filter_upwards [hmax, hmin] with y h3 h4
      exact le_antisymm h3 h4
    have h5 : deriv g =ᶠ[nhds x] fun _ => 0 := by
      have := hconst.deriv
      simpa using this
    have h6 := h5.deriv_eq
    simp at h6
    linarith
  rw [(hg1 x).deriv] at h1
  rw [(hg2 x).deriv, real_inner_self_eq_norm_sq] at h2
  constructor
  · linarith
  · nlinarith [sq_nonneg ‖iteratedDeriv 1 w x‖]

lemma FCv.elliptic_est (e : Ends) (he : e.e0 < e.e1) (d q0 β : ℝ) (hd : 0 < d) (p q b0 b1 : List ℂ)
    (hp : ∀ y, (trigEval p y).im = 0) (hq : ∀ y, (trigEval q y).im = 0 ∧ q0 ≤ (trigEval q y).re)
    (hb : ∀ y, ‖trigEval b0 y‖ + 2 * ‖trigEval b1 y‖ ≤ β) (hβ : β < q0) (w : ℝ → ℂ) (hw : ContDiff ℝ 2 w) (hper : Function.Periodic w (Mapping.diff e)) (M : ℝ)
    (hM : ∀ x, ‖applyOp e ⟨[(true, q), (true, p), (true, [(-d : ℂ)])], [], [(true, b0), (true, b1)]⟩ w x‖ ≤ M) (x : ℝ) : ‖w x‖ ≤ 1 / (q0 - β) * M := by
  set s : Source := ⟨[(true, q), (true, p), (true, [(-d : ℂ)])], [], [(true, b0), (true, b1)]⟩ with hs
  have hpos : 0 < Mapping.diff e := by unfold Mapping.diff; linarith
  obtain ⟨x0, -, hx0⟩ := isCompact_Icc.exists_isMaxOn (Set.nonempty_Icc.mpr hpos.le) (hw.continuous.norm.continuousOn (s := Set.Icc 0 (Mapping.diff e)))
  have hmax : ∀ y, ‖w y‖ ≤ ‖w x0‖ := by
    intro y
    obtain ⟨z, hz, hzy⟩ := hper.exists_mem_Ico₀ hpos y
    rw [hzy]
    exact hx0 ⟨hz.1, hz.2.le⟩
  refine (hmax x).trans ?_
  obtain ⟨h1, h2⟩ := at_max w hw x0 hmax
  have hL := hM x0
  set Y := Mapping.bwd e x0 with hY
  have hop : applyOp e s w x0 = trigEval q Y * w x0 + trigEval p Y * iteratedDeriv 1 w x0 + (-d : ℂ) * iteratedDeriv 2 w x0
      + (trigEval b0 Y * aggregate w x0 + trigEval b1 Y * ((w (x0 + 1) - w x0 - (w x0 - w (x0 - 1))) / 2)) := by
    have h3 : trigEval [(-d : ℂ)] Y = -d := by simp [trigEval, trigMode, wave]
    have h4 : iteratedDeriv 1 (aggregate w) x0 = (w (x0 + 1) - w x0 - (w x0 - w (x0 - 1))) / 2 := by
      rw [iteratedDeriv_one]
      exact (agg_hasDeriv w hw.continuous x0).deriv
    unfold applyOp
    simp only [s, List.length_cons, List.length_nil, sum_range_succ, sum_range_zero, List.getD_cons_zero, List.getD_cons_succ, coefFun, if_true,
      iteratedDeriv_zero, List.map_nil, List.sum_nil, ← hY, h3, h4]
    ring
  set P := trigEval p Y with hP
  set Q := trigEval q Y with hQ
  set R := trigEval b0 Y * aggregate w x0 + trigEval b1 Y * ((w (x0 + 1) - w x0 - (w x0 - w (x0 - 1))) / 2) with hR
  have hPr : P = (P.re : ℂ) := Complex.ext rfl (by simpa using hp Y)
  have hQr : Q = (Q.re : ℂ) := Complex.ext rfl (by simpa using (hq Y).1)
  have hRn : ‖R‖ ≤ β * ‖w x0‖ := by
    have h3 : ‖(w (x0 + 1) - w x0 - (w x0 - w (x0 - 1))) / 2‖ ≤ 2 * ‖w x0‖ := by
      rw [norm_div, show ‖(2 : ℂ)‖ = 2 by norm_num]
      have := (norm_sub_le (w (x0 + 1) - w x0) (w x0 - w (x0 - 1))).trans (add_le_add (norm_sub_le _ _) (norm_sub_le _ _))
      linarith [hmax (x0 + 1), hmax (x0 - 1)]
    have h4 := agg_bound w _ hmax x0
    have h5 := hb Y
    have h6 := norm_nonneg (w x0)
    calc ‖R‖ ≤ ‖trigEval b0 Y‖ * ‖w x0‖ + ‖trigEval b1 Y‖ * (2 * ‖w x0‖) := by
          rw [hR]
          refine (norm_add_le _ _).trans ?_
          rw [norm_mul, norm_mul]
          gcongr
      _ = (‖trigEval b0 Y‖ + 2 * ‖trigEval b1 Y‖) * ‖w x0‖ := by ring
      _ ≤ _ := by gcongr
  have hin : inner ℝ (w x0) (applyOp e s w x0) = Q.re * ‖w x0‖ ^ 2 + P.re * inner ℝ (w x0) (iteratedDeriv 1 w x0)
      - d * inner ℝ (w x0) (iteratedDeriv 2 w x0) + inner ℝ (w x0) R := by
    rw [hop, hQr, hPr, inner_add_right, inner_add_right, inner_add_right]
    have hsm : ∀ (r : ℝ) (z : ℂ), inner ℝ (w x0) ((r : ℂ) * z) = r * inner ℝ (w x0) z := fun r z => by
      rw [← Complex.real_smul, real_inner_smul_right]
    have hneg : (-d : ℂ) = ((-d : ℝ) : ℂ) := by push_cast; rfl
    rw [hneg, hsm, hsm, hsm, real_inner_self_eq_norm_sq]
    simp only [Complex.ofReal_re]
    ring
  have h3 := abs_real_inner_le_norm (w x0) (applyOp e s w x0)
  have h4 := abs_real_inner_le_norm (w x0) R
  rw [h1, mul_zero] at hin
  have h5 := (hq Y).2
  have hn := norm_nonneg (w x0)
  rw [div_mul_eq_mul_div, one_mul, le_div_iff₀ (by linarith)]
  rcases hn.eq_or_lt with h0 | h0
  · rw [← h0, zero_mul]
    exact (norm_nonneg _).trans hL
  · have h6 : ‖w x0‖ * (‖w x0‖ * (q0 - β)) ≤ ‖w x0‖ * M := by
      have h7 : inner ℝ (w x0) (applyOp e s w x0) ≤ ‖w x0‖ * M := (le_abs_self _).trans (h3.trans (by gcongr))
      have h8 : -(‖w x0‖ * (β * ‖w x0‖)) ≤ inner ℝ (w x0) R := by
        have := (neg_abs_le (inner ℝ (w x0) R))
        have h9 : ‖w x0‖ * ‖R‖ ≤ ‖w x0‖ * (β * ‖w x0‖) := by gcongr
        linarith
      have h9 : q0 * ‖w x0‖ ^ 2 ≤ Q.re * ‖w x0‖ ^ 2 := by gcongr
      nlinarith
    exact le_of_mul_le_mul_left h6 h0

/-- **C128, elliptic problems.**  The periodic problem `-d u'' + p u' + q u + b₀ A u + b₁ (A u)' = f` with `d > 0`, real `p` and `q`, and
`q ≥ q₀ > β ≥ |b₀| + 2 |b₁|` is well-posed. -/
theorem C128_elliptic (e : Ends) (he : e.e0 < e.e1) (d q0 β : ℝ) (hd : 0 < d) (p q b0 b1 : List ℂ) (hlen : p.length ≠ 0 ∧ q.length ≠ 0 ∧ b0.length ≠ 0 ∧ b1.length ≠ 0)
    (hp : ∀ y, (trigEval p y).im = 0) (hq : ∀ y, (trigEval q y).im = 0 ∧ q0 ≤ (trigEval q y).re)
    (hb : ∀ y, ‖trigEval b0 y‖ + 2 * ‖trigEval b1 y‖ ≤ β) (hβ : β < q0) :
    let s : Source := ⟨[(true, q), (true, p), (true, [(-d : ℂ)])], [], [(true, b0), (true, b1)]⟩
    IsOp s 2 (-d) ∧ WellPosedPer e s (1 / (q0 - β)) := by
  intro s
  refine ⟨⟨by norm_num, by simpa using hd.ne', rfl, rfl, ?_, le_rfl, ?_, Or.inl rfl⟩, ?_⟩
  · intro c hc
    simp only [s, List.mem_cons, List.not_mem_nil, or_false] at hc
    rcases hc with rfl | rfl | rfl
    · exact hlen.2.1
    · exact hlen.1
    · simp
  · intro c hc
    simp only [s, List.mem_cons, List.not_mem_nil, or_false] at hc
    rcases hc with rfl | rfl
    · exact hlen.2.2.1
    · exact hlen.2.2.2
  intro w hw hper M hM x
  exact elliptic_est e he d q0 β hd p q b0 b1 hp hq hb hβ w (contDiff_infty.mp hw 2) hper M hM x

/-- `-u'' + u` on `[-1, 1]` -/
noncomputable def FCv.helm : Source := ⟨[(true, [1]), (true, [0]), (true, [(-(1 : ℝ) : ℂ)])], [], [(true, [0]), (true, [0])]⟩

lemma FCv.helm_entry (n : ℕ) (hn : n % 2 = 1) (i j : Fin n) :
    assemble n 2 helm i j = if i = j then ((1 + (Real.pi * waveArr n j) ^ 2 : ℝ) : ℂ) else 0 := by
  have h0 : assemble n 2 helm = 1 + -((((2 * Real.pi / 2) ^ 2 : ℝ) : ℂ) • (I ^ 2 • (diagonal fun k : Fin n => (waveArr n k : ℂ)) ^ 2)) := by
    simp [assemble, helm, multmat, discDiff, diffmat, hn]
  rw [h0, diagonal_pow, Matrix.add_apply, Matrix.neg_apply, Matrix.smul_apply, Matrix.smul_apply, Matrix.one_apply, Matrix.diagonal_apply]
  split_ifs with h
  · subst h
    rw [Complex.I_sq]
    push_cast
    simp
    ring
  · simp

/-- the hypotheses hold for `-u'' + u = f` on `[-1, 1]` and every threshold `eps ≤ 1` -/
example : IsOp helm 2 (-(1 : ℝ)) ∧ WellPosedPer ⟨-1, 1⟩ helm 1 ∧ ∀ n, n % 2 = 1 → ∀ eps ≤ (1 : ℝ), NoDrop n (Mapping.diff ⟨-1, 1⟩) eps helm := by
  have h := C128_elliptic ⟨-1, 1⟩ (by norm_num) 1 1 0 one_pos [0] [1] [0] [0] (by simp) (fun y => by simp [trigEval])
    (fun y => by simp [trigEval, trigMode, wave]) (fun y => by simp [trigEval]) one_pos
  refine ⟨h.1, by simpa [helm] using h.2, fun n hn eps heps i j => ?_⟩
  rw [show Mapping.diff ⟨-1, 1⟩ = 2 by norm_num [Mapping.diff], helm_entry n hn]
  split_ifs
  · right
    rw [Complex.norm_real, Real.norm_eq_abs, abs_of_nonneg (by positivity)]
    nlinarith [sq_nonneg (Real.pi * waveArr n j)]
  · left; rfl

/-- hence its discretisations with sufficiently many modes are uniquely solvable -/
example : ∃ N, ∀ n, N ≤ n → n % 2 = 1 → ∀ f : Fin n → ℂ, ∃! x : Fin n → ℂ, quasi2diffmat n (Mapping.diff ⟨-1, 1⟩) 1e-15 helm *ᵥ x = f := by
  have h := C128_elliptic ⟨-1, 1⟩ (by norm_num) 1 1 0 one_pos [0] [1] [0] [0] (by simp) (fun y => by simp [trigEval])
    (fun y => by simp [trigEval, trigMode, wave]) (fun y => by simp [trigEval]) one_pos
  obtain ⟨N, hN⟩ := C128_regular ⟨-1, 1⟩ (by norm_num) helm 2 (-(1 : ℝ)) 1e-15 h.1 _ (by norm_num) h.2
  refine ⟨N, fun n hn hodd f => hN n hn hodd (fun i j => ?_) f⟩
  rw [show Mapping.diff ⟨-1, 1⟩ = 2 by norm_num [Mapping.diff], helm_entry n hodd]
  split_ifs
  · right
    rw [Complex.norm_real, Real.norm_eq_abs, abs_of_nonneg (by positivity)]
    nlinarith [sq_nonneg (Real.pi * waveArr n j)]
  · left; rfl

end Funpy.Props
