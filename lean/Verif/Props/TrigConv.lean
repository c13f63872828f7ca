import Verif.Props.TrigArith
import Verif.Props.TrigCalc
import Mathlib.Analysis.SpecialFunctions.Integrals.Basic

/-!
# C64: circular convolution
-/

namespace Funpy.Props
open Spec Trig Finset Complex ComplexConjugate

private lemma realIf_exact (r : Bool) (c : List ℂ) (h : r = true → ∀ y, (trigEval c y).im = 0) :
    realIf r (coeffs2vals c) = coeffs2vals c := by
  unfold realIf
  split_ifs with hr
  · apply ext_getD 0 (by simp)
    intro j hj
    rw [List.length_map, coeffs2vals_length] at hj
    rw [getD_map_lt _ 0 _ _ _ (by rw [coeffs2vals_length]; exact hj)]
    have := h hr (equi c.length j)
    rw [trigEval_grid c j hj] at this
    apply Complex.ext
    · rw [ofReal_re]
    · rw [ofReal_im, this]
  · rfl

private lemma prolong_one (t : Tech) (ht : t.Sound) (c : List ℂ) (hc : t.cols = [c]) (N : ℕ) (hN : t.n < N) :
    (t.prolong N).n = N ∧ (t.prolong N).cols = [prolongCol c N] ∧
      (t.prolong N).vals = [coeffs2vals (prolongCol c N)] ∧ (t.prolong N).isReal = t.isReal := by
  have hl : c.length = t.n := ht.proper.wf c (by rw [hc]; simp)
  obtain ⟨r, hr⟩ : ∃ r, t.isReal = [r] := by
    have := ht.proper.lr
    rw [hc] at this
    exact List.length_eq_one_iff.mp (by simpa using this)
  unfold Tech.prolong
  rw [if_neg (by omega)]
  refine ⟨rfl, by simp [hc], ?_, rfl⟩
  simp only [hc, hr, List.map_cons, List.map_nil, List.zipWith_cons_cons, List.zipWith_nil_left]
  rw [realIf_exact]
  intro hb y
  rw [prolongCol_eval _ (by rw [hl]; exact ht.proper.pos) _ (by omega)]
  have := ht.flags 0 (by simp [hc]) (by rw [hr]; exact hb) y
  rw [hc] at this
  exact this

/-- C64 on `[-1, 1]`: if the longer of the two lengths is odd and the kernel `g` is real-valued, the
circular convolution represents `x ↦ ∫_{-1}^{1} f(y) g(x - y) dy` exactly. -/
theorem C64_tech_partial (f g : Tech) (hf : f.Sound) (hg : g.Sound) (c d : List ℂ) (hc : f.cols = [c])
    (hd : g.cols = [d]) (hodd : max f.n g.n % 2 = 1) (hr : RealValued g) (x : ℝ) :
    ∃ h, f.circconv g = some h ∧ h.n = max f.n g.n ∧ series h x = [circ (trigEval c) (trigEval d) x] := by
  have hlc : c.length = f.n := hf.proper.wf c (by rw [hc]; simp)
  have hld : d.length = g.n := hg.proper.wf d (by rw [hd]; simp)
  have hfp := hf.proper.pos
  have hgp := hg.proper.pos
  have hdr : ∀ y, (trigEval d y).im = 0 := hr d (by rw [hd]; simp)
  set N := max f.n g.n with hN
  set f1 := if f.n < g.n then f.prolong g.n else f with hf1
  set g1 := if f.n > g.n then g.prolong f.n else g with hg1
  have F1 : f1.n = N ∧ f1.cols = [prolongCol c N] ∧ f1.vals = [coeffs2vals (prolongCol c N)] := by
    by_cases h : f.n < g.n
    · rw [hf1, if_pos h, hN, max_eq_right h.le]
      obtain ⟨a1, a2, a3, _⟩ := prolong_one f hf c hc g.n h
      exact ⟨a1, a2, a3⟩
    · have e : N = f.n := by omega
      have : prolongCol c N = c := by unfold prolongCol; rw [if_pos (by omega)]
      rw [hf1, if_neg h, this, hf.vals, hc, e]
      exact ⟨rfl, rfl, rfl⟩
  have G1 : g1.n = N ∧ g1.cols = [prolongCol d N] ∧ g1.isReal = g.isReal := by
    by_cases h : f.n > g.n
    · rw [hg1, if_pos h, hN, max_eq_left h.le]
      obtain ⟨a1, a2, _, a4⟩ := prolong_one g hg d hd f.n h
      exact ⟨a1, a2, a4⟩
    · have e : N = g.n := by omega
      have : prolongCol d N = d := by unfold prolongCol; rw [if_pos (by omega)]
      rw [hg1, if_neg h, this, hd, e]
      exact ⟨rfl, rfl, rfl⟩
  obtain ⟨r, hr'⟩ : ∃ r, g.isReal = [r] := by
    have := hg.proper.lr
    rw [hd] at this
    exact List.length_eq_one_iff.mp (by simpa using this)
  have hlpd := prolongCol_length d (by omega) N (by omega)
  have hlpc := prolongCol_length c (by omega) N (by omega)
  have hsr : ∀ y, (trigEval (shiftCol (-1) (prolongCol d N)) y).im = 0 := by
    intro y
    rw [shiftCol_eval _ _ (Or.inl (by omega)), prolongCol_eval _ (by omega) _ (by omega)]
    exact hdr _
  have G2 : (g1.circshift (-1)).vals = [coeffs2vals (shiftCol (-1) (prolongCol d N))] := by
    unfold Tech.circshift
    rw [if_neg (by norm_num)]
    simp only [Tech.ofBoth, Tech.make, G1.2.1, G1.2.2, hr', List.map_cons, List.map_nil, List.zipWith_cons_cons,
      List.zipWith_nil_left]
    rw [realIf_exact r _ (fun _ => hsr), realIf_exact _ _ (fun _ => hsr)]
  unfold Tech.circconv
  rw [if_neg (by rw [hc, hd]; simp)]
  simp only []
  rw [← hf1, ← hg1]
  refine ⟨_, rfl, F1.1, ?_⟩
  simp only [series, Tech.ofBoth, Tech.make, List.map_cons, List.map_nil]
  rw [G2, F1.2.2]
  simp only [List.getD_cons_zero]
  rw [cyclic_circ _ _ (by rw [hlpd, hlpc]) (by rw [hlpc]; exact hodd)]
  have e1 : trigEval (prolongCol c N) = trigEval c := funext fun y => prolongCol_eval _ (by omega) _ (by omega) y
  have e2 : trigEval (prolongCol d N) = trigEval d := funext fun y => prolongCol_eval _ (by omega) _ (by omega) y
  rw [e1, e2]

private lemma mulNum_series (t : Tech) (s : ℂ) (x : ℝ) :
    series (t.mulNum s) x = (series t x).map fun z => z * s := C61_times_number t s x

/-- C64 on a domain `[a, b]`: `np.convolve(f, g)(x) = ∫_a^b f(y) g(x - y + (a+b)/2) dy`, with `f` and
`g` continued periodically. -/
theorem C64_fun_partial (f g : TrigFun) (hdom : f.dom = g.dom) (hab : f.dom.e0 < f.dom.e1)
    (hf : f.onefun.Sound) (hg : g.onefun.Sound) (c d : List ℂ) (hc : f.onefun.cols = [c])
    (hd : g.onefun.cols = [d]) (hodd : max f.onefun.n g.onefun.n % 2 = 1) (hr : RealValued g.onefun) (x : ℝ) :
    ∃ h, f.convolve g = some h ∧ h.dom = f.dom ∧ series h.onefun (Mapping.bwd f.dom x)
      = [∫ y in f.dom.e0..f.dom.e1, trigEval c (Mapping.bwd f.dom y) *
          trigEval d (Mapping.bwd f.dom (x - y + (f.dom.e0 + f.dom.e1) / 2))] := by
  obtain ⟨h, hh, -, hs⟩ := C64_tech_partial f.onefun g.onefun hf hg c d hc hd hodd hr (Mapping.bwd f.dom x)
  unfold TrigFun.convolve
  rw [if_pos hdom, hh]
  refine ⟨_, rfl, rfl, ?_⟩
  simp only []
  rw [mulNum_series, hs]
  simp only [List.map_cons, List.map_nil, List.cons.injEq, and_true]
  have hpos : 0 < f.dom.e1 - f.dom.e0 := by linarith
  have hsc : 0 < 0.5 * Mapping.diff f.dom := by unfold Mapping.diff; linarith
  have hbw : ∀ y, Mapping.bwd f.dom y = (0.5 * Mapping.diff f.dom)⁻¹ * y + (-(f.dom.e0 + f.dom.e1) / (f.dom.e1 - f.dom.e0)) := by
    intro y
    unfold Mapping.bwd Mapping.diff
    field_simp
    ring
  have hsub : ∀ y, Mapping.bwd f.dom (x - y + (f.dom.e0 + f.dom.e1) / 2) = Mapping.bwd f.dom x - Mapping.bwd f.dom y := by
    intro y
    unfold Mapping.bwd Mapping.diff
    field_simp
    ring
  have h0 : Mapping.bwd f.dom f.dom.e0 = -1 := by unfold Mapping.bwd Mapping.diff; field_simp; ring
  have h1 : Mapping.bwd f.dom f.dom.e1 = 1 := by unfold Mapping.bwd Mapping.diff; field_simp; ring
  simp only [hsub]
  have hint := intervalIntegral.integral_comp_mul_add (a := f.dom.e0) (b := f.dom.e1) (fun t => trigEval c t * trigEval d (Mapping.bwd f.dom x - t))
    (inv_ne_zero hsc.ne') (-(f.dom.e0 + f.dom.e1) / (f.dom.e1 - f.dom.e0))
  simp only [← hbw] at hint
  rw [hint, h0, h1, inv_inv, Complex.real_smul, mul_comm]
  rfl

/-- C64 on a symmetric domain `[-L, L]`: the convolution integral as stated. -/
theorem C64_symmetric_partial (f g : TrigFun) (L : ℝ) (hL : 0 < L) (hfd : f.dom = ⟨-L, L⟩) (hgd : g.dom = ⟨-L, L⟩)
    (hf : f.onefun.Sound) (hg : g.onefun.Sound) (c d : List ℂ) (hc : f.onefun.cols = [c])
    (hd : g.onefun.cols = [d]) (hodd : max f.onefun.n g.onefun.n % 2 = 1) (hr : RealValued g.onefun) (x : ℝ) :
    ∃ h, f.convolve g = some h ∧ h.dom = ⟨-L, L⟩ ∧ series h.onefun (x / L)
      = [∫ y in -L..L, trigEval c (y / L) * trigEval d ((x - y) / L)] := by
  obtain ⟨h, h1, h2, h3⟩ := C64_fun_partial f g (by rw [hfd, hgd]) (by rw [hfd]; simp; linarith) hf hg c d hc hd hodd hr x
  refine ⟨h, h1, by rw [h2, hfd], ?_⟩
  rw [hfd] at h3
  have hb : ∀ y, Mapping.bwd ⟨-L, L⟩ y = y / L := by
    intro y; unfold Mapping.bwd Mapping.diff; simp only []; field_simp; ring
  simp only [hb, neg_add_cancel, zero_div, add_zero] at h3
  exact h3

/-- C64: different domains and array-valued arguments are refused. -/
theorem C64_refused (f g : TrigFun) :
    (f.dom ≠ g.dom → f.convolve g = none) ∧
    (1 < f.onefun.cols.length ∨ 1 < g.onefun.cols.length → f.convolve g = none) := by
  constructor
  · intro h; unfold TrigFun.convolve; rw [if_neg h]
  · intro h; unfold TrigFun.convolve Tech.circconv
    rw [if_pos (show _ > 1 ∨ _ > 1 from h)]
    simp

private lemma cos_col (x : ℝ) : trigEval [1, 0] x = ((Real.cos (Real.pi * x) : ℝ) : ℂ) := by
  simp [trigEval, trigMode, sum_range_succ]

private lemma int_cos_sq : ∫ y in (-1 : ℝ)..1, Real.cos (Real.pi * y) * Real.cos (Real.pi * (0 - y)) = 1 := by
  have : ∀ y : ℝ, Real.cos (Real.pi * y) * Real.cos (Real.pi * (0 - y)) = Real.cos (Real.pi * y) ^ 2 := by
    intro y; rw [show Real.pi * (0 - y) = -(Real.pi * y) by ring, Real.cos_neg]; ring
  simp only [this]
  rw [intervalIntegral.integral_comp_mul_left (fun t => Real.cos t ^ 2) Real.pi_ne_zero, integral_cos_sq]
  simp

/-- C64 fails for even lengths: convolving `cos(πx)` (two coefficients) with itself gives `2` at `0`
instead of `1`. -/
theorem C64_even_fails : ∃ h, (Tech.ofCoeffs 2 [[1, 0]]).circconv (Tech.ofCoeffs 2 [[1, 0]]) = some h ∧
    series h 0 = [2] ∧ circ (trigEval [1, 0]) (trigEval [1, 0]) 0 = 1 := by
  have hs : (Tech.ofCoeffs 2 [[1, 0]]).Sound := real_sound 2 (by norm_num) _ _ (by simp) (by
    intro c hc y
    rw [List.mem_singleton.mp hc, cos_col, ofReal_im])
  have hv : coeffs2vals [1, 0] = [-1, 1] := by
    apply ext_getD 0 (by simp [coeffs2vals_length])
    intro j hj
    rw [coeffs2vals_length] at hj
    rw [← trigEval_grid _ _ hj, cos_col]
    simp at hj
    interval_cases j <;> simp [equi]
  have hsh : shiftCol (-1) [1, 0] = [-1, 0] := by
    apply ext_getD 0 (by simp [shiftCol_length])
    intro j hj
    rw [shiftCol_length] at hj
    rw [shiftCol_getD _ _ _ hj]
    simp at hj
    interval_cases j
    · simp [wave]
      rw [Complex.exp_neg, mul_comm, Complex.exp_pi_mul_I]; norm_num
    · simp
  have hneg : ∀ x : ℝ, trigEval [-1, 0] x = -((Real.cos (Real.pi * x) : ℝ) : ℂ) := by
    intro x; simp [trigEval, trigMode, sum_range_succ]
  have hv2 : coeffs2vals [-1, 0] = [1, -1] := by
    apply ext_getD 0 (by simp [coeffs2vals_length])
    intro j hj
    rw [coeffs2vals_length] at hj
    rw [← trigEval_grid _ _ hj, hneg]
    simp at hj
    interval_cases j <;> simp [equi]
  have G2 : ((Tech.ofCoeffs 2 [[1, 0]]).circshift (-1)).vals = [[1, -1]] := by
    have hre : ∀ r, realIf r [(1 : ℂ), -1] = [1, -1] := by
      intro r; unfold realIf; split_ifs <;> simp
    unfold Tech.circshift
    rw [if_neg (by norm_num)]
    simp [Tech.ofBoth, Tech.make, Tech.ofCoeffs, hsh, hv2, hre]
  unfold Tech.circconv
  rw [if_neg (by simp [Tech.ofCoeffs, Tech.make])]
  simp only [gt_iff_lt, lt_self_iff_false, if_false]
  refine ⟨_, rfl, ?_, ?_⟩
  · simp only [series, Tech.ofBoth, Tech.make, List.map_cons, List.map_nil]
    rw [G2, hs.vals]
    have : (Tech.ofCoeffs 2 [[1, 0]]).cols = [[1, 0]] := rfl
    rw [this]
    simp only [List.map_cons, List.map_nil, hv, List.getD_cons_zero]
    set v := cyclicProd [-1, 1] [1, -1] with hvv
    have hvl : v.length = 2 := by rw [hvv, cyclicProd_length _ _ (by simp)]; simp
    have h0 : (0 : ℝ) = equi (vals2coeffs v).length 1 := by
      rw [vals2coeffs_length, hvl]; simp [equi]
    rw [h0, trigEval_grid _ _ (by rw [vals2coeffs_length, hvl]; norm_num), coeffs2vals_vals2coeffs, hvv,
      cyclicProd_getD _ _ (by simp) _ (by simp)]
    simp [sum_range_succ]
    norm_num
  · unfold circ
    simp only [cos_col]
    have h2 : (fun y : ℝ => ((Real.cos (Real.pi * y) : ℝ) : ℂ) * ((Real.cos (Real.pi * (0 - y)) : ℝ) : ℂ)) =
        fun y : ℝ => ((Real.cos (Real.pi * y) * Real.cos (Real.pi * (0 - y)) : ℝ) : ℂ) := by
      funext y; rw [Complex.ofReal_mul]
    rw [h2, intervalIntegral.integral_ofReal, int_cos_sq, Complex.ofReal_one]

/-- The hypotheses of `C64_tech_partial` are met by `f = g = 1 + cos(πx)`-like three term series. -/
example : ∃ f : Tech, f.Sound ∧ f.cols = [[1/2, 1, 1/2]] ∧ max f.n f.n % 2 = 1 ∧ RealValued f := by
  have him : ∀ y, (trigEval [1/2, 1, 1/2] y).im = 0 := by
    intro y
    simp [trigEval, trigMode, sum_range_succ, Complex.exp_im, wave]
    try ring
  refine ⟨Tech.ofCoeffs 3 [[1/2, 1, 1/2]], real_sound 3 (by norm_num) _ _ (by simp) (by
    intro c hc y
    rw [List.mem_singleton.mp hc]; exact him y), rfl, by simp [Tech.ofCoeffs, Tech.make], ?_⟩
  intro c hc y
  rw [List.mem_singleton.mp hc]; exact him y

end Funpy.Props
