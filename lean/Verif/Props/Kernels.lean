import Verif.Model.Kernels
import Verif.Props.TrigConv
import Verif.Props.TrigSpec
import Verif.Lemmas.TrigPartial

/-!
# C125: the non-local operator `adhesion(f, g)`
-/

namespace Funpy.Props
open Spec Trig Finset Complex

namespace Nloc

/-- The Fourier coefficients of an integration kernel `ω` on `[-1, 1]` for functions of period `L`:
`∫_{-1}^{1} ω(r) exp(2πi w r / L) dr`. -/
noncomputable def kernelCoeff (ω : ℝ → ℂ) (L : ℝ) (w : ℤ) : ℂ :=
  ∫ r in (-1 : ℝ)..1, ω r * cexp (I * (2 * Real.pi * w / L : ℝ) * r)

/-- The non-local operator with the kernel `ω`: `∫_{-1}^{1} u(x + r) ω(r) dr`. -/
noncomputable def nonlocal (ω u : ℝ → ℂ) (x : ℝ) : ℂ := ∫ r in (-1 : ℝ)..1, u (x + r) * ω r

/-- The uniform kernel: `½` to the right, `-½` to the left. -/
noncomputable def uniform (r : ℝ) : ℂ := if r < 0 then -1 / 2 else 1 / 2

end Nloc

open Nloc

private lemma evalExp (c : List ℂ) (h : c.length % 2 = 1 ∨ c.getD 0 0 = 0) (x : ℝ) :
    trigEval c x = ∑ k ∈ range c.length, c.getD k 0 * cexp (I * Real.pi * (wave c.length k) * x) := by
  rcases h with h | h
  · exact trigEval_odd c h x
  · unfold trigEval
    apply sum_congr rfl
    intro k _
    unfold trigMode
    split_ifs with hk
    · rw [hk.2, h, zero_mul, zero_mul]
    · rfl

private lemma zip_getD (a b : List ℂ) (hl : a.length = b.length) (k : ℕ) :
    (List.zipWith (· * ·) a b).getD k 0 = a.getD k 0 * b.getD k 0 := by
  by_cases hk : k < a.length
  · rw [getD_lt' _ _ _ (by simp; omega), getD_lt' _ _ _ hk, getD_lt' _ _ _ (by omega), List.getElem_zipWith]
  · rw [getD_ge' _ _ _ (by simp; omega), getD_ge' a _ _ (by omega), zero_mul]

/-- The core: multiplying the coefficients applies the non-local operator. -/
private lemma core (ω : ℝ → ℂ) (hω : IntervalIntegrable ω MeasureTheory.volume (-1) 1) (e : Ends) (he : e.e0 < e.e1)
    (c d : List ℂ) (hl : c.length = d.length) (h0 : c.length % 2 = 1 ∨ c.getD 0 0 = 0)
    (hd : ∀ k < d.length, d.getD k 0 = kernelCoeff ω (Mapping.diff e) (wave d.length k)) (x : ℝ) :
    trigEval (List.zipWith (· * ·) c d) (Mapping.bwd e x) = nonlocal ω (fun y => trigEval c (Mapping.bwd e y)) x := by
  have hdf : Mapping.diff e ≠ 0 := by unfold Mapping.diff; linarith
  have hlz : (List.zipWith (fun x1 x2 : ℂ => x1 * x2) c d).length = c.length := by simp; omega
  rw [evalExp _ (by rw [hlz, zip_getD _ _ hl]; rcases h0 with h | h; exact Or.inl h; right; rw [h, zero_mul]), hlz, nonlocal]
  simp only [evalExp c h0, sum_mul]
  rw [intervalIntegral.integral_finsetSum]
  swap
  · intro k _
    apply hω.continuousOn_mul
    apply Continuous.continuousOn
    simp only [Cheb.bwd_eq]
    fun_prop
  apply sum_congr rfl
  intro k hk
  have hk' := mem_range.mp hk
  rw [zip_getD _ _ hl, hd k (by omega), kernelCoeff, ← hl]
  have : ∀ r : ℝ, c.getD k 0 * cexp (I * Real.pi * (wave c.length k) * (Mapping.bwd e (x + r) : ℝ)) * ω r
      = (c.getD k 0 * cexp (I * Real.pi * (wave c.length k) * (Mapping.bwd e x : ℝ)))
        * (ω r * cexp (I * (2 * Real.pi * (wave c.length k) / Mapping.diff e : ℝ) * r)) := by
    intro r
    have h1 : (I * Real.pi * (wave c.length k) * (Mapping.bwd e (x + r) : ℝ) : ℂ)
        = I * Real.pi * (wave c.length k) * (Mapping.bwd e x : ℝ) + I * (2 * Real.pi * (wave c.length k) / Mapping.diff e : ℝ) * r := by
      rw [Cheb.bwd_eq, Cheb.bwd_eq]; push_cast; ring
    rw [h1, Complex.exp_add]; ring
  simp only [this]
  rw [intervalIntegral.integral_const_mul]
  ring

private lemma prolong_first (c : List ℂ) (hc : c.length ≠ 0) (N : ℕ) (h : c.length < N) (hN : N % 2 = 0) :
    (prolongCol c N).getD 0 0 = 0 := by
  have hl := splitEven_length c hc
  have ho := splitEven_odd c hc
  unfold prolongCol
  rw [if_neg (by omega)]
  simp only []
  rw [if_neg (by omega), if_pos (by split_ifs at hl <;> omega)]
  unfold padTo
  simp only []
  rw [getD_append', if_pos (by simp; split_ifs at hl <;> omega), getD_append',
    if_pos (by simp; split_ifs at hl <;> omega), getD_replicate']

/-- C125: if the kernel function `g` has at least as many coefficients as `f` (and an odd number if they have equally many), and its
coefficients are those of an integration kernel `ω`, then `adhesion(f, g)` is the function `x ↦ ∫_{-1}^{1} f(x + r) ω(r) dr`, exactly,
on every domain. -/
theorem C125_nonlocal (f g : TrigFun) (he : f.dom.e0 < f.dom.e1) (c d : List ℂ) (hc : f.onefun.cols = [c]) (hd : g.onefun.cols = [d])
    (hcl : c.length = f.onefun.n) (hdl : d.length = g.onefun.n) (hn : f.onefun.n ≠ 0)
    (hle : f.onefun.n < g.onefun.n ∨ (f.onefun.n = g.onefun.n ∧ f.onefun.n % 2 = 1))
    (ω : ℝ → ℂ) (hω : IntervalIntegrable ω MeasureTheory.volume (-1) 1)
    (hk : ∀ k < d.length, d.getD k 0 = kernelCoeff ω (Mapping.diff f.dom) (wave d.length k)) :
    ∃ h, f.adhesion g = some h ∧ h.dom = f.dom ∧ h.onefun.n = g.onefun.n ∧ ∀ x, series h.onefun (Mapping.bwd f.dom x)
      = [nonlocal ω (fun y => trigEval c (Mapping.bwd f.dom y)) x] := by
  unfold TrigFun.adhesion Tech.adhesion
  rw [if_neg (by rw [hc, hd]; simp)]
  simp only [Option.map_some]
  rw [if_neg (by omega : ¬ f.onefun.n > g.onefun.n), hd]
  have hfc : (if f.onefun.n < g.onefun.n then f.onefun.prolong g.onefun.n else f.onefun).cols = [prolongCol c g.onefun.n] := by
    rcases hle with h | h
    · rw [if_pos h, Tech.prolong, if_neg (by omega)]
      simp [hc]
    · rw [if_neg (by omega), hc, prolongCol, if_pos (by omega)]
  have hfn : (if f.onefun.n < g.onefun.n then f.onefun.prolong g.onefun.n else f.onefun).n = g.onefun.n := by
    rcases hle with h | h
    · rw [if_pos h, Tech.prolong, if_neg (by omega)]
    · rw [if_neg (by omega), h.1]
  refine ⟨_, rfl, rfl, hfn, ?_⟩
  intro x
  have hpl := prolongCol_length c (by omega) g.onefun.n (by omega)
  have hev : trigEval (prolongCol c g.onefun.n) = trigEval c := funext fun y => prolongCol_eval _ (by omega) _ (by omega) y
  have := core ω hω f.dom he (prolongCol c g.onefun.n) d (by omega) ?_ hk x
  · rw [hev] at this
    simp only [series, Tech.ofBoth, Tech.make, List.map_cons, List.map_nil]
    rw [hfc, List.getD_cons_zero, List.getD_cons_zero, this]
  · rw [hpl]
    rcases hle with h | h
    · by_cases hp : g.onefun.n % 2 = 1
      · exact Or.inl hp
      · right; exact prolong_first c (by omega) _ (by omega) (by omega)
    · left; omega

private lemma uniform_int : IntervalIntegrable uniform MeasureTheory.volume (-1) 1 := by
  have h1 : IntervalIntegrable uniform MeasureTheory.volume (-1) 0 := by
    refine (intervalIntegrable_const (c := (-1 / 2 : ℂ))).congr_ae ?_
    rw [Filter.EventuallyEq, MeasureTheory.ae_restrict_iff' measurableSet_uIoc]
    have : ∀ᵐ r : ℝ, r ≠ 0 := by simp [MeasureTheory.ae_iff]
    filter_upwards [this] with r hr hm
    rw [Set.uIoc_of_le (by norm_num)] at hm
    rw [uniform, if_pos (lt_of_le_of_ne hm.2 hr)]
  have h2 : IntervalIntegrable uniform MeasureTheory.volume 0 1 := by
    refine (intervalIntegrable_const (c := (1 / 2 : ℂ))).congr ?_
    intro r hm
    rw [Set.uIoc_of_le (by norm_num)] at hm
    simp only [uniform]
    rw [if_neg (by linarith [hm.1])]
  exact h1.trans h2

private lemma uniform_split (F : ℝ → ℂ) (hF : Continuous F) :
    ∫ r in (-1 : ℝ)..1, F r * uniform r = (∫ r in (0 : ℝ)..1, (F r - F (-r))) / 2 := by
  have hi := uniform_int
  have hi2 : IntervalIntegrable (fun r => F r * uniform r) MeasureTheory.volume (-1) 1 := hi.continuousOn_mul hF.continuousOn
  have a1 : IntervalIntegrable (fun r => F r * uniform r) MeasureTheory.volume (-1) 0 :=
    hi2.mono_set (by rw [Set.uIcc_of_le (by norm_num), Set.uIcc_of_le (by norm_num)]; exact Set.Icc_subset_Icc_right (by norm_num))
  have a2 : IntervalIntegrable (fun r => F r * uniform r) MeasureTheory.volume 0 1 :=
    hi2.mono_set (by rw [Set.uIcc_of_le (by norm_num), Set.uIcc_of_le (by norm_num)]; exact Set.Icc_subset_Icc_left (by norm_num))
  rw [← intervalIntegral.integral_add_adjacent_intervals a1 a2]
  have e1 : ∫ r in (-1 : ℝ)..0, F r * uniform r = ∫ r in (-1 : ℝ)..0, F r * (-1 / 2) := by
    apply intervalIntegral.integral_congr_ae
    have : ∀ᵐ r : ℝ, r ≠ 0 := by simp [MeasureTheory.ae_iff]
    filter_upwards [this] with r hr hm
    rw [Set.uIoc_of_le (by norm_num)] at hm
    rw [uniform, if_pos (lt_of_le_of_ne hm.2 hr)]
  have e2 : ∫ r in (0 : ℝ)..1, F r * uniform r = ∫ r in (0 : ℝ)..1, F r * (1 / 2) := by
    apply intervalIntegral.integral_congr
    intro r hm
    rw [Set.uIcc_of_le (by norm_num)] at hm
    simp only [uniform]
    rw [if_neg (by linarith [hm.1])]
  have e3 : ∫ r in (-1 : ℝ)..0, F r = ∫ r in (0 : ℝ)..1, F (-r) := by
    rw [intervalIntegral.integral_comp_neg (fun r => F r)]; simp
  rw [e1, e2, intervalIntegral.integral_mul_const, intervalIntegral.integral_mul_const, e3, intervalIntegral.integral_sub
    (hF.intervalIntegrable _ _) ((by fun_prop : Continuous fun r : ℝ => F (-r)).intervalIntegrable _ _)]
  ring

private lemma uniform_coeff (L : ℝ) (hL : L ≠ 0) (n k : ℕ) (hk : k < n) :
    TrigSpec.genM0 (TrigSpec.waveArr n k) (Real.pi / (0.5 * L)) = kernelCoeff uniform L (wave n k) := by
  have hw : TrigSpec.waveArr n k = (wave n k : ℝ) := by
    unfold TrigSpec.waveArr wave
    split_ifs with h
    · obtain ⟨m, rfl⟩ : ∃ m, n = 2 * m + 1 := ⟨n / 2, by omega⟩
      rw [show (2 * m + 1) / 2 = m by omega]; push_cast; ring
    · obtain ⟨m, rfl⟩ : ∃ m, n = 2 * m := ⟨n / 2, by omega⟩
      rw [show (2 * m) / 2 = m by omega]; push_cast; ring
  set w : ℤ := wave n k
  set κ : ℝ := 2 * Real.pi * w / L with hκ
  have hR : Real.pi / (0.5 * L) * (w : ℝ) = κ := by rw [hκ, show (0.5 : ℝ) = 1 / 2 by norm_num]; field_simp
  unfold kernelCoeff
  have h1 : ∀ r : ℝ, uniform r * cexp (I * (2 * Real.pi * w / L : ℝ) * r) = cexp (I * κ * r) * uniform r := by
    intro r; rw [mul_comm]
  simp only [h1]
  rw [uniform_split _ (by fun_prop)]
  have h2 : ∀ r : ℝ, cexp (I * κ * r) - cexp (I * κ * ((-r : ℝ) : ℂ)) = (2 * I) * ((Real.sin (κ * r) : ℝ) : ℂ) := by
    intro r
    rw [Complex.ofReal_sin, Complex.sin, show (I * κ * r : ℂ) = (κ * r : ℝ) * I by push_cast; ring,
      show (I * κ * ((-r : ℝ) : ℂ) : ℂ) = -(κ * r : ℝ) * I by push_cast; ring]
    have hI : I * I = -1 := Complex.I_mul_I
    linear_combination (-(cexp (-(κ * r : ℝ) * I) - cexp ((κ * r : ℝ) * I))) * hI
  simp only [h2]
  rw [intervalIntegral.integral_const_mul, intervalIntegral.integral_ofReal, TrigSpec.genM0, hw, hR]
  have : ((if (w : ℝ) = 0 then 0 else (1 - Real.cos κ) / κ : ℝ)) = ∫ r in (0 : ℝ)..1, Real.sin (κ * r) := by
    by_cases h0 : w = 0
    · have : κ = 0 := by rw [hκ, h0]; simp
      simp [h0, this]
    · have hκ0 : κ ≠ 0 := by
        rw [hκ]
        have : (w : ℝ) ≠ 0 := by exact_mod_cast h0
        have := Real.pi_ne_zero
        positivity
      rw [if_neg (by exact_mod_cast h0), intervalIntegral.integral_comp_mul_left _ hκ0, integral_sin]
      simp; field_simp
  rw [this]
  ring

private lemma kernel_get (n : ℕ) (e : Ends) (he : e.e0 < e.e1) (k : ℕ) (hk : k < n) :
    ((List.range n).map fun k => TrigSpec.genM0 (TrigSpec.waveArr n k) (Real.pi / (0.5 * Mapping.diff e))).getD k 0
      = kernelCoeff uniform (Mapping.diff e) (wave n k) := by
  rw [getD_lt' _ _ _ (by simpa using hk), List.getElem_map, List.getElem_range,
    uniform_coeff _ (by unfold Mapping.diff; linarith) n k hk]

/-- C125 for the uniform kernel: `adhesion(f, uniform_kernel(n, domain))` is `½ ∫_0^1 (f(x + r) - f(x - r)) dr`, for every periodic
function with fewer than `n` coefficients or exactly `n` for odd `n`. -/
theorem C125_uniform (f : TrigFun) (he : f.dom.e0 < f.dom.e1) (c : List ℂ) (hc : f.onefun.cols = [c])
    (hcl : c.length = f.onefun.n) (hn : f.onefun.n ≠ 0) (n : ℕ) (hle : f.onefun.n < n ∨ (f.onefun.n = n ∧ n % 2 = 1)) :
    ∃ h, f.adhesion (TrigFun.uniformKernel n f.dom) = some h ∧ h.dom = f.dom ∧ ∀ x, series h.onefun (Mapping.bwd f.dom x)
      = [aggregate (fun y => trigEval c (Mapping.bwd f.dom y)) x] := by
  obtain ⟨h, h1, h2, -, h3⟩ := C125_nonlocal f (TrigFun.uniformKernel n f.dom) he c _ hc rfl hcl
    (by simp [TrigFun.uniformKernel, Tech.ofCoeffs, Tech.make]) hn
    (by
      show f.onefun.n < n ∨ (f.onefun.n = n ∧ f.onefun.n % 2 = 1)
      rcases hle with h | h
      · exact Or.inl h
      · right; exact ⟨h.1, by omega⟩)
    uniform uniform_int (by
      intro k hk
      simp only [List.length_map, List.length_range] at hk ⊢
      exact kernel_get n f.dom he k hk)
  refine ⟨h, h1, h2, fun x => ?_⟩
  rw [h3 x]
  congr 1
  unfold nonlocal aggregate
  have hcont : Continuous fun r : ℝ => trigEval c (Mapping.bwd f.dom (x + r)) := by
    have := continuous_trigEval c
    simp only [Cheb.bwd_eq]
    fun_prop
  rw [uniform_split _ hcont]
  simp only [sub_eq_add_neg]

/-- C125, the other case: when the kernel has fewer coefficients than `f` (an odd number), the operator is applied to the partial
Fourier sum of `f` with the kernel's wave numbers. -/
theorem C125_truncates (f g : TrigFun) (he : f.dom.e0 < f.dom.e1) (c d : List ℂ) (hc : f.onefun.cols = [c]) (hd : g.onefun.cols = [d])
    (hcl : c.length = f.onefun.n) (hdl : d.length = g.onefun.n) (hodd : g.onefun.n % 2 = 1) (hlt : g.onefun.n < f.onefun.n)
    (ω : ℝ → ℂ) (hω : IntervalIntegrable ω MeasureTheory.volume (-1) 1)
    (hk : ∀ k < d.length, d.getD k 0 = kernelCoeff ω (Mapping.diff f.dom) (wave d.length k)) :
    ∃ h, f.adhesion g = some h ∧ h.dom = f.dom ∧ ∀ x, series h.onefun (Mapping.bwd f.dom x)
      = [nonlocal ω (fun y => partialSum (trigEval c) ((g.onefun.n + 1) / 2) (Mapping.bwd f.dom y)) x] := by
  obtain ⟨K, hK⟩ : ∃ K, g.onefun.n = 2 * K + 1 := ⟨g.onefun.n / 2, by omega⟩
  unfold TrigFun.adhesion Tech.adhesion
  rw [if_neg (by rw [hc, hd]; simp)]
  simp only [Option.map_some]
  rw [if_pos hlt, if_neg (by omega : ¬ f.onefun.n < g.onefun.n), hc]
  have hgc : (g.onefun.prolong f.onefun.n).cols = [padTo d f.onefun.n] := by
    have hs : splitEven d = d := by unfold splitEven; rw [if_neg (by omega)]
    rw [Tech.prolong, if_neg (by omega)]
    simp only [hd, List.map_cons, List.map_nil]
    rw [prolongCol, if_neg (by omega)]
    simp only [hs]
    rw [if_neg (by omega), if_pos (by omega)]
  refine ⟨_, rfl, rfl, fun x => ?_⟩
  set D := f.onefun.n - d.length with hD
  set t : List ℂ := (c.drop ((D + 1) / 2)).take d.length with ht
  have htl : t.length = d.length := by rw [ht]; simp; omega
  have htg : ∀ j < d.length, t.getD j 0 = c.getD ((D + 1) / 2 + j) 0 := by
    intro j hj
    rw [getD_lt' _ _ _ (by omega), getD_lt' _ _ _ (by omega)]
    simp only [ht, List.getElem_take, List.getElem_drop]
  have hpl := padTo_length d f.onefun.n (by omega)
  have hz : List.zipWith (· * ·) c (padTo d f.onefun.n) = padTo (List.zipWith (· * ·) t d) f.onefun.n := by
    have hzl : (List.zipWith (fun x1 x2 : ℂ => x1 * x2) t d).length = d.length := by simp; omega
    apply ext_getD 0
    · rw [padTo_length _ _ (by omega)]; simp; omega
    · intro k hk'
      rw [zip_getD _ _ (by omega)]
      unfold padTo
      simp only [hzl, ← hD]
      rw [getD_append', getD_append', getD_append', getD_append']
      simp only [List.length_append, List.length_replicate, hzl]
      by_cases h1 : k < (D + 1) / 2 + d.length
      · rw [if_pos h1, if_pos h1]
        by_cases h2 : k < (D + 1) / 2
        · rw [if_pos h2, if_pos h2, getD_replicate', mul_zero]
        · rw [if_neg h2, if_neg h2, zip_getD _ _ htl, htg _ (by omega), show (D + 1) / 2 + (k - (D + 1) / 2) = k by omega]
      · rw [if_neg h1, if_neg h1, getD_replicate', mul_zero]
  have hcore := core ω hω f.dom he t d htl (Or.inl (by omega)) hk x
  have hpart : trigEval t = partialSum (trigEval c) ((g.onefun.n + 1) / 2) := by
    funext y
    have h1 := chop_fourier c t K (by omega) (by omega) (by
      intro j hj
      rw [htg j (by omega)]
      congr 1; omega)
    rw [← partialSum_chop (trigEval c) (trigEval t) K h1 _ (by omega) y, partialSum_all t (by omega) _ (by omega)]
  rw [hpart] at hcore
  simp only [series, Tech.ofBoth, Tech.make, List.map_cons, List.map_nil]
  rw [hgc, List.getD_cons_zero, List.getD_cons_zero, hz, padTo_eval _ (by simp; omega) _ (by simp; omega), hcore]

/-- C125 fails for equally many coefficients, an even number: for `f(x) = cos(πx)` (two coefficients) the result with the uniform kernel
at `0` is `-2i/π`, although the operator maps real functions to real functions. -/
theorem C125_even_fails : ∃ h, (⟨⟨-1, 1⟩, Tech.ofCoeffs 2 [[1, 0]]⟩ : TrigFun).adhesion (TrigFun.uniformKernel 2 ⟨-1, 1⟩) = some h ∧
    (∀ y, trigEval [1, 0] y = ((Real.cos (Real.pi * y) : ℝ) : ℂ)) ∧
    series h.onefun 0 = [-(2 * I / Real.pi)] ∧
    (aggregate (fun y => ((Real.cos (Real.pi * y) : ℝ) : ℂ)) 0).im = 0 := by
  refine ⟨_, rfl, ?_, ?_, ?_⟩
  · intro y
    simp [trigEval, trigMode, sum_range_succ]
  · have hpi : (Real.pi : ℂ) ≠ 0 := by exact_mod_cast Real.pi_ne_zero
    have hc : Real.cos (Real.pi / (0.5 * (1 - -1)) * -1) = -1 := by
      rw [show Real.pi / (0.5 * (1 - -1)) * -1 = -Real.pi by norm_num, Real.cos_neg, Real.cos_pi]
    simp [series, TrigFun.uniformKernel, Tech.ofCoeffs, Tech.ofBoth, Tech.make, trigEval, trigMode, sum_range_succ,
      List.range_succ, TrigSpec.genM0, TrigSpec.waveArr, Mapping.diff]
    norm_num
    field_simp
  · have : ∀ r : ℝ, ((Real.cos (Real.pi * (0 + r)) : ℝ) : ℂ) - ((Real.cos (Real.pi * (0 - r)) : ℝ) : ℂ) = 0 := by
      intro r
      rw [zero_add, zero_sub, mul_neg, Real.cos_neg, sub_self]
    simp only [aggregate, this]
    simp

/-- The hypotheses of `C125_uniform` are met: three coefficients, kernel with five, domain `[0, 3]`. -/
example : ∃ h, (⟨⟨0, 3⟩, Tech.ofCoeffs 3 [[I, 2, -I]]⟩ : TrigFun).adhesion (TrigFun.uniformKernel 5 ⟨0, 3⟩) = some h ∧ h.dom = ⟨0, 3⟩ ∧
    ∀ x, series h.onefun (Mapping.bwd ⟨0, 3⟩ x) = [aggregate (fun y => trigEval [I, 2, -I] (Mapping.bwd ⟨0, 3⟩ y)) x] :=
  C125_uniform ⟨⟨0, 3⟩, Tech.ofCoeffs 3 [[I, 2, -I]]⟩ (by norm_num) _ rfl rfl (by simp [Tech.ofCoeffs, Tech.make]) 5 (Or.inl (by
    simp [Tech.ofCoeffs, Tech.make]))

end Funpy.Props
