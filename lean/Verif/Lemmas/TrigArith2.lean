import Verif.Lemmas.TrigArith
import Verif.Lemmas.TrigTol

/-! Linearity of interpolation, conjugation, and the cyclic convolution. -/

namespace Funpy.Trig
open Finset Complex Spec ComplexConjugate

lemma trigEval_lin (c d e : List ℂ) (hc : c.length = e.length) (hd : d.length = e.length) (a b : ℂ)
    (h : ∀ k < e.length, e.getD k 0 = a * c.getD k 0 + b * d.getD k 0) (x : ℝ) :
    trigEval e x = a * trigEval c x + b * trigEval d x := by
  unfold trigEval
  rw [hc, hd, mul_sum, mul_sum, ← sum_add_distrib]
  apply sum_congr rfl
  intro k hk
  rw [h k (mem_range.mp hk)]; ring

lemma interp_lin (u v w : List ℂ) (hu : u.length = w.length) (hv : v.length = w.length) (a b : ℂ)
    (h : ∀ k < w.length, w.getD k 0 = a * u.getD k 0 + b * v.getD k 0) (x : ℝ) :
    trigEval (vals2coeffs w) x = a * trigEval (vals2coeffs u) x + b * trigEval (vals2coeffs v) x := by
  apply trigEval_lin
  · rw [vals2coeffs_length, vals2coeffs_length, hu]
  · rw [vals2coeffs_length, vals2coeffs_length, hv]
  · intro k hk
    rw [vals2coeffs_length] at hk
    rw [vals2coeffs_getD _ _ hk, vals2coeffs_getD _ _ (by omega), vals2coeffs_getD _ _ (by omega), hu, hv]
    have : ∑ j ∈ range w.length, w.getD j 0 * rou w.length (-(wave w.length k * j))
        = a * ∑ j ∈ range w.length, u.getD j 0 * rou w.length (-(wave w.length k * j))
          + b * ∑ j ∈ range w.length, v.getD j 0 * rou w.length (-(wave w.length k * j)) := by
      rw [mul_sum, mul_sum, ← sum_add_distrib]
      apply sum_congr rfl
      intro j hj
      rw [h j (mem_range.mp hj)]; ring
    rw [this]; ring

lemma interp_reim (v : List ℂ) (x : ℝ) :
    trigEval (vals2coeffs (v.map fun z => ((z.re : ℝ) : ℂ))) x = (((trigEval (vals2coeffs v) x).re : ℝ) : ℂ) ∧
    trigEval (vals2coeffs (v.map fun z => ((z.im : ℝ) : ℂ))) x = (((trigEval (vals2coeffs v) x).im : ℝ) : ℂ) := by
  set vr := v.map fun z => ((z.re : ℝ) : ℂ) with hvr
  set vi := v.map fun z => ((z.im : ℝ) : ℂ) with hvi
  have gr : ∀ k < v.length, vr.getD k 0 = (((v.getD k 0).re : ℝ) : ℂ) := fun k hk => by
    rw [hvr, getD_map_lt _ 0 _ _ _ hk]
  have gi : ∀ k < v.length, vi.getD k 0 = (((v.getD k 0).im : ℝ) : ℂ) := fun k hk => by
    rw [hvi, getD_map_lt _ 0 _ _ _ hk]
  have lr : vr.length = v.length := by simp [hvr]
  have li : vi.length = v.length := by simp [hvi]
  have hr := herm_trigEval _ (herm_of_real vr (fun j hj => by rw [gr j (by omega)]; simp)) x
  have hi := herm_trigEval _ (herm_of_real vi (fun j hj => by rw [gi j (by omega)]; simp)) x
  have e := interp_lin vr vi v lr li 1 I (fun k hk => by
    rw [gr k hk, gi k hk, one_mul, mul_comm]; exact (Complex.re_add_im _).symm) x
  have r1 := Complex.conj_eq_iff_im.mp hr
  have r2 := Complex.conj_eq_iff_im.mp hi
  constructor
  · apply Complex.ext
    · rw [ofReal_re, e]; simp [r2]
    · rw [ofReal_im]; exact r1
  · apply Complex.ext
    · rw [ofReal_re, e]; simp [r1]
    · rw [ofReal_im]; exact r2

/-- reversing and conjugating the coefficients of an odd-length series conjugates the function -/
lemma reverse_conj (c : List ℂ) (h : c.length % 2 = 1) (x : ℝ) :
    trigEval (c.map (starRingEnd ℂ)).reverse x = conj (trigEval c x) := by
  unfold trigEval
  rw [map_sum]
  simp only [List.length_reverse, List.length_map]
  refine sum_nbij' (fun k => mirror c.length k) (fun k => mirror c.length k) ?_ ?_ ?_ ?_ ?_
  · intro k hk; exact mem_range.mpr (mirror_lt _ _ (mem_range.mp hk))
  · intro k hk; exact mem_range.mpr (mirror_lt _ _ (mem_range.mp hk))
  · intro k hk; exact mirror_mirror _ _ (mem_range.mp hk)
  · intro k hk; exact mirror_mirror _ _ (mem_range.mp hk)
  · intro k hk
    have hk' := mem_range.mp hk
    have hm := mirror_lt _ _ hk'
    rw [map_mul, conj_trigMode _ _ hm, mirror_mirror _ _ hk']
    congr 1
    rw [getD_lt' _ _ _ (by simpa using hk'), List.getElem_reverse, List.getElem_map, getD_lt' _ _ _ hm]
    congr 2
    unfold mirror
    rw [if_neg (by omega)]
    simp; omega

/-! ### Cyclic convolution -/

lemma cyclicProd_length (u v : List ℂ) (h : v.length = u.length) : (cyclicProd u v).length = u.length := by
  simp [cyclicProd, ifft_length, fft_length, h]

lemma cyclicProd_getD (u v : List ℂ) (h : v.length = u.length) (j : ℕ) (hj : j < u.length) :
    (cyclicProd u v).getD j 0 = 2 / (u.length : ℂ) * ∑ l ∈ range u.length, ∑ m ∈ range u.length,
      u.getD l 0 * v.getD m 0 * (if (u.length : ℤ) ∣ (j : ℤ) - l - m then 1 else 0) := by
  have hn : u.length ≠ 0 := by omega
  have hn' : (u.length : ℂ) ≠ 0 := by exact_mod_cast hn
  set n := u.length with hnn
  have hz : (List.zipWith (· * ·) (fft u) (fft v)).length = n := by simp [fft_length, h, hnn]
  unfold cyclicProd
  rw [getD_map_lt _ 0 _ _ _ (by rw [ifft_length, hz]; exact hj), ifft_getD _ _ (by rw [hz]; exact hj), hz]
  congr 1
  rw [div_eq_iff hn']
  have e1 : ∀ k ∈ range n, (List.zipWith (· * ·) (fft u) (fft v)).getD k 0 * rou n (j * k)
      = ∑ l ∈ range n, ∑ m ∈ range n, u.getD l 0 * v.getD m 0 * rou n (((j : ℤ) - l - m) * k) := by
    intro k hk
    have hk' := mem_range.mp hk
    rw [getD_zipWith_lt _ 0 0 _ _ _ _ (by rw [fft_length]; exact hk') (by rw [fft_length]; omega),
      fft_getD _ _ hk', fft_getD _ _ (by omega), h, ← hnn, sum_mul_sum, sum_mul]
    apply sum_congr rfl; intro l _
    rw [sum_mul]
    apply sum_congr rfl; intro m _
    have : rou n (((j : ℤ) - l - m) * k) = rou n (-(l * k)) * rou n (-(m * k)) * rou n (j * k) := by
      rw [← rou_add, ← rou_add]; congr 1; ring
    rw [this]; ring
  rw [sum_congr rfl e1, sum_comm, sum_mul]
  apply sum_congr rfl; intro l _
  rw [sum_comm, sum_mul]
  apply sum_congr rfl; intro m _
  rw [← mul_sum, sum_rou n hn]
  split_ifs <;> simp

/-- a trigonometric polynomial has period 2 -/
lemma trigEval_period (c : List ℂ) (h : c.length % 2 = 1) (x : ℝ) (k : ℤ) :
    trigEval c (x + 2 * k) = trigEval c x := by
  rw [trigEval_odd c h, trigEval_odd c h]
  apply sum_congr rfl
  intro j _
  congr 1
  rw [Complex.exp_eq_exp_iff_exists_int]
  exact ⟨wave c.length j * k, by push_cast; ring⟩

lemma quad_band {M : ℕ} {H : ℝ → ℂ} (hH : Band M H) (N : ℕ) (hN : M < N) :
    ∑ l ∈ range N, (2 / (N : ℂ)) * H (equi N l) = ∫ x in (-1 : ℝ)..1, H x := by
  obtain ⟨a, ha⟩ := band_repr hH
  simp only [ha]
  rw [intervalIntegral.integral_finsetSum]
  · simp only [mul_sum]
    rw [sum_comm]
    apply sum_congr rfl
    intro k hk
    have := mem_range.mp hk
    rw [intervalIntegral.integral_const_mul, ← quad_mode N _ (by unfold wave; rw [abs_lt]; omega), mul_sum]
    apply sum_congr rfl; intros; ring
  · intro k _
    apply Continuous.intervalIntegrable
    fun_prop

lemma band_reflect {M : ℕ} {G : ℝ → ℂ} (hG : Band M G) (x : ℝ) : Band M fun y => G (x - y) := by
  obtain ⟨b, hb⟩ := band_repr hG
  have : (fun y : ℝ => G (x - y)) = fun y : ℝ => ∑ k ∈ range (2 * M + 1),
      (b k * cexp (I * Real.pi * (wave (2 * M + 1) k) * x)) *
        cexp (I * Real.pi * ((-(wave (2 * M + 1) k) : ℤ) : ℂ) * y) := by
    funext y
    rw [hb]
    apply sum_congr rfl; intro k _
    rw [mul_assoc (b k), ← Complex.exp_add]
    congr 2; push_cast; ring
  rw [this]
  apply band_sum
  intro k hk
  apply band_smul
  apply band_mode
  have := mem_range.mp hk
  rw [abs_le]; unfold wave
  constructor <;> omega

lemma band_circ {M : ℕ} {F G : ℝ → ℂ} (hF : Continuous F) (hG : Band M G) : Band M (circ F G) := by
  obtain ⟨b, hb⟩ := band_repr hG
  apply band_of_fun M fun k => b k * ∫ y in (-1 : ℝ)..1, F y * cexp (-(I * Real.pi * (wave (2 * M + 1) k) * y))
  intro x
  unfold circ
  simp only [hb, mul_sum]
  rw [intervalIntegral.integral_finsetSum]
  · apply sum_congr rfl; intro k _
    have sw : ∀ A B C : ℂ, A * B * C = (A * C) * B := by intros; ring
    rw [sw (b k), ← intervalIntegral.integral_const_mul]
    congr 1
    funext y
    rw [show cexp (I * Real.pi * (wave (2 * M + 1) k) * ((x - y : ℝ) : ℂ))
      = cexp (I * Real.pi * (wave (2 * M + 1) k) * x) * cexp (-(I * Real.pi * (wave (2 * M + 1) k) * y)) by
        rw [← Complex.exp_add]; congr 1; push_cast; ring]
    ring
  · intro k _
    apply Continuous.intervalIntegrable
    fun_prop

/-- The cyclic product of the values of `f` and of `g(· + 1)` interpolates the convolution. -/
lemma cyclic_circ (c d : List ℂ) (hd : d.length = c.length) (hodd : c.length % 2 = 1) (x : ℝ) :
    trigEval (vals2coeffs (cyclicProd (coeffs2vals c) (coeffs2vals (shiftCol (-1) d)))) x
      = circ (trigEval c) (trigEval d) x := by
  set n := c.length with hn
  have hlu : (coeffs2vals c).length = n := coeffs2vals_length c
  have hlv : (coeffs2vals (shiftCol (-1) d)).length = n := by rw [coeffs2vals_length, shiftCol_length, hd]
  have hl : (cyclicProd (coeffs2vals c) (coeffs2vals (shiftCol (-1) d))).length = n := by
    rw [cyclicProd_length _ _ (by rw [hlu, hlv]), hlu]
  have hb : Band (n / 2) (trigEval d) := by rw [← hd]; exact band_trigEval d (by omega)
  have hbc : Band (n / 2) (trigEval c) := band_trigEval c hodd
  apply band_interp (M := n / 2) (band_circ (continuous_trigEval c) hb) _ (by rw [hl]; omega)
  rw [hl]
  intro j hj
  rw [cyclicProd_getD _ _ (by rw [hlu, hlv]) _ (by rw [hlu]; exact hj), hlu]
  unfold circ
  rw [← quad_band (band_mul hbc (band_reflect hb (equi n j))) n (by omega), mul_sum]
  apply sum_congr rfl
  intro l hl'
  have hl'' := mem_range.mp hl'
  congr 1
  rw [← trigEval_grid c l hl'', ← hn]
  have hnr : (n : ℝ) ≠ 0 := by
    have : n ≠ 0 := by omega
    exact_mod_cast this
  have hterm : ∀ m ∈ range n, trigEval c (equi n l) * (coeffs2vals (shiftCol (-1) d)).getD m 0 *
      (if (n : ℤ) ∣ (j : ℤ) - l - m then 1 else 0)
      = trigEval c (equi n l) * trigEval d (equi n j - equi n l) * (if (n : ℤ) ∣ (j : ℤ) - l - m then 1 else 0) := by
    intro m hm
    have hm' := mem_range.mp hm
    split_ifs with hdiv
    · obtain ⟨q, hq⟩ := hdiv
      congr 2
      have := trigEval_grid (shiftCol (-1) d) m (by rw [shiftCol_length]; omega)
      rw [← this, shiftCol_length, hd, shiftCol_eval _ _ (Or.inl (by omega))]
      have e : equi n j - equi n l = (equi n m - -1) + 2 * (q : ℤ) := by
        unfold equi
        have : (j : ℝ) - l - m = n * q := by exact_mod_cast hq
        field_simp
        linarith
      rw [e, trigEval_period d (by omega)]
    · simp
  rw [sum_congr rfl hterm, ← mul_sum]
  have hone : ∑ m ∈ range n, (if (n : ℤ) ∣ (j : ℤ) - l - m then (1 : ℂ) else 0) = 1 := by
    rw [sum_eq_single (((j : ℤ) - l) % n).toNat]
    · have h0 := Int.emod_nonneg ((j : ℤ) - l) (b := n) (by omega)
      rw [if_pos]
      rw [Int.toNat_of_nonneg h0]
      exact Int.dvd_self_sub_emod
    · intro m hm hne
      have hm' := mem_range.mp hm
      rw [if_neg]
      rintro hdiv
      apply hne
      have : ((j : ℤ) - l) % n = (m : ℤ) % n := Int.emod_eq_emod_iff_emod_sub_eq_zero.mpr (Int.emod_eq_zero_of_dvd hdiv)
      rw [Int.emod_eq_of_lt (by omega) (by omega : (m : ℤ) < n)] at this
      omega
    · intro h
      exfalso; apply h
      rw [mem_range]
      have := Int.emod_lt_of_pos ((j : ℤ) - l) (b := n) (by omega)
      have := Int.emod_nonneg ((j : ℤ) - l) (b := n) (by omega)
      omega
  rw [hone, mul_one]

end Funpy.Trig
