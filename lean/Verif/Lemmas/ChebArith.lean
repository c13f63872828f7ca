import Verif.Lemmas.Tech
import Verif.Lemmas.FFT
import Mathlib.Analysis.SpecialFunctions.Trigonometric.Chebyshev.Basic

namespace Funpy.Cheb
open Finset Real Polynomial Spec

/-! ### representability -/

/-- `p` is a Chebyshev series with `M` coefficients. -/
def Rep (M : ℕ) (p : ℝ[X]) : Prop := ∃ h : List ℝ, h.length = M ∧ chebPoly h = p

lemma Rep.of_fun (M : ℕ) (f : ℕ → ℝ) : Rep M (∑ k ∈ range M, C (f k) * Chebyshev.T ℝ (k : ℤ)) := by
  refine ⟨(List.range M).map f, by simp, ?_⟩
  rw [chebPoly_eq_of_getD _ M (by simp)]
  apply sum_congr rfl
  intro k hk
  rw [getD_map_range, if_pos (mem_range.mp hk)]

lemma Rep.add {M : ℕ} {p q : ℝ[X]} (hp : Rep M p) (hq : Rep M q) : Rep M (p + q) := by
  obtain ⟨h, hl, rfl⟩ := hp
  obtain ⟨g, gl, rfl⟩ := hq
  have := Rep.of_fun M fun k => h.getD k 0 + g.getD k 0
  simp only [C_add, add_mul, sum_add_distrib] at this
  rwa [← chebPoly_eq_of_getD h M hl.le, ← chebPoly_eq_of_getD g M gl.le] at this

lemma Rep.smul {M : ℕ} {p : ℝ[X]} (s : ℝ) (hp : Rep M p) : Rep M (C s * p) := by
  obtain ⟨h, hl, rfl⟩ := hp
  exact ⟨h.map (· * s), by simpa using hl, chebPoly_map_mul h s⟩

lemma Rep.zero (M : ℕ) : Rep M 0 := ⟨List.replicate M 0, by simp, chebPoly_replicate_zero M⟩

lemma Rep.sum {M : ℕ} {ι : Type*} (s : Finset ι) (f : ι → ℝ[X]) (h : ∀ i ∈ s, Rep M (f i)) :
    Rep M (∑ i ∈ s, f i) := by
  classical
  induction s using Finset.induction_on with
  | empty => simpa using Rep.zero M
  | insert a s ha ih =>
    rw [sum_insert ha]
    exact (h a (mem_insert_self _ _)).add (ih fun i hi => h i (mem_insert_of_mem hi))

lemma Rep.T {M k : ℕ} (hk : k < M) : Rep M (Chebyshev.T ℝ (k : ℤ)) := by
  have := Rep.of_fun M fun j => if j = k then 1 else 0
  rw [sum_eq_single k] at this
  · simpa using this
  · intro j _ hj; simp [hj]
  · intro h; exact absurd (mem_range.mpr hk) h

lemma Rep.mul {N M : ℕ} {p q : ℝ[X]} (hp : Rep N p) (hq : Rep M q) (hN : 0 < N) (hM : 0 < M) :
    Rep (N + M - 1) (p * q) := by
  obtain ⟨h, hl, rfl⟩ := hp
  obtain ⟨g, gl, rfl⟩ := hq
  unfold chebPoly
  rw [sum_mul_sum]
  apply Rep.sum
  intro i hi
  apply Rep.sum
  intro j hj
  rw [mem_range] at hi hj
  have hT := Chebyshev.T_mul_T ℝ (i : ℤ) (j : ℤ)
  have e : C (h.getD i 0) * Chebyshev.T ℝ (i : ℤ) * (C (g.getD j 0) * Chebyshev.T ℝ (j : ℤ))
      = C (h.getD i 0 * g.getD j 0 * (1 / 2)) * (Chebyshev.T ℝ ((i : ℤ) + j) + Chebyshev.T ℝ ((i : ℤ) - j)) := by
    rw [← hT]
    have : (C (1 / 2) : ℝ[X]) * 2 = 1 := by rw [← map_ofNat C 2, ← C_mul]; norm_num
    simp only [C_mul]
    linear_combination (-(C (h.getD i 0) * Chebyshev.T ℝ (i : ℤ) * (C (g.getD j 0) * Chebyshev.T ℝ (j : ℤ)))) * this
  rw [e]
  apply Rep.smul
  apply Rep.add
  · exact_mod_cast Rep.T (k := i + j) (by omega)
  · have : Chebyshev.T ℝ ((i : ℤ) - j) = Chebyshev.T ℝ ((((i : ℤ) - j).natAbs : ℕ) : ℤ) := by
      rw [Chebyshev.T_natAbs]
    rw [this]
    exact Rep.T (by omega)

/-! ### the DFT of a symmetrised coefficient vector -/

/-- `x ++ x[:0:-1]` for `x = [2 f_0, f_1, …]`. -/
noncomputable def sym (f : List ℝ) : List ℝ :=
  f.set 0 (2 * f.getD 0 0) ++ (f.set 0 (2 * f.getD 0 0)).tail.reverse

lemma sym_length (f : List ℝ) (hf : f ≠ []) : (sym f).length = 2 * (f.length - 1) + 1 := by
  have := List.length_pos_iff.mpr hf
  simp [sym]; omega

lemma sym_getD (f : List ℝ) (hf : f ≠ []) (j : ℕ) (hj : j < 2 * (f.length - 1) + 1) :
    (sym f).getD j 0 = if j = 0 then 2 * f.getD 0 0
      else if j < f.length then f.getD j 0 else f.getD (2 * (f.length - 1) + 1 - j) 0 := by
  have hpos := List.length_pos_iff.mpr hf
  unfold sym
  rw [getD_append', List.length_set]
  by_cases h0 : j = 0
  · subst h0
    rw [if_pos hpos, getD_set', if_pos ⟨rfl, hpos⟩, if_pos rfl]
  · rw [if_neg h0]
    by_cases h : j < f.length
    · rw [if_pos h, if_pos h, getD_set', if_neg (by omega)]
    · rw [if_neg h, if_neg h]
      have hl : (f.set 0 (2 * f.getD 0 0)).tail.length = f.length - 1 := by simp
      have hlt : j - f.length < (f.set 0 (2 * f.getD 0 0)).tail.reverse.length := by simp; omega
      rw [getD_lt' _ _ _ hlt, List.getElem_reverse, List.getElem_tail, List.getElem_set]
      rw [if_neg (by omega), ← getD_lt' f 0]
      · congr 1; rw [hl]; omega

/-- The DFT of the symmetrised vector samples twice the series at the cosines. -/
lemma fft_sym (f : List ℝ) (hf : f ≠ []) (k : ℕ) (hk : k < 2 * (f.length - 1) + 1) :
    (fft ((sym f).map Complex.ofReal)).getD k 0
      = ((2 * chebEval f (cos (2 * π * k / (2 * (f.length - 1) + 1 : ℕ))) : ℝ) : ℂ) := by
  have hpos := List.length_pos_iff.mpr hf
  set M := f.length - 1 with hM
  set L := 2 * M + 1 with hL
  have hL0 : L ≠ 0 := by omega
  have hL0' : (L : ℂ) ≠ 0 := by exact_mod_cast hL0
  have hlen : ((sym f).map Complex.ofReal).length = L := by rw [List.length_map, sym_length f hf]
  rw [fft_getD _ _ (by rw [hlen]; exact hk), hlen]
  have hget : ∀ j, ((sym f).map Complex.ofReal).getD j 0 = (((sym f).getD j 0 : ℝ) : ℂ) := by
    intro j
    have := getD_map' Complex.ofReal 0 (sym f) j
    rwa [Complex.ofReal_zero] at this
  simp only [hget]
  -- split the range
  rw [show range L = range ((M + 1) + M) by congr 1; omega, sum_range_add, sum_range_succ',
    ← sum_range_reflect (fun x => (((sym f).getD (M + 1 + x) 0 : ℝ) : ℂ) * _), add_right_comm,
    ← sum_add_distrib]
  have hchk : chebEval f (cos (2 * π * k / L))
      = (∑ j ∈ range M, f.getD (j + 1) 0 * cos ((j + 1 : ℕ) * (2 * π * k / L))) + f.getD 0 0 := by
    unfold chebEval
    rw [show f.length = M + 1 by omega, sum_range_succ']
    congr 1
    · apply sum_congr rfl
      intro j _
      rw [Chebyshev.T_real_cos]; push_cast; ring_nf
    · simp
  rw [hchk]
  have hz : (((sym f).getD 0 0 : ℝ) : ℂ) * rou L (-(((0 : ℕ) : ℤ) * k)) = ((2 * f.getD 0 0 : ℝ) : ℂ) := by
    rw [sym_getD f hf 0 (by omega), if_pos rfl]
    simp [rou_zero]
  rw [hz, mul_add, Complex.ofReal_add]
  congr 1
  rw [mul_sum, Complex.ofReal_sum]
  apply sum_congr rfl
  intro j hj
  rw [mem_range] at hj
  rw [sym_getD f hf (j + 1) (by omega), if_neg (by omega), if_pos (by omega),
    sym_getD f hf (M + 1 + (M - 1 - j)) (by omega), if_neg (by omega), if_neg (by omega),
    show 2 * (f.length - 1) + 1 - (M + 1 + (M - 1 - j)) = j + 1 by omega]
  have e1 : rou L (-(((M + 1 + (M - 1 - j) : ℕ) : ℤ) * k)) = rou L (((j + 1 : ℕ) : ℤ) * k) := by
    have : -(((M + 1 + (M - 1 - j) : ℕ) : ℤ) * k) = (((j + 1 : ℕ) : ℤ) * k) + (L : ℤ) * (-(k : ℤ)) := by
      have : ((M + 1 + (M - 1 - j) : ℕ) : ℤ) = (L : ℤ) - (j + 1 : ℕ) := by omega
      rw [this]; ring
    rw [this, rou_periodic L hL0]
  rw [e1, ← mul_add]
  push_cast
  rw [show (2 : ℂ) * ((f.getD (j + 1) 0 : ℝ) * Complex.cos (((j : ℂ) + 1) * (2 * π * k / L)))
    = (f.getD (j + 1) 0 : ℝ) * (2 * Complex.cos (((j : ℂ) + 1) * (2 * π * k / L))) by ring]
  congr 1
  rw [Complex.cos]
  unfold rou
  push_cast
  rw [mul_div_cancel₀ _ two_ne_zero, add_comm]
  congr 1 <;> congr 1 <;> ring

lemma sym_smul (f : List ℝ) (s : ℝ) : (sym (f.map (· * s))) = (sym f).map (· * s) := by
  cases f with
  | nil => rfl
  | cons a l => simp [sym, mul_assoc]

/-- `coeff_times` of two vectors of the same length `M`, whose product fits into `M` coefficients,
computes the coefficients of the product. -/
lemma coeffTimesCol_eq (f g h : List ℝ) (hl : f.length = g.length) (hf : f ≠ [])
    (hh : h.length = f.length) (hp : chebPoly h = chebPoly f * chebPoly g) :
    coeffTimesCol f g = h := by
  have hpos := List.length_pos_iff.mpr hf
  have hg : g ≠ [] := List.length_pos_iff.mp (by omega)
  have hhn : h ≠ [] := List.length_pos_iff.mp (by omega)
  have hev : ∀ x, chebEval h x = chebEval f x * chebEval g x := by
    intro x; simp only [chebEval_eq_eval, hp, eval_mul]
  have hprod : List.zipWith (· * ·) (fft ((sym f).map Complex.ofReal)) (fft ((sym g).map Complex.ofReal))
      = fft ((sym (h.map (· * 2))).map Complex.ofReal) := by
    apply ext_getD 0
    · simp only [List.length_zipWith, fft_length, List.length_map]
      rw [sym_length f hf, sym_length g hg, sym_length _ (by simpa using hhn), List.length_map]
      omega
    · intro k hk
      simp only [List.length_zipWith, fft_length, List.length_map] at hk
      rw [sym_length f hf, sym_length g hg] at hk
      rw [getD_lt' _ _ _ (by
        simp only [List.length_zipWith, fft_length, List.length_map]
        rw [sym_length f hf, sym_length g hg]; exact hk), List.getElem_zipWith,
        ← getD_lt' _ 0, ← getD_lt' _ 0, fft_sym f hf k (by omega), fft_sym g hg k (by omega),
        fft_sym _ (by simpa using hhn) k (by rw [List.length_map]; omega)]
      rw [List.length_map, hh, ← hl]
      have : ∀ x, chebEval (h.map (· * 2)) x = 2 * (chebEval f x * chebEval g x) := by
        intro x
        rw [← hev, chebEval_eq_eval, chebPoly_map_mul, eval_mul, eval_C, ← chebEval_eq_eval]
      rw [this]
      push_cast
      ring
  simp only [coeffTimesCol]
  change List.map Complex.re (List.take f.length (List.map _ (_ :: List.zipWith _
    (ifft (List.zipWith (· * ·) (fft ((sym f).map Complex.ofReal)) (fft ((sym g).map Complex.ofReal)))).tail
    (ifft (List.zipWith (· * ·) (fft ((sym f).map Complex.ofReal)) (fft ((sym g).map Complex.ofReal)))).tail.reverse))) = h
  change List.map Complex.re (List.take f.length (List.map _
    ((ifft (List.zipWith (· * ·) (fft ((sym f).map Complex.ofReal)) (fft ((sym g).map Complex.ofReal)))).getD 0 0 :: List.zipWith _ _ _))) = h
  rw [hprod, ifft_fft, sym_smul]
  set L := 2 * (f.length - 1) + 1 with hL
  have hSl : (sym h).length = L := by rw [sym_length h hhn, hh]
  set S := ((sym h).map (· * 2)).map Complex.ofReal with hS
  have hSl' : S.length = L := by simp [hS, hSl]
  have hSget : ∀ j (hj : j < S.length), S[j] = ((2 * (sym h).getD j 0 : ℝ) : ℂ) := by
    intro j hj
    rw [getD_lt' (sym h) 0 j (by omega)]
    simp [hS, mul_comm]
  apply List.ext_getElem
  · simp only [List.length_map, List.length_take, List.length_cons, List.length_zipWith,
      List.length_tail, List.length_reverse, hSl']
    omega
  · intro k h1 h2
    simp only [List.getElem_map, List.getElem_take]
    rw [← getD_lt' h 0 k h2]
    rcases Nat.eq_zero_or_pos k with hk | hk
    · subst hk
      rw [List.getElem_cons_zero, getD_lt' S 0 0 (by omega), hSget, sym_getD h hhn 0 (by omega),
        if_pos rfl]
      rw [show (0.25 : ℂ) = ((0.25 : ℝ) : ℂ) by norm_num, ← Complex.ofReal_mul, Complex.ofReal_re]
      ring
    · obtain ⟨k, rfl⟩ : ∃ j, k = j + 1 := ⟨k - 1, by omega⟩
      rw [List.getElem_cons_succ, List.getElem_zipWith, List.getElem_tail, List.getElem_reverse,
        List.getElem_tail]
      simp only [List.length_tail]
      have hk1 : (sym h).getD (k + 1) 0 = h.getD (k + 1) 0 := by
        rw [sym_getD h hhn (k + 1) (by omega), if_neg (by omega), if_pos (by omega)]
      have hk2 : (sym h).getD (S.length - 1 - 1 - k + 1) 0 = h.getD (k + 1) 0 := by
        rw [sym_getD h hhn _ (by omega), if_neg (by omega)]
        split_ifs with h3
        · congr 1; omega
        · congr 1; omega
      rw [hSget, hSget, hk1, hk2]
      rw [show (0.25 : ℂ) = ((0.25 : ℝ) : ℂ) by norm_num, ← Complex.ofReal_add, ← Complex.ofReal_mul,
        Complex.ofReal_re]
      ring

/-- The product of two zero-padded columns. -/
lemma coeffTimes_padded (f g : List ℝ) (hf : f ≠ []) (hg : g ≠ []) :
    (coeffTimesCol (f ++ List.replicate (g.length - 1) 0) (g ++ List.replicate (f.length - 1) 0)).length
        = f.length + g.length - 1 ∧
    chebPoly (coeffTimesCol (f ++ List.replicate (g.length - 1) 0) (g ++ List.replicate (f.length - 1) 0))
      = chebPoly f * chebPoly g := by
  have hfp := List.length_pos_iff.mpr hf
  have hgp := List.length_pos_iff.mpr hg
  have pad : ∀ (c : List ℝ) (n : ℕ), chebPoly (c ++ List.replicate n 0) = chebPoly c := by
    intro c n
    apply chebPoly_congr_getD
    intro k
    rw [getD_append']
    split_ifs with h
    · rfl
    · rw [getD_replicate', getD_ge' c _ _ (by omega)]
  obtain ⟨h, hl, hp⟩ := Rep.mul (⟨f, rfl, rfl⟩ : Rep f.length (chebPoly f))
    (⟨g, rfl, rfl⟩ : Rep g.length (chebPoly g)) hfp hgp
  rw [coeffTimesCol_eq _ _ h (by simp; omega) (by simp [hf]) (by simp; omega)
    (by rw [pad, pad, hp])]
  exact ⟨hl, hp⟩

end Funpy.Cheb
