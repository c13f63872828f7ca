import Verif.Lemmas.UltraDisc

/-!
# C39–C42, C65: matrices of the ultraspherical spectral method

`Spec.ultraSeries lam v` is the function with the coefficients `v` in the basis `C^{(lam)}` (Chebyshev
polynomials of the first kind for `lam = 0`).
-/

namespace Funpy.Props
open Spec Matrix Finset Funpy.UltraS

/-! ### C39: conversion -/

/-- C39: `spconvert(n, lam)` maps the `C^{(lam)}` coefficients of a function to its `C^{(lam+1)}`
coefficients. -/
theorem C39_spconvert (n lam : ℕ) (h : 2 ≤ n ∨ 0 < lam) (v : Fin n → ℝ) (x : ℝ) :
    ultraSeries (lam + 1) (spconvert n lam *ᵥ v) x = ultraSeries lam v x :=
  spconvert_series n lam h v x

/-- C39: `convertmat(n, K1, K2 - 1)` maps the `C^{(K1)}` coefficients of a function to its `C^{(K2)}`
coefficients, for all `K1 ≤ K2`. -/
theorem C39_convertmat (n K1 K2 : ℕ) (hK : K1 ≤ K2) (h : 2 ≤ n ∨ 0 < K1) (v : Fin n → ℝ) (x : ℝ) :
    ultraSeries K2 (convertmat n K1 ((K2 : ℤ) - 1) *ᵥ v) x = ultraSeries K1 v x :=
  convertmat_series n K1 K2 hK h v x

/-- C39: the coefficients are determined by the function, so the conversion is the only one. -/
theorem C39_unique (n lam : ℕ) (h : 2 ≤ n) (v w : Fin n → ℝ)
    (hvw : ∀ x, ultraSeries lam v x = ultraSeries lam w x) : v = w :=
  ultraSeries_inj lam h v w hvw

example : ultraSeries 3 (convertmat 5 1 2 *ᵥ ![1, 2, 3, 4, 5]) 7 = ultraSeries 1 ![1, 2, 3, 4, 5] 7 :=
  C39_convertmat 5 1 3 (by omega) (Or.inl (by omega)) _ _

/-! ### C40: differentiation -/

/-- C40: `diffmat(n, m)` maps the Chebyshev coefficients of `u` to the `C^{(m)}` coefficients of `u^{(m)}`. -/
theorem C40_diffmat (n m : ℕ) (v : Fin n → ℝ) (x : ℝ) :
    ultraSeries m (diffmat n m *ᵥ v) x = iteratedDeriv m (ultraSeries 0 v) x := by
  rw [diffmat_series]

/-- C40 on a general interval: the discretised derivative, converted to any higher output space. -/
theorem C40_interval (n m out : ℕ) (hm : m ≤ out) (h : 2 ≤ n) (e : Ends) (v : Fin n → ℝ) (y : ℝ) :
    ultraSeries out ((discConvert n m out * discDiff n m (Mapping.diff e)) *ᵥ v) (Mapping.bwd e y)
      = iteratedDeriv m (fun t => ultraSeries 0 v (Mapping.bwd e t)) y := by
  unfold discConvert
  rw [← mulVec_mulVec, convertmat_series n m out hm (Or.inl h), discDiff_series]
  simp only [Cheb.bwd_eq]
  rw [iteratedDeriv_affine _ m (ultraSeries_contDiff v m)]

example : ultraSeries 2 (diffmat 3 2 *ᵥ ![0, 0, 1]) 5 = 4 := by
  simp [Fin.sum_univ_succ, ultraSeries, mulVec, dotProduct, diffmat, diffLoop, spdiag, ultraBasis, gegenbauer, Matrix.mul_apply,
    List.range_succ]
  norm_num

/-! ### C42: inverse conversion -/

/-- C42: `spconvert_inv(n, lam)` is the two-sided inverse of `spconvert(n, lam)`. -/
theorem C42_spconvert_inv (n lam : ℕ) (h : 2 ≤ n ∨ 0 < lam) :
    spconvertInv n lam * spconvert n lam = 1 ∧ spconvert n lam * spconvertInv n lam = 1 :=
  ⟨spconvertInv_mul n lam h, mul_eq_one_comm.mp (spconvertInv_mul n lam h)⟩

/-- C42: `convertmat_inv(n, K1, K2)` is the two-sided inverse of `convertmat(n, K1, K2)`. -/
theorem C42_convertmat_inv (n K1 : ℕ) (K2 : ℤ) (h : 2 ≤ n ∨ 0 < K1) :
    convertmatInv n K1 K2 * convertmat n K1 K2 = 1 ∧ convertmat n K1 K2 * convertmatInv n K1 K2 = 1 :=
  ⟨convertmatInv_mul n K1 K2 h, convertmat_mul_inv n K1 K2 h⟩

/-- C42, by function: `convertmat_inv` maps `C^{(K2)}` coefficients to the `C^{(K1)}` coefficients of the
same function. -/
theorem C42_series (n K1 K2 : ℕ) (hK : K1 ≤ K2) (h : 2 ≤ n ∨ 0 < K1) (v : Fin n → ℝ) (x : ℝ) :
    ultraSeries K1 (convertmatInv n K1 ((K2 : ℤ) - 1) *ᵥ v) x = ultraSeries K2 v x := by
  rw [← convertmat_series n K1 K2 hK h, mulVec_mulVec, convertmat_mul_inv n K1 _ h, one_mulVec]

example : convertmatInv 4 0 1 * convertmat 4 0 1 = 1 := (C42_convertmat_inv 4 0 1 (Or.inl (by omega))).1

/-! ### C41: multiplication -/

/-- The functions (Chebyshev coefficients `c`) for which `multmat(k, f, lam)` is exact: constants;
for `lam = 0, 1` a matrix of less than 100 rows or a non-zero constant term; for `lam ≥ 2` all
non-zero `C^{(lam)}` coefficients of `f` are at least the machine epsilon. -/
def MultExact (k : ℕ) (c : List ℝ) (lam : ℕ) : Prop :=
  c.length = 1 ∨ (1 ≤ c.length ∧ lam ≤ 1 ∧ (k < 100 ∨ c.getD 0 0 ≠ 0) ∧ (lam = 1 → 3 ≤ k)) ∨
  (1 ≤ c.length ∧ 2 ≤ lam ∧ ∃ a : Fin k → ℝ, (∀ x, chebEval c x = ultraSeries lam a x) ∧
    ∀ i, a i = 0 ∨ machEps ≤ |a i|)

/-- C41: `multmat(k, f, lam)` applied to the `C^{(lam)}` coefficients of `g` gives the `C^{(lam)}`
coefficients of `f g`, if the product (degree `< len(f) + dg - 1`) fits into `k` coefficients. -/
theorem C41_product_partial (k : ℕ) (c : List ℝ) (lam : ℕ) (hk : 2 ≤ k) (hex : MultExact k c lam) (g : Fin k → ℝ) (dg : ℕ)
    (hg : ∀ i : Fin k, dg ≤ i → g i = 0) (hfit : c.length + dg ≤ k + 1) (x : ℝ) :
    ultraSeries lam (multmat k c lam *ᵥ g) x = chebEval c x * ultraSeries lam g x := by
  by_cases hc1 : c.length = 1
  · exact multmat_scalar k c hc1 lam g x
  rcases hex with h | ⟨hc0, hl, hk100, _⟩ | ⟨hc0, hl, a, ha, hae⟩
  · exact absurd h hc1
  · by_cases hlen : c.length ≤ k
    · interval_cases lam
      · apply series_of_cols
        intro q hq
        have : (q : ℕ) < dg := by
          by_contra hcon; exact hq (hg q (by omega))
        exact multmat_T_col k c hc1 hlen hk100 q (by omega) x
      · apply series_of_cols
        intro q hq
        have : (q : ℕ) < dg := by
          by_contra hcon; exact hq (hg q (by omega))
        exact multmat_U_col k c hc1 hlen hk100 q (by omega) x
    · have hz : g = 0 := by funext i; exact hg i (by omega)
      rw [hz, mulVec_zero]
      simp [ultraSeries]
  · by_cases hlen : c.length ≤ k
    · obtain ⟨K, hK, hE⟩ := multmat_lam k c hc1 hc0 lam hl g dg hg hfit hk
      rw [hE x]
      congr 1
      have hcv : (convertmat k 0 ((lam : ℤ) - 1) *ᵥ fun i : Fin k => c.getD i 0) = a := by
        apply ultraSeries_inj lam hk
        intro x
        rw [convertmat_series k 0 lam (by omega) (Or.inl hk), pad_eval 0 k c hlen, ← ha x]
        rfl
      rw [hcv] at hK ⊢
      rw [ha x, sum_list_fin]
      have haz : ∀ j, K ≤ j → (List.ofFn a).getD j 0 = 0 := by
        intro j hj
        by_cases h : j < k
        · rw [getD_lt' _ _ _ (by simpa using h), List.getElem_ofFn]
          have h1 := hK ⟨j, h⟩ hj
          rcases hae ⟨j, h⟩ with h2 | h2
          · exact h2
          · exact absurd h1 (not_lt.mpr h2)
        · exact getD_ge' _ _ _ (by simpa using h)
      unfold basisSum
      rcases le_total K k with hKk | hKk
      · apply sum_subset (by intro j; simp; omega)
        intro j _ hj
        rw [haz j (by simpa using hj), zero_mul]
      · symm
        apply sum_subset (by intro j; simp; omega)
        intro j _ hj
        rw [getD_ge' _ _ _ (by simpa using hj), zero_mul]
    · have hz : g = 0 := by funext i; exact hg i (by omega)
      rw [hz, mulVec_zero]
      simp [ultraSeries]

/-- C41 for `lam ≥ 2` and any `f`: `multmat` multiplies by a function whose `C^{(lam)}` coefficients differ
from those of `f` by less than the machine epsilon. -/
theorem C41_truncated_partial (k : ℕ) (c : List ℝ) (lam : ℕ) (hk : 2 ≤ k) (hl : 2 ≤ lam) (hc0 : 1 ≤ c.length) (g : Fin k → ℝ) (dg : ℕ)
    (hg : ∀ i : Fin k, dg ≤ i → g i = 0) (hfit : c.length + dg ≤ k + 1) (hlen : c.length ≤ k) :
    ∃ r : Fin k → ℝ, (∀ i, |r i| < machEps) ∧
      ∀ x, ultraSeries lam (multmat k c lam *ᵥ g) x = (chebEval c x - ultraSeries lam r x) * ultraSeries lam g x := by
  have heps : 0 < machEps := by unfold machEps; positivity
  by_cases hc1 : c.length = 1
  · refine ⟨0, fun i => by simpa using heps, fun x => ?_⟩
    rw [multmat_scalar k c hc1 lam g x]
    simp [ultraSeries]
  obtain ⟨K, hK, hE⟩ := multmat_lam k c hc1 hc0 lam hl g dg hg hfit hk
  set a := (convertmat k 0 ((lam : ℤ) - 1) *ᵥ fun i : Fin k => c.getD i 0) with ha
  refine ⟨fun i => if K ≤ (i : ℕ) then a i else 0, fun i => ?_, fun x => ?_⟩
  · by_cases h : K ≤ (i : ℕ)
    · simp only [if_pos h]; exact hK i h
    · simp only [if_neg h, abs_zero]; exact heps
  · rw [hE x]
    congr 1
    have hc : chebEval c x = ultraSeries lam a x := by
      rw [ha, convertmat_series k 0 lam (by omega) (Or.inl hk), pad_eval 0 k c hlen]
      rfl
    rw [hc]
    unfold ultraSeries basisSum
    rw [← sum_sub_distrib]
    set A : ℕ → ℝ := fun j => (List.ofFn a).getD j 0 with hA
    have hAa : ∀ i : Fin k, a i = A i := by
      intro i; simp only [hA]; rw [getD_lt' _ _ _ (by simp)]; simp
    have h1 : ∀ i : Fin k, a i * ultraBasis lam i x - (if K ≤ (i : ℕ) then a i else 0) * ultraBasis lam i x
        = (fun j : ℕ => if j < K then A j * ultraBasis lam j x else 0) i := by
      intro i
      simp only []
      rw [hAa]
      split_ifs <;> first | omega | ring
    rw [sum_congr rfl fun i _ => h1 i, ← Finset.sum_range (fun j : ℕ => if j < K then A j * ultraBasis lam j x else 0)]
    rw [← Finset.sum_filter]
    rcases le_total K k with hKk | hKk
    · apply sum_congr
      · ext j; simp; omega
      · intro j _; rfl
    · symm
      apply sum_subset
      · intro j; simp
      · intro j hj hj'
        simp only [mem_filter, mem_range, not_and, not_lt] at hj hj'
        have : k ≤ j := by by_contra hcon; have := hj' (by omega); omega
        simp only [hA]
        rw [getD_ge' _ _ _ (by simpa using this), zero_mul]

example : MultExact 10 [0, 1, 2] 1 := Or.inr (Or.inl ⟨by simp, by simp, Or.inl (by omega), by omega⟩)

example : ultraSeries 2 (multmat 4 [0, 1] 2 *ᵥ ![1, 2, 0, 0]) 3 = 3 * ultraSeries 2 ![1, 2, 0, 0] 3 := by
  have h := C41_product_partial 4 [0, 1] 2 (by omega) (Or.inr (Or.inr ⟨by simp, by simp, ![0, 1 / 4, 0, 0], ?_, ?_⟩)) ![1, 2, 0, 0] 2
    ?_ (by simp) 3
  · rw [h]; simp [chebEval, sum_range_succ]
  · intro x; simp [chebEval, sum_range_succ, ultraSeries, Fin.sum_univ_succ, ultraBasis, gegenbauer]; ring
  · intro i
    fin_cases i
    · left; simp
    · right; simp [machEps]; norm_num
    · left; simp
    · left; simp
  · intro i hi; fin_cases i <;> simp at hi ⊢

lemma nonzeros_single (k : ℕ) (hk : 2 ≤ k) (col : List ℝ) (hl : col.length = k) (h1 : col.getD 1 0 ≠ 0)
    (h0 : ∀ j, j ≠ 1 → col.getD j 0 = 0) : nonzeros col = [1] := by
  unfold nonzeros
  rw [hl]
  obtain ⟨m, rfl⟩ : ∃ m, k = m + 2 := ⟨k - 2, by omega⟩
  rw [List.range_succ_eq_map, List.range_succ_eq_map]
  simp only [List.map_cons, List.map_map, List.filter_cons]
  have e0 : col.getD 0 0 = 0 := h0 0 (by omega)
  rw [if_neg (by simpa using e0), if_pos (by simpa using h1)]
  congr 1
  rw [List.filter_eq_nil_iff]
  intro a ha
  simp only [List.mem_map, Function.comp] at ha
  obtain ⟨b, -, rfl⟩ := ha
  have := h0 (b.succ).succ (by omega)
  simpa using this

/-- C41 with a tolerance above the machine epsilon (`lam = 0, 1`): `multmat(k, f, lam, eps=eps)` multiplies exactly by
a truncation `d` of the series of `f`, at least two coefficients long, and every discarded coefficient is at most
`eps^(1/3)`. -/
theorem C41_chopped_partial (k : ℕ) (c : List ℝ) (lam : ℕ) (eps : ℝ) (hl : lam ≤ 1) (heps : machEps < eps) (h1 : eps < 1)
    (hc : 2 ≤ c.length) (hk : 2 ≤ k) (hk100 : k < 100 ∨ c.getD 0 0 ≠ 0) (hk3 : lam = 1 → 3 ≤ k)
    (g : Fin k → ℝ) (dg : ℕ) (hg : ∀ i : Fin k, dg ≤ i → g i = 0) (hfit : c.length + dg ≤ k + 1) :
    ∃ d : List ℝ, d <+: c ∧ 2 ≤ d.length ∧ (∀ i, d.length ≤ i → |c.getD i 0| ≤ eps ^ ((1 : ℝ) / 3)) ∧
      ∀ x, ultraSeries lam (multmat k c lam eps *ᵥ g) x = chebEval d x * ultraSeries lam g x := by
  have h0 : 0 < eps := lt_trans (by unfold machEps; positivity) heps
  set cut := max 1 (Cheb.standardChop c eps 2) with hcut
  set d := if cut < c.length then c.take (cut + 1) else c with hd
  have hpre : d <+: c := by
    rw [hd]; split_ifs
    · exact List.take_prefix _ _
    · exact List.prefix_rfl
  have hlen2 : 2 ≤ d.length := by
    rw [hd]; split_ifs
    · rw [List.length_take]; omega
    · exact hc
  have hdl : d.length ≤ c.length := hpre.length_le
  have hM : multmat k c lam eps = multmat k d lam := by
    have hmc : multCoeffs k c eps = multCoeffs k d machEps := by
      unfold multCoeffs
      simp only [gt_iff_lt, lt_self_iff_false, if_false, heps, if_true]
      rw [← hcut, ← hd]
    unfold multmat
    rw [if_neg (show ¬ c.length = 1 by omega), if_neg (show ¬ d.length = 1 by omega)]
    simp only [hmc]
    rcases (show lam = 0 ∨ lam = 1 by omega) with h | h
    · simp only [if_pos h]
    · simp only [if_pos h]
  refine ⟨d, hpre, hlen2, ?_, ?_⟩
  · intro i hi
    have hspec := Cheb.standardChopAbs_spec (c.map abs) (by
      intro i hi
      rw [getD_lt' _ _ _ hi, List.getElem_map]; exact abs_nonneg _) eps h0 h1 2 le_rfl
    have hge : c.length ≤ i → |c.getD i 0| ≤ eps ^ ((1 : ℝ) / 3) := by
      intro h; rw [getD_ge' _ _ _ h, abs_zero]; positivity
    by_cases hic : i < c.length
    swap
    · exact hge (by omega)
    have hlt : cut < c.length := by
      by_contra h
      rw [hd, if_neg h] at hi; omega
    rw [hd, if_pos hlt, List.length_take] at hi
    rcases hspec with h | ⟨_, h⟩
    · have : Cheb.standardChop c eps 2 = c.length := by simpa [Cheb.standardChop] using h
      omega
    · have := h i (by have : Cheb.standardChop c eps 2 ≤ cut := le_max_right _ _
                      unfold Cheb.standardChop at this; omega) (by simpa using hic)
      rwa [getD_lt' _ _ _ (by simpa using hic), List.getElem_map, ← getD_lt' c 0 i hic] at this
  · intro x
    rw [hM]
    refine C41_product_partial k d lam hk (Or.inr (Or.inl ⟨by omega, hl, ?_, hk3⟩)) g dg hg (by omega) x
    rcases hk100 with h | h
    · exact Or.inl h
    · right
      obtain ⟨t, ht⟩ := hpre
      rw [← ht, getD_append', if_pos (by omega)] at h
      exact h

/-- The hypotheses of `C41_chopped_partial` are met by `f = 1 + x`, `k = 4`, `g = T_1`, `eps = 1/2`. -/
example : ∃ d : List ℝ, d <+: [1, 1] ∧ 2 ≤ d.length ∧ (∀ i, d.length ≤ i → |([1, 1] : List ℝ).getD i 0| ≤ (1 / 2 : ℝ) ^ ((1 : ℝ) / 3)) ∧
    ∀ x, ultraSeries 0 (multmat 4 [1, 1] 0 (1 / 2) *ᵥ fun i : Fin 4 => if (i : ℕ) = 1 then 1 else 0) x
      = chebEval d x * ultraSeries 0 (fun i : Fin 4 => if (i : ℕ) = 1 then (1 : ℝ) else 0) x :=
  C41_chopped_partial 4 [1, 1] 0 (1 / 2) (by omega) (by unfold machEps; norm_num) (by norm_num) (by simp) (by omega)
    (Or.inl (by omega)) (by omega) _ 2 (fun i hi => if_neg (by omega)) (by simp)

/-- C41 is false in general: for `k ≥ 100` the matrix of the multiplication by `f(x) = x` (whose constant
coefficient vanishes) in the Chebyshev basis loses its upper diagonal, and `f · T_1` comes out as `T_2 / 2`
instead of `(T_0 + T_2) / 2`. -/
theorem C41_large_fails (k : ℕ) (hk : 100 ≤ k) :
    (∀ x : ℝ, chebEval [0, 1] x = x) ∧
    ultraSeries 0 (multmat k [0, 1] 0 *ᵥ fun i : Fin k => if (i : ℕ) = 1 then 1 else 0) 1
      ≠ 1 * ultraSeries 0 (fun i : Fin k => if (i : ℕ) = 1 then (1 : ℝ) else 0) 1 := by
  refine ⟨fun x => by simp [chebEval, sum_range_succ], ?_⟩
  set d := (multCoeffs k [0, 1] machEps).map (· / 2) with hd
  have hdl : d.length = k := by rw [hd, List.length_map, multCoeffs_length]
  have hdg : ∀ j, d.getD j 0 = if j = 1 then 1 / 2 else 0 := by
    intro j
    by_cases h : j < k
    · rw [hd, getD_map_lt _ 0 _ _ _ (by rw [multCoeffs_length]; exact h), multCoeffs_getD k _ (by simp; omega)]
      rcases j with _ | _ | j <;> simp
    · rw [getD_ge' _ _ _ (by omega), if_neg (by omega)]
  have hcol : ∀ p : Fin k, (multmat k [0, 1] 0) p ⟨1, by omega⟩ = if (p : ℕ) = 2 then 1 / 2 else 0 := by
    intro p
    have hp := p.2
    unfold multmat
    rw [if_neg (by simp)]
    simp only [if_pos trivial]
    rw [← hd]
    show sptoeplitzFast k ((2 * d.getD 0 0) :: d.drop 1) p ⟨1, by omega⟩ +
      (if 1 ≤ (p : ℕ) ∧ 1 < k - 1 then sphankel (d.drop 1) (p - 1) 1 else 0) = _
    have hnz : nonzeros ((2 * d.getD 0 0) :: d.drop 1) = [1] := by
      apply nonzeros_single k (by omega)
      · simp; omega
      · rw [getD_cons_drop _ _ _ (by omega), hdg]; norm_num
      · intro j hj
        rcases Nat.eq_zero_or_pos j with h | h
        · rw [h, List.getD_cons_zero, hdg]; norm_num
        · rw [getD_cons_drop _ _ _ (by omega), hdg, if_neg hj]
    have h1 : (if 1 ≤ (p : ℕ) ∧ 1 < k - 1 then sphankel (d.drop 1) (p - 1) 1 else 0) = 0 := by
      split_ifs with h
      · rw [sphankel_eq _ _ _ (by simp; omega), getD_drop', hdg, if_neg (by omega)]
      · rfl
    rw [h1, add_zero]
    unfold sptoeplitzFast
    have hlen : ((2 * d.getD 0 0) :: d.drop 1).length = k := by simp; omega
    rw [if_neg (by omega)]
    simp only [hnz, hlen]
    rw [show List.drop 1 [1] = ([] : List ℕ) from rfl]
    simp only [List.map_nil, List.nil_append, List.map_cons, List.sum_cons, List.sum_nil, add_zero]
    rw [spdiag_const, getD_cons_drop _ _ _ (by omega), hdg, if_pos rfl]
    by_cases h : (p : ℕ) = 2
    · rw [if_pos (by simp [h]), if_pos h]
    · rw [if_neg (by push_cast; omega), if_neg h]
  have hL : ultraSeries 0 (multmat k [0, 1] 0 *ᵥ fun i : Fin k => if (i : ℕ) = 1 then 1 else 0) 1 = 1 / 2 := by
    rw [series_mulVec, Finset.sum_eq_single (⟨1, by omega⟩ : Fin k)]
    · rw [if_pos rfl, one_mul, Finset.sum_congr rfl fun (p : Fin k) _ => congrArg (fun z : ℝ => z * ultraBasis 0 p 1) (hcol p),
        Finset.sum_eq_single (⟨2, by omega⟩ : Fin k)]
      · simp [ultraBasis]
      · intro b _ hb
        rw [if_neg (fun h => hb (Fin.ext h)), zero_mul]
      · simp
    · intro b _ hb
      rw [if_neg (fun h => hb (Fin.ext h)), zero_mul]
    · simp
  have hR : ultraSeries 0 (fun i : Fin k => if (i : ℕ) = 1 then (1 : ℝ) else 0) 1 = 1 := by
    unfold ultraSeries
    rw [Finset.sum_eq_single (⟨1, by omega⟩ : Fin k)]
    · simp [ultraBasis]
    · intro b _ hb
      simp only []
      rw [if_neg (fun h => hb (Fin.ext h)), zero_mul]
    · simp
  rw [hL, hR]
  norm_num

/-! ### C65: discretisation of a linear operator -/

/-- C65: `quasi2diffmat` applied to the Chebyshev coefficients `v` of `u` on `[a, b]` gives the `C^{(out)}`
coefficients of `∑_j a_j(y) u^{(j)}(y) + ∑_i c_i(y) ∫_a^b d_i u`, where terms flagged as zero are
skipped. `d` bounds the number of coefficients of `u`; every product must fit. -/
theorem C65_quasi2diffmat_partial (n : ℕ) (hn : 2 ≤ n) (e : Ends) (he : e.e0 ≠ e.e1) (out : ℕ) (s : Source)
    (hout : s.coeff.length ≤ out + 1) (v : Fin n → ℝ) (d : ℕ) (hv : ∀ i : Fin n, d ≤ i → v i = 0)
    (hcoef : ∀ j (hj : j < s.coeff.length), s.coeff[j].1 = true →
      MultExact n s.coeff[j].2 j ∧ s.coeff[j].2.length + (d - j) ≤ n + 1)
    (hint : ∀ p ∈ s.integral, MultExact n p.1 0 ∧ p.1.length ≤ n ∧ MultExact n p.2 0 ∧ p.2.length + d ≤ n + 1)
    (y : ℝ) :
    ultraSeries out (quasi2diffmat n (Mapping.diff e) out s *ᵥ v) (Mapping.bwd e y)
      = (s.coeff.mapIdx fun j p => if p.1 then chebEval p.2 (Mapping.bwd e y) *
            iteratedDeriv j (fun t => ultraSeries 0 v (Mapping.bwd e t)) y else 0).sum
        + (s.integral.map fun p => chebEval p.1 (Mapping.bwd e y) *
            ∫ t in e.e0..e.e1, chebEval p.2 (Mapping.bwd e t) * ultraSeries 0 v (Mapping.bwd e t)).sum := by
  have hsum : ∀ (L : List (Matrix (Fin n) (Fin n) ℝ)) (x : ℝ),
      ultraSeries out (L.sum *ᵥ v) x = (L.map fun A => ultraSeries out (A *ᵥ v) x).sum := by
    intro L x
    induction L with
    | nil => simp [ultraSeries]
    | cons A L ih => rw [List.sum_cons, add_mulVec, ultraSeries_add, ih, List.map_cons, List.sum_cons]
  unfold quasi2diffmat
  simp only [Bool.false_and, Bool.false_eq_true, if_false]
  rw [add_mulVec, ultraSeries_add, hsum, hsum, List.map_map]
  congr 2
  · apply List.ext_getElem
    · simp
    · intro j h1 h2
      simp only [List.length_map, List.length_mapIdx] at h1
      simp only [List.getElem_map, List.getElem_mapIdx]
      by_cases hf : s.coeff[j].1 = true
      · obtain ⟨hex, hfit⟩ := hcoef j h1 hf
        rw [if_pos hf, if_pos hf, Matrix.mul_assoc, ← mulVec_mulVec, ← mulVec_mulVec, discConvert,
          convertmat_series n j out (by omega) (Or.inl hn)]
        rw [C41_product_partial n _ j hn hex _ (d - j)
          (fun i hi => discDiff_supp n j _ v d hv i (by omega)) hfit, discDiff_series]
        congr 1
        simp only [Cheb.bwd_eq]
        rw [iteratedDeriv_affine _ j (ultraSeries_contDiff v j)]
      · rw [if_neg hf, if_neg hf]; simp [ultraSeries]
  · apply List.map_congr_left
    intro p hp
    obtain ⟨h1, h1l, h2, h2l⟩ := hint p hp
    simp only [Function.comp]
    rw [Matrix.mul_assoc, Matrix.mul_assoc, ← mulVec_mulVec, ← mulVec_mulVec, ← mulVec_mulVec, discConvert,
      convertmat_series n 0 out (by omega) (Or.inl hn)]
    rw [C41_product_partial n _ 0 hn h1 _ 1 ?_ (by omega), discInt_series n hn e he]
    · congr 1
      apply intervalIntegral.integral_congr
      intro t _
      exact C41_product_partial n _ 0 hn h2 v d hv h2l _
    · intro i hi
      unfold discInt
      simp only [smul_mulVec, Pi.smul_apply]
      have : ∀ w : Fin n → ℝ, (intmat n *ᵥ w) i = 0 := by
        intro w
        simp only [mulVec, dotProduct, intmat]
        apply Finset.sum_eq_zero
        intro j _
        rw [if_neg (by omega), zero_mul]
      rw [this]
      simp

/-- Non-vacuity of C65: `x u + u'' + ∫ x u` on `[0, 2]` with ten coefficients. -/
example (v : Fin 10 → ℝ) (hv : ∀ i : Fin 10, 8 ≤ (i : ℕ) → v i = 0) (y : ℝ) :
    ultraSeries 2 (quasi2diffmat 10 (Mapping.diff ⟨0, 2⟩) 2 ⟨[(true, [1, 1]), (false, []), (true, [1])], [([1], [1, 1])]⟩ *ᵥ v)
        (Mapping.bwd ⟨0, 2⟩ y)
      = y * ultraSeries 0 v (Mapping.bwd ⟨0, 2⟩ y) + iteratedDeriv 2 (fun t => ultraSeries 0 v (Mapping.bwd ⟨0, 2⟩ t)) y
        + ∫ t in (0 : ℝ)..2, t * ultraSeries 0 v (Mapping.bwd ⟨0, 2⟩ t) := by
  rw [C65_quasi2diffmat_partial 10 (by omega) ⟨0, 2⟩ (by norm_num) 2 _ (by simp) v 8 hv ?_ ?_]
  · have hx : ∀ t, chebEval [1, 1] (Mapping.bwd ⟨0, 2⟩ t) = t := by
      intro t; simp [chebEval, sum_range_succ, Mapping.bwd, Mapping.diff]; ring
    have h1 : ∀ t : ℝ, chebEval [1] t = 1 := by intro t; simp [chebEval]
    simp [hx, h1]
  · intro j hj hf
    simp only [List.length_cons, List.length_nil] at hj
    interval_cases j
    · exact ⟨Or.inr (Or.inl ⟨by simp, by simp, Or.inl (by omega), by omega⟩), by simp⟩
    · simp at hf
    · exact ⟨Or.inl (by simp), by simp⟩
  · intro p hp
    simp only [List.mem_singleton] at hp
    subst hp
    exact ⟨Or.inl (by simp), by simp, Or.inr (Or.inl ⟨by simp, by simp, Or.inl (by omega), by omega⟩), by simp⟩

/-- C65: with `adjoint=True` the signs of the odd-order terms are flipped (and the integral terms exchange
their factors): the result discretises `∑_j (-1)^j a_j(y) u^{(j)}(y)`. -/
theorem C65_adjoint_partial (n : ℕ) (hn : 2 ≤ n) (e : Ends) (out : ℕ) (cs : List (Bool × List ℝ))
    (hout : cs.length ≤ out + 1) (v : Fin n → ℝ) (d : ℕ) (hv : ∀ i : Fin n, d ≤ i → v i = 0)
    (hcoef : ∀ j (hj : j < cs.length), cs[j].1 = true →
      MultExact n cs[j].2 j ∧ cs[j].2.length + (d - j) ≤ n + 1) (y : ℝ) :
    ultraSeries out (quasi2diffmat n (Mapping.diff e) out ⟨cs, []⟩ (adjoint := true) *ᵥ v) (Mapping.bwd e y)
      = (cs.mapIdx fun j p => if p.1 then (-1) ^ j * (chebEval p.2 (Mapping.bwd e y) *
            iteratedDeriv j (fun t => ultraSeries 0 v (Mapping.bwd e t)) y) else 0).sum := by
  have hsum : ∀ (L : List (Matrix (Fin n) (Fin n) ℝ)) (x : ℝ),
      ultraSeries out (L.sum *ᵥ v) x = (L.map fun A => ultraSeries out (A *ᵥ v) x).sum := by
    intro L x
    induction L with
    | nil => simp [ultraSeries]
    | cons A L ih => rw [List.sum_cons, add_mulVec, ultraSeries_add, ih, List.map_cons, List.sum_cons]
  unfold quasi2diffmat
  simp only [Bool.true_and, if_true, List.map_nil, List.sum_nil, add_zero]
  rw [hsum]
  congr 1
  apply List.ext_getElem
  · simp
  · intro j h1 h2
    simp only [List.length_map, List.length_mapIdx] at h1
    simp only [List.getElem_map, List.getElem_mapIdx]
    by_cases hf : cs[j].1 = true
    · obtain ⟨hex, hfit⟩ := hcoef j h1 hf
      have key : ultraSeries out ((discConvert n j out * multmat n cs[j].2 j * discDiff n j (Mapping.diff e)) *ᵥ v) (Mapping.bwd e y)
          = chebEval cs[j].2 (Mapping.bwd e y) * iteratedDeriv j (fun t => ultraSeries 0 v (Mapping.bwd e t)) y := by
        rw [Matrix.mul_assoc, ← mulVec_mulVec, ← mulVec_mulVec, discConvert,
          convertmat_series n j out (by omega) (Or.inl hn)]
        rw [C41_product_partial n _ j hn hex _ (d - j)
          (fun i hi => discDiff_supp n j _ v d hv i (by omega)) hfit, discDiff_series]
        congr 1
        simp only [Cheb.bwd_eq]
        rw [iteratedDeriv_affine _ j (ultraSeries_contDiff v j)]
      rw [if_pos hf, if_pos hf]
      by_cases ho : j % 2 = 1
      · rw [if_pos (by simpa using ho), (Nat.odd_iff.mpr ho).neg_one_pow, ← key]
        rw [neg_mulVec, ← neg_one_smul ℝ (Matrix.mulVec _ v), ultraSeries_smul]
      · rw [if_neg (by simpa using ho), (Nat.even_iff.mpr (by omega)).neg_one_pow, key, one_mul]
    · rw [if_neg hf, if_neg hf]; simp [ultraSeries]

end Funpy.Props
