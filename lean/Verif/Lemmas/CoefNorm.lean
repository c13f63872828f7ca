import Verif.Lemmas.UltraSection
import Mathlib.LinearAlgebra.Finsupp.LinearCombination
import Mathlib.Algebra.Polynomial.AlgebraMap
import Mathlib.Analysis.SpecialFunctions.Trigonometric.Chebyshev.Orthogonality
import Mathlib.Analysis.SpecialFunctions.Trigonometric.Chebyshev.Basic

/-!
# Weighted `ℓ¹` norms of the coefficients of ultraspherical series

Coefficients of series in the bases `C^{(j)}` of arbitrary length are finitely supported sequences; conversion, multiplication by `x` and
differentiation are linear maps on them which do not depend on a number of coefficients.
-/

namespace Funpy.CoefNorm
open Spec Finset Polynomial UltraS

/-- finitely supported coefficient sequences -/
abbrev Co := ℕ →₀ ℝ

/-- `∑_k (k + 1)^s |a_k|` -/
noncomputable def W (s : ℕ) (a : Co) : ℝ := a.sum fun k c => ((k : ℝ) + 1) ^ s * |c|

/-- the series with the `C^{(j)}` coefficients `a` -/
noncomputable def ser (j : ℕ) : Co →ₗ[ℝ] (ℝ → ℝ) := Finsupp.linearCombination ℝ (ultraBasis j)

lemma W_eq (s : ℕ) (a : Co) (S : Finset ℕ) (h : a.support ⊆ S) : W s a = ∑ k ∈ S, ((k : ℝ) + 1) ^ s * |a k| := by
  unfold W
  rw [Finsupp.sum_of_support_subset _ h]
  simp

lemma W_nonneg (s : ℕ) (a : Co) : 0 ≤ W s a := by
  rw [W_eq s a _ subset_rfl]
  positivity

lemma W_zero (s : ℕ) : W s 0 = 0 := by simp [W]

lemma W_add (s : ℕ) (a b : Co) : W s (a + b) ≤ W s a + W s b := by
  classical
  rw [W_eq s (a + b) _ Finsupp.support_add, W_eq s a (a.support ∪ b.support) subset_union_left,
    W_eq s b (a.support ∪ b.support) subset_union_right, ← sum_add_distrib]
  apply sum_le_sum
  intro k _
  rw [← mul_add]
  gcongr
  simpa using abs_add_le (a k) (b k)

lemma W_smul (s : ℕ) (r : ℝ) (a : Co) : W s (r • a) = |r| * W s a := by
  rw [W_eq s (r • a) a.support Finsupp.support_smul, W_eq s a _ subset_rfl, mul_sum]
  apply sum_congr rfl
  intro k _
  rw [Finsupp.smul_apply, smul_eq_mul, abs_mul]
  ring

lemma W_neg (s : ℕ) (a : Co) : W s (-a) = W s a := by
  have := W_smul s (-1) a
  simpa using this

lemma W_sub (s : ℕ) (a b : Co) : W s (a - b) ≤ W s a + W s b := by
  rw [sub_eq_add_neg]
  exact (W_add _ _ _).trans (by rw [W_neg])

lemma W_sum {ι : Type*} (s : ℕ) (S : Finset ι) (f : ι → Co) : W s (∑ i ∈ S, f i) ≤ ∑ i ∈ S, W s (f i) := by
  classical
  induction S using Finset.induction_on with
  | empty => simp [W_zero]
  | insert a S h ih =>
    rw [sum_insert h, sum_insert h]
    exact (W_add _ _ _).trans (by linarith)

lemma W_single (s k : ℕ) (c : ℝ) : W s (Finsupp.single k c) = ((k : ℝ) + 1) ^ s * |c| := by
  unfold W
  rw [Finsupp.sum_single_index]
  simp

/-- a linear map is bounded if it is bounded on the basis -/
lemma W_map (T : Co →ₗ[ℝ] Co) (s s' : ℕ) (C : ℝ) (h : ∀ k, W s' (T (Finsupp.single k 1)) ≤ C * ((k : ℝ) + 1) ^ s) (a : Co) :
    W s' (T a) ≤ C * W s a := by
  have h1 : T a = ∑ k ∈ a.support, a k • T (Finsupp.single k 1) := by
    conv_lhs => rw [← Finsupp.sum_single a]
    rw [Finsupp.sum, map_sum]
    apply sum_congr rfl
    intro k _
    rw [← map_smul]
    simp
  rw [h1, W_eq s a _ subset_rfl, mul_sum]
  refine (W_sum _ _ _).trans (sum_le_sum fun k _ => ?_)
  rw [W_smul]
  calc |a k| * W s' (T (Finsupp.single k 1)) ≤ |a k| * (C * ((k : ℝ) + 1) ^ s) := by gcongr; exact h k
    _ = _ := by ring

lemma W_mono (s s' : ℕ) (h : s ≤ s') (a : Co) : W s a ≤ W s' a := by
  rw [W_eq s a _ subset_rfl, W_eq s' a _ subset_rfl]
  apply sum_le_sum
  intro k _
  gcongr
  · linarith [Nat.cast_nonneg (α := ℝ) k]

/-- coefficients starting at index `m` -/
lemma W_tail (s t m : ℕ) (a : Co) (h : ∀ k, k < m → a k = 0) : ((m : ℝ) + 1) ^ t * W s a ≤ W (s + t) a := by
  rw [W_eq s a _ subset_rfl, W_eq (s + t) a _ subset_rfl, mul_sum]
  apply sum_le_sum
  intro k hk
  have hmk : m ≤ k := by
    by_contra hc
    exact (Finsupp.mem_support_iff.mp hk) (h k (by omega))
  rw [pow_add, mul_comm (((k : ℝ) + 1) ^ s) (((k : ℝ) + 1) ^ t), ← mul_assoc]
  have : (m : ℝ) ≤ k := by exact_mod_cast hmk
  gcongr

/-- the part with index `≥ m` -/
noncomputable def hi (m : ℕ) (a : Co) : Co := a.filter fun k => m ≤ k

/-- the part with index `< m` -/
noncomputable def lo (m : ℕ) (a : Co) : Co := a.filter fun k => k < m

lemma hi_apply (m : ℕ) (a : Co) (k : ℕ) : hi m a k = if m ≤ k then a k else 0 := Finsupp.filter_apply _ _ _

lemma lo_apply (m : ℕ) (a : Co) (k : ℕ) : lo m a k = if k < m then a k else 0 := Finsupp.filter_apply _ _ _

lemma lo_add_hi (m : ℕ) (a : Co) : lo m a + hi m a = a := by
  ext k
  rw [Finsupp.add_apply, lo_apply, hi_apply]
  by_cases h : k < m
  · rw [if_pos h, if_neg (by omega), add_zero]
  · rw [if_neg h, if_pos (by omega), zero_add]

lemma W_filter (s : ℕ) (p : ℕ → Prop) [DecidablePred p] (a : Co) : W s (a.filter p) ≤ W s a := by
  rw [W_eq s (a.filter p) a.support (Finsupp.support_filter p a ▸ filter_subset _ _), W_eq s a _ subset_rfl]
  apply sum_le_sum
  intro k _
  have : |(a.filter p) k| ≤ |a k| := by
    rw [Finsupp.filter_apply]
    split_ifs
    · exact le_rfl
    · simp
  gcongr ?_ * ?_

lemma W_hi (s m : ℕ) (a : Co) : W s (hi m a) ≤ W s a := W_filter _ _ _
lemma W_lo (s m : ℕ) (a : Co) : W s (lo m a) ≤ W s a := W_filter _ _ _

lemma W_hi_tail (s t m : ℕ) (a : Co) : ((m : ℝ) + 1) ^ t * W s (hi m a) ≤ W (s + t) a :=
  (W_tail s t m _ fun k hk => by rw [hi_apply, if_neg (by omega)]).trans (W_hi _ _ _)

/-! ### vectors -/

/-- the sequence of the entries of a vector -/
noncomputable def toCo {n : ℕ} (v : Fin n → ℝ) : Co := ∑ i : Fin n, Finsupp.single (i : ℕ) (v i)

lemma toCo_apply {n : ℕ} (v : Fin n → ℝ) (k : ℕ) : toCo v k = if h : k < n then v ⟨k, h⟩ else 0 := by
  unfold toCo
  rw [Finsupp.finsetSum_apply]
  by_cases h : k < n
  · rw [dif_pos h, sum_eq_single (⟨k, h⟩ : Fin n)]
    · simp
    · intro b _ hb
      rw [Finsupp.single_apply, if_neg]
      intro h2; apply hb; ext; exact h2
    · simp
  · rw [dif_neg h]
    apply sum_eq_zero
    intro i _
    rw [Finsupp.single_apply, if_neg]
    intro h2; exact h (h2 ▸ i.2)

lemma ser_toCo (j : ℕ) {n : ℕ} (v : Fin n → ℝ) (x : ℝ) : ser j (toCo v) x = ultraSeries j v x := by
  unfold toCo ser ultraSeries
  rw [map_sum, Finset.sum_apply]
  apply sum_congr rfl
  intro i _
  simp

lemma toCo_surj (a : Co) (n : ℕ) (h : ∀ k, n ≤ k → a k = 0) : toCo (fun i : Fin n => a i) = a := by
  ext k
  rw [toCo_apply]
  by_cases hk : k < n
  · rw [dif_pos hk]
  · rw [dif_neg hk, h k (by omega)]

lemma exists_bound (a : Co) : ∃ n, 2 ≤ n ∧ ∀ k, n ≤ k → a k = 0 := by
  refine ⟨a.support.sup id + 2, by omega, fun k hk => ?_⟩
  by_contra hc
  have : k ≤ a.support.sup id := Finset.le_sup (f := id) (Finsupp.mem_support_iff.mpr hc)
  omega

lemma ser_inj (j : ℕ) (a b : Co) (h : ∀ x, ser j a x = ser j b x) : a = b := by
  obtain ⟨n, hn, ha⟩ := exists_bound a
  obtain ⟨m, hm, hb⟩ := exists_bound b
  have h1 := toCo_surj a (max n m) fun k hk => ha k (le_trans (le_max_left _ _) hk)
  have h2 := toCo_surj b (max n m) fun k hk => hb k (le_trans (le_max_right _ _) hk)
  rw [← h1, ← h2]
  congr 1
  apply ultraSeries_inj j (le_trans hn (le_max_left _ _))
  intro x
  rw [← ser_toCo, ← ser_toCo, h1, h2]
  exact h x

lemma toCo_add {n : ℕ} (v w : Fin n → ℝ) : toCo (v + w) = toCo v + toCo w := by
  ext k
  rw [Finsupp.add_apply, toCo_apply, toCo_apply, toCo_apply]
  split_ifs <;> simp

/-! ### conversion -/

/-- `C^{(j)}` to `C^{(j+1)}` -/
noncomputable def conv1 (j : ℕ) : Co →ₗ[ℝ] Co := Finsupp.linearCombination ℝ fun k =>
  match k with
  | 0 => Finsupp.single 0 (1 : ℝ)
  | 1 => Finsupp.single 1 (if j = 0 then (1 / 2 : ℝ) else j / (j + 1))
  | k + 2 => (if j = 0 then (1 / 2 : ℝ) else j / (j + ((k : ℝ) + 2))) • (Finsupp.single (k + 2) (1 : ℝ) - Finsupp.single k 1)

/-- two series are mapped to each other if the basis functions are -/
lemma ser_map (T : Co →ₗ[ℝ] Co) (j j' : ℕ) (x y c : ℝ) (h : ∀ k, ser j' (T (Finsupp.single k 1)) x = c * ultraBasis j k y) (a : Co) :
    ser j' (T a) x = c * ser j a y := by
  have h1 : a = ∑ k ∈ a.support, a k • Finsupp.single k (1 : ℝ) := by
    conv_lhs => rw [← Finsupp.sum_single a]
    rw [Finsupp.sum]
    apply sum_congr rfl
    intro k _
    simp
  rw [h1]
  simp only [map_sum, map_smul, Finset.sum_apply, Pi.smul_apply, smul_eq_mul, h, mul_sum]
  apply sum_congr rfl
  intro k _
  simp [ser]
  ring

lemma ser_conv1 (j : ℕ) (a : Co) (x : ℝ) : ser (j + 1) (conv1 j a) x = ser j a x := by
  have := ser_map (conv1 j) j (j + 1) x x 1 (fun k => by
    unfold conv1
    rw [Finsupp.linearCombination_single, one_smul, one_mul]
    match k with
    | 0 => simp [ser, ultraBasis_zero]
    | 1 =>
      rw [Spec.ultraBasis_one j x]
      simp [ser]
    | k + 2 =>
      rw [ultraBasis_convert]
      simp only [map_smul, map_sub, Pi.smul_apply, Pi.sub_apply, smul_eq_mul]
      simp [ser]) a
  rw [this, one_mul]

lemma W_conv1 (j s : ℕ) (a : Co) : W s (conv1 j a) ≤ 2 * W s a := by
  apply W_map
  intro k
  unfold conv1
  rw [Finsupp.linearCombination_single, one_smul]
  match k with
  | 0 => simp [W_single]
  | 1 =>
    rw [W_single]
    have : |(if j = 0 then (1 / 2 : ℝ) else j / (j + 1))| ≤ 2 := by
      split_ifs
      · norm_num
      · rw [abs_of_nonneg (by positivity), div_le_iff₀ (by positivity)]
        linarith [Nat.cast_nonneg (α := ℝ) j]
    have h2 : (0:ℝ) ≤ (((1:ℕ):ℝ) + 1) ^ s := by positivity
    rw [mul_comm]
    exact mul_le_mul_of_nonneg_right this h2
  | k + 2 =>
    rw [W_smul]
    have : |(if j = 0 then (1 / 2 : ℝ) else j / (j + ((k : ℝ) + 2)))| ≤ 1 := by
      split_ifs
      · norm_num
      · rw [abs_of_nonneg (by positivity), div_le_iff₀ (by positivity)]
        linarith [Nat.cast_nonneg (α := ℝ) k]
    have h1 := W_sub s (Finsupp.single (k + 2) (1 : ℝ)) (Finsupp.single k 1)
    rw [W_single, W_single, abs_one, mul_one, mul_one] at h1
    have h2 : ((k : ℝ) + 1) ^ s ≤ (((k + 2 : ℕ) : ℝ) + 1) ^ s := by
      gcongr
      push_cast; linarith
    have h3 := W_nonneg s (Finsupp.single (k + 2) (1 : ℝ) - Finsupp.single k 1)
    nlinarith

/-- conversion of `C^{(j)}` with `j ≥ 1` gains one power -/
lemma W_conv1_gain (j s : ℕ) (hj : 1 ≤ j) (a : Co) : W (s + 1) (conv1 j a) ≤ 2 * j * W s a := by
  apply W_map
  intro k
  unfold conv1
  rw [Finsupp.linearCombination_single, one_smul]
  have hj0 : j ≠ 0 := by omega
  have hj1 : (1 : ℝ) ≤ j := by exact_mod_cast hj
  match k with
  | 0 => simp [W_single]; linarith
  | 1 =>
    rw [W_single, if_neg hj0, abs_of_nonneg (by positivity), pow_succ]
    have : ((((1:ℕ):ℝ) + 1)) * (j / (j + 1)) ≤ 2 * j := by
      push_cast
      rw [mul_div_assoc', div_le_iff₀ (by positivity)]
      nlinarith
    have h2 : (0:ℝ) ≤ (((1:ℕ):ℝ) + 1) ^ s := by positivity
    rw [mul_assoc, mul_comm]
    exact mul_le_mul_of_nonneg_right this h2
  | k + 2 =>
    rw [W_smul, if_neg hj0, abs_of_nonneg (by positivity)]
    have h1 := W_sub (s + 1) (Finsupp.single (k + 2) (1 : ℝ)) (Finsupp.single k 1)
    rw [W_single, W_single, abs_one, mul_one, mul_one] at h1
    have h2 : ((k : ℝ) + 1) ^ (s + 1) ≤ (((k + 2 : ℕ) : ℝ) + 1) ^ (s + 1) := by
      gcongr
      push_cast; linarith
    have h3 : (j : ℝ) / (j + ((k : ℝ) + 2)) * (((k + 2 : ℕ) : ℝ) + 1) ≤ j := by
      rw [div_mul_eq_mul_div, div_le_iff₀ (by positivity)]
      push_cast
      nlinarith
    have h4 : (0:ℝ) ≤ (j : ℝ) / (j + ((k : ℝ) + 2)) := by positivity
    calc (j : ℝ) / (j + ((k : ℝ) + 2)) * W (s + 1) (Finsupp.single (k + 2) (1 : ℝ) - Finsupp.single k 1)
        ≤ (j : ℝ) / (j + ((k : ℝ) + 2)) * (2 * (((k + 2 : ℕ) : ℝ) + 1) ^ (s + 1)) := by gcongr; linarith
      _ = 2 * ((j : ℝ) / (j + ((k : ℝ) + 2)) * (((k + 2 : ℕ) : ℝ) + 1)) * (((k + 2 : ℕ) : ℝ) + 1) ^ s := by ring
      _ ≤ 2 * j * (((k + 2 : ℕ) : ℝ) + 1) ^ s := by gcongr

/-- `C^{(j)}` to `C^{(j+i)}` -/
noncomputable def conv (j : ℕ) : ℕ → Co →ₗ[ℝ] Co
  | 0 => LinearMap.id
  | i + 1 => conv1 (j + i) ∘ₗ conv j i

lemma ser_conv (j i : ℕ) (a : Co) (x : ℝ) : ser (j + i) (conv j i a) x = ser j a x := by
  induction i with
  | zero => rfl
  | succ i ih =>
    show ser (j + i + 1) (conv1 (j + i) (conv j i a)) x = _
    rw [ser_conv1, ih]

lemma W_conv (j i s : ℕ) (a : Co) : W s (conv j i a) ≤ 2 ^ i * W s a := by
  induction i with
  | zero => simp [conv]
  | succ i ih =>
    show W s (conv1 (j + i) (conv j i a)) ≤ _
    refine (W_conv1 _ _ _).trans ?_
    rw [pow_succ]
    linarith

/-- the exponent which is bounded by the `s + 1` norm after the conversion from `C^{(j)}` to a higher parameter -/
def sig (j s : ℕ) : ℕ := if j = 0 then s + 1 else s

lemma conv_gain (j i s : ℕ) (hi : 1 ≤ i) : ∃ C, 0 ≤ C ∧ ∀ a, W (s + 1) (conv j i a) ≤ C * W (sig j s) a := by
  by_cases hj : j = 0
  · refine ⟨2 ^ i, by positivity, fun a => ?_⟩
    rw [sig, if_pos hj]
    exact W_conv _ _ _ _
  · refine ⟨2 * (j + i - 1 : ℕ) * 2 ^ (i - 1), by positivity, fun a => ?_⟩
    rw [sig, if_neg hj]
    obtain ⟨i, rfl⟩ : ∃ i', i = i' + 1 := ⟨i - 1, by omega⟩
    show W (s + 1) (conv1 (j + i) (conv j i a)) ≤ _
    refine (W_conv1_gain (j + i) s (by omega) _).trans ?_
    have := W_conv j i s a
    rw [show j + (i + 1) - 1 = j + i by omega, show i + 1 - 1 = i by omega, mul_assoc (2 * ((j + i : ℕ) : ℝ))]
    gcongr

/-! ### multiplication by polynomials -/

/-- multiplication by `x` in the basis `C^{(j)}` -/
noncomputable def mulX (j : ℕ) : Co →ₗ[ℝ] Co := Finsupp.linearCombination ℝ fun k =>
  match k with
  | 0 => Finsupp.single 1 (if j = 0 then (1 : ℝ) else 1 / (2 * j))
  | k + 1 => Finsupp.single (k + 2) (if j = 0 then (1 / 2 : ℝ) else (k + 2) / (2 * (k + 1 + j)))
      + Finsupp.single k (if j = 0 then (1 / 2 : ℝ) else (k + 2 * j) / (2 * (k + 1 + j)))

lemma mulX_basis (j k : ℕ) (x : ℝ) : ser j (mulX j (Finsupp.single k 1)) x = x * ultraBasis j k x := by
  unfold mulX
  rw [Finsupp.linearCombination_single, one_smul]
  match k with
  | 0 =>
    rw [ultraBasis_zero]
    cases j with
    | zero => simp [ser, ultraBasis]
    | succ j =>
      simp [ser, ultraBasis, gegenbauer]
      field_simp
  | k + 1 =>
    simp only [map_add, Pi.add_apply]
    cases j with
    | zero =>
      simp [ser, ultraBasis]
      have h := congrArg (Polynomial.eval x) (Chebyshev.T_add_two ℝ (k : ℤ))
      simp only [eval_sub, eval_mul, eval_X, eval_ofNat] at h
      linear_combination (norm := (simp; ring)) (1 / 2 : ℝ) * h
    | succ j =>
      simp [ser, ultraBasis]
      have h := gegenbauer_rec ((j : ℝ) + 1) k x
      have h' : (2 : ℝ) * (k + 1 + (j + 1)) ≠ 0 := by positivity
      field_simp
      linear_combination h

lemma ser_mulX (j : ℕ) (a : Co) (x : ℝ) : ser j (mulX j a) x = x * ser j a x :=
  ser_map (mulX j) j j x x x (fun k => mulX_basis j k x) a

lemma W_mulX (j s : ℕ) (a : Co) : W s (mulX j a) ≤ 2 ^ (s + 1) * W s a := by
  apply W_map
  intro k
  unfold mulX
  rw [Finsupp.linearCombination_single, one_smul]
  match k with
  | 0 =>
    rw [W_single]
    have : |(if j = 0 then (1 : ℝ) else 1 / (2 * j))| ≤ 1 := by
      split_ifs with h
      · norm_num
      · have : (1 : ℝ) ≤ j := by exact_mod_cast Nat.one_le_iff_ne_zero.mpr h
        rw [abs_of_nonneg (by positivity), div_le_iff₀ (by positivity)]
        linarith
    calc ((((1 : ℕ) : ℝ) + 1) ^ s) * |(if j = 0 then (1 : ℝ) else 1 / (2 * j))| ≤ ((((1 : ℕ) : ℝ) + 1) ^ s) * 1 := by gcongr
      _ ≤ _ := by
        rw [pow_succ]
        push_cast
        norm_num
  | k + 1 =>
    refine (W_add _ _ _).trans ?_
    rw [W_single, W_single]
    have h1 : |(if j = 0 then (1 / 2 : ℝ) else (k + 2) / (2 * (k + 1 + j)))| ≤ 1 := by
      split_ifs with h
      · norm_num
      · have : (1 : ℝ) ≤ j := by exact_mod_cast Nat.one_le_iff_ne_zero.mpr h
        rw [abs_of_nonneg (by positivity), div_le_iff₀ (by positivity)]
        linarith [Nat.cast_nonneg (α := ℝ) k]
    have h2 : |(if j = 0 then (1 / 2 : ℝ) else (k + 2 * j) / (2 * (k + 1 + j)))| ≤ 1 := by
      split_ifs with h
      · norm_num
      · rw [abs_of_nonneg (by positivity), div_le_iff₀ (by positivity)]
        linarith [Nat.cast_nonneg (α := ℝ) k]
    have h3 : (((k + 2 : ℕ) : ℝ) + 1) ^ s ≤ 2 ^ s * (((k + 1 : ℕ) : ℝ) + 1) ^ s := by
      rw [← mul_pow]
      gcongr
      push_cast; linarith [Nat.cast_nonneg (α := ℝ) k]
    have h4 : ((k : ℝ) + 1) ^ s ≤ 2 ^ s * (((k + 1 : ℕ) : ℝ) + 1) ^ s := by
      rw [← mul_pow]
      gcongr
      push_cast; linarith [Nat.cast_nonneg (α := ℝ) k]
    have h5 : (((k + 2 : ℕ) : ℝ) + 1) ^ s * |(if j = 0 then (1 / 2 : ℝ) else (k + 2) / (2 * (k + 1 + j)))|
        ≤ 2 ^ s * (((k + 1 : ℕ) : ℝ) + 1) ^ s := (mul_le_of_le_one_right (by positivity) h1).trans h3
    have h6 : ((k : ℝ) + 1) ^ s * |(if j = 0 then (1 / 2 : ℝ) else (k + 2 * j) / (2 * (k + 1 + j)))|
        ≤ 2 ^ s * (((k + 1 : ℕ) : ℝ) + 1) ^ s := (mul_le_of_le_one_right (by positivity) h2).trans h4
    rw [pow_succ (2 : ℝ) s]
    linarith

/-- multiplication by a polynomial -/
noncomputable def mul (j : ℕ) (p : ℝ[X]) : Co →ₗ[ℝ] Co := aeval (R := ℝ) (A := Module.End ℝ Co) (mulX j) p

lemma mul_add (j : ℕ) (p q : ℝ[X]) (a : Co) : mul j (p + q) a = mul j p a + mul j q a := by
  unfold mul
  rw [map_add]
  rfl

lemma mul_monomial (j i : ℕ) (c : ℝ) (a : Co) : mul j (monomial i c) a = c • ((mulX j) ^ i : Module.End ℝ Co) a := by
  unfold mul
  rw [aeval_monomial]
  rfl

lemma ser_mul (j : ℕ) (p : ℝ[X]) (a : Co) (x : ℝ) : ser j (mul j p a) x = p.eval x * ser j a x := by
  induction p using Polynomial.induction_on' with
  | add p q hp hq => rw [mul_add, map_add, Pi.add_apply, hp, hq, eval_add]; ring
  | monomial i c =>
    rw [mul_monomial, map_smul, Pi.smul_apply, smul_eq_mul, eval_monomial, mul_assoc]
    congr 1
    induction i with
    | zero => simp
    | succ i ih =>
      rw [pow_succ', Module.End.mul_apply, ser_mulX, ih]
      ring

lemma W_mul (j s : ℕ) (p : ℝ[X]) : ∃ C, 0 ≤ C ∧ ∀ a, W s (mul j p a) ≤ C * W s a := by
  induction p using Polynomial.induction_on' with
  | add p q hp hq =>
    obtain ⟨C, hC, h⟩ := hp
    obtain ⟨D, hD, h'⟩ := hq
    refine ⟨C + D, by positivity, fun a => ?_⟩
    rw [mul_add, _root_.add_mul]
    exact (W_add _ _ _).trans (add_le_add (h a) (h' a))
  | monomial i c =>
    refine ⟨|c| * (2 ^ (s + 1)) ^ i, by positivity, fun a => ?_⟩
    rw [mul_monomial, W_smul, mul_assoc]
    refine mul_le_mul_of_nonneg_left ?_ (abs_nonneg c)
    induction i with
    | zero => simp
    | succ i ih =>
      rw [pow_succ', Module.End.mul_apply, pow_succ', mul_assoc]
      exact (W_mulX _ _ _).trans (by gcongr)

/-! ### differentiation -/

/-- differentiation from `C^{(j)}` to `C^{(j+1)}` -/
noncomputable def d1 (j : ℕ) : Co →ₗ[ℝ] Co := Finsupp.linearCombination ℝ fun k =>
  match k with
  | 0 => 0
  | k + 1 => Finsupp.single k (if j = 0 then (k : ℝ) + 1 else 2 * j)

lemma d1_apply (j : ℕ) (a : Co) (k : ℕ) : d1 j a k = (if j = 0 then (k : ℝ) + 1 else 2 * j) * a (k + 1) := by
  induction a using Finsupp.induction_linear with
  | zero => simp
  | add a b ha hb => rw [map_add, Finsupp.add_apply, ha, hb, Finsupp.add_apply]; ring
  | single i c =>
    unfold d1
    rw [Finsupp.linearCombination_single]
    match i with
    | 0 => simp
    | i + 1 =>
      by_cases h : i = k
      · subst h; simp [mul_comm]
      · simp [Finsupp.single_apply, h]

lemma ser_hasDeriv (j : ℕ) (a : Co) (x : ℝ) : HasDerivAt (ser j a) (ser (j + 1) (d1 j a) x) x := by
  induction a using Finsupp.induction_linear with
  | zero => simp only [map_zero]; exact hasDerivAt_const x (0 : ℝ)
  | add a b ha hb => simp only [map_add]; exact ha.add hb
  | single i c =>
    unfold d1
    rw [Finsupp.linearCombination_single]
    simp only [ser, Finsupp.linearCombination_single, map_smul]
    match i with
    | 0 =>
      have := (ultraBasis_zero_deriv j x).const_smul c
      simpa using this
    | i + 1 =>
      have := (ultraBasis_deriv j i x).const_smul c
      simp only [Finsupp.linearCombination_single]
      exact this

/-- `m` derivatives of a Chebyshev series -/
noncomputable def dm : ℕ → Co →ₗ[ℝ] Co
  | 0 => LinearMap.id
  | m + 1 => d1 m ∘ₗ dm m

lemma ser_iteratedDeriv (m : ℕ) (a : Co) : iteratedDeriv m (ser 0 a) = ser m (dm m a) := by
  induction m with
  | zero => rw [iteratedDeriv_zero]; rfl
  | succ m ih =>
    rw [iteratedDeriv_succ, ih]
    funext x
    exact (ser_hasDeriv m _ x).deriv

/-- the factors of the `m`-th derivative -/
def gf : ℕ → ℕ → ℝ
  | 0, _ => 1
  | m + 1, k => (if m = 0 then (k : ℝ) + 1 else 2 * m) * gf m (k + 1)

lemma dm_apply (m : ℕ) (a : Co) (k : ℕ) : dm m a k = gf m k * a (k + m) := by
  induction m generalizing k with
  | zero => simp [dm, gf]
  | succ m ih =>
    show d1 m (dm m a) k = _
    rw [d1_apply, ih, gf, show k + 1 + m = k + (m + 1) by omega]
    ring

lemma gf_ge (m k : ℕ) (hm : 1 ≤ m) : (k : ℝ) + 1 ≤ gf m k := by
  induction m generalizing k with
  | zero => omega
  | succ m ih =>
    rw [gf]
    by_cases h : m = 0
    · subst h; simp [gf]
    · rw [if_neg h]
      have h1 := ih (k + 1) (by omega)
      push_cast at h1
      have h2 : (1 : ℝ) ≤ m := by exact_mod_cast Nat.one_le_iff_ne_zero.mpr h
      have h3 : (0 : ℝ) ≤ k := Nat.cast_nonneg _
      nlinarith

lemma W_d1_zero (s : ℕ) (a : Co) : W s (d1 0 a) ≤ 1 * W (s + 1) a := by
  apply W_map
  intro k
  unfold d1
  rw [Finsupp.linearCombination_single, one_smul]
  match k with
  | 0 => simp [W_zero]
  | k + 1 =>
    simp only [if_true]
    rw [W_single, abs_of_nonneg (by positivity), ← pow_succ, one_mul]
    gcongr
    push_cast; linarith

lemma W_d1 (j s : ℕ) (hj : 1 ≤ j) (a : Co) : W s (d1 j a) ≤ 2 * j * W s a := by
  apply W_map
  intro k
  unfold d1
  rw [Finsupp.linearCombination_single, one_smul]
  match k with
  | 0 => simp [W_zero]
  | k + 1 =>
    simp only [if_neg (show j ≠ 0 by omega)]
    rw [W_single, abs_of_nonneg (by positivity), mul_comm]
    gcongr
    push_cast; linarith

lemma W_dm (m s : ℕ) : ∃ C, 0 ≤ C ∧ ∀ a, W (sig m s) (dm m a) ≤ C * W (s + 1) a := by
  induction m with
  | zero => exact ⟨1, by norm_num, fun a => by simp [sig, dm]⟩
  | succ m ih =>
    obtain ⟨C, hC, h⟩ := ih
    by_cases hm : m = 0
    · subst hm
      refine ⟨1, by norm_num, fun a => ?_⟩
      exact W_d1_zero s a
    · refine ⟨2 * m * C, by positivity, fun a => ?_⟩
      have h1 := h a
      rw [sig, if_neg hm] at h1
      rw [sig, if_neg (by omega)]
      refine (W_d1 m s (by omega) _).trans ?_
      rw [mul_assoc (2 * (m : ℝ))]
      gcongr

/-- the derivative of order `m ≥ 1` controls all coefficients but the first `m` -/
lemma W_dm_lower (m s : ℕ) (hm : 1 ≤ m) (a : Co) : W (s + 1) (hi m a) ≤ (m + 1) ^ (s + 1) * W s (dm m a) := by
  obtain ⟨n, -, ha⟩ := exists_bound a
  have h1 : (hi m a).support ⊆ (range n).image (· + m) := by
    intro k hk
    rw [Finsupp.mem_support_iff, hi_apply] at hk
    by_cases h : m ≤ k
    · rw [if_pos h] at hk
      have : k < n := by by_contra hc; exact hk (ha k (by omega))
      exact mem_image.mpr ⟨k - m, by simp; omega, by omega⟩
    · rw [if_neg h] at hk; exact absurd rfl hk
  have h2 : (dm m a).support ⊆ range n := by
    intro k hk
    rw [Finsupp.mem_support_iff, dm_apply] at hk
    by_contra hc
    rw [ha (k + m) (by simp at hc; omega), mul_zero] at hk
    exact hk rfl
  rw [W_eq _ _ _ h1, W_eq _ _ _ h2, sum_image (by intro a _ b _ h; simpa using h), mul_sum]
  apply sum_le_sum
  intro k _
  rw [hi_apply, if_pos (by omega), dm_apply, abs_mul, abs_of_nonneg (a := gf m k) (by linarith [gf_ge m k hm, Nat.cast_nonneg (α := ℝ) k])]
  have h3 := gf_ge m k hm
  have h4 : (((k + m : ℕ) : ℝ) + 1) ≤ (m + 1) * ((k : ℝ) + 1) := by
    push_cast
    nlinarith [Nat.cast_nonneg (α := ℝ) k, Nat.cast_nonneg (α := ℝ) m, mul_nonneg (Nat.cast_nonneg (α := ℝ) k) (Nat.cast_nonneg (α := ℝ) m)]
  calc (((k + m : ℕ) : ℝ) + 1) ^ (s + 1) * |a (k + m)| ≤ ((m + 1) * ((k : ℝ) + 1)) ^ (s + 1) * |a (k + m)| := by gcongr
    _ = (m + 1) ^ (s + 1) * (((k : ℝ) + 1) ^ s * (((k : ℝ) + 1) * |a (k + m)|)) := by rw [mul_pow, pow_succ ((k : ℝ) + 1)]; ring
    _ ≤ _ := by gcongr

/-! ### function values and coefficients -/

lemma abs_T_le (k : ℤ) {x : ℝ} (hx : |x| ≤ 1) : |(Chebyshev.T ℝ k).eval x| ≤ 1 := by
  have h := Chebyshev.T_real_cos (Real.arccos x) k
  rw [Real.cos_arccos (abs_le.mp hx).1 (abs_le.mp hx).2] at h
  rw [h]
  exact Real.abs_cos_le_one _

lemma ultraBasis_bound (j k : ℕ) (x : ℝ) (hx : |x| ≤ 1) : |ultraBasis j k x| ≤ ((k : ℝ) + 1) ^ (2 * j) := by
  induction j generalizing k with
  | zero =>
    simp only [ultraBasis, mul_zero, pow_zero]
    exact abs_T_le _ hx
  | succ j ih =>
    induction k using Nat.twoStepInduction with
    | zero => simp [ultraBasis_zero]
    | one =>
      simp only [ultraBasis, gegenbauer]
      rw [abs_mul, abs_of_nonneg (by positivity)]
      have h1 : ((j : ℝ) + 1) ≤ 2 ^ j := by
        have := @Nat.lt_two_pow_self j
        exact_mod_cast this
      have h2 : (2 : ℝ) ^ (2 * (j + 1)) = 4 * (2 ^ j * 2 ^ j) := by
        rw [show 2 * (j + 1) = j + j + 2 by ring, pow_add, pow_add]; ring
      have h3 : (1 : ℝ) ≤ 2 ^ j := one_le_pow₀ (by norm_num)
      push_cast
      rw [show (1 : ℝ) + 1 = 2 by norm_num, h2]
      have := abs_nonneg x
      nlinarith
    | more k h1 _ =>
      have h := ultraBasis_convert j k x
      have hc : 0 < (if j = 0 then (1 / 2 : ℝ) else j / (j + ((k : ℝ) + 2))) := by
        split_ifs with hj
        · norm_num
        · have : (0 : ℝ) < j := by exact_mod_cast Nat.pos_of_ne_zero hj
          positivity
      have hc2 : 1 ≤ (if j = 0 then (1 / 2 : ℝ) else j / (j + ((k : ℝ) + 2))) * (k + 3) := by
        split_ifs with hj
        · linarith [Nat.cast_nonneg (α := ℝ) k]
        · have : (1 : ℝ) ≤ j := by exact_mod_cast Nat.one_le_iff_ne_zero.mpr hj
          rw [div_mul_eq_mul_div, le_div_iff₀ (by positivity)]
          nlinarith [Nat.cast_nonneg (α := ℝ) k]
      set c := (if j = 0 then (1 / 2 : ℝ) else j / (j + ((k : ℝ) + 2)))
      have h2 := ih (k + 2)
      have h3 : |ultraBasis (j + 1) (k + 2) x - ultraBasis (j + 1) k x| ≤ (k + 3) * (((k + 2 : ℕ) : ℝ) + 1) ^ (2 * j) := by
        rw [h, abs_mul, abs_of_pos hc] at h2
        have h0 := abs_nonneg (ultraBasis (j + 1) (k + 2) x - ultraBasis (j + 1) k x)
        calc _ = 1 * |ultraBasis (j + 1) (k + 2) x - ultraBasis (j + 1) k x| := by ring
          _ ≤ (c * (k + 3)) * |ultraBasis (j + 1) (k + 2) x - ultraBasis (j + 1) k x| := by gcongr
          _ = (k + 3) * (c * |ultraBasis (j + 1) (k + 2) x - ultraBasis (j + 1) k x|) := by ring
          _ ≤ _ := by gcongr
      have h4 : |ultraBasis (j + 1) (k + 2) x| ≤ |ultraBasis (j + 1) k x| + |ultraBasis (j + 1) (k + 2) x - ultraBasis (j + 1) k x| := by
        have := abs_add_le (ultraBasis (j + 1) k x) (ultraBasis (j + 1) (k + 2) x - ultraBasis (j + 1) k x)
        simpa using this
      have h5 : ((k : ℝ) + 1) ^ (2 * (j + 1)) ≤ (k + 1) * ((k : ℝ) + 3) ^ (2 * j + 1) := by
        rw [show 2 * (j + 1) = (2 * j + 1) + 1 by ring, pow_succ, mul_comm]
        gcongr
        linarith
      push_cast at h3 ⊢
      rw [show (k : ℝ) + 2 + 1 = k + 3 by ring] at h3 ⊢
      have h6 : ((k : ℝ) + 3) ^ (2 * (j + 1)) = (k + 3) * ((k : ℝ) + 3) ^ (2 * j + 1) := by
        rw [show 2 * (j + 1) = (2 * j + 1) + 1 by ring, pow_succ, mul_comm]
      have h7 : (k + 3) * ((k : ℝ) + 3) ^ (2 * j) = ((k : ℝ) + 3) ^ (2 * j + 1) := by rw [pow_succ, mul_comm]
      have h8 : 0 ≤ ((k : ℝ) + 3) ^ (2 * j + 1) := by positivity
      rw [h6]
      nlinarith

lemma ser_bound (j : ℕ) (a : Co) (x : ℝ) (hx : |x| ≤ 1) : |ser j a x| ≤ W (2 * j) a := by
  unfold ser
  rw [Finsupp.linearCombination_apply, Finsupp.sum, Finset.sum_apply, W_eq _ a _ subset_rfl]
  refine (abs_sum_le_sum_abs _ _).trans (sum_le_sum fun k _ => ?_)
  rw [Pi.smul_apply, smul_eq_mul, abs_mul, mul_comm]
  gcongr
  exact ultraBasis_bound j k x hx

open MeasureTheory in
/-- Chebyshev coefficients are bounded by the values on the interval -/
lemma coeff_bound (a : Co) (M : ℝ) (h : ∀ x, |x| ≤ 1 → |ser 0 a x| ≤ M) (k : ℕ) : |a k| ≤ 2 * M := by
  have hpi := Real.pi_pos
  have hM : 0 ≤ M := (abs_nonneg _).trans (h 0 (by simp))
  have hI : ∫ x, ser 0 a x * (Chebyshev.T ℝ k).eval x ∂Chebyshev.measureT
      = a k * ∫ x, (Chebyshev.T ℝ k).eval x * (Chebyshev.T ℝ k).eval x ∂Chebyshev.measureT := by
    have h1 : ∀ x, ser 0 a x * (Chebyshev.T ℝ k).eval x
        = ∑ i ∈ insert k a.support, a i * ((Chebyshev.T ℝ i).eval x * (Chebyshev.T ℝ k).eval x) := by
      intro x
      unfold ser
      rw [Finsupp.linearCombination_apply, Finsupp.sum_of_support_subset _ (subset_insert k a.support) _ (by simp), Finset.sum_apply, sum_mul]
      apply sum_congr rfl
      intro i _
      rw [Pi.smul_apply, smul_eq_mul]
      simp only [ultraBasis]
      ring
    simp only [h1]
    rw [integral_finsetSum]
    · rw [sum_eq_single k]
      · rw [integral_const_mul]
      · intro i _ hi
        rw [integral_const_mul, Chebyshev.integral_eval_T_real_mul_eval_T_real_measureT_of_ne hi, mul_zero]
      · simp
    · intro i _
      apply Integrable.const_mul
      exact Chebyshev.integrable_measureT (by fun_prop)
  have hB : |∫ x, ser 0 a x * (Chebyshev.T ℝ k).eval x ∂Chebyshev.measureT| ≤ M * Real.pi := by
    rw [Chebyshev.integral_measureT_eq_integral_cos]
    have := intervalIntegral.norm_integral_le_of_norm_le_const (a := 0) (b := Real.pi) (C := M)
      (f := fun θ => ser 0 a (Real.cos θ) * (Chebyshev.T ℝ k).eval (Real.cos θ)) (fun θ _ => by
        rw [Real.norm_eq_abs, abs_mul]
        have h1 := h (Real.cos θ) (Real.abs_cos_le_one θ)
        have h2 := abs_T_le k (Real.abs_cos_le_one θ)
        calc _ ≤ M * 1 := by gcongr
          _ = M := by ring)
    simpa [abs_of_pos hpi] using this
  rw [hI] at hB
  by_cases hk : k = 0
  · subst hk
    have := Chebyshev.integral_eval_T_real_mul_self_measureT_zero
    simp only [Nat.cast_zero] at hB
    rw [this, abs_mul, abs_of_pos hpi] at hB
    have := le_of_mul_le_mul_right hB hpi
    linarith
  · rw [Chebyshev.integral_T_real_mul_self_measureT_of_ne_zero hk, abs_mul, abs_of_pos (by positivity : 0 < Real.pi / 2)] at hB
    have : |a k| * Real.pi ≤ (2 * M) * Real.pi := by linarith
    exact le_of_mul_le_mul_right this hpi

end Funpy.CoefNorm
