import Verif.Model.LinHelpers
import Mathlib.LinearAlgebra.Matrix.Determinant.Basic
import Mathlib.Tactic

/-! Determinants of Hessenberg matrices by expansion along the last row. -/

namespace Funpy.LinHelpers

open Matrix

/-- The leading block of `H` with its last column replaced by `v`. -/
def Mcol {K : Type*} [CommRing K] (H : ℕ → ℕ → K) (k : ℕ) (v : ℕ → K) : Matrix (Fin (k + 1)) (Fin (k + 1)) K :=
  Matrix.of fun i j => if j.val < k then H i j else v i

variable {K : Type*} [CommRing K] (H : ℕ → ℕ → K)

theorem Mcol_zero (v : ℕ → K) : (Mcol H 0 v).det = v 0 := by
  have : (Mcol H 0 v).det = Mcol H 0 v 0 0 := Matrix.det_fin_one _
  rw [this]; simp [Mcol]

theorem Mcol_self (k : ℕ) : Mcol H k (fun i => H i k) = Matrix.of fun i j : Fin (k + 1) => H i j := by
  ext i j
  simp only [Mcol, Matrix.of_apply]
  split_ifs with h
  · rfl
  · have : j.val = k := by omega
    rw [this]

theorem Mcol_succ (k : ℕ) (v : ℕ → K) (hH : ∀ j < k, H (k + 1) j = 0) :
    (Mcol H (k + 1) v).det = v (k + 1) * (Mcol H k (fun i => H i k)).det - H (k + 1) k * (Mcol H k v).det := by
  rw [Matrix.det_succ_row _ (Fin.last (k + 1)), Fin.sum_univ_castSucc, Fin.sum_univ_castSucc]
  have hz : ∀ j : Fin k, (Mcol H (k + 1) v) (Fin.last (k + 1)) j.castSucc.castSucc = 0 := by
    intro j
    simp only [Mcol, Matrix.of_apply, Fin.val_castSucc, Fin.val_last]
    rw [if_pos (by omega)]
    exact hH j j.isLt
  rw [Finset.sum_eq_zero (fun j _ => by rw [hz j]; ring)]
  have e1 : (Mcol H (k + 1) v) (Fin.last (k + 1)) (Fin.last k).castSucc = H (k + 1) k := by
    simp [Mcol]
  have e2 : (Mcol H (k + 1) v) (Fin.last (k + 1)) (Fin.last (k + 1)) = v (k + 1) := by
    simp [Mcol]
  have s1 : (Mcol H (k + 1) v).submatrix (Fin.last (k + 1)).succAbove (Fin.last k).castSucc.succAbove
      = Mcol H k v := by
    ext i j
    simp only [Matrix.submatrix_apply, Fin.succAbove_last, Mcol, Matrix.of_apply, Fin.val_castSucc]
    by_cases hj : j.val < k
    · rw [Fin.succAbove_of_castSucc_lt _ _ (by rw [Fin.lt_def]; simpa using hj)]
      simp only [Fin.val_castSucc]
      rw [if_pos (by omega), if_pos hj]
    · rw [Fin.succAbove_of_le_castSucc _ _ (by rw [Fin.le_def]; simpa using hj)]
      simp only [Fin.val_succ]
      rw [if_neg (by omega), if_neg hj]
  have s2 : (Mcol H (k + 1) v).submatrix (Fin.last (k + 1)).succAbove (Fin.last (k + 1)).succAbove
      = Mcol H k (fun i => H i k) := by
    ext i j
    simp only [Matrix.submatrix_apply, Fin.succAbove_last, Mcol, Matrix.of_apply, Fin.val_castSucc]
    rw [if_pos (by omega)]
    split_ifs with h
    · rfl
    · have : j.val = k := by omega
      rw [this]
  rw [e1, e2, s1, s2]
  simp only [Fin.val_last, Fin.val_castSucc]
  have p1 : (-1 : K) ^ (k + 1 + k) = -1 := by
    rw [show k + 1 + k = 2 * k + 1 by ring, pow_succ, pow_mul]; simp
  have p2 : (-1 : K) ^ (k + 1 + (k + 1)) = 1 := by
    rw [show k + 1 + (k + 1) = 2 * (k + 1) by ring, pow_mul]; simp
  rw [p1, p2]
  ring

theorem Mcol_linear (k : ℕ) (hH : ∀ i j, i ≤ k → j + 1 < i → H i j = 0) (a b : K) (v w : ℕ → K) :
    (Mcol H k (fun i => a * v i - b * w i)).det = a * (Mcol H k v).det - b * (Mcol H k w).det := by
  induction k with
  | zero => simp only [Mcol_zero]
  | succ k ih =>
    have h0 : ∀ j < k, H (k + 1) j = 0 := fun j hj => hH _ _ le_rfl (by omega)
    rw [Mcol_succ _ _ _ h0, Mcol_succ _ _ _ h0, Mcol_succ _ _ _ h0, ih (fun i j hi hj => hH i j (by omega) hj)]
    ring

theorem Mcol_congr (k : ℕ) (v w : ℕ → K) (h : ∀ i ≤ k, v i = w i) : Mcol H k v = Mcol H k w := by
  ext i j
  simp only [Mcol, Matrix.of_apply]
  rw [h i (by omega)]

/-- Leading principal minors. -/
def minor (m : ℕ) : K := (Matrix.of fun i j : Fin m => H i j).det

theorem minor_zero : minor H 0 = 1 := by simp [minor]

theorem minor_succ (k : ℕ) : minor H (k + 1) = (Mcol H k (fun i => H i k)).det := by rw [Mcol_self]; rfl

/-- The expansion along the last column. -/
theorem Mcol_expand (k : ℕ) (hH : ∀ i j, i ≤ k → j + 1 < i → H i j = 0) (v : ℕ → K) :
    (Mcol H k v).det = ∑ j ∈ Finset.range (k + 1),
      (-1) ^ (k - j) * v j * (minor H j * ∏ i ∈ Finset.Ico j k, H (i + 1) i) := by
  induction k with
  | zero => rw [Mcol_zero]; simp [minor_zero]
  | succ k ih =>
    rw [Mcol_succ _ _ _ (fun j hj => hH _ _ le_rfl (by omega)), ih (fun i j hi hj => hH i j (by omega) hj),
      ← minor_succ, Finset.sum_range_succ _ (k + 1), Finset.mul_sum]
    have : ∀ j ∈ Finset.range (k + 1), (-1) ^ (k + 1 - j) * v j * (minor H j * ∏ i ∈ Finset.Ico j (k + 1), H (i + 1) i)
        = - (H (k + 1) k * ((-1) ^ (k - j) * v j * (minor H j * ∏ i ∈ Finset.Ico j k, H (i + 1) i))) := by
      intro j hj
      have hj' : j ≤ k := by simpa [Nat.lt_succ_iff] using hj
      rw [Finset.prod_Ico_succ_top hj', show k + 1 - j = (k - j) + 1 by omega, pow_succ]
      ring
    rw [Finset.sum_congr rfl this, Finset.sum_neg_distrib]
    simp
    ring

/-! ## detH -/

theorem detH_inv (n : ℕ) (hH : ∀ i j, i < n → j + 1 < i → H i j = 0)
    (hS : ∀ j k, 1 ≤ j → j + 2 ≤ k → k < n → H j k = 0) (m : ℕ) (hm : m + 1 ≤ n) :
    let s := ((List.range m).map (· + 1)).foldl (detHStep H) (fun _ => 1, setAt (fun _ => 1) 1 (H 0 0))
    (∀ l ≤ m + 1, s.2 l = minor H l) ∧ (∀ j, m ≤ j → s.1 j = 1) ∧
      s.1 0 = ∏ i ∈ Finset.Ico 0 m, H (i + 1) i := by
  induction m with
  | zero =>
    refine ⟨?_, fun j _ => rfl, by simp⟩
    intro l hl
    interval_cases l
    · simp [setAt, minor_zero]
    · rw [minor_succ, Mcol_zero]; simp [setAt]
  | succ m ih =>
    obtain ⟨h1, h2, h3⟩ := ih (by omega)
    simp only [List.range_succ, List.map_append, List.foldl_append, List.map_cons, List.map_nil, List.foldl_cons,
      List.foldl_nil]
    set s := ((List.range m).map (· + 1)).foldl (detHStep H) (fun _ => 1, setAt (fun _ => 1) 1 (H 0 0)) with hs
    refine ⟨?_, ?_, ?_⟩
    · intro l hl
      simp only [detHStep, setAt, Nat.add_sub_cancel]
      rcases Nat.lt_or_ge l (m + 2) with hlt | hge
      · rw [if_neg (by omega)]; exact h1 l (by omega)
      · have : l = m + 1 + 1 := by omega
        subst this
        rw [if_pos rfl, minor_succ, Mcol_expand H (m + 1) (fun i j hi hj => hH i j (by omega) hj),
          Finset.sum_range_succ _ (m + 1), h1 (m + 1) le_rfl]
        have hterm : ∀ j ∈ Finset.range (m + 1),
            (-1) ^ (m + 1 - j) * H j (m + 1) * (if j < m + 1 then s.1 j * (s.2 j * H (m + 1) m) else s.1 j)
            = (-1) ^ (m + 1 - j) * H j (m + 1) * (minor H j * ∏ i ∈ Finset.Ico j (m + 1), H (i + 1) i) := by
          intro j hj
          have hj' : j < m + 1 := by simpa using hj
          rw [if_pos hj', h1 j (by omega)]
          rcases Nat.eq_zero_or_pos j with rfl | hpos
          · rw [h3, Finset.prod_Ico_succ_top (Nat.zero_le m)]; ring
          · rcases Nat.lt_or_ge j m with hjm | hjm
            · rw [hS j (m + 1) hpos (by omega) (by omega)]; ring
            · have : j = m := by omega
              subst this
              rw [h2 j le_rfl, Finset.prod_Ico_succ_top (le_refl j)]
              simp
        rw [Finset.sum_congr rfl hterm]
        simp
        ring
    · intro j hj
      simp only [detHStep]
      rw [if_neg (by omega)]
      exact h2 j (by omega)
    · simp only [detHStep, Nat.add_sub_cancel]
      rw [if_pos (by omega), h3, h1 0 (by omega), minor_zero, Finset.prod_Ico_succ_top (Nat.zero_le m)]
      ring

/-! ## givens -/

theorem givensCore_spec (f g q : ℝ) (hq : q ≠ 0) (hf : f ≠ 0) (back : ℝ) (hb : q * back = 1) (c : ℕ) :
    let z := givensCore f g q back c
    z.2.2 * z.1 = f ∧ z.2.2 * z.2.1 = g ∧ z.1 ^ 2 + z.2.1 ^ 2 = 1 := by
  have hqc : q ^ c ≠ 0 := pow_ne_zero _ hq
  have hpos : 0 < f * q ^ c * (f * q ^ c) + g * q ^ c * (g * q ^ c) := by
    have : 0 < (f * q ^ c) ^ 2 := by positivity
    nlinarith [sq_nonneg (g * q ^ c)]
  have hr := Real.sqrt_pos.mpr hpos
  have hr2 := Real.mul_self_sqrt hpos.le
  have hbc : q ^ c * back ^ c = 1 := by rw [← mul_pow, hb, one_pow]
  simp only [givensCore]
  set r := Real.sqrt (f * q ^ c * (f * q ^ c) + g * q ^ c * (g * q ^ c)) with hrd
  refine ⟨?_, ?_, ?_⟩
  · field_simp
    linear_combination hbc
  · field_simp
    linear_combination g * hbc
  · field_simp
    nlinarith [hr2]

theorem givens_spec (eps f g : ℝ) (he : 0 < eps) :
    let z := givens eps f g
    z.2.2 * z.1 = f ∧ z.2.2 * z.2.1 = g ∧ z.1 ^ 2 + z.2.1 ^ 2 = 1 := by
  simp only [givens]
  split_ifs with h1 h2 h3 h4 h5 h6 h7
  · simp [h1]
  · simp [h2]
  all_goals
    first
    | exact givensCore_spec f g _ he.ne' h2 _ (by field_simp) _
    | exact givensCore_spec f g _ (by positivity) h2 _ (by field_simp) _
    | exact givensCore_spec f g _ one_ne_zero h2 _ (by norm_num) _
    | (obtain ⟨a, b, c⟩ := givensCore_spec f g _ he.ne' h2 (1 / eps) (by field_simp)
          (scaleCount (max |f| |g|) eps fun z => z < 1 / eps)
       exact ⟨by linarith [a], by linarith [b], by linarith [c]⟩)
    | (obtain ⟨a, b, c⟩ := givensCore_spec f g (1 / eps) (by positivity) h2 eps (by field_simp)
          (scaleCount (max |f| |g|) (1 / eps) fun z => eps < z)
       exact ⟨by linarith [a], by linarith [b], by linarith [c]⟩)
    | (obtain ⟨a, b, c⟩ := givensCore_spec f g 1 one_ne_zero h2 1 (by norm_num) 0
       exact ⟨by linarith [a], by linarith [b], by linarith [c]⟩)

/-! ## slogdet_hessenberg -/

theorem slog_inv (eps : ℝ) (he : 0 < eps) (H : ℕ → ℕ → ℝ) (k : ℕ) (hH : ∀ i j, i ≤ k → j + 1 < i → H i j = 0)
    (g : ℕ → ℝ) (sl : SL) :
    (((List.range k).reverse.map (· + 1)).foldlM (slogStep eps H) (g, sl) >>= fun st => st.2.mul (st.1 0))
      = sl.mul (Mcol H k g).det := by
  induction k generalizing g sl with
  | zero => rw [Mcol_zero]; simp
  | succ k ih =>
    rw [List.range_succ, List.reverse_append]
    simp only [List.reverse_cons, List.reverse_nil, List.nil_append, List.cons_append, List.map_cons,
      List.foldlM_cons, bind_assoc]
    obtain ⟨h1, h2, h3⟩ := givens_spec eps (g (k + 1)) (H (k + 1) k) he
    set z := givens eps (g (k + 1)) (H (k + 1) k) with hz
    have hdet : (Mcol H (k + 1) g).det = z.2.2 *
        (Mcol H k (fun j => if j < k + 1 then z.1 * H j k - z.2.1 * g j else g j)).det := by
      rw [Mcol_succ _ _ _ (fun j hj => hH _ _ le_rfl (by omega))]
      rw [Mcol_congr H k (fun j => if j < k + 1 then z.1 * H j k - z.2.1 * g j else g j)
        (fun j => z.1 * H j k - z.2.1 * g j) (fun i hi => by rw [if_pos (by omega)]),
        Mcol_linear H k (fun i j hi hj => hH i j (by omega) hj)]
      rw [← h1, ← h2]; ring
    have hstep : slogStep eps H (g, sl) (k + 1) = (sl.mul z.2.2).map fun sl' =>
        (fun j => if j < k + 1 then z.1 * H j k - z.2.1 * g j else g j, sl') := by
      simp only [slogStep, Nat.add_sub_cancel]; rfl
    rw [hstep, hdet]
    by_cases hr : z.2.2 = 0
    · simp [SL.mul, hr]
    · have hs : sl.mul z.2.2 = some ⟨sl.P * (SignType.sign z.2.2 : ℝ), sl.logdet + Real.log |z.2.2|⟩ := by
        rw [SL.mul, if_neg hr]
      rw [hs]
      simp only [Option.map_some, Option.bind_eq_bind, Option.bind_some]
      have := ih (fun i j hi hj => hH i j (by omega) hj)
        (fun j => if j < k + 1 then z.1 * H j k - z.2.1 * g j else g j)
        ⟨sl.P * (SignType.sign z.2.2 : ℝ), sl.logdet + Real.log |z.2.2|⟩
      simp only [Option.bind_eq_bind] at this
      rw [this]
      set D := (Mcol H k (fun j => if j < k + 1 then z.1 * H j k - z.2.1 * g j else g j)).det
      by_cases hD : D = 0
      · simp [SL.mul, hD]
      · have : z.2.2 * D ≠ 0 := mul_ne_zero hr hD
        rw [SL.mul, SL.mul, if_neg hD, if_neg this]
        simp only [sign_mul, SignType.coe_mul, abs_mul,
          Real.log_mul (abs_ne_zero.mpr hr) (abs_ne_zero.mpr hD)]
        congr 2 <;> ring

end Funpy.LinHelpers
