import Verif.Props.OdeProblem
import Mathlib.Analysis.SpecialFunctions.Trigonometric.Chebyshev.Orthogonality

/-!
# C65, C98: discretisations with at least 100 coefficients of operators one of whose coefficient functions has no constant term
-/

namespace Funpy.Props
open Spec Cheb UltraS OpDisc Matrix Finset OdeP Cvg

/-- The coefficients of `T_1`. -/
def coefT1 (n : ℕ) : Fin n → ℝ := fun i => if (i : ℕ) = 1 then 1 else 0

/-- The coefficients of `(T_0 + T_2) / 2`. -/
noncomputable def coefSq (n : ℕ) : Fin n → ℝ := fun i => if (i : ℕ) = 0 ∨ (i : ℕ) = 2 then 1 / 2 else 0

/-- `u'' + x u`, where `x` is the variable on `[-1, 1]`. -/
def airy : Source := ⟨[(true, [0, 1]), (false, [0]), (true, [1])], []⟩

private lemma mult_T1 (k : ℕ) (hk : 100 ≤ k) : multmat k [0, 1] 0 *ᵥ coefT1 k = fun i : Fin k => if (i : ℕ) = 2 then 1 / 2 else 0 := by
  set d := (multCoeffs k [0, 1] machEps).map (· / 2) with hd
  have hdl : d.length = k := by rw [hd, List.length_map, multCoeffs_length]
  have hdg : ∀ j, d.getD j 0 = if j = 1 then 1 / 2 else 0 := by
    intro j
    by_cases h : j < k
    · rw [hd, getD_map_lt _ 0 _ _ _ (by rw [multCoeffs_length]; exact h), multCoeffs_getD k _ (by simp; omega)]
      rcases j with _ | _ | j <;> simp
    · rw [getD_ge' _ _ _ (by omega), if_neg (by omega)]
  have hcol : ∀ p : Fin k, (multmat k [0, 1] 0) p ⟨1, by omega⟩ = if (p : ℕ) = 2 then 1 / 2 else 0 := by
    intro p
    have hp := p.2
    unfold multmat
    rw [if_neg (by simp)]
    simp only [if_pos trivial]
    rw [← hd]
    show sptoeplitzFast k ((2 * d.getD 0 0) :: d.drop 1) p ⟨1, by omega⟩ +
      (if 1 ≤ (p : ℕ) ∧ 1 < k - 1 then sphankel (d.drop 1) (p - 1) 1 else 0) = _
    have hnz : nonzeros ((2 * d.getD 0 0) :: d.drop 1) = [1] := by
      apply nonzeros_single k (by omega)
      · simp; omega
      · rw [getD_cons_drop _ _ _ (by omega), hdg]; norm_num
      · intro j hj
        rcases Nat.eq_zero_or_pos j with h | h
        · rw [h, List.getD_cons_zero, hdg]; norm_num
        · rw [getD_cons_drop _ _ _ (by omega), hdg, if_neg hj]
    have h1 : (if 1 ≤ (p : ℕ) ∧ 1 < k - 1 then sphankel (d.drop 1) (p - 1) 1 else 0) = 0 := by
      split_ifs with h
      · rw [sphankel_eq _ _ _ (by simp; omega), getD_drop', hdg, if_neg (by omega)]
      · rfl
    rw [h1, add_zero]
    unfold sptoeplitzFast
    have hlen : ((2 * d.getD 0 0) :: d.drop 1).length = k := by simp; omega
    rw [if_neg (by omega)]
    simp only [hnz, hlen]
    rw [show List.drop 1 [1] = ([] : List ℕ) from rfl]
    simp only [List.map_nil, List.nil_append, List.map_cons, List.sum_cons, List.sum_nil, add_zero]
    rw [spdiag_const, getD_cons_drop _ _ _ (by omega), hdg, if_pos rfl]
    by_cases h : (p : ℕ) = 2
    · rw [if_pos (by simp [h]), if_pos h]
    · rw [if_neg (by push_cast; omega), if_neg h]
  funext p
  rw [← hcol p]
  rw [mulVec, dotProduct]
  rw [Finset.sum_eq_single (⟨1, by omega⟩ : Fin k)]
  · simp [coefT1]
  · intro b _ hb
    have : (b : ℕ) ≠ 1 := fun h => hb (Fin.ext h)
    simp [coefT1, this]
  · simp

private lemma T1_series (n : ℕ) (hn : 3 ≤ n) (x : ℝ) : ultraSeries 0 (coefT1 n) x = x := by
  unfold ultraSeries coefT1
  rw [Finset.sum_eq_single (⟨1, by omega⟩ : Fin n)]
  · simp [ultraBasis]
  · intro b _ hb
    beta_reduce
    rw [if_neg (fun h => hb (Fin.ext h)), zero_mul]
  · simp

private lemma half_T2_series (n : ℕ) (hn : 3 ≤ n) (x : ℝ) : ultraSeries 0 (fun i : Fin n => if (i : ℕ) = 2 then (1 : ℝ) / 2 else 0) x = x ^ 2 - 1 / 2 := by
  unfold ultraSeries
  rw [Finset.sum_eq_single (⟨2, by omega⟩ : Fin n)]
  · have h2 : Polynomial.eval x (Polynomial.Chebyshev.T ℝ 2) = 2 * x ^ 2 - 1 := by
      rw [Polynomial.Chebyshev.T_two]
      simp
    simp [ultraBasis, h2]
    ring
  · intro b _ hb
    beta_reduce
    rw [if_neg (fun h => hb (Fin.ext h)), zero_mul]
  · simp

private lemma sq_series (n : ℕ) (hn : 3 ≤ n) (x : ℝ) : ultraSeries 0 (coefSq n) x = x ^ 2 := by
  have h : coefSq n = (fun i : Fin n => if (i : ℕ) = 2 then (1 : ℝ) / 2 else 0) + fun i : Fin n => if (i : ℕ) = 0 then (1 : ℝ) / 2 else 0 := by
    funext i
    unfold coefSq
    rw [Pi.add_apply]
    by_cases h0 : (i : ℕ) = 0
    · rw [if_pos (Or.inl h0), if_neg (by omega), if_pos h0]; ring
    · by_cases h2 : (i : ℕ) = 2
      · rw [if_pos (Or.inr h2), if_pos h2, if_neg h0]; ring
      · rw [if_neg (by omega), if_neg h2, if_neg h0]; ring
  rw [h, ultraSeries_add, half_T2_series n hn]
  have : ultraSeries 0 (fun i : Fin n => if (i : ℕ) = 0 then (1 : ℝ) / 2 else 0) x = 1 / 2 := by
    unfold ultraSeries
    rw [Finset.sum_eq_single (⟨0, by omega⟩ : Fin n)]
    · simp [ultraBasis]
    · intro b _ hb
      beta_reduce
      rw [if_neg (fun h => hb (Fin.ext h)), zero_mul]
    · simp
  rw [this]
  ring

/-- what the matrix of `u'' + x u` makes of `u = x` -/
private lemma airy_T1 (n : ℕ) (hn : 100 ≤ n) (e : Ends) (y : ℝ) : ultraSeries 2 (quasi2diffmat n (Mapping.diff e) 2 airy *ᵥ coefT1 n) y = y ^ 2 - 1 / 2 := by
  have h0 : quasi2diffmat n (Mapping.diff e) 2 airy = discConvert n 0 2 * multmat n [0, 1] 0 * discDiff n 0 (Mapping.diff e)
      + discConvert n 2 2 * multmat n [1] 2 * discDiff n 2 (Mapping.diff e) := by
    simp [quasi2diffmat, airy]
  rw [h0, add_mulVec, ultraSeries_add, Matrix.mul_assoc, Matrix.mul_assoc, ← mulVec_mulVec, ← mulVec_mulVec, ← mulVec_mulVec, ← mulVec_mulVec, discConvert, discConvert,
    convertmat_series n 0 2 (by omega) (Or.inl (by omega)), convertmat_series n 2 2 (by omega) (Or.inl (by omega))]
  have h2 : discDiff n 2 (Mapping.diff e) *ᵥ coefT1 n = 0 := by
    funext i
    exact discDiff_supp n 2 _ (coefT1 n) 2 (fun j hj => by unfold coefT1; rw [if_neg (by omega)]) i (by omega)
  have h1 : discDiff n 0 (Mapping.diff e) *ᵥ coefT1 n = coefT1 n := by
    refine ultraSeries_inj 0 (by omega) _ _ fun x => ?_
    rw [discDiff_series]
    simp
  rw [h2, h1, mult_T1 n hn, half_T2_series n (by omega), mulVec_zero]
  simp [ultraSeries]

/-- **C65 is false for at least 100 coefficients.**  The operator `u'' + x u` maps `u = x` to `x²` and all products fit, but the matrix gives the coefficients
of `x² - 1/2`. -/
theorem C65_large_fails (n : ℕ) (hn : 100 ≤ n) (e : Ends) (he : e.e0 < e.e1) :
    (∀ y, funOf e (coefT1 n) y = Mapping.bwd e y) ∧ (∀ y, applyLin e airy (funOf e (coefT1 n)) y = Mapping.bwd e y ^ 2) ∧
    ∀ y, ultraSeries 2 (quasi2diffmat n (Mapping.diff e) 2 airy *ᵥ coefT1 n) (Mapping.bwd e y) = Mapping.bwd e y ^ 2 - 1 / 2 := by
  have hu : funOf e (coefT1 n) = fun y => Mapping.bwd e y := by
    funext y
    rw [← T1_series n (by omega) (Mapping.bwd e y)]
    exact (ultraSeries_zero_eq _ _).symm
  refine ⟨fun y => congrFun hu y, fun y => ?_, fun y => airy_T1 n hn e _⟩
  have h2 : iteratedDeriv 2 (fun y => Mapping.bwd e y) y = 0 := by
    have : (fun y => Mapping.bwd e y) = fun y => (fun x : ℝ => x) (Mapping.bwd e y) := rfl
    rw [this]
    simp only [Cheb.bwd_eq]
    rw [iteratedDeriv_affine (fun x => x) 2 contDiff_id]
    simp [iteratedDeriv_succ]
  rw [hu, applyLin]
  simp [airy, h2, chebEval, sum_range_succ]
  ring

/-- **C98 is false for at least 100 coefficients.**  For the equation `u'' + x u = x²`, which `u = x` solves, whatever the boundary conditions and their values
are: the coefficients of `u` do not solve the discretised system, so that no regular system of this kind with at least 100 coefficients is solved by the solution of the boundary
value problem. -/
theorem C98_large_fails (n : ℕ) (hn : 100 ≤ n) (e : Ends) (he : e.e0 < e.e1) (eps : ℝ) (bcs : List BC) (hb : ∀ b ∈ bcs, BC.PointsIn e b ∧ BC.Mentions b)
    (g : List ℝ) (hg : g.length = bcs.length) :
    (∀ y, applyLin e airy (funOf e (coefT1 n)) y = funOf e (coefSq n) y) ∧
    ∀ M, OpDisc.matrix (⟨e, 2, eps, airy, bcs⟩ : Disc n) = some M → M.map (· ⬝ᵥ coefT1 n) ≠ projectVector (⟨e, 2, eps, airy, bcs⟩ : Disc n) g (coefSq n) := by
  have hf : ∀ y, funOf e (coefSq n) y = Mapping.bwd e y ^ 2 := by
    intro y
    rw [← sq_series n (by omega) (Mapping.bwd e y)]
    exact (ultraSeries_zero_eq _ _).symm
  refine ⟨fun y => by rw [hf, (C65_large_fails n hn e he).2.1], fun M hM hsol => ?_⟩
  obtain ⟨-, ρ, hρ, h⟩ := C98_rows (⟨e, 2, eps, airy, bcs⟩ : Disc n) (by omega) he hb M hM g hg (coefSq n) (coefT1 n) hsol
  have h1 : ∀ x, ultraSeries 2 ρ x = ultraSeries 2 (fun i : Fin n => if (i : ℕ) = 0 then (-1 : ℝ) / 2 else 0) x := by
    intro x
    have h2 := h (Mapping.fwd e x)
    have h3 := (C65_large_fails n hn e he).2.2 (Mapping.fwd e x)
    change ultraSeries 2 (quasi2diffmat n (Mapping.diff e) 2 airy *ᵥ coefT1 n) (Mapping.bwd e (Mapping.fwd e x)) - funOf e (coefSq n) (Mapping.fwd e x) = ultraSeries 2 ρ (Mapping.bwd e (Mapping.fwd e x)) at h2
    rw [h3, hf, (C01_inverse e he).1] at h2
    rw [← h2]
    unfold ultraSeries
    rw [Finset.sum_eq_single (⟨0, by omega⟩ : Fin n)]
    · simp [ultraBasis, gegenbauer]
      norm_num
    · intro b _ hb
      beta_reduce
      rw [if_neg (fun h => hb (Fin.ext h)), zero_mul]
    · simp
  have h4 := congrFun (ultraSeries_inj 2 (by omega) _ _ h1) ⟨0, by omega⟩
  rw [hρ _ (by show 0 < n - 2; omega)] at h4
  norm_num at h4

/-! ### The solutions do not converge -/

private lemma diag_row (n : ℕ) (data : List ℝ) (o : ℕ) (v : Fin n → ℝ) (i : Fin n) (h : (i : ℕ) + o < n) (hl : (i : ℕ) + o < data.length) :
    (spdiag n data (o : ℤ) *ᵥ v) i = data.getD (i + o) 0 * v ⟨i + o, h⟩ := by
  rw [mulVec, dotProduct, Finset.sum_eq_single (⟨i + o, h⟩ : Fin n)]
  · unfold spdiag
    rw [if_pos ⟨by push_cast; ring, hl⟩]
  · intro b _ hb
    unfold spdiag
    rw [if_neg, zero_mul]
    rintro ⟨h1, -⟩
    exact hb (Fin.ext (by show (b : ℕ) = i + o; omega))
  · simp

private lemma mult_rows (k : ℕ) (hk : 100 ≤ k) (p q : Fin k) :
    (multmat k [0, 1] 0) p q = if (p : ℕ) = q + 1 then (if (q : ℕ) = 0 then 1 else 1 / 2) else 0 := by
  set d := (multCoeffs k [0, 1] machEps).map (· / 2) with hd
  have hdl : d.length = k := by rw [hd, List.length_map, multCoeffs_length]
  have hdg : ∀ j, d.getD j 0 = if j = 1 then 1 / 2 else 0 := by
    intro j
    by_cases h : j < k
    · rw [hd, getD_map_lt _ 0 _ _ _ (by rw [multCoeffs_length]; exact h), multCoeffs_getD k _ (by simp; omega)]
      rcases j with _ | _ | j <;> simp
    · rw [getD_ge' _ _ _ (by omega), if_neg (by omega)]
  have hp := p.2
  have hq := q.2
  unfold multmat
  rw [if_neg (by simp)]
  simp only [if_pos trivial]
  rw [← hd]
  show sptoeplitzFast k ((2 * d.getD 0 0) :: d.drop 1) p q +
    (if 1 ≤ (p : ℕ) ∧ (q : ℕ) < k - 1 then sphankel (d.drop 1) (p - 1) q else 0) = _
  have hnz : nonzeros ((2 * d.getD 0 0) :: d.drop 1) = [1] := by
    apply nonzeros_single k (by omega)
    · simp; omega
    · rw [getD_cons_drop _ _ _ (by omega), hdg]; norm_num
    · intro j hj
      rcases Nat.eq_zero_or_pos j with h | h
      · rw [h, List.getD_cons_zero, hdg]; norm_num
      · rw [getD_cons_drop _ _ _ (by omega), hdg, if_neg hj]
  have h1 : (if 1 ≤ (p : ℕ) ∧ (q : ℕ) < k - 1 then sphankel (d.drop 1) (p - 1) q else 0) = if (p : ℕ) = 1 ∧ (q : ℕ) = 0 then 1 / 2 else 0 := by
    by_cases h : 1 ≤ (p : ℕ) ∧ (q : ℕ) < k - 1
    · rw [if_pos h, sphankel_eq _ _ _ (by simp; omega), getD_drop', hdg]
      by_cases h' : (p : ℕ) = 1 ∧ (q : ℕ) = 0
      · rw [if_pos (by omega), if_pos h']
      · rw [if_neg (by omega), if_neg h']
    · rw [if_neg h, if_neg (by omega)]
  rw [h1]
  unfold sptoeplitzFast
  have hlen : ((2 * d.getD 0 0) :: d.drop 1).length = k := by simp; omega
  rw [if_neg (by omega)]
  simp only [hnz, hlen]
  rw [show List.drop 1 [1] = ([] : List ℕ) from rfl]
  simp only [List.map_nil, List.nil_append, List.map_cons, List.sum_cons, List.sum_nil, add_zero]
  rw [spdiag_const, getD_cons_drop _ _ _ (by omega), hdg, if_pos rfl]
  by_cases h : (p : ℕ) = q + 1
  · rw [if_pos (by push_cast; omega), if_pos h]
    by_cases h0 : (q : ℕ) = 0
    · rw [if_pos ⟨by omega, h0⟩, if_pos h0]; norm_num
    · rw [if_neg (by omega), if_neg h0, add_zero]
  · rw [if_neg (by push_cast; omega), if_neg h, if_neg (by omega), add_zero]

private lemma mult_vec (k : ℕ) (hk : 100 ≤ k) (w : Fin k → ℝ) (p : ℕ) (hp : p + 1 < k) :
    (multmat k [0, 1] 0 *ᵥ w) ⟨p + 1, hp⟩ = (if p = 0 then 1 else 1 / 2) * w ⟨p, by omega⟩ := by
  rw [mulVec, dotProduct, Finset.sum_eq_single (⟨p, by omega⟩ : Fin k)]
  · rw [mult_rows k hk, if_pos rfl]
  · intro b _ hb
    rw [mult_rows k hk, if_neg, zero_mul]
    intro h
    exact hb (Fin.ext (by simp at h; exact h.symm))
  · simp

private lemma mult_zero (k : ℕ) (hk : 100 ≤ k) (w : Fin k → ℝ) : (multmat k [0, 1] 0 *ᵥ w) ⟨0, by omega⟩ = 0 := by
  rw [mulVec, dotProduct]
  refine Finset.sum_eq_zero fun b _ => ?_
  rw [mult_rows k hk, if_neg (by simp), zero_mul]

private lemma conv0_row (n i : ℕ) (h : i + 2 < n) (v : Fin n → ℝ) :
    (spconvert n 0 *ᵥ v) ⟨i, by omega⟩ = (if i = 0 then 1 else 1 / 2) * v ⟨i, by omega⟩ - 1 / 2 * v ⟨i + 2, h⟩ := by
  unfold spconvert
  rw [if_pos rfl, add_mulVec, Pi.add_apply]
  have h1 := diag_row n ([1, 0.5] ++ List.replicate (n - 2) (0.5 * 1)) 0 v ⟨i, by omega⟩ (by simp; omega) (by simp; omega)
  have h2 := diag_row n ([0, 0] ++ (List.replicate (n - 2) (0.5 * 1)).map (- ·)) 2 v ⟨i, by omega⟩ h (by simp; omega)
  rw [Nat.cast_zero] at h1
  rw [show ((2 : ℕ) : ℤ) = 2 from rfl] at h2
  rw [h1, h2]
  have e1 : ([1, 0.5] ++ List.replicate (n - 2) (0.5 * 1) : List ℝ).getD (i + 0) 0 = if i = 0 then 1 else 1 / 2 := by
    rcases i with _ | _ | i
    · simp
    · simp; norm_num
    · rw [if_neg (by omega), getD_lt' _ _ _ (by simp; omega)]
      simp [List.getElem_append]
      norm_num
  have e2 : ([0, 0] ++ (List.replicate (n - 2) (0.5 * 1)).map (- ·) : List ℝ).getD (i + 2) 0 = -(1 / 2) := by
    rw [getD_lt' _ _ _ (by simp; omega)]
    simp [List.getElem_append]
    norm_num
  rw [e1, e2]
  simp only [add_zero]
  ring

private lemma conv1_row (n : ℕ) (h : 2 < n) (v : Fin n → ℝ) :
    (spconvert n 1 *ᵥ v) ⟨0, by omega⟩ = v ⟨0, by omega⟩ - 1 / 3 * v ⟨2, h⟩ := by
  unfold spconvert
  rw [if_neg one_ne_zero, add_mulVec, Pi.add_apply]
  have h1 := diag_row n ([1, ((1 : ℕ) : ℝ) / ((1 : ℕ) + 1)] ++ (List.range (n - 2)).map fun i : ℕ => ((1 : ℕ) : ℝ) / ((1 : ℕ) + ((i : ℝ) + 2))) 0 v ⟨0, by omega⟩ (by simp; omega) (by simp)
  have h2 := diag_row n ([0, 0] ++ ((List.range (n - 2)).map fun i : ℕ => ((1 : ℕ) : ℝ) / ((1 : ℕ) + ((i : ℝ) + 2))).map (- ·)) 2 v ⟨0, by omega⟩ h (by simp; omega)
  rw [Nat.cast_zero] at h1
  rw [show ((2 : ℕ) : ℤ) = 2 from rfl] at h2
  rw [h1, h2]
  have e2 : ([0, 0] ++ ((List.range (n - 2)).map fun i : ℕ => ((1 : ℕ) : ℝ) / ((1 : ℕ) + ((i : ℝ) + 2))).map (- ·) : List ℝ).getD (0 + 2) 0 = -(1 / 3) := by
    rw [getD_lt' _ _ _ (by simp; omega)]
    simp [List.getElem_append]
    norm_num
  rw [e2]
  simp
  ring

private lemma diff_row (n : ℕ) (h : 2 < n) (v : Fin n → ℝ) : (UltraS.diffmat n 2 *ᵥ v) ⟨0, by omega⟩ = 4 * v ⟨2, h⟩ := by
  unfold UltraS.diffmat
  rw [if_pos (by norm_num)]
  show ((spdiag n (List.replicate n (2 * ((1 : ℕ) : ℝ) * 1)) 1 * spdiag n ((List.range n).map fun k : ℕ => (k : ℝ)) 1) *ᵥ v) _ = _
  rw [← mulVec_mulVec]
  have h1 := diag_row n (List.replicate n (2 * ((1 : ℕ) : ℝ) * 1)) 1 (spdiag n ((List.range n).map fun k : ℕ => (k : ℝ)) 1 *ᵥ v) ⟨0, by omega⟩ (by simp; omega) (by simp; omega)
  have h2 := diag_row n ((List.range n).map fun k : ℕ => (k : ℝ)) 1 v ⟨1, by omega⟩ (by simp; omega) (by simp; omega)
  rw [show ((1 : ℕ) : ℤ) = 1 from rfl] at h1 h2
  rw [h1]
  have e1 : (List.replicate n (2 * ((1 : ℕ) : ℝ) * 1)).getD (0 + 1) 0 = 2 := by
    rw [getD_lt' _ _ _ (by simp; omega)]
    simp
  have e2 : ((List.range n).map fun k : ℕ => (k : ℝ)).getD (1 + 1) 0 = 2 := by
    rw [getD_lt' _ _ _ (by simp; omega)]
    simp
  change _ * (spdiag n ((List.range n).map fun k : ℕ => (k : ℝ)) 1 *ᵥ v) ⟨1, by omega⟩ = _
  rw [h2, e1]
  change 2 * (((List.range n).map fun k : ℕ => (k : ℝ)).getD (1 + 1) 0 * v ⟨2, h⟩) = _
  rw [e2]
  ring

/-- the first row of the matrix of `u'' + x u` on `[-1, 1]` -/
private lemma airy_row (n : ℕ) (hn : 100 ≤ n) (w : Fin n → ℝ) :
    (quasi2diffmat n 2 2 airy *ᵥ w) ⟨0, by omega⟩ = -(1 / 3) * w ⟨1, by omega⟩ + 1 / 12 * w ⟨3, by omega⟩ + 4 * w ⟨2, by omega⟩ := by
  have h0 : quasi2diffmat n 2 2 airy = discConvert n 0 2 * multmat n [0, 1] 0 * discDiff n 0 2 + discConvert n 2 2 * multmat n [1] 2 * discDiff n 2 2 := by
    simp [quasi2diffmat, airy]
  have h1 : discConvert n 0 2 = spconvert n 1 * spconvert n 0 := by
    show spconvert n 1 * (spconvert n 0 * 1) = _
    rw [Matrix.mul_one]
  have h2 : discConvert n 2 2 = 1 := rfl
  have h3 : multmat n [1] 2 = 1 := by simp [multmat]
  have h4 : discDiff n 0 2 = 1 := by simp [discDiff]
  have h5 : discDiff n 2 2 = UltraS.diffmat n 2 := by simp [discDiff]
  rw [h0, h1, h2, h3, h4, h5, Matrix.mul_one, Matrix.one_mul, Matrix.one_mul, add_mulVec, Pi.add_apply, diff_row n (by omega), ← mulVec_mulVec, ← mulVec_mulVec,
    conv1_row n (by omega), conv0_row n 0 (by omega), conv0_row n 2 (by omega), mult_zero n hn]
  have e2 := mult_vec n hn w 1 (by omega)
  have e4 := mult_vec n hn w 3 (by omega)
  simp only [if_neg one_ne_zero, if_neg (show (3 : ℕ) ≠ 0 by norm_num)] at e2 e4
  rw [e2, e4]
  norm_num
  ring

/-- Chebyshev coefficients are bounded by the values -/
private lemma coef_bound {n : ℕ} (w : Fin n → ℝ) (B : ℝ) (h : ∀ y ∈ Set.Icc (-1 : ℝ) 1, |ultraSeries 0 w y| ≤ B) (k : Fin n) (hk : (k : ℕ) ≠ 0) : |w k| ≤ 2 * B := by
  have hpi := Real.pi_pos
  have h1 : ∫ x, ultraSeries 0 w x * (Polynomial.Chebyshev.T ℝ (k : ℕ)).eval x ∂Polynomial.Chebyshev.measureT = w k * (Real.pi / 2) := by
    unfold ultraSeries
    simp only [sum_mul, ultraBasis]
    rw [MeasureTheory.integral_finsetSum]
    · rw [Finset.sum_eq_single k]
      · simp only [mul_assoc]
        rw [MeasureTheory.integral_const_mul, Polynomial.Chebyshev.integral_T_real_mul_self_measureT_of_ne_zero hk]
      · intro b _ hb
        simp only [mul_assoc]
        rw [MeasureTheory.integral_const_mul, Polynomial.Chebyshev.integral_eval_T_real_mul_eval_T_real_measureT_of_ne (fun h => hb (Fin.ext h)), mul_zero]
      · simp
    · intro j _
      exact Polynomial.Chebyshev.integrable_measureT (Continuous.continuousOn (by fun_prop))
  rw [Polynomial.Chebyshev.integral_measureT_eq_integral_cos] at h1
  have h2 := intervalIntegral.norm_integral_le_of_norm_le_const (a := 0) (b := Real.pi) (C := B)
    (f := fun θ => ultraSeries 0 w (Real.cos θ) * (Polynomial.Chebyshev.T ℝ (k : ℕ)).eval (Real.cos θ)) (fun θ _ => by
      rw [norm_mul, Polynomial.Chebyshev.T_real_cos]
      have a1 := h (Real.cos θ) ⟨Real.neg_one_le_cos θ, Real.cos_le_one θ⟩
      have a2 : ‖Real.cos (((k : ℕ) : ℤ) * θ)‖ ≤ 1 := Real.abs_cos_le_one _
      calc _ ≤ B * 1 := mul_le_mul a1 a2 (norm_nonneg _) ((abs_nonneg _).trans a1)
        _ = B := mul_one B)
  rw [h1, sub_zero, abs_of_pos hpi, norm_mul, Real.norm_eq_abs, Real.norm_eq_abs, abs_of_pos (by positivity : 0 < Real.pi / 2)] at h2
  nlinarith

/-- **C127 is false for coefficient functions without a constant term.**  The initial value problem `u'' + x u = x²`, `u(-1) = -1`, `u'(-1) = 1` on `[-1, 1]` is uniquely
solvable and its solution is `u = x`, but for every number `n ≥ 100` of coefficients every solution of the discretised problem differs from it by at least `1/18` somewhere;
and this is so whatever the conditions and their values are. -/
theorem C127_large_fails :
    IsODE airy 2 1 ∧ UniqueSol ⟨-1, 1⟩ airy 2 (initial ⟨-1, 1⟩ 2 fun j => if j = 0 then -1 else 1) ∧
    (∀ y, applyLin ⟨-1, 1⟩ airy (fun x => x) y = y ^ 2) ∧
    (∀ b ∈ initial ⟨-1, 1⟩ 2 (fun j => if j = 0 then -1 else 1), BC.sem (fun x => x) b = 0) ∧
    ∀ (eps : ℝ) (bcs : List BC), (∀ b ∈ bcs, BC.PointsIn ⟨-1, 1⟩ b ∧ BC.Mentions b) → ∀ g : List ℝ, g.length = bcs.length → ∀ n, 100 ≤ n →
      ∀ M, OpDisc.matrix (⟨⟨-1, 1⟩, 2, eps, airy, bcs⟩ : Disc n) = some M →
        ∀ v, M.map (· ⬝ᵥ v) = projectVector (⟨⟨-1, 1⟩, 2, eps, airy, bcs⟩ : Disc n) g (coefSq n) → ∃ y ∈ Set.Icc (-1 : ℝ) 1, 1 / 18 ≤ |funOf ⟨-1, 1⟩ v y - y| := by
  have hode : IsODE airy 2 1 := by
    simp [IsODE, airy]
  have hid : ∀ y : ℝ, Mapping.bwd ⟨-1, 1⟩ y = y := by intro y; unfold Mapping.bwd Mapping.diff; norm_num
  have hT : funOf ⟨-1, 1⟩ (coefT1 100) = fun x => x := by
    funext y
    rw [(C65_large_fails 100 le_rfl ⟨-1, 1⟩ (by norm_num)).1, hid]
  refine ⟨hode, (C127_initial ⟨-1, 1⟩ (by norm_num) airy 2 1 hode _).1, fun y => ?_, ?_, ?_⟩
  · rw [← hT, (C65_large_fails 100 le_rfl ⟨-1, 1⟩ (by norm_num)).2.1, hid]
  · intro b hb
    simp only [initial, List.range, List.range.loop, List.map_cons, List.map_nil, List.mem_cons, List.not_mem_nil, or_false] at hb
    rcases hb with rfl | rfl <;> simp [BC.sem, FE.sem, dpow]
  · intro eps bcs hb g hg n hn M hM v hv
    by_contra hcon
    push Not at hcon
    obtain ⟨-, ρ, hρ, h⟩ := C98_rows (⟨⟨-1, 1⟩, 2, eps, airy, bcs⟩ : Disc n) (by omega) (by norm_num) hb M hM g hg (coefSq n) v hv
    have hdiff : Mapping.diff ⟨-1, 1⟩ = 2 := by unfold Mapping.diff; norm_num
    have h1 : ∀ x, ultraSeries 2 (quasi2diffmat n 2 2 airy *ᵥ (v - coefT1 n)) x = ultraSeries 2 (ρ + fun i : Fin n => if (i : ℕ) = 0 then (1 : ℝ) / 2 else 0) x := by
      intro x
      have h2 := h x
      have h3 := (C65_large_fails n hn ⟨-1, 1⟩ (by norm_num)).2.2 x
      change ultraSeries 2 (quasi2diffmat n (Mapping.diff ⟨-1, 1⟩) 2 airy *ᵥ v) (Mapping.bwd ⟨-1, 1⟩ x) - funOf ⟨-1, 1⟩ (coefSq n) x = ultraSeries 2 ρ (Mapping.bwd ⟨-1, 1⟩ x) at h2
      have hf : funOf ⟨-1, 1⟩ (coefSq n) x = x ^ 2 := by
        rw [← sq_series n (by omega) x, ultraSeries_zero_eq, funOf, hid]
      rw [hid, hdiff, hf] at h2
      rw [hid, hdiff] at h3
      have h4 : ultraSeries 2 (quasi2diffmat n 2 2 airy *ᵥ (v - coefT1 n)) x = ultraSeries 2 (quasi2diffmat n 2 2 airy *ᵥ v) x
          - ultraSeries 2 (quasi2diffmat n 2 2 airy *ᵥ coefT1 n) x := by
        rw [mulVec_sub, ultraSeries, ultraSeries, ultraSeries, ← sum_sub_distrib]
        exact sum_congr rfl fun i _ => by rw [Pi.sub_apply]; ring
      have h5 : ultraSeries 2 (fun i : Fin n => if (i : ℕ) = 0 then (1 : ℝ) / 2 else 0) x = 1 / 2 := by
        unfold ultraSeries
        rw [Finset.sum_eq_single (⟨0, by omega⟩ : Fin n)]
        · simp [ultraBasis, gegenbauer]
        · intro b _ hb
          beta_reduce
          rw [if_neg (fun h => hb (Fin.ext h)), zero_mul]
        · simp
      rw [h4, ultraSeries_add, h5, ← h2, h3]
      ring
    have h6 := congrFun (ultraSeries_inj 2 (by omega) _ _ h1) ⟨0, by omega⟩
    rw [airy_row n hn, Pi.add_apply, hρ _ (by show 0 < n - 2; omega), if_pos rfl] at h6
    have hbd := coef_bound (v - coefT1 n) (1 / 18) (fun y hy => by
      have h7 := hcon y hy
      have h8 : ultraSeries 0 (v - coefT1 n) y = funOf ⟨-1, 1⟩ v y - y := by
        have : funOf ⟨-1, 1⟩ v y = ultraSeries 0 v y := by rw [ultraSeries_zero_eq, funOf, hid]
        have h9 : ultraSeries 0 (v - coefT1 n) y = ultraSeries 0 v y - ultraSeries 0 (coefT1 n) y := by
          rw [ultraSeries, ultraSeries, ultraSeries, ← sum_sub_distrib]
          exact sum_congr rfl fun i _ => by rw [Pi.sub_apply]; ring
        rw [this, h9, T1_series n (by omega)]
      rw [h8]
      exact h7.le)
    have b1 := abs_le.1 (hbd ⟨1, by omega⟩ (by simp))
    have b2 := abs_le.1 (hbd ⟨2, by omega⟩ (by simp))
    have b3 := abs_le.1 (hbd ⟨3, by omega⟩ (by simp))
    linarith [b1.1, b1.2, b2.1, b2.2, b3.1, b3.2]

/-- the hypotheses hold for a Dirichlet problem -/
example : ∀ b ∈ dirichlet ⟨-1, 1⟩ (-1) 1, BC.PointsIn ⟨-1, 1⟩ b ∧ BC.Mentions b := by
  intro b hb
  simp only [dirichlet, List.mem_cons, List.not_mem_nil, or_false] at hb
  rcases hb with rfl | rfl <;> simp [BC.PointsIn, BC.Mentions]

end Funpy.Props
