import Verif.Lemmas.Bary
import Verif.Props.ChebInner
import Verif.Model.ChebDiffmat

/-!
# C55, C57, C58: points on an interval, barycentric interpolation, differentiation matrices
-/

namespace Funpy.Props
open Spec Cheb Real Finset Polynomial Mapping

/-! ## C57 -/

lemma zip_quad' (w x : List ℝ) (N : ℕ) (hw : w.length = N) (hx : x.length = N) (g : ℝ → ℝ) :
    (List.zipWith (· * ·) w (x.map g)).sum = ∑ j ∈ range N, w.getD j 0 * g (x.getD j 0) := by
  rw [list_sum_eq, List.length_zipWith, List.length_map, hw, hx, min_self]
  apply sum_congr rfl
  intro j hj
  have hj := mem_range.mp hj
  rw [getD_lt' _ _ _ (by simp; omega), List.getElem_zipWith, List.getElem_map, getD_lt' x _ _ (by omega),
    getD_lt' w _ _ (by omega)]

/-- The full statement of C57 for the points of a given kind: the weights integrate all polynomials of
degree `< N` over the interval. -/
def IntegratesExactly (P : Pts) (N : ℕ) (I : Ends) : Prop :=
  P.x.length = N ∧ P.w.length = N ∧ ∀ p : ℝ[X], p.degree < N →
    (List.zipWith (· * ·) P.w (P.x.map fun x => p.eval x)).sum = ∫ x in I.e0..I.e1, p.eval x

lemma scaleNodes_eq (x : List ℝ) (I : Ends) :
    scaleNodes x I = x.map fun t => 0.5 * I.e1 * (1 + t) + 0.5 * I.e0 * (1 - t) := by
  unfold scaleNodes
  split_ifs with h
  · conv_lhs => rw [← List.map_id x]
    apply List.map_congr_left
    intro t _
    rw [h.1, h.2]; norm_num; ring
  · rfl

private lemma scaleWeights_eq (x : List ℝ) (I : Ends) :
    scaleWeights x I = x.map fun t => 0.5 * Mapping.diff I * t := by
  unfold scaleWeights
  split_ifs with h
  · conv_lhs => rw [← List.map_id x]
    apply List.map_congr_left
    intro t _
    simp only [Mapping.diff]
    rw [h.1, h.2]; norm_num
  · rfl

/-- C57, proved for second-kind points with `N ≥ 2` (the code's answers for `N = 1` on an interval
other than `[-1,1]` and for first-kind points are wrong, see `C57_counterexample_*`). -/
theorem C57_type2_partial (N : ℕ) (hN : 2 ≤ N) (I : Ends) :
    IntegratesExactly (chebptsType2 N I) N I := by
  have hx : (chebptsType2 N I).x = (chebpts2 N).map fun t => 0.5 * I.e1 * (1 + t) + 0.5 * I.e0 * (1 - t) := by
    simp only [chebptsType2, if_neg (by omega : ¬ N = 0), if_neg (by omega : ¬ N = 1), scaleNodes_eq]
  have hw : (chebptsType2 N I).w = (quadwts N).map fun t => 0.5 * Mapping.diff I * t := by
    simp only [chebptsType2, if_neg (by omega : ¬ N = 0), if_neg (by omega : ¬ N = 1), scaleWeights_eq]
  refine ⟨by rw [hx]; simp [chebpts2_length], by rw [hw]; simp [quadwts_length], ?_⟩
  intro p hp
  rw [zip_quad' _ _ N (by rw [hw]; simp [quadwts_length]) (by rw [hx]; simp [chebpts2_length])]
  set q : ℝ[X] := p.comp (C (0.5 * (I.e1 - I.e0)) * X + C (0.5 * (I.e1 + I.e0))) with hq
  have hqd : q.degree < N := by
    by_cases hp0 : p = 0
    · rw [hq, hp0, zero_comp, degree_zero]; exact WithBot.bot_lt_coe N
    · have h1 : p.natDegree < N := (natDegree_lt_iff_degree_lt hp0).mpr hp
      have h2 : q.natDegree < N := by
        refine lt_of_le_of_lt natDegree_comp_le ?_
        have : (C (0.5 * (I.e1 - I.e0)) * X + C (0.5 * (I.e1 + I.e0))).natDegree ≤ 1 := natDegree_linear_le
        calc p.natDegree * _ ≤ p.natDegree * 1 := Nat.mul_le_mul_left _ this
          _ < N := by omega
      exact lt_of_le_of_lt degree_le_natDegree (by exact_mod_cast h2)
  have hC := (C16_exact N (by omega) q hqd).2.2
  rw [zip_quad' _ _ N (quadwts_length N) (chebpts2_length N)] at hC
  have hqe : ∀ t, q.eval t = p.eval (0.5 * (I.e1 - I.e0) * t + 0.5 * (I.e1 + I.e0)) := by
    intro t; simp [hq, eval_comp]
  have hL : ∀ j ∈ range N, (chebptsType2 N I).w.getD j 0 * p.eval ((chebptsType2 N I).x.getD j 0)
      = 0.5 * (I.e1 - I.e0) * ((quadwts N).getD j 0 * q.eval ((chebpts2 N).getD j 0)) := by
    intro j hj
    have hj := mem_range.mp hj
    rw [hw, hx, getD_lt' (List.map _ _) _ _ (by simp [quadwts_length]; omega), List.getElem_map,
      getD_lt' (List.map _ _) _ _ (by simp [chebpts2_length]; omega), List.getElem_map, hqe,
      getD_lt' _ _ _ (by simp [quadwts_length]; omega), getD_lt' _ _ _ (by simp [chebpts2_length]; omega)]
    simp only [Mapping.diff]
    have : ∀ t : ℝ, 0.5 * I.e1 * (1 + t) + 0.5 * I.e0 * (1 - t)
        = 0.5 * (I.e1 - I.e0) * t + 0.5 * (I.e1 + I.e0) := by intro t; ring
    rw [this]; ring
  rw [sum_congr rfl hL, ← mul_sum, hC]
  simp only [hqe]
  have hsub := intervalIntegral.smul_integral_comp_mul_add (a := -1) (b := 1) (fun x => p.eval x)
    (0.5 * (I.e1 - I.e0)) (0.5 * (I.e1 + I.e0))
  rw [smul_eq_mul] at hsub
  rw [hsub]
  congr 1 <;> norm_num <;> ring

/-- On `[-1,1]` a single point works as well. -/
theorem C57_type2_one : IntegratesExactly (chebptsType2 1 ⟨-1, 1⟩) 1 ⟨-1, 1⟩ := by
  refine ⟨by simp [chebptsType2], by simp [chebptsType2], ?_⟩
  intro p hp
  have h := (C16_exact 1 (by norm_num) p hp).2.2
  rw [← h]
  simp [chebptsType2, quadwts, chebpts2]

/-- C57 fails for `chebpts(1, interval=[0, 1])`: the weight is 2, not the length 1 of the interval. -/
theorem C57_counterexample_single : ¬ IntegratesExactly (chebptsType2 1 ⟨0, 1⟩) 1 ⟨0, 1⟩ := by
  intro h
  have := h.2.2 1 (by rw [degree_one]; norm_num)
  simp [chebptsType2] at this

/-- C57 fails for first-kind points: `chebpts(3, type=1)` pairs first-kind nodes with the
second-kind (Clenshaw–Curtis) weights. -/
theorem C57_counterexample_type1 : ¬ IntegratesExactly (chebptsType1 3 ⟨-1, 1⟩) 3 ⟨-1, 1⟩ := by
  intro h
  have h1 := h.2.2 (X ^ 2) (by rw [degree_X_pow]; norm_num)
  have h2 := (C16_exact 3 (by norm_num) (X ^ 2) (by rw [degree_X_pow]; norm_num)).2.2
  have hx : (chebptsType1 3 ⟨-1, 1⟩).x = chebpts1 3 := by simp [chebptsType1, scaleNodes]
  have hw : (chebptsType1 3 ⟨-1, 1⟩).w = quadwts 3 := by simp [chebptsType1, scaleWeights]
  rw [hx, hw, ← h2, zip_quad' _ _ 3 (quadwts_length 3) (by simp [chebpts1]),
    zip_quad' _ _ 3 (quadwts_length 3) (chebpts2_length 3)] at h1
  rw [zip_quad' _ _ 3 (quadwts_length 3) (chebpts2_length 3)] at h2
  have a0 : (chebpts2 3).getD 0 0 = -1 := by
    have := chebpts2_getD 2 (by norm_num) 0 (by norm_num); simpa using this
  have a1 : (chebpts2 3).getD 1 0 = 0 := by
    have := chebpts2_getD 2 (by norm_num) 1 (by norm_num); simpa using this
  have a2 : (chebpts2 3).getD 2 0 = 1 := by
    have := chebpts2_getD 2 (by norm_num) 2 (by norm_num); simpa using this
  have hs : sin (π / 3) ^ 2 = 3 / 4 := by rw [sin_pi_div_three, div_pow, sq_sqrt (by norm_num)]; norm_num
  have b0 : (chebpts1 3).getD 0 0 = -sin (π / 3) := by
    simp only [chebpts1]
    rw [if_neg (by norm_num), if_neg (by norm_num), getD_map_range, if_pos (by norm_num), ← sin_neg]
    congr 1; push_cast; ring
  have b1 : (chebpts1 3).getD 1 0 = 0 := by
    simp only [chebpts1]
    rw [if_neg (by norm_num), if_neg (by norm_num), getD_map_range, if_pos (by norm_num), ← sin_zero]
    congr 1; push_cast; ring
  have b2 : (chebpts1 3).getD 2 0 = sin (π / 3) := by
    simp only [chebpts1]
    rw [if_neg (by norm_num), if_neg (by norm_num), getD_map_range, if_pos (by norm_num)]
    congr 1; push_cast; ring
  have hint : ∫ x in (-1 : ℝ)..1, ((X : ℝ[X]) ^ 2).eval x = 2 / 3 := by
    have := integral_poly_of_deriv ((X : ℝ[X]) ^ 2) (C (1 / 3) * X ^ 3) (by
      simp only [derivative_mul, derivative_C, derivative_X_pow, zero_mul, zero_add]
      rw [← mul_assoc, ← C_mul]; norm_num)
    rw [this]; norm_num
  rw [hint] at h2
  simp only [sum_range_succ, sum_range_zero, a0, a1, a2, b0, b1, b2, eval_pow, eval_X, neg_sq, hs] at h1 h2
  norm_num at h1 h2
  linarith

/-- C57: the nodes lie in the interval, in increasing order, from one end to the other, and the
returned angles satisfy `x = cos t` on `[-1,1]`. -/
theorem C57_type2_nodes (N : ℕ) (hN : 2 ≤ N) (I : Ends) (hI : I.e0 < I.e1) :
    (chebptsType2 N I).x.head? = some I.e0 ∧ (chebptsType2 N I).x.getLast? = some I.e1 ∧
    (chebptsType2 N I).x.Pairwise (· < ·) ∧
    (chebptsType2 N ⟨-1, 1⟩).x = (chebptsType2 N ⟨-1, 1⟩).t.map cos := by
  have hx : (chebptsType2 N I).x = (chebpts2 N).map fun t => 0.5 * I.e1 * (1 + t) + 0.5 * I.e0 * (1 - t) := by
    simp only [chebptsType2, if_neg (by omega : ¬ N = 0), if_neg (by omega : ¬ N = 1), scaleNodes_eq]
  obtain ⟨h0, h1, h2, -⟩ := (C06_points N).2 hN
  refine ⟨?_, ?_, ?_, ?_⟩
  · rw [hx, List.head?_map, h0]; norm_num; ring
  · rw [hx, List.getLast?_map, h1]; norm_num; ring
  · rw [hx, List.pairwise_map]
    refine h2.imp ?_
    intro a b hab
    nlinarith
  · obtain ⟨M, rfl⟩ : ∃ M, N = M + 1 := ⟨N - 1, by omega⟩
    have hM : 0 < M := by omega
    simp only [chebptsType2, if_neg (by omega : ¬ M + 1 = 0), if_neg (by omega : ¬ M + 1 = 1), scaleNodes,
      and_self, if_true]
    apply ext_getD 0
    · simp [chebpts2_length, angles]
    intro j hj
    rw [chebpts2_length] at hj
    rw [chebpts2_getD M hM j (by omega), getD_lt' _ _ _ (by simp [angles]; omega), List.getElem_map]
    simp only [angles, List.getElem_map, List.getElem_reverse, List.getElem_range, List.length_range]
    have e1 : M + 1 - 1 - j = M - j := by omega
    have e2 : ((M + 1 : ℕ) : ℝ) - 1 = M := by push_cast; ring
    rw [e1, e2]

example : (2 : ℕ) ≤ 5 ∧ (⟨0, 3⟩ : Ends).e0 < (⟨0, 3⟩ : Ends).e1 := by norm_num

/-! ## C55 -/

private lemma foldl_add_fin (l : List ℝ) (a : ℝ) :
    (l.map Ieee.fin).foldl Ieee.add (Ieee.fin a) = Ieee.fin (a + l.sum) := by
  induction l generalizing a with
  | nil => simp
  | cons b l ih => simp only [List.map_cons, List.foldl_cons, Ieee.add, List.sum_cons]; rw [ih]; congr 1; ring

private lemma foldl_add_inf (l : List ℝ) (s : Bool) :
    (l.map Ieee.fin).foldl Ieee.add (Ieee.inf s) = Ieee.inf s := by
  induction l with
  | nil => simp
  | cons b l ih => simp only [List.map_cons, List.foldl_cons, Ieee.add, ih]

private lemma foldl_one_inf (P : List Ieee) (k : ℕ) (hk : k < P.length) (s : Bool)
    (hinf : P[k] = Ieee.inf s) (hfin : ∀ j (hj : j < P.length), j ≠ k → ∃ r, P[j] = Ieee.fin r) (a : ℝ) :
    P.foldl Ieee.add (Ieee.fin a) = Ieee.inf s := by
  induction P generalizing k a with
  | nil => simp at hk
  | cons p P ih =>
    rw [List.foldl_cons]
    cases k with
    | zero =>
      simp only [List.getElem_cons_zero] at hinf
      rw [hinf]
      have : ∃ l : List ℝ, P = l.map Ieee.fin := by
        clear ih hinf hk
        have h : ∀ q ∈ P, ∃ r, q = Ieee.fin r := by
          intro q hq
          obtain ⟨j, hj, rfl⟩ := List.getElem_of_mem hq
          have := hfin (j + 1) (by simpa using hj) (by omega)
          simpa using this
        clear hfin
        induction P with
        | nil => exact ⟨[], rfl⟩
        | cons q P ih =>
          obtain ⟨l, rfl⟩ := ih fun q hq => h q (by simp [hq])
          obtain ⟨r, rfl⟩ := h q (by simp)
          exact ⟨r :: l, rfl⟩
      obtain ⟨l, rfl⟩ := this
      exact foldl_add_inf l s
    | succ k =>
      obtain ⟨r, hr⟩ := hfin 0 (by simp) (by omega)
      simp only [List.getElem_cons_zero] at hr
      rw [hr]
      simp only [Ieee.add]
      apply ih k (by simpa using hk) (by simpa using hinf)
      intro j hj hjk
      have := hfin (j + 1) (by simpa using hj) (by omega)
      simpa using this

/-- Generic form: `x` distinct nodes, `w` proportional to their Lagrange weights. -/
lemma barymatRow_spec (N : ℕ) (hN : 0 < N) (x w : List ℝ) (hx : x.length = N) (hw : w.length = N)
    (hinj : Set.InjOn (fun j => x.getD j 0) (range N : Finset ℕ)) (a : ℝ) (ha : a ≠ 0)
    (hwa : ∀ j, j < N → w.getD j 0 = a * Lagrange.nodalWeight (range N) (fun j => x.getD j 0) j) (y : ℝ) :
    ∃ r : List ℝ, r.length = N ∧ barymatRow x w y = r.map Ieee.fin ∧
      (∀ k, k < N → x.getD k 0 = y → ∀ j, j < N → r.getD j 0 = if j = k then 1 else 0) ∧
      (∀ p : ℝ[X], p.degree < N → (List.zipWith (· * ·) r (x.map fun x => p.eval x)).sum = p.eval y) := by
  set v : ℕ → ℝ := fun j => x.getD j 0 with hv
  have hw0 : ∀ j, j < N → w.getD j 0 ≠ 0 := by
    intro j hj
    rw [hwa j hj]
    exact mul_ne_zero ha (Lagrange.nodalWeight_ne_zero hinj (mem_range.mpr hj))
  set P := List.zipWith (fun wk xk => Ieee.divFin wk (y - xk)) w x with hP
  have hPl : P.length = N := by simp [hP, hx, hw]
  have hPg : ∀ j (hj : j < P.length), P[j] = Ieee.divFin (w.getD j 0) (y - v j) := by
    intro j hj
    rw [hPl] at hj
    simp only [hP, List.getElem_zipWith, hv]
    rw [getD_lt' w _ _ (by omega), getD_lt' x _ _ (by omega)]
  by_cases hy : ∃ k, k < N ∧ v k = y
  · obtain ⟨k, hk, hky⟩ := hy
    have huniq : ∀ j, j < N → v j = y → j = k := by
      intro j hj hjy
      exact hinj (by simpa using hj) (by simpa using hk) (by rw [hjy, hky])
    have hsum : P.foldl Ieee.add (Ieee.fin 0) = Ieee.inf (decide (w.getD k 0 < 0)) := by
      apply foldl_one_inf P k (by omega)
      · rw [hPg, Ieee.divFin, if_pos (by rw [hky, sub_self]), if_neg (hw0 k hk)]
      · intro j hj hjk
        refine ⟨w.getD j 0 / (y - v j), ?_⟩
        rw [hPg, Ieee.divFin, if_neg]
        intro h
        exact hjk (huniq j (by omega) (by linarith))
    refine ⟨(List.range N).map fun j => if j = k then 1 else 0, by simp, ?_, ?_, ?_⟩
    · simp only [barymatRow]
      rw [← hP, hsum]
      apply List.ext_getElem
      · simp [hPl]
      intro j h1 h2
      simp only [List.getElem_map, List.getElem_range]
      rw [List.length_map] at h1
      rw [hPg j h1]
      by_cases hjk : j = k
      · subst hjk
        rw [if_pos rfl, Ieee.divFin, if_pos (by rw [hky, sub_self]), if_neg (hw0 _ hk)]
        rfl
      · rw [if_neg hjk, Ieee.divFin, if_neg]
        · rfl
        · intro h
          exact hjk (huniq j (by omega) (by linarith))
    · intro k' hk' hk'y j hj
      have : k' = k := huniq k' hk' hk'y
      subst this
      rw [getD_map_range, if_pos hj]
    · intro p _
      rw [zip_quad' _ _ N (by simp) hx]
      rw [sum_eq_single k]
      · rw [getD_map_range, if_pos hk, if_pos rfl, one_mul]
        congr 1
      · intro j hj hjk
        rw [getD_map_range, if_pos (mem_range.mp hj), if_neg hjk, zero_mul]
      · intro h; exact absurd (mem_range.mpr hk) h
  · push Not at hy
    have hne : ∀ j ∈ range N, y ≠ v j := fun j hj h => hy j (mem_range.mp hj) h.symm
    set q : List ℝ := (List.range N).map fun j => w.getD j 0 / (y - v j) with hq
    have hPq : P = q.map Ieee.fin := by
      apply List.ext_getElem
      · simp [hPl, hq]
      intro j h1 h2
      rw [hPg j h1, Ieee.divFin, if_neg]
      · simp [hq]
      · intro h
        exact hne j (mem_range.mpr (by omega)) (by linarith)
    have hs : q.sum = a * ∑ j ∈ range N, Lagrange.nodalWeight (range N) v j * (y - v j)⁻¹ := by
      rw [list_sum_eq, mul_sum]
      simp only [hq, List.length_map, List.length_range]
      apply sum_congr rfl
      intro j hj
      rw [getD_map_range, if_pos (mem_range.mp hj), hwa j (mem_range.mp hj)]
      ring
    have hs0 : q.sum ≠ 0 := by
      rw [hs]
      exact mul_ne_zero ha (Lagrange.sum_nodalWeight_mul_inv_sub_ne_zero hinj hne ⟨0, mem_range.mpr hN⟩)
    refine ⟨q.map (· / q.sum), by simp [hq], ?_, ?_, ?_⟩
    · simp only [barymatRow]
      rw [← hP, hPq, foldl_add_fin, zero_add]
      generalize q.sum = S at hs0
      rw [List.map_map (l := q), List.map_map (l := q)]
      apply List.map_congr_left
      intro r _
      simp only [Function.comp, Ieee.div, Ieee.divFin, if_neg hs0, Ieee.fixNan]
    · intro k hk hky
      exact absurd hky (hy k hk)
    · intro p hp
      rw [zip_quad' _ _ N (by simp [hq]) hx]
      have hpi := Lagrange.eq_interpolate hinj (by rwa [card_range] : p.degree < #(range N))
      rw [hpi, Lagrange.eval_interpolate_not_at_node' _ hinj ⟨0, mem_range.mpr hN⟩ hne, ← hpi]
      have hg : ∀ j ∈ range N, (q.map (· / q.sum)).getD j 0 * p.eval (x.getD j 0)
          = a * (Lagrange.nodalWeight (range N) v j * (y - v j)⁻¹ * p.eval (v j)) / q.sum := by
        intro j hj
        have hj := mem_range.mp hj
        rw [getD_lt' (List.map _ _) _ _ (by simp [hq]; omega), List.getElem_map]
        simp only [hq, List.getElem_map, List.getElem_range]
        rw [hwa j hj]
        simp only [hv]
        ring
      rw [sum_congr rfl hg, ← sum_div, ← mul_sum, hs, mul_div_mul_left _ _ ha]

/-- C55: for every `N ≥ 1` and every point `y`, the row of `barymat(y, chebpts(N), bary_weights(N))`
consists of finite numbers, sums to one, selects the node when `y` is a node, and reproduces every
polynomial of degree `< N` from its values at the nodes. -/
theorem C55_barymat (N : ℕ) (hN : 0 < N) (y : ℝ) :
    ∃ r : List ℝ, r.length = N ∧
      barymatRow (chebpts2 N) (baryWeights N) y = r.map Ieee.fin ∧
      r.sum = 1 ∧
      (∀ k, k < N → (chebpts2 N).getD k 0 = y → ∀ j, j < N → r.getD j 0 = if j = k then 1 else 0) ∧
      (∀ p : ℝ[X], p.degree < N →
        (List.zipWith (· * ·) r ((chebpts2 N).map fun x => p.eval x)).sum = p.eval y) := by
  obtain ⟨a, ha, hwa⟩ := bary_nodal N hN
  obtain ⟨r, h1, h2, h3, h4⟩ := barymatRow_spec N hN (chebpts2 N) (baryWeights N) (chebpts2_length N)
    (baryWeights_length N hN) (nd_inj N) a ha hwa y
  refine ⟨r, h1, h2, ?_, h3, h4⟩
  have := h4 1 (by rw [degree_one]; exact_mod_cast hN)
  simp only [eval_one] at this
  rw [zip_quad' _ _ N h1 (chebpts2_length N)] at this
  rw [list_sum_eq, h1]
  simpa using this

/-- C55: the evaluation operator of a `chebtech` (funpy/cheb/chebtech.py:364-370) applied to its
values returns the values of the function at arbitrary points. -/
theorem C55_eval_operator (c : List ℝ) (hc : c ≠ []) (y : ℝ) :
    ∃ r : List ℝ, barymatRow (chebpts2 c.length) (baryWeights c.length) y = r.map Ieee.fin ∧
      (List.zipWith (· * ·) r (polyvalCol c)).sum = chebEval c y := by
  have hpos := List.length_pos_iff.mpr hc
  obtain ⟨r, -, h2, -, -, h4⟩ := C55_barymat c.length hpos y
  refine ⟨r, h2, ?_⟩
  have := h4 (chebPoly c) (by
    have h := natDegree_chebPoly_lt c hc
    exact lt_of_le_of_lt degree_le_natDegree (by exact_mod_cast h))
  rw [chebEval_eq_eval, ← this, polyvalCol_eq c hc, funext (chebEval_eq_eval c)]

example : barymatRow [-1, 1] (baryWeights 2) (-1) = [Ieee.fin 1, Ieee.fin 0] := by
  have h : baryWeights 2 = [-0.5, 0.5] := by
    simp [baryWeights, sliceDown2, sliceDown2.go]
  rw [h]
  have h1 : Ieee.divFin (-0.5) (-1 - -1) = Ieee.inf true := by norm_num [Ieee.divFin]
  have h2 : Ieee.divFin 0.5 (-1 - 1) = Ieee.fin (-1 / 4) := by norm_num [Ieee.divFin]
  simp only [barymatRow, List.zipWith_cons_cons, List.zipWith_nil_right, h1, h2, List.foldl_cons,
    List.foldl_nil, List.map_cons, List.map_nil, Ieee.add, Ieee.div, Ieee.fixNan]

/-! ## C58 -/

private lemma iterate_derivative_X_sub_C_mul (a : ℝ) (p : ℝ[X]) (k : ℕ) :
    derivative^[k + 1] ((X - C a) * p)
      = (X - C a) * derivative^[k + 1] p + (k + 1 : ℝ[X]) * derivative^[k] p := by
  induction k with
  | zero => simp [derivative_mul]; ring
  | succ k ih =>
    rw [Function.iterate_succ_apply' (n := k + 1), ih, derivative_add, derivative_mul, derivative_mul,
      ← Function.iterate_succ_apply' derivative, ← Function.iterate_succ_apply' derivative]
    have : derivative ((k : ℝ[X]) + 1) = 0 := by
      have := derivative_natCast (R := ℝ) (n := k + 1)
      push_cast at this; exact this
    rw [this]
    simp only [derivative_sub, derivative_X, derivative_C]
    push_cast
    ring

/-- The entry `ℓ_j^{(k)}(x_i)` of the exact differentiation matrix. -/
private noncomputable def LD (N k i j : ℕ) : ℝ :=
  (derivative^[k] (Lagrange.basis (range N) (nd N) j)).eval (nd N i)

private lemma LD_rowsum (N : ℕ) (hN : 0 < N) (k i : ℕ) : ∑ j ∈ range N, LD N (k + 1) i j = 0 := by
  unfold LD
  rw [← eval_finsetSum, ← iterate_derivative_sum, Lagrange.sum_basis (nd_inj N) ⟨0, mem_range.mpr hN⟩,
    iterate_derivative_one (by omega)]
  simp

private lemma LD_rec (N : ℕ) (k i j : ℕ) (hi : i < N) (hj : j < N) (hij : i ≠ j) :
    LD N (k + 1) i j = (k + 1) / (nd N i - nd N j) *
      (Lagrange.nodalWeight (range N) (nd N) j / Lagrange.nodalWeight (range N) (nd N) i * LD N k i i
        - LD N k i j) := by
  have hx : nd N i - nd N j ≠ 0 := by
    intro h
    exact hij (nd_inj N (by simpa using hi) (by simpa using hj) (by linarith))
  have hw : ∀ l, l < N → Lagrange.nodalWeight (range N) (nd N) l ≠ 0 :=
    fun l hl => Lagrange.nodalWeight_ne_zero (nd_inj N) (mem_range.mpr hl)
  have hb : ∀ l, l < N → (X - C (nd N l)) * Lagrange.basis (range N) (nd N) l
      = C (Lagrange.nodalWeight (range N) (nd N) l) * Lagrange.nodal (range N) (nd N) := by
    intro l hl
    rw [Lagrange.basis_eq_prod_sub_inv_mul_nodal_div (mem_range.mpr hl),
      ← Lagrange.nodal_erase_eq_nodal_div (mem_range.mpr hl),
      Lagrange.nodal_eq_mul_nodal_erase (mem_range.mpr hl)]
    ring
  have h1 : C (Lagrange.nodalWeight (range N) (nd N) i) * ((X - C (nd N j)) * Lagrange.basis (range N) (nd N) j)
      = C (Lagrange.nodalWeight (range N) (nd N) j) * ((X - C (nd N i)) * Lagrange.basis (range N) (nd N) i) := by
    rw [hb i hi, hb j hj]; ring
  have h2 := congrArg (fun p => eval (nd N i) (derivative^[k + 1] p)) h1
  simp only [iterate_derivative_C_mul, iterate_derivative_X_sub_C_mul, eval_mul, eval_add, eval_sub, eval_C,
    eval_X, eval_natCast, eval_one, sub_self, zero_mul, zero_add] at h2
  have hwi := hw i hi
  simp only [LD]
  field_simp
  linear_combination h2

private lemma chebpts_sym (N : ℕ) (hN : 2 ≤ N) (i : ℕ) (hi : i < N) : nd N (N - 1 - i) = -nd N i :=
  ((C06_points N).2 hN).2.2.2 i hi

private lemma diffDx_eq (N : ℕ) (hN : 2 ≤ N) (i j : ℕ) (hi : i < N) (hj : j < N) (hij : i ≠ j) :
    diffDx (chebpts2 N) i j = nd N i - nd N j := by
  simp only [diffDx, chebpts2_length, if_neg hij]
  split_ifs with h
  · have h1 := chebpts_sym N hN i hi
    have h2 := chebpts_sym N hN j hj
    simp only [nd] at h1 h2 ⊢
    rw [h1, h2]; ring
  · rfl

private lemma diffDw_eq (N : ℕ) (hN : 2 ≤ N) (i j : ℕ) (hi : i < N) (hj : j < N) (hij : i ≠ j) :
    diffDw N i j = Lagrange.nodalWeight (range N) (nd N) j / Lagrange.nodalWeight (range N) (nd N) i := by
  obtain ⟨a, ha, hwa⟩ := bary_nodal N (by omega)
  simp only [diffDw, if_neg hij]
  rw [hwa i hi, hwa j hj, mul_div_mul_left _ _ ha]

private lemma negSum_LD (N : ℕ) (hN : 2 ≤ N) (k : ℕ) (D : ℕ → ℕ → ℝ)
    (h : ∀ i j, i < N → j < N → i ≠ j → D i j = LD N (k + 1) i j) :
    ∀ i j, i < N → j < N → negSumTrick N D i j = LD N (k + 1) i j := by
  intro i j hi hj
  simp only [negSumTrick]
  split_ifs with hij
  · subst hij
    have hs := LD_rowsum N (by omega) k i
    rw [← add_sum_erase _ _ (mem_range.mpr hi)] at hs
    have : ∑ l ∈ range N, (if i = l then 0 else D i l) = ∑ l ∈ (range N).erase i, LD N (k + 1) i l := by
      rw [← add_sum_erase _ _ (mem_range.mpr hi), if_pos rfl, zero_add]
      apply sum_congr rfl
      intro l hl
      rw [mem_erase] at hl
      rw [if_neg (fun h => hl.1 h.symm), h i l hi (mem_range.mp hl.2) (fun h => hl.1 h.symm)]
    rw [this]; linarith
  · exact h i j hi hj hij

private lemma diffLoop_LD (N : ℕ) (hN : 2 ≤ N) : ∀ (cnt k : ℕ) (D : ℕ → ℕ → ℝ),
    (∀ i j, i < N → j < N → D i j = LD N k i j) →
    ∀ i j, i < N → j < N → diffLoop (chebpts2 N) cnt (k + 1) D i j = LD N (k + cnt) i j
  | 0, k, D, h, i, j, hi, hj => by simpa [diffLoop] using h i j hi hj
  | cnt + 1, k, D, h, i, j, hi, hj => by
    simp only [diffLoop, chebpts2_length]
    have := diffLoop_LD N hN cnt (k + 1) (negSumTrick N fun i j =>
      ((k + 1 : ℕ) : ℝ) * (1 / diffDx (chebpts2 N) i j) * (diffDw N i j * D i i - D i j)) (by
        apply negSum_LD N hN k
        intro i j hi hj hij
        rw [diffDx_eq N hN i j hi hj hij, diffDw_eq N hN i j hi hj hij, h i i hi hi, h i j hi hj,
          LD_rec N k i j hi hj hij]
        push_cast
        ring) i j hi hj
    rw [this]
    congr 1
    omega

private lemma diffmat_LD (N : ℕ) (hN : 2 ≤ N) (k : ℕ) (i j : ℕ) (hi : i < N) (hj : j < N) :
    diffmat (chebpts2 N) k i j = LD N k i j := by
  have h0 : ∀ i j, i < N → j < N → (if i = j then (1 : ℝ) else 0) = LD N 0 i j := by
    intro i j hi hj
    simp only [LD, Function.iterate_zero, id]
    split_ifs with h
    · subst h; rw [Lagrange.eval_basis_self (nd_inj N) (mem_range.mpr hi)]
    · rw [Lagrange.eval_basis_of_ne (fun h' => h h'.symm) (mem_range.mpr hi)]
  have h1 : ∀ i j, i < N → j < N →
      negSumTrick N (fun i j => diffDw N i j * (1 / diffDx (chebpts2 N) i j)) i j = LD N 1 i j := by
    apply negSum_LD N hN 0
    intro i j hi hj hij
    rw [LD_rec N 0 i j hi hj hij, ← h0 i i hi hi, ← h0 i j hi hj, if_pos rfl, if_neg hij,
      diffDx_eq N hN i j hi hj hij, diffDw_eq N hN i j hi hj hij]
    push_cast; ring
  have h2 : ∀ i j, i < N → j < N →
      negSumTrick N (fun i j => 2 * negSumTrick N (fun i j => diffDw N i j * (1 / diffDx (chebpts2 N) i j)) i j
        * (negSumTrick N (fun i j => diffDw N i j * (1 / diffDx (chebpts2 N) i j)) i i
          - 1 / diffDx (chebpts2 N) i j)) i j = LD N 2 i j := by
    apply negSum_LD N hN 1
    intro i j hi hj hij
    rw [h1 i j hi hj, h1 i i hi hi, LD_rec N 1 i j hi hj hij, diffDx_eq N hN i j hi hj hij]
    have e := LD_rec N 0 i j hi hj hij
    rw [← h0 i i hi hi, ← h0 i j hi hj, if_pos rfl, if_neg hij] at e
    simp only [zero_add] at e
    have e' : LD N 1 i j = Lagrange.nodalWeight (range N) (nd N) j / Lagrange.nodalWeight (range N) (nd N) i
        / (nd N i - nd N j) := by rw [e]; push_cast; ring
    rw [e']
    push_cast; ring
  simp only [diffmat, chebpts2_length]
  match k with
  | 0 => simpa using h0 i j hi hj
  | 1 => simpa using h1 i j hi hj
  | 2 => simpa using h2 i j hi hj
  | k + 3 =>
    rw [if_neg (by omega), if_neg (by omega), if_neg (by omega)]
    have := diffLoop_LD N hN (k + 1) 2 _ h2 i j hi hj
    rw [show k + 3 - 2 = k + 1 by omega]
    rw [show 2 + (k + 1) = k + 3 by omega] at this
    exact this

/-- C58: for every `N ≥ 2`, every order `k` and every polynomial of degree `< N`, `diffmat(chebpts(N), k)`
maps the values at the Chebyshev points to the values of the `k`-th derivative there. -/
theorem C58_diffmat (N : ℕ) (hN : 2 ≤ N) (k : ℕ) (p : ℝ[X]) (hp : p.degree < N) (i : ℕ) (hi : i < N) :
    ∑ j ∈ range N, diffmat (chebpts2 N) k i j * p.eval ((chebpts2 N).getD j 0)
      = (derivative^[k] p).eval ((chebpts2 N).getD i 0) := by
  have hpi := Lagrange.eq_interpolate (nd_inj N) (by rwa [card_range] : p.degree < #(range N))
  have h1 : derivative^[k] p = ∑ j ∈ range N, C (p.eval (nd N j)) * derivative^[k] (Lagrange.basis (range N) (nd N) j) := by
    conv_lhs => rw [hpi, Lagrange.interpolate_apply]
    rw [iterate_derivative_sum]
    simp only [iterate_derivative_C_mul]
  rw [h1, eval_finsetSum]
  apply sum_congr rfl
  intro j hj
  rw [diffmat_LD N hN k i j hi (mem_range.mp hj), eval_mul, eval_C, LD]
  simp only [nd]
  ring

/-- non-vacuity of C58: the cubic on five points -/
example : (2 : ℕ) ≤ 5 ∧ ((X : ℝ[X]) ^ 3 + 1).degree < ((5 : ℕ) : WithBot ℕ) := by
  refine ⟨by norm_num, ?_⟩
  have : ((X : ℝ[X]) ^ 3 + 1).degree = 3 := by
    have := degree_X_pow_add_C (R := ℝ) (n := 3) (by norm_num) 1
    simpa using this
  rw [this]; norm_num

end Funpy.Props
