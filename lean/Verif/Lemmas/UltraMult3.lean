import Verif.Lemmas.UltraMult2

/-! The multiplication operators: assembling the pieces. -/

namespace Funpy.UltraS
open Spec Matrix Finset Polynomial

lemma multCoeffs_length (k : ℕ) (c : List ℝ) : (multCoeffs k c machEps).length = k := by
  unfold multCoeffs
  simp only [gt_iff_lt, lt_self_iff_false, if_false]
  split_ifs <;> simp <;> omega

lemma multCoeffs_getD (k : ℕ) (c : List ℝ) (h : c.length ≤ k) (j : ℕ) : (multCoeffs k c machEps).getD j 0 = c.getD j 0 := by
  unfold multCoeffs
  simp only [gt_iff_lt, lt_self_iff_false, if_false]
  split_ifs with h1
  · rw [getD_append']
    split_ifs with h2
    · rfl
    · rw [getD_replicate', getD_ge' _ _ _ (by omega)]
  · rw [show k = c.length by omega, List.take_length]

/-- Column sums over `Fin k` as sums over `range k`. -/
lemma sum_fin_range (k : ℕ) (M : Matrix (Fin k) (Fin k) ℝ) (q : Fin k) (b : ℕ → ℝ) :
    ∑ i : Fin k, M i q * b i = ∑ p ∈ range k, (if h : p < k then M ⟨p, h⟩ q else 0) * b p := by
  rw [Finset.sum_range]
  refine sum_congr rfl fun i _ => ?_
  rw [dif_pos i.2]

lemma getD_drop' (c : List ℝ) (i j : ℕ) : (c.drop i).getD j 0 = c.getD (i + j) 0 := by
  simp [List.getD]

lemma getD_cons_drop (c : List ℝ) (a : ℝ) (j : ℕ) (hj : j ≠ 0) : (a :: c.drop 1).getD j 0 = c.getD j 0 := by
  obtain ⟨p, rfl⟩ := Nat.exists_eq_succ_of_ne_zero hj
  rw [List.getD_cons_succ, getD_drop', Nat.add_comm]

lemma multmat_T_col (k : ℕ) (c : List ℝ) (hc1 : c.length ≠ 1) (hc : c.length ≤ k) (hk : k < 100 ∨ c.getD 0 0 ≠ 0)
    (q : Fin k) (hfit : c.length + q ≤ k) (x : ℝ) :
    ∑ i : Fin k, (multmat k c 0) i q * ultraBasis 0 i x = chebEval c x * ultraBasis 0 q x := by
  have hq := q.2
  rw [sum_fin_range k (multmat k c 0) q (fun i => ultraBasis 0 i x)]
  unfold chebEval
  refine multT_col k c.length (fun j => c.getD j 0) (fun m hm => getD_ge' _ _ _ hm) hc
    (fun p q' => if h : p < k ∧ q' < k then (multmat k c 0) ⟨p, h.1⟩ ⟨q', h.2⟩ else 0) q hfit ?_ x |>.symm ▸ ?_
  · intro p hp
    rw [dif_pos ⟨hp, hq⟩]
    unfold multmat
    rw [if_neg hc1]
    simp only [if_pos trivial]
    set d := multCoeffs k c machEps with hd
    have hdl : d.length = k := multCoeffs_length k c
    have hdg : ∀ j, d.getD j 0 = c.getD j 0 := multCoeffs_getD k c hc
    have hmg : ∀ j, (d.map (· / 2)).getD j 0 = c.getD j 0 / 2 := by
      intro j
      by_cases h : j < k
      · rw [getD_map_lt _ _ _ _ _ (by omega), hdg]
      · rw [getD_ge' _ _ _ (by simp; omega), getD_ge' _ _ _ (by omega)]; simp
    show sptoeplitzFast k ((2 * (d.map (· / 2)).getD 0 0) :: (d.map (· / 2)).drop 1) ⟨p, hp⟩ q +
      (if 1 ≤ p ∧ (q : ℕ) < k - 1 then sphankel ((d.map (· / 2)).drop 1) (p - 1) q else 0) = _
    rw [toeplitz_eq k _ (by simp; omega)
      (by rcases hk with h | h
          · exact Or.inl h
          · right; rw [List.getD_cons_zero, hmg]; intro h'; apply h; linarith)]
    congr 1
    · by_cases h : p = q
      · rw [if_pos h, show ((((⟨p, hp⟩ : Fin k) : ℕ) : ℤ) - ((q : ℕ) : ℤ)).natAbs = 0 by simp [h], List.getD_cons_zero, hmg]
        ring
      · rw [if_neg h, getD_cons_drop _ _ _ (by simp; omega), hmg]
    · by_cases h : 1 ≤ p
      · rw [if_pos h]
        by_cases h2 : (q : ℕ) < k - 1
        · rw [if_pos ⟨h, h2⟩, sphankel_eq _ _ _ (by simp; omega), getD_drop', hmg]
          congr 2
          show 1 + (p - 1 + q) = p + q
          omega
        · rw [if_neg (by tauto), getD_ge' c _ _ (by omega)]; simp
      · rw [if_neg h, if_neg (by simp; omega)]
  · refine sum_congr rfl fun p hp => ?_
    rw [mem_range] at hp
    rw [dif_pos hp, dif_pos ⟨hp, hq⟩]
    rfl

lemma ultraBasis_one (k : ℕ) (x : ℝ) : ultraBasis 1 k x = (Chebyshev.U ℝ k).eval x := by
  simp only [ultraBasis]
  induction k using Nat.twoStepInduction with
  | zero => simp [gegenbauer]
  | one => simp [gegenbauer]
  | more n h0 h1 =>
    rw [gegenbauer, h0, h1]
    have := congrArg (Polynomial.eval x) (Chebyshev.U_add_two ℝ n)
    simp only [eval_sub, eval_mul, eval_X, eval_ofNat] at this
    push_cast at this ⊢
    rw [this]
    have hne : (n : ℝ) + 2 ≠ 0 := by positivity
    field_simp
    ring

lemma multmat_U_col (k : ℕ) (c : List ℝ) (hc1 : c.length ≠ 1) (hc : c.length ≤ k) (hk : k < 100 ∨ c.getD 0 0 ≠ 0)
    (q : Fin k) (hfit : c.length + q ≤ k) (x : ℝ) :
    ∑ i : Fin k, (multmat k c 1) i q * ultraBasis 1 i x = chebEval c x * ultraBasis 1 q x := by
  have hq := q.2
  rw [sum_fin_range k (multmat k c 1) q (fun i => ultraBasis 1 i x)]
  unfold chebEval
  rw [ultraBasis_one]
  refine multU_col k c.length (fun j => c.getD j 0) (fun m hm => getD_ge' _ _ _ hm) hc
    (fun p q' => if h : p < k ∧ q' < k then (multmat k c 1) ⟨p, h.1⟩ ⟨q', h.2⟩ else 0) q hfit ?_ x |>.symm ▸ ?_
  · intro p hp
    rw [dif_pos ⟨hp, hq⟩]
    unfold multmat
    rw [if_neg hc1]
    simp only [one_ne_zero, if_false, if_true]
    set d := multCoeffs k c machEps with hd
    have hdl : d.length = k := multCoeffs_length k c
    have hdg : ∀ j, d.getD j 0 = c.getD j 0 := multCoeffs_getD k c hc
    show (1 / 2 : ℝ) * sptoeplitzFast k ((2 * d.getD 0 0) :: d.drop 1) ⟨p, hp⟩ q -
      (if p < k - 2 ∧ (q : ℕ) < k - 2 then sphankel ((d.drop 2).map (· / 2)) p q else 0) = _
    rw [toeplitz_eq k _ (by simp; omega)
      (by rcases hk with h | h
          · exact Or.inl h
          · right; rw [List.getD_cons_zero, hdg]; intro h'; apply h; linarith)]
    congr 1
    · by_cases h : p = q
      · rw [if_pos h, show ((((⟨p, hp⟩ : Fin k) : ℕ) : ℤ) - ((q : ℕ) : ℤ)).natAbs = 0 by simp [h], List.getD_cons_zero, hdg]
        ring
      · rw [if_neg h, getD_cons_drop _ _ _ (by simp; omega), hdg]
        ring
    · by_cases h : p < k - 2 ∧ (q : ℕ) < k - 2
      · rw [if_pos h, sphankel_eq _ _ _ (by simp; omega)]
        have : ∀ j, ((d.drop 2).map (· / 2)).getD j 0 = c.getD (j + 2) 0 / 2 := by
          intro j
          by_cases h : j + 2 < k
          · rw [getD_map_lt _ _ _ _ _ (by simp; omega), getD_drop', hdg, Nat.add_comm]
          · rw [getD_ge' _ _ _ (by simp; omega), getD_ge' _ _ _ (by omega)]; simp
        rw [this]
      · rw [if_neg h, getD_ge' c _ _ (by omega)]; simp
  · refine sum_congr rfl fun p hp => ?_
    rw [mem_range] at hp
    rw [dif_pos hp, dif_pos ⟨hp, hq⟩, ultraBasis_one]

/-- From columns to products. -/
lemma series_of_cols (lam k : ℕ) (M : Matrix (Fin k) (Fin k) ℝ) (g : Fin k → ℝ) (x φ : ℝ)
    (h : ∀ q : Fin k, g q ≠ 0 → ∑ i, M i q * ultraBasis lam i x = φ * ultraBasis lam q x) :
    ultraSeries lam (M *ᵥ g) x = φ * ultraSeries lam g x := by
  rw [series_mulVec]
  unfold ultraSeries
  rw [mul_sum]
  refine sum_congr rfl fun j _ => ?_
  by_cases hg : g j = 0
  · rw [hg]; ring
  · rw [h j hg]; ring

lemma multmat_scalar (k : ℕ) (c : List ℝ) (hc : c.length = 1) (lam : ℕ) (g : Fin k → ℝ) (x : ℝ) :
    ultraSeries lam (multmat k c lam *ᵥ g) x = chebEval c x * ultraSeries lam g x := by
  unfold multmat
  rw [if_pos hc, smul_mulVec, one_mulVec, ultraSeries_smul]
  unfold chebEval
  rw [hc]
  simp

lemma sum_list_fin (lam : ℕ) {k : ℕ} (v : Fin k → ℝ) (x : ℝ) : ultraSeries lam v x = basisSum lam (List.ofFn v) k x := by
  unfold ultraSeries basisSum
  rw [Finset.sum_range]
  refine sum_congr rfl fun i _ => ?_
  rw [getD_lt' _ _ _ (by simp)]; simp

lemma convertmat_series (n K1 K2 : ℕ) (hK : K1 ≤ K2) (h2 : 2 ≤ n ∨ 0 < K1) (v : Fin n → ℝ) (x : ℝ) :
    ultraSeries K2 (convertmat n K1 ((K2 : ℤ) - 1) *ᵥ v) x = ultraSeries K1 v x := by
  unfold convertmat
  have h := convertLoop_series n ((K2 : ℤ) - 1 + 1 - K1).toNat K1 h2 1 v x
  rw [one_mulVec] at h
  rw [show K1 + ((K2 : ℤ) - 1 + 1 - K1).toNat = K2 by omega] at h
  exact h

lemma convertmat_supp (n K1 : ℕ) (K2 : ℤ) (v : Fin n → ℝ) (d : ℕ) (h : ∀ i : Fin n, d ≤ i → v i = 0) (i : Fin n)
    (hi : d ≤ i) : (convertmat n K1 K2 *ᵥ v) i = 0 := by
  unfold convertmat
  exact convertLoop_supp n _ _ _ v d (by simpa using h) i hi

/-- A truncated product: some trailing coefficients below `eps` are dropped. -/
lemma multmat_lam (k : ℕ) (c : List ℝ) (hc1 : c.length ≠ 1) (hc0 : 1 ≤ c.length) (lam : ℕ) (hl : 2 ≤ lam) (g : Fin k → ℝ) (dg : ℕ)
    (hg : ∀ i : Fin k, dg ≤ i → g i = 0) (hfit : c.length + dg ≤ k + 1) (hk : 2 ≤ k) :
    ∃ K : ℕ, (∀ j : Fin k, K ≤ j → |(convertmat k 0 ((lam : ℤ) - 1) *ᵥ fun i : Fin k => c.getD i 0) j| < machEps) ∧
      ∀ x, ultraSeries lam (multmat k c lam *ᵥ g) x
        = basisSum lam (List.ofFn (convertmat k 0 ((lam : ℤ) - 1) *ᵥ fun i : Fin k => c.getD i 0)) K x *
          ultraSeries lam g x := by
  have heps : 0 < machEps := by unfold machEps; positivity
  by_cases hlen : c.length ≤ k
  swap
  · -- then `g = 0`
    have hz : g = 0 := by
      funext i; exact hg i (by omega)
    refine ⟨k, fun j hj => absurd j.2 (by omega), fun x => ?_⟩
    rw [hz, mulVec_zero]
    simp [ultraSeries]
  unfold multmat
  rw [if_neg hc1]
  simp only [if_neg (show ¬ lam = 0 by omega), if_neg (show ¬ lam = 1 by omega)]
  have hfun : (fun i : Fin k => (multCoeffs k c machEps).getD i 0) = fun i : Fin k => c.getD i 0 := by
    funext i; exact multCoeffs_getD k c hlen i
  rw [hfun]
  set cv := convertmat k 0 ((lam : ℤ) - 1) *ᵥ fun i : Fin k => c.getD i 0 with hcv
  set d := List.ofFn cv with hd
  have hdl : d.length = k := by simp [hd]
  have hds : ∀ j, c.length ≤ j → d.getD j 0 = 0 := by
    intro j hj
    by_cases h : j < k
    · rw [getD_lt' _ _ _ (by omega)]
      simp only [hd, List.getElem_ofFn]
      exact convertmat_supp k 0 _ _ c.length (fun i hi => getD_ge' _ _ _ hi) _ hj
    · exact getD_ge' _ _ _ (by omega)
  have hdj : ∀ j : Fin k, d.getD j 0 = cv j := by
    intro j
    rw [getD_lt' _ _ _ (by omega)]; simp [hd]
  have hpg : ∀ i : Fin (2 * k), dg ≤ i → pad2 g i = 0 := by
    intro i hi
    unfold pad2
    split_ifs with h
    · exact hg _ hi
    · rfl
  have r0 : Rep lam ((1 : Matrix (Fin (2 * k)) (Fin (2 * k)) ℝ) *ᵥ pad2 g) dg (fun x => ultraBasis lam 0 x * ultraSeries lam g x) := by
    rw [one_mulVec]
    refine ⟨hpg, fun x => ?_⟩
    rw [pad2_eval]
    obtain ⟨l, rfl⟩ : ∃ l, lam = l + 1 := ⟨lam - 1, by omega⟩
    simp [ultraBasis, gegenbauer]
  have r1 : Rep lam (((2 * (lam : ℝ)) • multX (2 * k) lam) *ᵥ pad2 g) (dg + 1) (fun x => ultraBasis lam 1 x * ultraSeries lam g x) := by
    rw [smul_mulVec]
    have h1 : Rep lam (pad2 g) dg (fun x => ultraSeries lam g x) := ⟨hpg, fun x => pad2_eval lam k g x⟩
    have h2 := h1.mulX (by omega) (by omega : dg < 2 * k)
    have h3 := (h2.lin h2 (2 * lam) 0).congr (ψ := fun x => ultraBasis lam 1 x * ultraSeries lam g x) fun x => by
      obtain ⟨l, hl⟩ : ∃ l, lam = l + 1 := ⟨lam - 1, by omega⟩
      rw [show ultraBasis lam 1 x = 2 * lam * x by rw [hl]; simp [ultraBasis, gegenbauer]]
      ring
    simpa using h3
  have rM : Rep lam ((d.getD 0 0 • (1 : Matrix (Fin (2 * k)) (Fin (2 * k)) ℝ) + d.getD 1 0 • ((2 * (lam : ℝ)) • multX (2 * k) lam)) *ᵥ pad2 g)
      (dg + (c.length - 1)) (fun x => basisSum lam d (0 + 2) x * ultraSeries lam g x) := by
    rw [add_mulVec, smul_mulVec, smul_mulVec]
    refine (((r0.mono (by omega : dg ≤ dg + (c.length - 1)))).lin (r1.mono (by omega)) _ _).congr fun x => ?_
    unfold basisSum
    rw [sum_range_succ, sum_range_succ, sum_range_zero]
    ring
  obtain ⟨K, hK, hR⟩ := multLoop_rep lam (by omega) d machEps heps (pad2 g) (ultraSeries lam g) dg c.length hc0 hds
    (by omega) (d.length - 2) 0 1 ((2 * (lam : ℝ)) • multX (2 * k) lam) _ (by omega) r0 (by simpa using r1) rM
  refine ⟨K, fun j hj => ?_, fun x => ?_⟩
  · rw [← hdj]; exact hK j hj
  · rw [← hR.eval x]
    apply series_restrict lam k (2 * k) (by omega)
    · intro i
      rw [corner_mulVec]
    · intro i hi
      exact hR.supp i (by omega)

end Funpy.UltraS
