import Verif.Lemmas.UltraMult3
import Verif.Lemmas.UltraDisc

/-! The multiplication matrices are sections of the exact multiplication: products that do not fit into `k` coefficients. -/

namespace Funpy.UltraS
open Spec Matrix Finset Polynomial

/-- The entries of `multmat(k, f, 0)`. -/
lemma multmat_T_entry (k : ℕ) (c : List ℝ) (hc1 : c.length ≠ 1) (hc : c.length ≤ k) (hk : k < 100 ∨ c.getD 0 0 ≠ 0)
    (p : ℕ) (hp : p < k) (q : Fin k) : (multmat k c 0) ⟨p, hp⟩ q = (if p = q then c.getD 0 0 else c.getD ((p : ℤ) - q).natAbs 0 / 2) +
      (if 1 ≤ p then c.getD (p + q) 0 / 2 else 0) := by
  have hq := q.2
  unfold multmat
  rw [if_neg hc1]
  simp only [if_pos trivial]
  set d := multCoeffs k c machEps with hd
  have hdl : d.length = k := multCoeffs_length k c
  have hdg : ∀ j, d.getD j 0 = c.getD j 0 := multCoeffs_getD k c hc
  have hmg : ∀ j, (d.map (· / 2)).getD j 0 = c.getD j 0 / 2 := by
    intro j
    by_cases h : j < k
    · rw [getD_map_lt _ _ _ _ _ (by omega), hdg]
    · rw [getD_ge' _ _ _ (by simp; omega), getD_ge' _ _ _ (by omega)]; simp
  show sptoeplitzFast k ((2 * (d.map (· / 2)).getD 0 0) :: (d.map (· / 2)).drop 1) ⟨p, hp⟩ q +
    (if 1 ≤ p ∧ (q : ℕ) < k - 1 then sphankel ((d.map (· / 2)).drop 1) (p - 1) q else 0) = _
  rw [toeplitz_eq k _ (by simp; omega)
    (by rcases hk with h | h
        · exact Or.inl h
        · right; rw [List.getD_cons_zero, hmg]; intro h'; apply h; linarith)]
  congr 1
  · by_cases h : p = q
    · rw [if_pos h, show ((((⟨p, hp⟩ : Fin k) : ℕ) : ℤ) - ((q : ℕ) : ℤ)).natAbs = 0 by simp [h], List.getD_cons_zero, hmg]
      ring
    · rw [if_neg h, getD_cons_drop _ _ _ (by simp; omega), hmg]
  · by_cases h : 1 ≤ p
    · rw [if_pos h]
      by_cases h2 : (q : ℕ) < k - 1
      · rw [if_pos ⟨h, h2⟩, sphankel_eq _ _ _ (by simp; omega), getD_drop', hmg]
        congr 2
        show 1 + (p - 1 + q) = p + q
        omega
      · rw [if_neg (by tauto), getD_ge' c _ _ (by omega)]; simp
    · rw [if_neg h, if_neg (by simp; omega)]

/-- The entries of `multmat(k, f, 1)`. -/
lemma multmat_U_entry (k : ℕ) (c : List ℝ) (hc1 : c.length ≠ 1) (hc : c.length ≤ k) (hk : k < 100 ∨ c.getD 0 0 ≠ 0)
    (p : ℕ) (hp : p < k) (q : Fin k) : (multmat k c 1) ⟨p, hp⟩ q = (if p = q then c.getD 0 0 else c.getD ((p : ℤ) - q).natAbs 0 / 2) -
      c.getD (p + q + 2) 0 / 2 := by
  have hq := q.2
  unfold multmat
  rw [if_neg hc1]
  simp only [one_ne_zero, if_false, if_true]
  set d := multCoeffs k c machEps with hd
  have hdl : d.length = k := multCoeffs_length k c
  have hdg : ∀ j, d.getD j 0 = c.getD j 0 := multCoeffs_getD k c hc
  show (1 / 2 : ℝ) * sptoeplitzFast k ((2 * d.getD 0 0) :: d.drop 1) ⟨p, hp⟩ q -
    (if p < k - 2 ∧ (q : ℕ) < k - 2 then sphankel ((d.drop 2).map (· / 2)) p q else 0) = _
  rw [toeplitz_eq k _ (by simp; omega)
    (by rcases hk with h | h
        · exact Or.inl h
        · right; rw [List.getD_cons_zero, hdg]; intro h'; apply h; linarith)]
  congr 1
  · by_cases h : p = q
    · rw [if_pos h, show ((((⟨p, hp⟩ : Fin k) : ℕ) : ℤ) - ((q : ℕ) : ℤ)).natAbs = 0 by simp [h], List.getD_cons_zero, hdg]
      ring
    · rw [if_neg h, getD_cons_drop _ _ _ (by simp; omega), hdg]
      ring
  · by_cases h : p < k - 2 ∧ (q : ℕ) < k - 2
    · rw [if_pos h, sphankel_eq _ _ _ (by simp; omega)]
      have : ∀ j, ((d.drop 2).map (· / 2)).getD j 0 = c.getD (j + 2) 0 / 2 := by
        intro j
        by_cases h : j + 2 < k
        · rw [getD_map_lt _ _ _ _ _ (by simp; omega), getD_drop', hdg, Nat.add_comm]
        · rw [getD_ge' _ _ _ (by simp; omega), getD_ge' _ _ _ (by omega)]; simp
      rw [this]
    · rw [if_neg h, getD_ge' c _ _ (by omega)]; simp

/-- `w` extends `u` and represents `φ`. -/
structure Ext (lam : ℕ) {k m : ℕ} (u : Fin k → ℝ) (w : Fin m → ℝ) (φ : ℝ → ℝ) : Prop where
  le : k ≤ m
  ext : ∀ i : Fin k, w ⟨i, lt_of_lt_of_le i.2 le⟩ = u i
  eval : ∀ x, ultraSeries lam w x = φ x

lemma section_of_cols (lam k : ℕ) (A : Matrix (Fin k) (Fin k) ℝ) (M : ℕ → ℕ → ℝ) (hA : ∀ p q : Fin k, A p q = M p q) (g : Fin k → ℝ)
    (φ : ℝ → ℝ) (h : ∀ q < k, ∀ x, ∑ p ∈ range (2 * k), M p q * ultraBasis lam p x = φ x * ultraBasis lam q x) :
    Ext lam (A *ᵥ g) (fun p : Fin (2 * k) => ∑ q : Fin k, M p q * g q) (fun x => φ x * ultraSeries lam g x) := by
  refine ⟨by omega, fun i => ?_, fun x => ?_⟩
  · simp only [mulVec, dotProduct, hA]
  · unfold ultraSeries
    rw [mul_sum]
    simp only [sum_mul]
    rw [sum_comm]
    refine sum_congr rfl fun q _ => ?_
    have := h q q.2 x
    rw [Finset.sum_range] at this
    calc _ = g q * ∑ p : Fin (2 * k), M p q * ultraBasis lam p x := by
          rw [mul_sum]; exact sum_congr rfl fun p _ => by ring
      _ = _ := by rw [this]; ring

lemma multmat_T_section (k : ℕ) (c : List ℝ) (hc1 : c.length ≠ 1) (hc : c.length ≤ k) (hk : k < 100 ∨ c.getD 0 0 ≠ 0) (g : Fin k → ℝ) :
    ∃ w : Fin (2 * k) → ℝ, Ext 0 (multmat k c 0 *ᵥ g) w fun x => chebEval c x * ultraSeries 0 g x := by
  refine ⟨_, section_of_cols 0 k _ (fun p q => (if p = q then c.getD 0 0 else c.getD ((p : ℤ) - q).natAbs 0 / 2) +
      (if 1 ≤ p then c.getD (p + q) 0 / 2 else 0)) (fun p q => ?_) g (chebEval c) fun q hq x => ?_⟩
  · rw [← multmat_T_entry k c hc1 hc hk p p.2 q]
  · exact multT_col (2 * k) c.length (fun j => c.getD j 0) (fun m hm => getD_ge' _ _ _ hm) (by omega)
      (fun p q => (if p = q then c.getD 0 0 else c.getD ((p : ℤ) - q).natAbs 0 / 2) + (if 1 ≤ p then c.getD (p + q) 0 / 2 else 0)) q (by omega) (fun p hp => rfl) x

lemma multmat_U_section (k : ℕ) (c : List ℝ) (hc1 : c.length ≠ 1) (hc : c.length ≤ k) (hk : k < 100 ∨ c.getD 0 0 ≠ 0) (g : Fin k → ℝ) :
    ∃ w : Fin (2 * k) → ℝ, Ext 1 (multmat k c 1 *ᵥ g) w fun x => chebEval c x * ultraSeries 1 g x := by
  refine ⟨_, section_of_cols 1 k _ (fun p q => (if p = q then c.getD 0 0 else c.getD ((p : ℤ) - q).natAbs 0 / 2) -
      c.getD (p + q + 2) 0 / 2) (fun p q => ?_) g (chebEval c) fun q hq x => ?_⟩
  · rw [← multmat_U_entry k c hc1 hc hk p p.2 q]
  · simp only [ultraBasis_one]
    exact multU_col (2 * k) c.length (fun j => c.getD j 0) (fun m hm => getD_ge' _ _ _ hm) (by omega)
      (fun p q => (if p = q then c.getD 0 0 else c.getD ((p : ℤ) - q).natAbs 0 / 2) - c.getD (p + q + 2) 0 / 2) q (by omega) (fun p hp => rfl) x

/-- The section for `lam ≥ 2`; some trailing coefficients below `eps` are dropped. -/
lemma multmat_lam_section (k : ℕ) (c : List ℝ) (hc1 : c.length ≠ 1) (hc0 : 1 ≤ c.length) (hlen : c.length ≤ k) (lam : ℕ) (hl : 2 ≤ lam)
    (g : Fin k → ℝ) (hk : 2 ≤ k) :
    ∃ K : ℕ, (∀ j : Fin k, K ≤ j → |(convertmat k 0 ((lam : ℤ) - 1) *ᵥ fun i : Fin k => c.getD i 0) j| < machEps) ∧
      ∃ w : Fin (2 * k) → ℝ, Ext lam (multmat k c lam *ᵥ g) w fun x =>
        basisSum lam (List.ofFn (convertmat k 0 ((lam : ℤ) - 1) *ᵥ fun i : Fin k => c.getD i 0)) K x * ultraSeries lam g x := by
  have heps : 0 < machEps := by unfold machEps; positivity
  have hg : ∀ i : Fin k, k ≤ i → g i = 0 := fun i hi => absurd i.2 (by omega)
  unfold multmat
  rw [if_neg hc1]
  simp only [if_neg (show ¬ lam = 0 by omega), if_neg (show ¬ lam = 1 by omega)]
  have hfun : (fun i : Fin k => (multCoeffs k c machEps).getD i 0) = fun i : Fin k => c.getD i 0 := by
    funext i; exact multCoeffs_getD k c hlen i
  rw [hfun]
  set cv := convertmat k 0 ((lam : ℤ) - 1) *ᵥ fun i : Fin k => c.getD i 0 with hcv
  set d := List.ofFn cv with hd
  have hdl : d.length = k := by simp [hd]
  have hds : ∀ j, c.length ≤ j → d.getD j 0 = 0 := by
    intro j hj
    by_cases h : j < k
    · rw [getD_lt' _ _ _ (by omega)]
      simp only [hd, List.getElem_ofFn]
      exact convertmat_supp k 0 _ _ c.length (fun i hi => getD_ge' _ _ _ hi) _ hj
    · exact getD_ge' _ _ _ (by omega)
  have hdj : ∀ j : Fin k, d.getD j 0 = cv j := by
    intro j
    rw [getD_lt' _ _ _ (by omega)]; simp [hd]
  have hpd : ∀ i : Fin (2 * k), k ≤ i → pad2 g i = 0 := by
    intro i hi
    unfold pad2
    split_ifs with h
    · exact hg _ hi
    · rfl
  have r0 : Rep lam ((1 : Matrix (Fin (2 * k)) (Fin (2 * k)) ℝ) *ᵥ pad2 g) k (fun x => ultraBasis lam 0 x * ultraSeries lam g x) := by
    rw [one_mulVec]
    refine ⟨hpd, fun x => ?_⟩
    rw [pad2_eval]
    obtain ⟨l, rfl⟩ : ∃ l, lam = l + 1 := ⟨lam - 1, by omega⟩
    simp [ultraBasis, gegenbauer]
  have r1 : Rep lam (((2 * (lam : ℝ)) • multX (2 * k) lam) *ᵥ pad2 g) (k + 1) (fun x => ultraBasis lam 1 x * ultraSeries lam g x) := by
    rw [smul_mulVec]
    have h1 : Rep lam (pad2 g) k (fun x => ultraSeries lam g x) := ⟨hpd, fun x => pad2_eval lam k g x⟩
    have h2 := h1.mulX (by omega) (by omega : k < 2 * k)
    have h3 := (h2.lin h2 (2 * lam) 0).congr (ψ := fun x => ultraBasis lam 1 x * ultraSeries lam g x) fun x => by
      obtain ⟨l, hl⟩ : ∃ l, lam = l + 1 := ⟨lam - 1, by omega⟩
      rw [show ultraBasis lam 1 x = 2 * lam * x by rw [hl]; simp [ultraBasis, gegenbauer]]
      ring
    simpa using h3
  have rM : Rep lam ((d.getD 0 0 • (1 : Matrix (Fin (2 * k)) (Fin (2 * k)) ℝ) + d.getD 1 0 • ((2 * (lam : ℝ)) • multX (2 * k) lam)) *ᵥ pad2 g)
      (k + (c.length - 1)) (fun x => basisSum lam d (0 + 2) x * ultraSeries lam g x) := by
    rw [add_mulVec, smul_mulVec, smul_mulVec]
    refine (((r0.mono (by omega : k ≤ k + (c.length - 1)))).lin (r1.mono (by omega)) _ _).congr fun x => ?_
    unfold basisSum
    rw [sum_range_succ, sum_range_succ, sum_range_zero]
    ring
  obtain ⟨K, hK, hR⟩ := multLoop_rep lam (by omega) d machEps heps (pad2 g) (ultraSeries lam g) k c.length hc0 hds
    (by omega) (d.length - 2) 0 1 ((2 * (lam : ℝ)) • multX (2 * k) lam) _ (by omega) r0 (by simpa using r1) rM
  refine ⟨K, fun j hj => ?_, _, ⟨by omega, fun i => ?_, fun x => hR.eval x⟩⟩
  · rw [← hdj]; exact hK j hj
  · rw [corner_mulVec]

/-- Conversion to a higher basis moves the lowest degree by two per step. -/
lemma spconvert_low (n lam : ℕ) (v : Fin n → ℝ) (a : ℕ) (h : ∀ i : Fin n, (i : ℕ) < a → v i = 0) (i : Fin n) (hi : (i : ℕ) + 2 < a) :
    (spconvert n lam *ᵥ v) i = 0 := by
  simp only [mulVec, dotProduct]
  apply Finset.sum_eq_zero
  intro j _
  by_cases hj : (j : ℕ) < a
  · rw [h j hj, mul_zero]
  · have : spconvert n lam i j = 0 := by
      have hz : ∀ (data : List ℝ) (o : ℤ), o ≤ 2 → spdiag n data o i j = 0 := by
        intro data o ho
        unfold spdiag
        rw [if_neg (by omega)]
      unfold spconvert
      split_ifs with hl
      · rw [Matrix.add_apply, hz _ _ (by norm_num), hz _ _ (by norm_num), add_zero]
      · rw [Matrix.add_apply, hz _ _ (by norm_num), hz _ _ (by norm_num), add_zero]
    rw [this, zero_mul]

lemma convertLoop_low (n cnt : ℕ) : ∀ (s : ℕ) (S : Matrix (Fin n) (Fin n) ℝ) (v : Fin n → ℝ) (a : ℕ),
    (∀ i : Fin n, (i : ℕ) < a → (S *ᵥ v) i = 0) → ∀ i : Fin n, (i : ℕ) + 2 * cnt < a → (convertLoop n cnt s S *ᵥ v) i = 0 := by
  induction cnt with
  | zero => intro s S v a h i hi; exact h i (by omega)
  | succ c ih =>
    intro s S v a h i hi
    refine ih (s + 1) _ v (a - 2) (fun i' hi' => ?_) i (by omega)
    rw [← mulVec_mulVec]
    exact spconvert_low n s _ a h i' (by omega)

/-- A tail in the `C^{(j)}` basis is a tail in the `C^{(out)}` basis. -/
lemma tail_convert (m j out : ℕ) (hj : j ≤ out) (hm : 2 ≤ m) (w : Fin m → ℝ) (a : ℕ) (h : ∀ i : Fin m, (i : ℕ) < a → w i = 0) :
    ∃ w' : Fin m → ℝ, (∀ i : Fin m, (i : ℕ) + 2 * (out - j) < a → w' i = 0) ∧ ∀ x, ultraSeries out w' x = ultraSeries j w x := by
  refine ⟨convertmat m j ((out : ℤ) - 1) *ᵥ w, fun i hi => ?_, fun x => convertmat_series m j out hj (Or.inl hm) w x⟩
  unfold convertmat
  rw [show (((out : ℤ) - 1) + 1 - (j : ℤ)).toNat = out - j by omega]
  exact convertLoop_low m (out - j) j 1 w a (by simpa using h) i hi

/-- The part of an extension beyond the first entries. -/
lemma Ext.tail {lam k m : ℕ} {u : Fin k → ℝ} {w : Fin m → ℝ} {φ : ℝ → ℝ} (h : Ext lam u w φ) :
    ∃ t : Fin m → ℝ, (∀ i : Fin m, (i : ℕ) < k → t i = 0) ∧ ∀ x, φ x = ultraSeries lam u x + ultraSeries lam t x := by
  have hle := h.le
  refine ⟨fun i => if (i : ℕ) < k then 0 else w i, fun i hi => if_pos hi, fun x => ?_⟩
  rw [← h.eval, series_restrict lam k m hle (fun i => if (i : ℕ) < k then w i else 0) u
    (fun i => by rw [if_pos i.2, h.ext]) (fun i hi => if_neg (by omega)), ← ultraSeries_add]
  congr 1
  funext i
  by_cases hi : (i : ℕ) < k <;> simp [hi]

end Funpy.UltraS
