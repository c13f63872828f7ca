import Verif.Lemmas.UltraMult

/-! The multiplication operator in the `C^{(lam)}` basis, `lam ≥ 2`. -/

namespace Funpy.UltraS
open Spec Matrix Finset Polynomial

/-- `w` has no entries from position `d` on and represents `φ`. -/
structure Rep (lam : ℕ) {m : ℕ} (w : Fin m → ℝ) (d : ℕ) (φ : ℝ → ℝ) : Prop where
  supp : ∀ i : Fin m, d ≤ i → w i = 0
  eval : ∀ x, ultraSeries lam w x = φ x

lemma ultraSeries_add (lam : ℕ) {m : ℕ} (v w : Fin m → ℝ) (x : ℝ) :
    ultraSeries lam (v + w) x = ultraSeries lam v x + ultraSeries lam w x := by
  unfold ultraSeries
  rw [← sum_add_distrib]
  exact sum_congr rfl fun i _ => by rw [Pi.add_apply]; ring

lemma ultraSeries_smul (lam : ℕ) {m : ℕ} (a : ℝ) (v : Fin m → ℝ) (x : ℝ) :
    ultraSeries lam (a • v) x = a * ultraSeries lam v x := by
  unfold ultraSeries
  rw [mul_sum]
  exact sum_congr rfl fun i _ => by rw [Pi.smul_apply, smul_eq_mul]; ring

lemma Rep.lin {lam m d : ℕ} {v w : Fin m → ℝ} {φ ψ : ℝ → ℝ} (hv : Rep lam v d φ) (hw : Rep lam w d ψ) (a b : ℝ) :
    Rep lam (a • v + b • w) d (fun x => a * φ x + b * ψ x) := by
  refine ⟨fun i hi => ?_, fun x => ?_⟩
  · simp [hv.supp i hi, hw.supp i hi]
  · rw [ultraSeries_add, ultraSeries_smul, ultraSeries_smul, hv.eval, hw.eval]

lemma Rep.mono {lam m d d' : ℕ} {v : Fin m → ℝ} {φ : ℝ → ℝ} (hv : Rep lam v d φ) (h : d ≤ d') : Rep lam v d' φ :=
  ⟨fun i hi => hv.supp i (by omega), hv.eval⟩

lemma Rep.congr {lam m d : ℕ} {v : Fin m → ℝ} {φ ψ : ℝ → ℝ} (hv : Rep lam v d φ) (h : ∀ x, φ x = ψ x) : Rep lam v d ψ :=
  ⟨hv.supp, fun x => by rw [hv.eval, h]⟩

/-- The multiplication by `x`. -/
lemma Rep.mulX {lam m d : ℕ} (hl : 1 ≤ lam) {w : Fin m → ℝ} {φ : ℝ → ℝ} (hw : Rep lam w d φ) (hd : d < m) :
    Rep lam (multX m lam *ᵥ w) (d + 1) (fun x => x * φ x) := by
  constructor
  · intro i hi
    unfold multX
    simp only [mulVec, dotProduct]
    apply Finset.sum_eq_zero
    intro j _
    by_cases h : d ≤ (j : ℕ)
    · rw [hw.supp j h, mul_zero]
    · rw [Matrix.add_apply]
      unfold spdiag
      have := i.2
      rw [if_neg (by omega), if_neg (by omega)]
      simp
  · intro x
    rw [series_mulVec, ← hw.eval, ultraSeries, mul_sum]
    refine sum_congr rfl fun j _ => ?_
    by_cases h : d ≤ (j : ℕ)
    · rw [hw.supp j h]; ring
    · have hj := j.2
      have hl' : ((lam : ℝ)) ≠ 0 := by positivity
      rw [mul_left_comm]
      congr 1
      unfold multX
      simp only [Matrix.add_apply, add_mul, sum_add_distrib]
      rw [spdiag_col m _ _ j (fun i => ultraBasis lam i x) (by simp),
        spdiag_col m _ _ j (fun i => ultraBasis lam i x) (by simp; omega)]
      rw [if_pos (by omega)]
      rw [show ((j : ℤ) - -1).toNat = j + 1 by omega]
      rw [getD_map_range, if_pos hj]
      obtain ⟨l, rfl⟩ : ∃ l, lam = l + 1 := ⟨lam - 1, by omega⟩
      have hr := gegenbauer_rec' ((l : ℝ) + 1) j x
      simp only [ultraBasis]
      push_cast
      rcases Nat.eq_zero_or_pos (j : ℕ) with h0 | h0
      · rw [if_neg (by omega), h0]
        simp [gegenbauer]
        field_simp
      · rw [if_pos (by omega)]
        obtain ⟨p, hp⟩ : ∃ p, (j : ℕ) = p + 1 := ⟨j - 1, by omega⟩
        rw [show ((j : ℤ) - 1).toNat = p by omega]
        have hg : ([1 / 1] ++ (List.range (m - 1)).map fun i : ℕ =>
            (2 * ((l : ℝ) + 1) + i) / (2 * ((l : ℝ) + 1 + 1 + i))).getD j 0
            = (2 * ((l : ℝ) + 1) + p) / (2 * ((l : ℝ) + 1 + 1 + p)) := by
          rw [hp]
          show ((List.range (m - 1)).map fun i : ℕ =>
            (2 * ((l : ℝ) + 1) + i) / (2 * ((l : ℝ) + 1 + 1 + i))).getD p 0 = _
          rw [getD_map_range, if_pos (by omega)]
        rw [hg, hp]
        rw [hp] at hr
        simp only [gegPrev] at hr
        push_cast at hr ⊢
        have h1 : (2 * ((l : ℝ) + 1 + (p + 1))) ≠ 0 := by positivity
        have h2 : (2 * ((l : ℝ) + 1 + 1 + p)) ≠ 0 := by positivity
        have h3 : (2 * ((l : ℝ) + 1 + (p + 1))) = (2 * ((l : ℝ) + 1 + 1 + p)) := by ring
        rw [h3]
        field_simp
        linear_combination hr

/-- The partial sums over the basis. -/
noncomputable def basisSum (lam : ℕ) (c : List ℝ) (K : ℕ) (x : ℝ) : ℝ :=
  ∑ j ∈ range K, c.getD j 0 * ultraBasis lam j x

lemma multLoop_rep {m : ℕ} (lam : ℕ) (hl : 1 ≤ lam) (c : List ℝ) (eps : ℝ) (heps : 0 < eps) (v : Fin m → ℝ) (γ : ℝ → ℝ)
    (dg n : ℕ) (hn : 1 ≤ n) (hc : ∀ j, n ≤ j → c.getD j 0 = 0) (hm : dg + c.length ≤ m) (cnt : ℕ) :
    ∀ (nn : ℕ) (M0 M1 M : Matrix (Fin m) (Fin m) ℝ), nn + 2 + cnt = c.length →
      Rep lam (M0 *ᵥ v) (dg + nn) (fun x => ultraBasis lam nn x * γ x) →
      Rep lam (M1 *ᵥ v) (dg + nn + 1) (fun x => ultraBasis lam (nn + 1) x * γ x) →
      Rep lam (M *ᵥ v) (dg + (n - 1)) (fun x => basisSum lam c (nn + 2) x * γ x) →
      ∃ K, (∀ j, K ≤ j → |c.getD j 0| < eps) ∧
        Rep lam (multLoop lam c eps (multX m lam) cnt nn M0 M1 M *ᵥ v) (dg + (n - 1))
          (fun x => basisSum lam c K x * γ x) := by
  induction cnt with
  | zero =>
    intro nn M0 M1 M hlen _ _ h
    refine ⟨nn + 2, fun j hj => ?_, h⟩
    rw [getD_ge' _ _ _ (by omega)]
    simpa using heps
  | succ cnt ih =>
    intro nn M0 M1 M hlen h0 h1 h
    set M2 := (2 * (1 + (nn : ℝ) + lam) / (nn + 2)) • (multX m lam * M1) - (((nn : ℝ) + 2 * lam) / (nn + 2)) • M0 with hM2
    have r2 : Rep lam (M2 *ᵥ v) (dg + nn + 2) (fun x => ultraBasis lam (nn + 2) x * γ x) := by
      have e : M2 *ᵥ v = (2 * (1 + (nn : ℝ) + lam) / (nn + 2)) • (multX m lam *ᵥ (M1 *ᵥ v)) +
          (-(((nn : ℝ) + 2 * lam) / (nn + 2))) • (M0 *ᵥ v) := by
        rw [hM2, sub_mulVec, smul_mulVec, smul_mulVec, mulVec_mulVec, neg_smul, sub_eq_add_neg]
      rw [e]
      refine ((h1.mulX hl (by omega)).lin (h0.mono (by omega)) _ _).congr fun x => ?_
      obtain ⟨l, rfl⟩ : ∃ l, lam = l + 1 := ⟨lam - 1, by omega⟩
      have := gegenbauer_rec ((l : ℝ) + 1) nn x
      simp only [ultraBasis]
      have hne : (nn : ℝ) + 2 ≠ 0 := by positivity
      push_cast
      field_simp
      linear_combination (-(γ x)) * this
    have r : Rep lam ((M + c.getD (nn + 2) 0 • M2) *ᵥ v) (dg + (n - 1))
        (fun x => basisSum lam c (nn + 3) x * γ x) := by
      have e : (M + c.getD (nn + 2) 0 • M2) *ᵥ v = (1 : ℝ) • (M *ᵥ v) + c.getD (nn + 2) 0 • (M2 *ᵥ v) := by
        rw [add_mulVec, smul_mulVec, one_smul]
      rw [e]
      have hb : ∀ x, basisSum lam c (nn + 3) x = basisSum lam c (nn + 2) x + c.getD (nn + 2) 0 * ultraBasis lam (nn + 2) x :=
        fun x => by unfold basisSum; rw [sum_range_succ]
      by_cases hz : c.getD (nn + 2) 0 = 0
      · refine ⟨fun i hi => ?_, fun x => ?_⟩
        · rw [hz]; simp [h.supp i hi]
        · rw [hz, hb, hz]; simp [h.eval]
      · have : nn + 2 < n := by
          by_contra hcon
          exact hz (hc _ (by omega))
        refine (h.lin (r2.mono (by omega)) _ _).congr fun x => ?_
        rw [hb]; ring
    rw [multLoop]
    rw [← hM2]
    split_ifs with hbr
    · refine ⟨nn + 3, fun j hj => ?_, r⟩
      by_cases hjl : j < c.length
      · apply hbr
        rw [getD_lt' _ _ _ hjl, List.mem_drop_iff_getElem]
        exact ⟨j - (nn + 3), by omega, by congr 1; omega⟩
      · rw [getD_ge' _ _ _ (by omega)]; simpa using heps
    · exact ih (nn + 1) M1 M2 _ (by omega) (h1.mono (by omega)) (r2.mono (by omega)) r

lemma spconvert_supp (n lam : ℕ) (v : Fin n → ℝ) (d : ℕ) (h : ∀ i : Fin n, d ≤ i → v i = 0) (i : Fin n) (hi : d ≤ i) :
    (spconvert n lam *ᵥ v) i = 0 := by
  simp only [mulVec, dotProduct]
  apply Finset.sum_eq_zero
  intro j _
  by_cases hj : d ≤ (j : ℕ)
  · rw [h j hj, mul_zero]
  · have : spconvert n lam i j = 0 := by
      have hz : ∀ (data : List ℝ) (o : ℤ), 0 ≤ o → spdiag n data o i j = 0 := by
        intro data o ho
        unfold spdiag
        rw [if_neg (by omega)]
      unfold spconvert
      split_ifs with hl
      · rw [Matrix.add_apply, hz _ _ (by norm_num), hz _ _ (by norm_num), add_zero]
      · rw [Matrix.add_apply, hz _ _ (by norm_num), hz _ _ (by norm_num), add_zero]
    rw [this, zero_mul]

lemma convertLoop_supp (n cnt : ℕ) : ∀ (s : ℕ) (S : Matrix (Fin n) (Fin n) ℝ) (v : Fin n → ℝ) (d : ℕ),
    (∀ i : Fin n, d ≤ i → (S *ᵥ v) i = 0) → ∀ i : Fin n, d ≤ i → (convertLoop n cnt s S *ᵥ v) i = 0 := by
  induction cnt with
  | zero => intro s S v d h; exact h
  | succ c ih =>
    intro s S v d h
    apply ih
    intro i hi
    rw [← mulVec_mulVec]
    exact spconvert_supp n s _ d h i hi

/-- `v` padded with zeros to twice the length. -/
def pad2 {k : ℕ} (v : Fin k → ℝ) : Fin (2 * k) → ℝ := fun i => if h : (i : ℕ) < k then v ⟨i, h⟩ else 0

/-- A series whose entries from `k` on vanish only needs the first `k` of them. -/
lemma series_restrict (lam k m : ℕ) (hk : k ≤ m) (w : Fin m → ℝ) (u : Fin k → ℝ) (h : ∀ i : Fin k, u i = w ⟨i, by omega⟩)
    (hs : ∀ i : Fin m, k ≤ i → w i = 0) (x : ℝ) : ultraSeries lam u x = ultraSeries lam w x := by
  unfold ultraSeries
  set W : ℕ → ℝ := fun i => if hi : i < m then w ⟨i, hi⟩ * ultraBasis lam i x else 0 with hW
  have h1 : ∀ i : Fin m, w i * ultraBasis lam i x = W i := by
    intro i; simp only [hW]; rw [dif_pos i.2]
  have h2 : ∀ i : Fin k, u i * ultraBasis lam i x = W i := by
    intro i; simp only [hW]; rw [dif_pos (by omega), h i]
  simp only [h1, h2]
  rw [Fin.sum_univ_eq_sum_range W k, Fin.sum_univ_eq_sum_range W m]
  rw [← Finset.sum_range_add_sum_Ico W hk]
  rw [Finset.sum_eq_zero (s := Ico k m), add_zero]
  intro i hi
  rw [mem_Ico] at hi
  simp only [hW]
  rw [dif_pos hi.2, hs ⟨i, hi.2⟩ hi.1, zero_mul]

lemma pad2_eval (lam k : ℕ) (v : Fin k → ℝ) (x : ℝ) : ultraSeries lam (pad2 v) x = ultraSeries lam v x := by
  symm
  apply series_restrict lam k (2 * k) (by omega)
  · intro i; unfold pad2; rw [dif_pos i.2]
  · intro i hi; unfold pad2; rw [dif_neg (by omega)]

lemma corner_mulVec (k : ℕ) (M : Matrix (Fin (2 * k)) (Fin (2 * k)) ℝ) (v : Fin k → ℝ) (i : Fin k) :
    (corner k M *ᵥ v) i = (M *ᵥ pad2 v) ⟨i, by omega⟩ := by
  simp only [mulVec, dotProduct, corner]
  set W : ℕ → ℝ := fun j => if hj : j < 2 * k then M ⟨i, by omega⟩ ⟨j, hj⟩ * pad2 v ⟨j, hj⟩ else 0 with hW
  have h1 : ∀ j : Fin (2 * k), M ⟨i, by omega⟩ j * pad2 v j = W j := by
    intro j; simp only [hW]; rw [dif_pos j.2]
  have h2 : ∀ j : Fin k, M ⟨i, by omega⟩ ⟨j, by omega⟩ * v j = W j := by
    intro j; simp only [hW]; rw [dif_pos (by omega)]; simp [pad2]
  simp only [h1, h2]
  rw [Fin.sum_univ_eq_sum_range W k, Fin.sum_univ_eq_sum_range W (2 * k)]
  rw [← Finset.sum_range_add_sum_Ico W (show k ≤ 2 * k by omega)]
  rw [Finset.sum_eq_zero (s := Ico k (2 * k)), add_zero]
  intro j hj
  rw [mem_Ico] at hj
  simp only [hW]
  rw [dif_pos hj.2]
  unfold pad2
  rw [dif_neg (by simp; omega), mul_zero]

end Funpy.UltraS
