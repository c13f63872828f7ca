import Verif.Lemmas.FourierEven
import Verif.Props.FourierSymSym
import Verif.Props.EndToEndPer

/-!
# C140: an even number of Fourier modes
-/

namespace Funpy.Props
namespace FEv
end FEv
open Spec Trig TrigSpec Matrix Finset Complex FourierStab FCv FUn FSy Filter Topology Newton Adaptive E2E E2P FEv
open scoped ContDiff

/-! ### Proofs -/

lemma FEv.mul_single (q : Co) (w k : ℤ) (c : ℂ) : FourierStab.mul q (Finsupp.single w c) k = q (k - w) * c := by
  unfold FourierStab.mul
  rw [LinearMap.sum_apply, Finsupp.finsetSum_apply]
  simp only [LinearMap.smul_apply, FourierStab.shift_single, Finsupp.smul_apply, smul_eq_mul, Finsupp.single_apply]
  by_cases h : k - w ∈ q.support
  · rw [sum_eq_single (k - w)]
    · rw [if_pos (by ring)]
    · intro m _ hm
      rw [if_neg (fun h => hm (by rw [← h]; ring)), mul_zero]
    · exact fun h' => absurd h h'
  · rw [sum_eq_zero, Finsupp.notMem_support_iff.mp h, zero_mul]
    intro m hm
    rw [if_neg (fun h' => h (by rw [← h']; simpa using hm)), mul_zero]

lemma FEv.mult_co {n : ℕ} (c : List ℂ) (hc : c.length ≠ 0) (v : Fin n → ℂ) (i : Fin n) :
    (multmat n c *ᵥ v) i = FourierStab.mul (coOf c) (toCo v) (wave n i) := by
  unfold toCo
  rw [map_sum, Finsupp.finsetSum_apply]
  show ∑ k, multmat n c i k * v k = _
  apply sum_congr rfl
  intro k _
  have hf : trigEval c = ev (coOf c) := funext fun y => (ev_coOf c y).symm
  rw [multmat_apply _ _ hc, mul_single, hf, fourier_ev]
  congr 2
  unfold wave
  ring

lemma FEv.toCo_diag {n : ℕ} (μ : ℤ → ℂ) (u : Fin n → ℂ) : toCo (fun i : Fin n => μ (wave n i) * u i) = FourierStab.diag μ (toCo u) := by
  unfold toCo
  rw [map_sum]
  apply sum_congr rfl
  intro i _
  rw [FourierStab.diag_single, mul_comm]

lemma FEv.toCo_out {n : ℕ} (hn : n % 2 = 0) (u : Fin n → ℂ) (k : ℤ) (h : k < -((n / 2 : ℕ) : ℤ) ∨ ((n / 2 : ℕ) : ℤ) ≤ k) : toCo u k = 0 := by
  unfold toCo
  rw [Finsupp.finsetSum_apply]
  apply sum_eq_zero
  intro i _
  rw [Finsupp.single_apply, if_neg]
  unfold wave
  have := i.2
  omega

lemma FEv.exists_wave {n : ℕ} (hn : n % 2 = 0) (k : ℤ) (h : -((n / 2 : ℕ) : ℤ) ≤ k ∧ k < ((n / 2 : ℕ) : ℤ)) : ∃ i : Fin n, wave n i = k := by
  refine ⟨⟨(k + (n / 2 : ℕ)).toNat, by omega⟩, ?_⟩
  unfold wave
  simp only
  omega

lemma FEv.wave_zero {n : ℕ} (i : ℕ) : wave n i = -((n / 2 : ℕ) : ℤ) ↔ i = 0 := by
  unfold wave
  omega

lemma FEv.toCo_drop {n : ℕ} (hn : n % 2 = 0) (u : Fin n → ℂ) : toCo (fun i : Fin n => if (i : ℕ) = 0 then 0 else u i) = toCo u - cut (n / 2) (toCo u) := by
  ext k
  rw [Finsupp.sub_apply, cut, Finsupp.single_apply]
  by_cases h : -((n / 2 : ℕ) : ℤ) ≤ k ∧ k < ((n / 2 : ℕ) : ℤ)
  · obtain ⟨i, rfl⟩ := FEv.exists_wave hn k h
    rw [toCo_wave, toCo_wave]
    by_cases h0 : (i : ℕ) = 0
    · rw [if_pos h0, if_pos ((wave_zero _).2 h0).symm, ← (wave_zero _).2 h0, toCo_wave, sub_self]
    · rw [if_neg h0, if_neg (fun h' => h0 ((wave_zero _).1 h'.symm)), sub_zero]
  · rw [FEv.toCo_out hn _ k (by omega), FEv.toCo_out hn _ k (by omega)]
    split_ifs with h1
    · rw [h1, FEv.toCo_out hn _ k (by omega), sub_zero]
    · rw [sub_zero]

/-- what is left of the coefficients by a derivative of order `j` -/
noncomputable def FEv.part (n j : ℕ) (a : Co) : Co := if j % 2 = 1 then a - cut (n / 2) a else a

lemma FEv.toCo_diff {n : ℕ} (hn : n % 2 = 0) (e : Ends) (j : ℕ) (u : Fin n → ℂ) :
    toCo (discDiff n j (Mapping.diff e) *ᵥ u) = FourierStab.diag (fun k => dmul e k ^ j) (part n j (toCo u)) := by
  have h1 : discDiff n j (Mapping.diff e) *ᵥ u
      = fun i : Fin n => dmul e (wave n i) ^ j * (if j % 2 = 1 ∧ (i : ℕ) = 0 then 0 else u i) := by
    funext i
    rw [diff_even hn, mulVec_diagonal]
    split_ifs with h
    · rw [zero_mul, mul_zero]
    · congr 2
      unfold dmul
      push_cast
      ring
  rw [h1, toCo_diag (fun k => dmul e k ^ j)]
  congr 1
  unfold part
  by_cases h : j % 2 = 1
  · rw [if_pos h, ← toCo_drop hn]
    simp only [h, true_and]
  · rw [if_neg h]
    simp only [h, false_and, if_false]

lemma FEv.toCo_agg {n : ℕ} (hn : n % 2 = 0) (e : Ends) (u : Fin n → ℂ) :
    toCo ((discAgg n 0 (Mapping.diff e)).getD 0 *ᵥ u) = FourierStab.diag (amul e) (toCo u) := by
  have h0 : (discAgg n 0 (Mapping.diff e)).getD 0 = diagonal fun k : Fin n => genM0 (waveArr n k) (1 / (0.5 * Mapping.diff e) * Real.pi) := by
    simp [discAgg, aggmat]
  rw [← toCo_diag]
  congr 1
  funext i
  rw [h0, mulVec_diagonal, waveArr_even hn]
  rfl

lemma FEv.toCo_int {n : ℕ} (hn : n % 2 = 0) (h2 : 2 ≤ n) (e : Ends) (u : Fin n → ℂ) :
    toCo (discInt n (Mapping.diff e) *ᵥ u) = FourierStab.diag (fun k => if k = 0 then (Mapping.diff e : ℂ) else 0) (toCo u) := by
  rw [← toCo_diag]
  congr 1
  funext i
  show ∑ k, discInt n (Mapping.diff e) i k * u k = _
  have hent : ∀ k : Fin n, discInt n (Mapping.diff e) i k = if (i : ℕ) = n / 2 ∧ (k : ℕ) = n / 2 then (Mapping.diff e : ℂ) else 0 := by
    intro k
    unfold discInt
    rw [Matrix.smul_apply, Matrix.smul_apply, intmat]
    simp only [smul_eq_mul]
    rw [if_neg (by omega : ¬ n % 2 = 1)]
    split_ifs
    · norm_num
    · simp
  simp only [hent]
  by_cases h : (i : ℕ) = n / 2
  · have hw : wave n i = 0 := by unfold wave; omega
    rw [if_pos hw, sum_eq_single i]
    · rw [if_pos ⟨h, h⟩]
    · intro k _ hk
      rw [if_neg (fun h' => hk (Fin.ext (h'.2.trans h.symm))), zero_mul]
    · simp
  · have hw : wave n i ≠ 0 := by unfold wave; omega
    rw [if_neg hw, zero_mul]
    apply sum_eq_zero
    intro k _
    rw [if_neg (fun h' => h h'.1), zero_mul]

/-- the terms of odd order -/
def FEv.oddPart (s : Source) (r : ℕ) : Source :=
  ⟨(List.range r).map fun j => if j % 2 = 1 then s.coeff.getD j (false, []) else (false, []), [],
    (List.range s.nl.length).map fun j => if j % 2 = 1 then s.nl.getD j (false, []) else (false, [])⟩

lemma FEv.getD_range {α : Type*} (n : ℕ) (f : ℕ → α) (d : α) (j : ℕ) (h : j < n) : ((List.range n).map f).getD j d = f j := by
  rw [getD_lt' _ _ _ (by simpa using h)]
  simp

lemma FEv.low_odd (e : Ends) (s : Source) (r : ℕ) (b : Co) : low e (oddPart s r) r b
    = (∑ j ∈ range r, if j % 2 = 1 then FourierStab.mul (qc (s.coeff.getD j (false, []))) (FourierStab.diag (fun k => dmul e k ^ j) b) else 0)
    + ∑ j ∈ range s.nl.length, if j % 2 = 1 then FourierStab.mul (qc (s.nl.getD j (false, []))) (FourierStab.diag (fun k => dmul e k ^ j * amul e k) b) else 0 := by
  have hq : qc (false, []) = 0 := by simp [qc]
  have hm : FourierStab.mul 0 = 0 := by simp [FourierStab.mul]
  unfold low intTerm
  simp only [oddPart, List.length_map, List.length_range]
  rw [add_zero, LinearMap.add_apply, LinearMap.sum_apply, LinearMap.sum_apply]
  congr 1
  · apply sum_congr rfl
    intro j hj
    rw [getD_range _ _ _ _ (Finset.mem_range.1 hj), LinearMap.comp_apply]
    split_ifs
    · rfl
    · rw [hq, hm, LinearMap.zero_apply]
  · apply sum_congr rfl
    intro j hj
    rw [getD_range _ _ _ _ (Finset.mem_range.1 hj), LinearMap.comp_apply]
    split_ifs
    · rfl
    · rw [hq, hm, LinearMap.zero_apply]

lemma FEv.diag_part (n j : ℕ) (μ ν : ℤ → ℂ) (a : Co) :
    FourierStab.diag μ (part n j (FourierStab.diag ν a)) = FourierStab.diag (fun k => μ k * ν k) a
      - if j % 2 = 1 then FourierStab.diag (fun k => μ k * ν k) (cut (n / 2) a) else 0 := by
  have h : cut (n / 2) (FourierStab.diag ν a) = FourierStab.diag ν (cut (n / 2) a) := by
    unfold cut
    rw [FourierStab.diag_single, FourierStab.diag_apply, mul_comm]
  unfold part
  split_ifs
  · rw [map_sub, h, diag_diag, diag_diag]
  · rw [sub_zero, diag_diag]

lemma FEv.diag_part' (n j : ℕ) (μ : ℤ → ℂ) (a : Co) :
    FourierStab.diag μ (part n j a) = FourierStab.diag μ a - if j % 2 = 1 then FourierStab.diag μ (cut (n / 2) a) else 0 := by
  unfold part
  split_ifs
  · rw [map_sub]
  · rw [sub_zero]

/-- the matrix for an even number of modes and an even order -/
lemma FEv.matrix_co (e : Ends) (he : e.e0 < e.e1) (s : Source) (r : ℕ) (c : ℂ) (hs : IsOp s r c) (hr : r % 2 = 0) {n : ℕ} (hn : n % 2 = 0) (h2 : 2 ≤ n)
    (u : Fin n → ℂ) (i : Fin n) :
    (assemble n (Mapping.diff e) s *ᵥ u) i
      = ((op e he s r c hs).Lam (toCo u) - low e (oddPart s r) r (cut (n / 2) (toCo u))) (wave n i) := by
  have hget : ∀ (l : List (Bool × List ℂ)), (∀ p ∈ l, p.2.length ≠ 0) → ∀ j, (l.getD j (false, [])).1 = true → (l.getD j (false, [])).2.length ≠ 0 := by
    intro l hl j hj
    by_cases h : j < l.length
    · rw [getD_lt' _ _ _ h]; exact hl _ (List.getElem_mem h)
    · rw [getD_ge' _ _ _ (by omega)] at hj; cases hj
  have hm0 : FourierStab.mul 0 = 0 := by simp [FourierStab.mul]
  have hterm : ∀ (p : Bool × List ℂ), (p.1 = true → p.2.length ≠ 0) → ∀ v : Fin n → ℂ,
      (if p.1 then multmat n p.2 *ᵥ v else 0) i = FourierStab.mul (qc p) (toCo v) (wave n i) := by
    intro p hp v
    unfold qc
    by_cases h : p.1
    · rw [if_pos h, if_pos h, mult_co _ (hp h)]
    · rw [if_neg h, if_neg h, hm0]
      rfl
  set a := toCo u with ha
  have hlead : FourierStab.mul (qc (true, [c])) (FourierStab.diag (fun k => dmul e k ^ r) a) = FourierStab.diag (op e he s r c hs).lead a := by
    apply ev_inj
    intro y
    have h3 : ev (qc (true, [c])) y = c := by
      unfold qc
      rw [if_pos rfl, ev_coOf]
      simp [trigEval, trigMode, wave]
    have h4 : FourierStab.diag (op e he s r c hs).lead a = c • FourierStab.diag (fun k => dmul e k ^ r) a := by
      ext k
      rw [Finsupp.smul_apply, FourierStab.diag_apply, FourierStab.diag_apply, smul_eq_mul]
      show c * dmul e k ^ r * a k = _
      ring
    rw [ev_mul, h3, h4, map_smul]
    rfl
  have hint : ((match s.integral with
      | [] => (0 : Matrix (Fin n) (Fin n) ℂ)
      | p :: _ => multmat n p.1 * discInt n (Mapping.diff e)) *ᵥ u) i = intTerm e s a (wave n i) := by
    unfold intTerm
    rcases hs.2.2.2.2.2.2.2 with h | ⟨q, d, h, hq, -⟩
    · rw [h]
      simp
    · rw [h]
      show ((multmat n q * discInt n (Mapping.diff e)) *ᵥ u) i = _
      rw [← mulVec_mulVec, mult_co _ hq, toCo_int hn h2]
      rfl
  unfold assemble
  simp only []
  rw [add_mulVec, add_mulVec, Pi.add_apply, Pi.add_apply]
  erw [hint]
  rw [mapIdx_sum _ (false, []), mapIdx_sum _ (false, [])]
  simp only [sum_mulVec, Finset.sum_apply]
  have hc : ∀ j ∈ range s.coeff.length, ((if (s.coeff.getD j (false, [])).1 then multmat n (s.coeff.getD j (false, [])).2 * discDiff n j (Mapping.diff e) else 0) *ᵥ u) i
      = FourierStab.mul (qc (s.coeff.getD j (false, []))) (FourierStab.diag (fun k => dmul e k ^ j) a) (wave n i)
        - (if j % 2 = 1 then FourierStab.mul (qc (s.coeff.getD j (false, []))) (FourierStab.diag (fun k => dmul e k ^ j) (cut (n / 2) a)) else 0) (wave n i) := by
    intro j _
    have h1 := hterm (s.coeff.getD j (false, [])) (hget _ hs.2.2.2.2.1 j) (discDiff n j (Mapping.diff e) *ᵥ u)
    rw [toCo_diff hn, diag_part', map_sub, Finsupp.sub_apply, ← ha] at h1
    rw [show (if (s.coeff.getD j (false, [])).1 then multmat n (s.coeff.getD j (false, [])).2 * discDiff n j (Mapping.diff e) else 0) *ᵥ u
      = (if (s.coeff.getD j (false, [])).1 then multmat n (s.coeff.getD j (false, [])).2 *ᵥ (discDiff n j (Mapping.diff e) *ᵥ u) else 0) by
        split_ifs
        · rw [mulVec_mulVec]
        · rw [zero_mulVec], h1]
    split_ifs
    · rfl
    · rw [map_zero]
  have hb : ∀ j ∈ range s.nl.length, ((if (s.nl.getD j (false, [])).1 then multmat n (s.nl.getD j (false, [])).2 * discDiff n j (Mapping.diff e) * (discAgg n 0 (Mapping.diff e)).getD 0 else 0) *ᵥ u) i
      = FourierStab.mul (qc (s.nl.getD j (false, []))) (FourierStab.diag (fun k => dmul e k ^ j * amul e k) a) (wave n i)
        - (if j % 2 = 1 then FourierStab.mul (qc (s.nl.getD j (false, []))) (FourierStab.diag (fun k => dmul e k ^ j * amul e k) (cut (n / 2) a)) else 0) (wave n i) := by
    intro j _
    have h1 := hterm (s.nl.getD j (false, [])) (hget _ hs.2.2.2.2.2.2.1 j) (discDiff n j (Mapping.diff e) *ᵥ ((discAgg n 0 (Mapping.diff e)).getD 0 *ᵥ u))
    rw [toCo_diff hn, toCo_agg hn, diag_part, map_sub, Finsupp.sub_apply, ← ha] at h1
    rw [show (if (s.nl.getD j (false, [])).1 then multmat n (s.nl.getD j (false, [])).2 * discDiff n j (Mapping.diff e) * (discAgg n 0 (Mapping.diff e)).getD 0 else 0) *ᵥ u
      = (if (s.nl.getD j (false, [])).1 then multmat n (s.nl.getD j (false, [])).2 *ᵥ (discDiff n j (Mapping.diff e) *ᵥ ((discAgg n 0 (Mapping.diff e)).getD 0 *ᵥ u)) else 0) by
        split_ifs
        · rw [mulVec_mulVec, mulVec_mulVec]
        · rw [zero_mulVec], h1]
    split_ifs
    · rfl
    · rw [map_zero]
  rw [sum_congr rfl hc, sum_congr rfl hb, hs.2.2.1, sum_range_succ, hs.2.2.2.1, if_neg (by omega : ¬ r % 2 = 1), hlead, sum_sub_distrib, sum_sub_distrib,
    Finsupp.sub_apply, low_odd, Finsupp.add_apply, Op.Lam_apply, Finsupp.add_apply]
  show _ = FourierStab.diag (op e he s r c hs).lead a (wave n i) + low e s r a (wave n i) - _
  unfold low
  rw [LinearMap.add_apply, LinearMap.add_apply, LinearMap.sum_apply, LinearMap.sum_apply, Finsupp.add_apply, Finsupp.add_apply]
  simp only [Finsupp.finsetSum_apply, LinearMap.comp_apply, Finsupp.zero_apply]
  ring

lemma FEv.odd_bound (e : Ends) (he : e.e0 < e.e1) (s : Source) (r : ℕ) (c : ℂ) (hs : IsOp s r c) (t : ℕ) :
    ∃ C, 0 ≤ C ∧ ∀ a, W t (low e (oddPart s r) r a) ≤ C * W (t + (op e he s r c hs).p) a :=
  low_bound e he (oddPart s r) r hs.1 (by simpa [oddPart] using hs.2.2.2.2.2.1) t

lemma FEv.regularC (e : Ends) (he : e.e0 < e.e1) (s : Source) (r : ℕ) (c : ℂ) (hs : IsOp s r c) (hr : r % 2 = 0) (S : ℝ) (hS : 0 ≤ S)
    (hst : (op e he s r c hs).CStable S) :
    ∃ N, ∀ n, N ≤ n → n % 2 = 0 → ∀ f : Fin n → ℂ, ∃! x : Fin n → ℂ, assemble n (Mapping.diff e) s *ᵥ x = f := by
  obtain ⟨C, N, hC, hds⟩ := (op e he s r c hs).discrete_stability_sq _ (odd_bound e he s r c hs) S hS hst 0
  refine ⟨2 * N + 2, fun n hn hev f => ?_⟩
  have hinj : Function.Injective (assemble n (Mapping.diff e) s).mulVecLin := by
    rw [← LinearMap.ker_eq_bot, LinearMap.ker_eq_bot']
    intro x hx
    have h1 := hds (n / 2) (by omega) (toCo x) (FEv.toCo_out hev x)
    have h2 : sq (n / 2) ((op e he s r c hs).Lam (toCo x) - low e (oddPart s r) r (cut (n / 2) (toCo x))) = 0 := by
      ext k
      rw [sq_apply]
      split_ifs with h
      · obtain ⟨i, rfl⟩ := FEv.exists_wave hev k h
        rw [← FEv.matrix_co e he s r c hs hr hev (by omega)]
        exact congrFun hx i
      · rfl
    rw [h2, W_zero, mul_zero] at h1
    funext i
    have h3 := le_antisymm ((W_mono 0 _ (Nat.zero_le _) _).trans h1) (W_nonneg 0 (toCo x))
    have h4 := (coeff_bound (toCo x) 0 (fun y => (ev_bound _ y).trans h3.le) (wave n i))
    rw [toCo_wave] at h4
    exact norm_le_zero_iff.mp h4
  have hsurj := LinearMap.injective_iff_surjective.1 hinj
  obtain ⟨x, hx⟩ := hsurj f
  exact ⟨x, hx, fun y hy => hinj (by rw [hx]; exact hy)⟩

/-- the function with an even number of coefficients -/
lemma FEv.coOf_even {n : ℕ} (hn : n % 2 = 0) (h2 : 2 ≤ n) (v : Fin n → ℂ) :
    coOf (List.ofFn v) = toCo v - ((1 / 2 : ℂ) • cut (n / 2) (toCo v) - Finsupp.single ((n / 2 : ℕ) : ℤ) (1 / 2 * toCo v (-((n / 2 : ℕ) : ℤ)))) := by
  have h0 : toCo v (-((n / 2 : ℕ) : ℤ)) = v ⟨0, by omega⟩ := by
    rw [← (wave_zero (n := n) 0).2 rfl]
    exact toCo_wave v ⟨0, by omega⟩
  have h1 : toCo v = Finsupp.single (-((n / 2 : ℕ) : ℤ)) (v ⟨0, by omega⟩) + ∑ i ∈ (univ : Finset (Fin n)).erase ⟨0, by omega⟩, Finsupp.single (wave n i) (v i) := by
    unfold toCo
    rw [← add_sum_erase _ _ (mem_univ (⟨0, by omega⟩ : Fin n)), (wave_zero (n := n) 0).2 rfl]
  have h2 : coOf (List.ofFn v) = Finsupp.single ((n / 2 : ℕ) : ℤ) (v ⟨0, by omega⟩ / 2) + Finsupp.single (-((n / 2 : ℕ) : ℤ)) (v ⟨0, by omega⟩ / 2)
      + ∑ i ∈ (univ : Finset (Fin n)).erase ⟨0, by omega⟩, Finsupp.single (wave n i) (v i) := by
    unfold coOf
    rw [List.length_ofFn, ← Fin.sum_univ_eq_sum_range fun k => if n % 2 = 0 ∧ k = 0 then
      Finsupp.single ((n / 2 : ℕ) : ℤ) ((List.ofFn v).getD k 0 / 2) + Finsupp.single (-((n / 2 : ℕ) : ℤ)) ((List.ofFn v).getD k 0 / 2)
      else Finsupp.single (wave n k) ((List.ofFn v).getD k 0), ← add_sum_erase _ _ (mem_univ (⟨0, by omega⟩ : Fin n)), if_pos ⟨hn, rfl⟩,
      getD_lt' _ _ _ (by simp; omega), List.getElem_ofFn]
    congr 1
    apply sum_congr rfl
    intro i hi
    rw [if_neg, getD_lt' _ _ _ (by simp), List.getElem_ofFn]
    rintro ⟨-, h⟩
    exact (mem_erase.1 hi).1 (Fin.ext h)
  rw [h2, cut, h0]
  conv_rhs => rw [h1]
  rw [Finsupp.smul_single, smul_eq_mul, show (1 / 2 : ℂ) * v ⟨0, by omega⟩ = v ⟨0, by omega⟩ / 2 by ring]
  have h3 : Finsupp.single (-((n / 2 : ℕ) : ℤ)) (v ⟨0, by omega⟩) = Finsupp.single (-((n / 2 : ℕ) : ℤ)) (v ⟨0, by omega⟩ / 2)
      + Finsupp.single (-((n / 2 : ℕ) : ℤ)) (v ⟨0, by omega⟩ / 2) := by
    rw [← Finsupp.single_add]
    congr 1
    ring
  rw [h3]
  abel

/-- **C140, an even order.**  Let `L` be a periodic operator of even order `r` with constant leading coefficient such that the homogeneous problem has only the
zero solution.  Then for all sufficiently large numbers `n` of modes, odd or even, the discretised problem has exactly one solution for every right-hand side,
and for a right-hand side `f` with finitely many modes these solutions converge to the unique periodic solution of `L u = f` with all derivatives, uniformly
and faster than every power of `1 / n`. -/
theorem C140_solves (e : Ends) (he : e.e0 < e.e1) (s : Source) (r : ℕ) (c : ℂ) (eps : ℝ) (hs : IsOp s r c) (hr : r % 2 = 0) (huni : UniquePer e s r) (f : List ℂ) :
    ∃ u : ℝ → ℂ, ContDiff ℝ ∞ u ∧ Function.Periodic u (Mapping.diff e) ∧ (∀ x, applyOp e s u x = trigEval f (Mapping.bwd e x)) ∧
      (∀ w : ℝ → ℂ, ContDiff ℝ r w → Function.Periodic w (Mapping.diff e) → (∀ x, applyOp e s w x = trigEval f (Mapping.bwd e x)) → w = u) ∧
      ∀ t j : ℕ, ∃ C N, ∀ n, N ≤ n → NoDrop n (Mapping.diff e) eps s →
        (∀ g : Fin n → ℂ, ∃! v : Fin n → ℂ, quasi2diffmat n (Mapping.diff e) eps s *ᵥ v = g) ∧
        ∀ v : Fin n → ℂ, (quasi2diffmat n (Mapping.diff e) eps s *ᵥ v = fun i : Fin n => fourier (trigEval f) (wave n i)) →
          ∀ x, ‖iteratedDeriv j (fourierFun e v) x - iteratedDeriv j u x‖ ≤ C / (n : ℝ) ^ t := by
  obtain ⟨S, hS, hst⟩ := cstable e he s r c hs huni
  obtain ⟨N0, hreg0⟩ := FCv.regularC e he s r c hs S hS hst
  obtain ⟨N1, hreg1⟩ := FEv.regularC e he s r c hs hr S hS hst
  obtain ⟨u, h1, h2, h3, h4, h5⟩ := C129_solves e he s r c 0 hs huni f
  have hnd0 : ∀ n, NoDrop n (Mapping.diff e) 0 s := fun n i j => Or.inr (norm_nonneg _)
  set L := op e he s r c hs with hL
  set φ := coOf f with hφ
  set E := low e (oddPart s r) r with hE
  have hf : trigEval f = ev φ := funext fun y => (ev_coOf f y).symm
  refine ⟨u, h1, h2, h3, h4, fun t j => ?_⟩
  obtain ⟨C1, M1, hodd⟩ := h5 t j
  obtain ⟨C2, M2, hC2, hcau⟩ := L.section_cauchy_sq E (odd_bound e he s r c hs) S hS hst φ j t
  have hω := om_pos e he
  set B := om e ^ j * (C2 * 2 ^ t) + om e ^ j * (C2 * 2 ^ t) with hB
  have hB0 : 0 ≤ B := by positivity
  refine ⟨|C1| + B, N0 + N1 + M1 + 2 * M2 + 2, fun n hn hnd => ?_⟩
  rw [nodrop hnd]
  have hn0 : (0 : ℝ) < (n : ℝ) ^ t := by
    have : 0 < n := by omega
    positivity
  refine ⟨fun g => ?_, fun v hv x => ?_⟩
  · rcases Nat.mod_two_eq_zero_or_one n with h | h
    · exact hreg1 n (by omega) h g
    · exact hreg0 n (by omega) h g
  rcases Nat.mod_two_eq_zero_or_one n with hev | ho
  swap
  · refine ((hodd n (by omega) ho (hnd0 n)).2 v (by rw [nodrop (hnd0 n)]; exact hv) x).trans ?_
    gcongr
    exact (le_abs_self C1).trans (by linarith)
  · -- the equations on coefficients
    have hsq : sq (n / 2) (L.Lam (toCo v) - E (cut (n / 2) (toCo v))) = sq (n / 2) φ := by
      ext k
      rw [sq_apply, sq_apply]
      split_ifs with h
      · obtain ⟨i, rfl⟩ := FEv.exists_wave hev k h
        rw [hL, hE, ← FEv.matrix_co e he s r c hs hr hev (by omega), hv]
        show fourier (trigEval f) (wave n i) = _
        rw [hf, fourier_ev]
      · rfl
    have hpow : (n : ℝ) ^ t ≤ 2 ^ t * (((n / 2 : ℕ) : ℝ) + 1) ^ t := by
      rw [← mul_pow]
      gcongr
      exact_mod_cast (by omega : n ≤ 2 * (n / 2 + 1))
    -- the symmetric sections
    have hsol : ∀ l : ℕ, ∃ b : Fin (2 * (l + N0 + M1 + n) + 1) → ℂ, lo (l + N0 + M1 + n) (L.Lam (toCo b)) = lo (l + N0 + M1 + n) φ ∧
        ∀ M t', ((∀ n, M ≤ n → n % 2 = 1 → NoDrop n (Mapping.diff e) 0 s →
        (∃! v : Fin n → ℂ, quasi2diffmat n (Mapping.diff e) 0 s *ᵥ v = fun i : Fin n => fourier (trigEval f) (wave n i)) ∧
        ∀ v : Fin n → ℂ, (quasi2diffmat n (Mapping.diff e) 0 s *ᵥ v = fun i : Fin n => fourier (trigEval f) (wave n i)) →
          ∀ x, ‖iteratedDeriv j (fourierFun e v) x - iteratedDeriv j u x‖ ≤ t' / (n : ℝ) ^ 1)) → M ≤ l →
          ‖iteratedDeriv j (fn e (toCo b)) x - iteratedDeriv j u x‖ ≤ t' / ((2 * (l + N0 + M1 + n) + 1 : ℕ) : ℝ) := by
      intro l
      have ho : (2 * (l + N0 + M1 + n) + 1) % 2 = 1 := by omega
      have hd : (2 * (l + N0 + M1 + n) + 1) / 2 = l + N0 + M1 + n := by omega
      obtain ⟨b, hb, -⟩ := hreg0 (2 * (l + N0 + M1 + n) + 1) (by omega) ho (fun i => fourier (trigEval f) (wave _ i))
      refine ⟨b, ?_, fun M t' hM hl => ?_⟩
      · ext k
        rw [lo_apply, lo_apply]
        split_ifs with h
        · obtain ⟨i, rfl⟩ := FCv.exists_wave ho k (by rw [hd]; exact h)
          rw [hL, ← FCv.matrix_co e he s r c hs ho, hb]
          show fourier (trigEval f) (wave _ i) = _
          rw [hf, fourier_ev]
        · rfl
      · have := (hM _ (by omega) ho (hnd0 _)).2 b (by rw [nodrop (hnd0 _)]; exact hb) x
        rw [pow_one] at this
        rwa [fn_toCo ho]
    choose b hb1 hb2 using hsol
    obtain ⟨C3, M3, hconv⟩ := h5 1 j
    have hlim : Tendsto (fun l => iteratedDeriv j (fn e (toCo (b l))) x) atTop (𝓝 (iteratedDeriv j u x)) := by
      rw [tendsto_iff_norm_sub_tendsto_zero]
      refine squeeze_zero' (Eventually.of_forall fun m => norm_nonneg _) (g := fun m : ℕ => |C3| * (1 / ((m : ℝ) + 1))) ?_ ?_
      · filter_upwards [eventually_ge_atTop M3] with l hl
        refine (hb2 l M3 C3 hconv hl).trans ?_
        rw [mul_one_div]
        have h0 : (0 : ℝ) < (l : ℝ) + 1 := by positivity
        have h6 : (l : ℝ) + 1 ≤ ((2 * (l + N0 + M1 + n) + 1 : ℕ) : ℝ) := by exact_mod_cast (by omega : l + 1 ≤ 2 * (l + N0 + M1 + n) + 1)
        calc C3 / ((2 * (l + N0 + M1 + n) + 1 : ℕ) : ℝ) ≤ |C3| / ((2 * (l + N0 + M1 + n) + 1 : ℕ) : ℝ) := by gcongr; exact le_abs_self _
          _ ≤ _ := by gcongr
      · have := tendsto_one_div_add_atTop_nhds_zero_nat (𝕜 := ℝ)
        simpa using this.const_mul |C3|
    have hfun : fourierFun e v = fn e (coOf (List.ofFn v)) := by
      funext y
      exact (ev_coOf _ _).symm
    have hconv2 : Tendsto (fun l => ‖iteratedDeriv j (fn e (coOf (List.ofFn v))) x - iteratedDeriv j (fn e (toCo (b l))) x‖) atTop
        (𝓝 ‖iteratedDeriv j (fn e (coOf (List.ofFn v))) x - iteratedDeriv j u x‖) := (tendsto_const_nhds.sub hlim).norm
    rw [hfun]
    refine le_of_tendsto hconv2 (Eventually.of_forall fun l => ?_)
    obtain ⟨k1, k2⟩ := hcau (n / 2) (by omega) (l + N0 + M1 + n) (by omega) (toCo v) (toCo (b l)) (FEv.toCo_out hev v)
      (fun k hk => FCv.toCo_out (by omega) (b l) k (by omega)) hsq (hb1 l)
    rw [← fn_sub, le_div_iff₀ hn0, coOf_even hev (by omega)]
    set a := toCo v
    set d := (1 / 2 : ℂ) • cut (n / 2) a - Finsupp.single ((n / 2 : ℕ) : ℤ) (1 / 2 * a (-((n / 2 : ℕ) : ℤ))) with hd
    have hWd : W j d ≤ W j (cut (n / 2) a) := by
      refine (W_sub _ _ _).trans ?_
      rw [W_smul, W_single, cut, W_single, wt_neg, norm_mul]
      have : wt ((n / 2 : ℕ) : ℤ) = ((n / 2 : ℕ) : ℝ) + 1 := by unfold wt; rw [Int.natAbs_natCast]
      rw [this, show ‖(1 / 2 : ℂ)‖ = 1 / 2 by norm_num]
      linarith
    have k3 := iter_bound e he j (a - d - toCo (b l)) x
    have k4 : W j (a - d - toCo (b l)) ≤ W j (a - toCo (b l)) + W j (cut (n / 2) a) := by
      rw [show a - d - toCo (b l) = (a - toCo (b l)) - d by abel]
      exact (W_sub _ _ _).trans (add_le_add le_rfl hWd)
    have k5 := W_nonneg j (a - toCo (b l))
    have k6 := W_nonneg j (cut (n / 2) a)
    have k7 := W_nonneg j (a - d - toCo (b l))
    calc _ ≤ (om e ^ j * (W j (a - toCo (b l)) + W j (cut (n / 2) a))) * (2 ^ t * (((n / 2 : ℕ) : ℝ) + 1) ^ t) := by
          refine mul_le_mul (k3.trans ?_) hpow hn0.le (by positivity)
          gcongr
      _ = om e ^ j * (((((n / 2 : ℕ) : ℝ) + 1) ^ t * W j (a - toCo (b l))) * 2 ^ t) + om e ^ j * (((((n / 2 : ℕ) : ℝ) + 1) ^ t * W j (cut (n / 2) a)) * 2 ^ t) := by ring
      _ ≤ om e ^ j * (C2 * 2 ^ t) + om e ^ j * (C2 * 2 ^ t) := by gcongr
      _ = B := rfl
      _ ≤ |C1| + B := by linarith [abs_nonneg C1]

/-- The problem `u^(r) + ∫ u = f`. -/
def FEv.derInt (r : ℕ) : Source := ⟨List.replicate r (false, [0]) ++ [(true, [1])], [([1], [1])], []⟩

/-- **C140, finding: odd orders.**  For every odd `r` and every interval the problem `u^(r) + ∫ u = f` is of the form treated above and uniquely solvable, but the matrix of
the discretised problem is singular for every even number of modes: the highest mode is in its kernel. -/
theorem C140_odd_order_fails (e : Ends) (he : e.e0 < e.e1) (r : ℕ) (hr : r % 2 = 1) :
    IsOp (derInt r) r 1 ∧ UniquePer e (derInt r) r ∧
    ∀ (eps : ℝ) (n : ℕ) (hn : n % 2 = 0) (h2 : 2 ≤ n), quasi2diffmat n (Mapping.diff e) eps (derInt r) *ᵥ Pi.single ⟨0, by omega⟩ 1 = 0 := by
  have hd : 0 < Mapping.diff e := by unfold Mapping.diff; linarith
  have hlen : (derInt r).coeff.length = r + 1 := by simp [derInt]
  have hget : ∀ j, j < r → (derInt r).coeff.getD j (false, []) = (false, [0]) := by
    intro j hj
    rw [getD_lt' _ _ _ (by rw [hlen]; omega)]
    simp only [derInt]
    rw [List.getElem_append_left (by simpa using hj), List.getElem_replicate]
  have hlast : (derInt r).coeff.getD r (false, []) = (true, [1]) := by
    rw [getD_lt' _ _ _ (by rw [hlen]; omega)]
    simp only [derInt]
    rw [List.getElem_append_right (by simp)]
    simp
  have hmem : ∀ p ∈ (derInt r).coeff, p.2.length = 1 := by
    intro p hp
    simp only [derInt, List.mem_append, List.mem_replicate, List.mem_singleton] at hp
    rcases hp with ⟨-, rfl⟩ | rfl <;> rfl
  refine ⟨⟨by omega, one_ne_zero, hlen, hlast, fun p hp => by rw [hmem p hp]; exact one_ne_zero, by simp [derInt], by simp [derInt],
    Or.inr ⟨[1], [1], rfl, by simp, fun x => by simp [trigEval, trigMode, wave]⟩⟩, ?_, fun eps n hn h2 => ?_⟩
  · refine (C132_unique_iff e he (derInt r) ⟨hmem, by simp [derInt], Or.inr ⟨1, rfl⟩⟩ r hlen.le (by simp [derInt])).2 fun k => ?_
    have hsym : symbol (Mapping.diff e) (derInt r) k = (I * (2 * Real.pi * k / Mapping.diff e : ℝ)) ^ r + if k = 0 then (Mapping.diff e : ℂ) else 0 := by
      unfold symbol
      rw [hlen, sum_range_succ, hlast, sum_eq_zero (fun j hj => by rw [hget j (Finset.mem_range.1 hj)]; simp [cst])]
      simp [derInt, cst]
    rw [hsym]
    by_cases hk : k = 0
    · subst hk
      rw [if_pos rfl]
      simp only [Int.cast_zero, mul_zero, zero_div, Complex.ofReal_zero]
      rw [zero_pow (by omega), zero_add]
      exact_mod_cast hd.ne'
    · rw [if_neg hk, add_zero]
      refine pow_ne_zero _ (mul_ne_zero I_ne_zero ?_)
      have hkr : (k : ℝ) ≠ 0 := by exact_mod_cast hk
      have hpi := Real.pi_pos.ne'
      exact_mod_cast div_ne_zero (mul_ne_zero (mul_ne_zero two_ne_zero hpi) hkr) hd.ne'
  · have hcol : ∀ i : Fin n, assemble n (Mapping.diff e) (derInt r) i ⟨0, by omega⟩ = 0 := by
      intro i
      have h1 : assemble n (Mapping.diff e) (derInt r) = discDiff n r (Mapping.diff e) + discInt n (Mapping.diff e) := by
        unfold assemble
        simp only []
        rw [mapIdx_sum _ (false, []), hlen, sum_range_succ, hlast, sum_eq_zero (fun j hj => by rw [hget j (Finset.mem_range.1 hj)]; simp)]
        simp only [derInt, List.mapIdx_nil, List.sum_nil, add_zero, zero_add, if_true]
        rw [mult_const _ rfl]
        simp
      rw [h1, Matrix.add_apply, diff_even hn, Matrix.diagonal_apply]
      have h3 : discInt n (Mapping.diff e) i ⟨0, by omega⟩ = 0 := by
        unfold discInt
        rw [Matrix.smul_apply, Matrix.smul_apply, intmat]
        simp only
        rw [if_neg (by omega : ¬ n % 2 = 1), if_neg (by omega)]
        simp
      rw [h3, add_zero]
      split_ifs with h4 h5
      · rfl
      · exact absurd ⟨hr, by rw [h4]⟩ h5
      · rfl
    funext i
    rw [mulVec_single_one]
    show quasi2diffmat n (Mapping.diff e) eps (derInt r) i ⟨0, by omega⟩ = 0
    unfold quasi2diffmat
    rw [hcol i, ite_self]

/-- **C140, the adaptive solver.**  For operators of even order C134 holds without the restrictions on the grids: `SolverAdaptive.solve`, started from any state with sufficiently
many coefficients, odd or even, reports success after at most two iterations on its last grid, which may be clipped, with a function within `δ` of the
solution together with its derivatives up to the order `J`. -/
theorem C140_adaptive (e : Ends) (he : e.e0 < e.e1) (s : TrigSpec.Source) (r : ℕ) (c : ℂ) (eps : ℝ) (hs : IsOp s r c) (hr : r % 2 = 0) (huni : UniquePer e s r)
    (N0 : ℕ) (hdrop : ∀ n, N0 ≤ n → NoDrop n (Mapping.diff e) eps s) (f : List ℂ) :
    ∃ u : ℝ → ℂ, ContDiff ℝ ∞ u ∧ Function.Periodic u (Mapping.diff e) ∧ (∀ x, applyOp e s u x = trigEval f (Mapping.bwd e x)) ∧
      (∀ w : ℝ → ℂ, ContDiff ℝ r w → Function.Periodic w (Mapping.diff e) → (∀ x, applyOp e s w x = trigEval f (Mapping.bwd e x)) → w = u) ∧
      ∀ (J : ℕ) (δ : ℝ), 0 < δ → ∃ N, ∀ (cc : SolveArgs) (method : String), Allowed cc method → ∀ E, IsPerEnv e s eps f cc method E →
        ∀ (nMin nMax : ℕ) (tol : ℝ) (up maxFail : ℕ) (st : List ℂ), N ≤ st.length → min 7 nMin ≤ nMax →
          ∃ w it, Adaptive.solve E nMin nMax tol up maxFail false st.length st = some (w, true, it) ∧ it ≤ 2 ∧
            ∀ j ≤ J, ∀ x, ‖iteratedDeriv j (asPer e w) x - iteratedDeriv j u x‖ ≤ δ := by
  obtain ⟨u, h1, h2, h3, h4, h5⟩ := C140_solves e he s r c eps hs hr huni f
  refine ⟨u, h1, h2, h3, h4, fun J δ hδ => ?_⟩
  choose C N hN using fun j => h5 1 j
  obtain ⟨m, hm⟩ := exists_nat_ge (∑ j ∈ Finset.range (J + 1), |C j| / δ)
  refine ⟨N0 + (∑ j ∈ Finset.range (J + 1), N j) + m + 3, fun cc method hmt E hE nMin nMax tol up maxFail st hst hmin => ?_⟩
  obtain ⟨s0, s1, s3⟩ := E2E.sizes nMin nMax st.length up hmin
  have hNle : ∀ j ≤ J, N j ≤ ∑ j ∈ Finset.range (J + 1), N j := fun j hj =>
    Finset.single_le_sum (f := N) (fun i _ => Nat.zero_le _) (Finset.mem_range.2 (by omega))
  obtain ⟨w, it, hw, hgood, hit⟩ := loop_good E tol maxFail (fun n => st.length ≤ n)
    (fun w => w ≠ [] ∧ ∀ j ≤ J, ∀ x, ‖iteratedDeriv j (asPer e w) x - iteratedDeriv j u x‖ ≤ δ)
    (fun n l hl h => by
      rw [hE.prolong, asPer_prolong e l n h.1 hl]
      refine ⟨fun h0 => ?_, h.2⟩
      have hlen := (C32_column l h.1 n hl).1
      rw [h0] at hlen
      have := List.length_pos_iff.2 h.1
      simp at hlen
      omega)
    (fun k n st' hn => by
      have hnd := hdrop n (by omega)
      have hex := (hN 0 n (by have := hNle 0 (Nat.zero_le _); omega) hnd).1 (E2P.rhsAt f n)
      obtain ⟨x, hx, a1, a2, a3, a4⟩ := step e s eps f cc method hmt E hE k n st' hex
      refine ⟨List.ofFn x, by simp, ⟨fun h0 => ?_, fun j hj y => ?_⟩, a1, a2, a3, a4⟩
      · have := congrArg List.length h0
        simp at this
        omega
      · refine ((hN j n (by have := hNle j hj; omega) hnd).2 x hx y).trans ?_
        have hn0 : (0 : ℝ) < n := by exact_mod_cast (by omega : 0 < n)
        have hmn : (m : ℝ) ≤ n := by exact_mod_cast (by omega : m ≤ n)
        rw [pow_one, div_le_iff₀ hn0]
        have h6 : |C j| / δ ≤ m := (Finset.single_le_sum (f := fun j => |C j| / δ) (fun i _ => by positivity)
          (Finset.mem_range.2 (by omega : j < J + 1))).trans hm
        have h7 : |C j| ≤ m * δ := (div_le_iff₀ hδ).1 h6
        calc C j ≤ |C j| := le_abs_self _
          _ ≤ m * δ := h7
          _ ≤ δ * n := by rw [mul_comm]; gcongr)
    _ s0 s1 (fun n hn => (s3 n hn).1) 0 st false
    (fun h => absurd h (lt_irrefl 0)) (fun n hn => (s3 n hn).1)
  exact ⟨w, it, hw, hit, hgood.2⟩

/-- The hypotheses of `C140_solves` and `C140_adaptive` hold for `-u'' + u = f` on `[-1, 1]`. -/
example : IsOp helm 2 (-(1 : ℝ) : ℂ) ∧ 2 % 2 = 0 ∧ UniquePer ⟨-1, 1⟩ helm 2 ∧ ∀ n, NoDrop n 2 0 helm :=
  ⟨(C129_elliptic ⟨-1, 1⟩ (by norm_num) 1 1 0 one_pos [0] [1] [0] [0] (by simp) (fun y => by simp [trigEval])
      (fun y => by simp [trigEval, trigMode, wave]) (fun y => by simp [trigEval]) one_pos).1, rfl,
    (C129_elliptic ⟨-1, 1⟩ (by norm_num) 1 1 0 one_pos [0] [1] [0] [0] (by simp) (fun y => by simp [trigEval])
      (fun y => by simp [trigEval, trigMode, wave]) (fun y => by simp [trigEval]) one_pos).2, fun _ _ _ => Or.inr (norm_nonneg _)⟩

/-- and the grids tried can then be even: sixteen coefficients and `up_steps = 3` -/
example : nDisc (ctorMin 2) 14 16 (upperBd 16 3) false = [16, 17, 33, 64] := by decide

end Funpy.Props
