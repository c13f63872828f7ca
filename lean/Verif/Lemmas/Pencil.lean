import Mathlib.LinearAlgebra.Matrix.ToLinearEquiv
import Mathlib.RingTheory.Polynomial.Chebyshev
import Mathlib.Analysis.Complex.Basic
import Mathlib.Tactic

/-! Determinant of the colleague pencil. -/

namespace Funpy.Cheb
open Finset Polynomial Matrix

/-- `T_d(z)` -/
noncomputable def tz (z : ℂ) (d : ℕ) : ℂ := (Chebyshev.T ℂ (d : ℤ)).eval z

lemma tz_zero (z : ℂ) : tz z 0 = 1 := by simp [tz]
lemma tz_one (z : ℂ) : tz z 1 = z := by simp [tz]
lemma tz_add_two (z : ℂ) (d : ℕ) : tz z (d + 2) = 2 * z * tz z (d + 1) - tz z d := by
  have := Chebyshev.T_add_two ℂ (d : ℤ)
  simp only [tz]
  push_cast
  rw [this]; simp

/-- entries of the pencil, indexed by naturals -/
noncomputable def pk (N : ℕ) (a : ℕ → ℂ) (z : ℂ) (i j : ℕ) : ℂ :=
  if j = 0 then -(1 / 2) * a (N - 1 - i) + (if i = 1 then (1 / 2) * a N else 0)
      - (if i = 0 then z * a N else 0)
  else (if i = j - 1 then (if j + 1 = N then 1 else 1 / 2) else 0) + (if i = j + 1 then 1 / 2 else 0)
      - (if i = j then z else 0)

lemma pk_col (N : ℕ) (a : ℕ → ℂ) (z : ℂ) (U : ℕ → ℂ) (j : ℕ) (h0 : 0 < j) (hj : j < N) :
    ∑ i ∈ range N, U i * pk N a z i j
      = U (j - 1) * (if j + 1 = N then 1 else 1 / 2) + (if j + 1 < N then U (j + 1) * (1 / 2) else 0)
        - U j * z := by
  have : ∀ i, U i * pk N a z i j
      = (if i = j - 1 then U i * (if j + 1 = N then 1 else 1 / 2) else 0)
        + (if i = j + 1 then U i * (1 / 2) else 0) - (if i = j then U i * z else 0) := by
    intro i
    rw [pk, if_neg (by omega)]
    simp only [mul_sub, mul_add, mul_ite, mul_zero, mul_one]
  simp only [this, sum_sub_distrib, sum_add_distrib, sum_ite_eq', mem_range]
  rw [if_pos (by omega), if_pos hj]

lemma pk_col_zero (N : ℕ) (hN : 2 ≤ N) (a : ℕ → ℂ) (z : ℂ) :
    ∑ i ∈ range N, tz z (N - 1 - i) * pk N a z i 0 = -(1 / 2) * ∑ k ∈ range (N + 1), a k * tz z k := by
  obtain ⟨M, rfl⟩ : ∃ M, N = M + 2 := ⟨N - 2, by omega⟩
  have : ∀ i, tz z (M + 2 - 1 - i) * pk (M + 2) a z i 0
      = -(1 / 2) * (a (M + 2 - 1 - i) * tz z (M + 2 - 1 - i))
        + (if i = 1 then (1 / 2) * a (M + 2) * tz z (M + 2 - 1 - i) else 0)
        - (if i = 0 then z * a (M + 2) * tz z (M + 2 - 1 - i) else 0) := by
    intro i
    rw [pk, if_pos rfl]
    by_cases h1 : i = 0
    · subst h1; simp; ring
    · by_cases h2 : i = 1
      · subst h2; simp; ring
      · simp only [h1, h2, if_false]; ring
  simp only [this, sum_sub_distrib, sum_add_distrib, sum_ite_eq', mem_range, ← mul_sum]
  rw [if_pos (by omega), if_pos (by omega),
    sum_range_reflect (fun k => a k * tz z k) (M + 2), sum_range_succ _ (M + 2)]
  have h1 : M + 2 - 1 - 1 = M := by omega
  have h2 : M + 2 - 1 - 0 = M + 1 := by omega
  rw [h1, h2, tz_add_two]
  ring

lemma pencil_det (N : ℕ) (hN : 2 ≤ N) (a : ℕ → ℂ) (z : ℂ) (K : Matrix (Fin N) (Fin N) ℂ)
    (hK : ∀ i j, K i j = pk N a z i j) :
    K.det = 0 ↔ ∑ k ∈ range (N + 1), a k * tz z k = 0 := by
  rw [← exists_vecMul_eq_zero_iff]
  have hvec : ∀ (u : Fin N → ℂ) (U : ℕ → ℂ), (∀ i : Fin N, u i = U i) → ∀ j : Fin N,
      (u ᵥ* K) j = ∑ i ∈ range N, U i * pk N a z i j := by
    intro u U hu j
    rw [vecMul, dotProduct, ← Fin.sum_univ_eq_sum_range (fun i => U i * pk N a z i j)]
    exact sum_congr rfl fun i _ => by rw [hu, hK]
  constructor
  · rintro ⟨u, hu0, hu⟩
    set U : ℕ → ℂ := fun k => if h : k < N then u ⟨k, h⟩ else 0 with hU
    have huU : ∀ i : Fin N, u i = U i := by intro i; simp [hU]
    have hcol : ∀ j, j < N → ∑ i ∈ range N, U i * pk N a z i j = 0 := by
      intro j hj
      rw [← hvec u U huU ⟨j, hj⟩, hu]; rfl
    have hrec : ∀ d, d < N → U (N - 1 - d) = U (N - 1) * tz z d := by
      intro d
      induction d using Nat.strong_induction_on with
      | _ d ih =>
        intro hd
        match d, ih, hd with
        | 0, _, _ => simp [tz_zero]
        | 1, _, hd =>
          have h := hcol (N - 1) (by omega)
          rw [pk_col N a z U (N - 1) (by omega) (by omega), if_pos (by omega), if_neg (by omega)] at h
          rw [tz_one]
          linear_combination h
        | d + 2, ih, hd =>
          have h := hcol (N - 1 - (d + 1)) (by omega)
          rw [pk_col N a z U _ (by omega) (by omega), if_neg (by omega), if_pos (by omega)] at h
          have e1 : N - 1 - (d + 1) - 1 = N - 1 - (d + 2) := by omega
          have e2 : N - 1 - (d + 1) + 1 = N - 1 - d := by omega
          rw [e1, e2, ih d (by omega) (by omega), ih (d + 1) (by omega) (by omega)] at h
          rw [tz_add_two]
          linear_combination 2 * h
    have hlast : U (N - 1) ≠ 0 := by
      intro h0
      apply hu0
      funext i
      have := hrec (N - 1 - i) (by omega)
      rw [h0, zero_mul, show N - 1 - (N - 1 - i.val) = i.val by omega] at this
      rw [huU, this]; rfl
    have h := hcol 0 (by omega)
    have e : ∑ i ∈ range N, U i * pk N a z i 0
        = U (N - 1) * ∑ i ∈ range N, tz z (N - 1 - i) * pk N a z i 0 := by
      rw [mul_sum]
      apply sum_congr rfl
      intro i hi
      rw [mem_range] at hi
      have := hrec (N - 1 - i) (by omega)
      rw [show N - 1 - (N - 1 - i) = i by omega] at this
      rw [this]; ring
    rw [e, pk_col_zero N hN] at h
    rcases mul_eq_zero.mp h with h | h
    · exact absurd h hlast
    · rcases mul_eq_zero.mp h with h | h
      · norm_num at h
      · exact h
  · intro hp
    refine ⟨fun i => tz z (N - 1 - i), ?_, ?_⟩
    · intro h
      have := congrFun h ⟨N - 1, by omega⟩
      simp [tz_zero] at this
    · funext j
      rw [hvec _ (fun i => tz z (N - 1 - i)) (fun i => rfl) j]
      rcases Nat.eq_zero_or_pos j.val with h0 | h0
      · rw [h0, pk_col_zero N hN, hp]; simp
      · rw [pk_col N a z _ j.val h0 j.isLt]
        by_cases h1 : j.val + 1 = N
        · rw [if_pos h1, if_neg (by omega)]
          have e1 : N - 1 - (j.val - 1) = 1 := by omega
          have e2 : N - 1 - j.val = 0 := by omega
          rw [e1, e2, tz_one, tz_zero]; simp
        · rw [if_neg h1, if_pos (by omega)]
          obtain ⟨d, hd⟩ : ∃ d, N - 1 - (j.val + 1) = d := ⟨_, rfl⟩
          have e1 : N - 1 - (j.val - 1) = d + 2 := by omega
          have e2 : N - 1 - j.val = d + 1 := by omega
          rw [hd, e1, e2, tz_add_two]
          simp; ring

end Funpy.Cheb
