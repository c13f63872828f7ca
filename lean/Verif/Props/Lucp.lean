import Verif.Lemmas.Lucp
import Mathlib.LinearAlgebra.Matrix.Block
import Mathlib.LinearAlgebra.Matrix.Determinant.Basic

/-!
# C74, C75: LU decomposition with complete pivoting; null vectors

`lucp n m tol A = (s, k)`: `s.p`, `s.q` are the returned pivot vectors, `lower s.A`, `upper s.A` the returned factors
and `k` is the number of eliminations performed before the loop ended.
-/

namespace Funpy.Props

open Funpy.Lucp

variable {K : Type*} [Field K] [LinearOrder K]

/-- The product `L U` of the returned factors (`L` has `min n m` columns). -/
def LUprod (n m : ℕ) (s : St K) (i j : ℕ) : K := ∑ l ∈ Finset.range (min n m), lower s.A i l * upper s.A l j

variable [IsStrictOrderedRing K]

/-- C74: `p` and `q` are permutations of `0..n-1` and `0..m-1`. -/
theorem C74_perm (n m : ℕ) (tol : K) (ht : 0 < tol) (A : ℕ → ℕ → K) :
    (∀ i, (lucp n m tol A).1.p i < n ↔ i < n) ∧ (∀ j, (lucp n m tol A).1.q j < m ↔ j < m) := by
  obtain ⟨-, h, -, -⟩ := lucp_inv (n := n) (m := m) A tol ht
  constructor
  · intro i
    constructor
    · intro hi
      by_contra hc
      rw [h.pout i (not_lt.mp hc)] at hi
      exact hc hi
    · intro hi
      by_contra hc
      have h1 := h.pout _ (not_lt.mp hc)
      have := (lucp n m tol A).1.p.injective h1
      omega
  · intro i
    constructor
    · intro hi
      by_contra hc
      rw [h.qout i (not_lt.mp hc)] at hi
      exact hc hi
    · intro hi
      by_contra hc
      have h1 := h.qout _ (not_lt.mp hc)
      have := (lucp n m tol A).1.q.injective h1
      omega

omit [IsStrictOrderedRing K] in
theorem LUprod_split {n m : ℕ} (s : St K) (k : ℕ) (hk : k ≤ min n m) (i j : ℕ) :
    LUprod n m s i j = (∑ l ∈ Finset.range k, lower s.A i l * upper s.A l j)
      + ((∑ l ∈ Finset.Ico k (min n m), if l < i then s.A i l * upper s.A l j else 0)
        + if k ≤ i ∧ i < min n m ∧ i ≤ j then s.A i j else 0) := by
  rw [LUprod, ← Finset.sum_range_add_sum_Ico _ hk]
  congr 1
  have : ∀ l ∈ Finset.Ico k (min n m), lower s.A i l * upper s.A l j
      = (if l < i then s.A i l * upper s.A l j else 0) + if l = i then (if i ≤ j then s.A i j else 0) else 0 := by
    intro l _
    simp only [lower, upper]
    rcases lt_trichotomy l i with h | rfl | h
    · rw [if_pos h, if_pos h, if_neg (by omega : ¬ l = i)]; ring
    · simp
    · rw [if_neg (by omega : ¬ l < i), if_neg (by omega : ¬ l = i), zero_mul, if_neg (by omega : ¬ l < i), if_neg (by omega : ¬ l = i)]; ring
  rw [Finset.sum_congr rfl this, Finset.sum_add_distrib, Finset.sum_ite_eq']
  congr 1
  by_cases h1 : i ∈ Finset.Ico k (min n m)
  · rw [if_pos h1]
    have := Finset.mem_Ico.mp h1
    by_cases h2 : i ≤ j
    · rw [if_pos h2, if_pos ⟨this.1, this.2, h2⟩]
    · rw [if_neg h2, if_neg (by tauto)]
  · rw [if_neg h1, if_neg]
    rintro ⟨a, b, -⟩
    exact h1 (Finset.mem_Ico.mpr ⟨a, b⟩)

/-- C74: if no pivot fell below the tolerance, `L U` is exactly `A` with rows and columns permuted by `p`, `q`. -/
theorem C74_exact (n m : ℕ) (tol : K) (ht : 0 < tol) (A : ℕ → ℕ → K)
    (hk : (lucp n m tol A).2 = min (n - 1) m) (i j : ℕ) (hi : i < n) (hj : j < m) :
    LUprod n m (lucp n m tol A).1 i j = A ((lucp n m tol A).1.p i) ((lucp n m tol A).1.q j) := by
  obtain ⟨h1, h, -, -⟩ := lucp_inv (n := n) (m := m) A tol ht
  rw [h.eq i j hi hj, LUprod_split _ (lucp n m tol A).2 (by omega)]
  congr 1
  rw [hk]
  have hz : (∑ l ∈ Finset.Ico (min (n - 1) m) (min n m),
      if l < i then (lucp n m tol A).1.A i l * upper (lucp n m tol A).1.A l j else 0) = 0 := by
    apply Finset.sum_eq_zero
    intro l hl
    have := Finset.mem_Ico.mp hl
    rw [if_neg (by omega)]
  rw [hz, zero_add]
  by_cases hc : min (n - 1) m ≤ i ∧ min (n - 1) m ≤ j
  · rw [if_pos hc, if_pos ⟨hc.1, by omega, by omega⟩]
  · rw [if_neg hc, if_neg]
    rintro ⟨a, b, c⟩
    exact hc ⟨a, by omega⟩

/-- C74: in every case `L U` is `A` with permuted rows and columns up to an entrywise error of at most
`tol + min(n, m) tol²`. -/
theorem C74_bound (n m : ℕ) (tol : K) (ht : 0 < tol) (A : ℕ → ℕ → K) (i j : ℕ) (hi : i < n) (hj : j < m) :
    |LUprod n m (lucp n m tol A).1 i j - A ((lucp n m tol A).1.p i) ((lucp n m tol A).1.q j)|
      ≤ tol + (min n m : ℕ) * tol ^ 2 := by
  have hnn : 0 ≤ tol + (min n m : ℕ) * tol ^ 2 := by positivity
  obtain ⟨h1, h, -, h4⟩ := lucp_inv (n := n) (m := m) A tol ht
  rcases h4 with hk | hsmall
  · rw [C74_exact n m tol ht A hk i j hi hj, sub_self, abs_zero]; exact hnn
  · set r := lucp n m tol A
    set k := r.2
    set s := r.1
    rw [h.eq i j hi hj, LUprod_split s k (by omega), add_sub_add_left_eq_sub]
    by_cases hik : k ≤ i
    · by_cases hjk : k ≤ j
      · rw [if_pos (⟨hik, hjk⟩ : k ≤ i ∧ k ≤ j)]
        have hS : |∑ l ∈ Finset.Ico k (min n m), if l < i then s.A i l * upper s.A l j else 0| ≤ (min n m : ℕ) * tol ^ 2 := by
          refine le_trans (Finset.abs_sum_le_sum_abs _ _) ?_
          have hb : ∀ l ∈ Finset.Ico k (min n m), |if l < i then s.A i l * upper s.A l j else 0| ≤ tol ^ 2 := by
            intro l hl
            have hl := Finset.mem_Ico.mp hl
            split_ifs with h5
            · rw [abs_mul, pow_two]
              have a1 : |s.A i l| ≤ tol := (hsmall i l hik hi hl.1 (by omega)).le
              have a2 : |upper s.A l j| ≤ tol := by
                simp only [upper]
                split_ifs
                · exact (hsmall l j hl.1 (by omega) hjk hj).le
                · rw [abs_zero]; exact ht.le
              exact mul_le_mul a1 a2 (abs_nonneg _) ht.le
            · rw [abs_zero]; positivity
          refine le_trans (Finset.sum_le_sum hb) ?_
          rw [Finset.sum_const, nsmul_eq_mul, Nat.card_Ico]
          apply mul_le_mul_of_nonneg_right _ (by positivity)
          exact_mod_cast Nat.sub_le _ _
        rcases Nat.lt_or_ge j i with hij | hij
        · rw [if_neg (by omega : ¬ (k ≤ i ∧ i < min n m ∧ i ≤ j)), add_zero]
          refine le_trans (abs_sub _ _) ?_
          have := (hsmall i j hik hi hjk hj).le
          linarith
        · rw [if_pos (⟨hik, by omega, hij⟩ : k ≤ i ∧ i < min n m ∧ i ≤ j), add_sub_cancel_right]
          linarith
      · rw [if_neg (by omega), if_neg (by omega)]
        have : (∑ l ∈ Finset.Ico k (min n m), if l < i then s.A i l * upper s.A l j else 0) = 0 := by
          apply Finset.sum_eq_zero
          intro l hl
          have := Finset.mem_Ico.mp hl
          have hu : upper s.A l j = 0 := by simp only [upper]; rw [if_neg (by omega)]
          rw [hu]; simp
        rw [this]; simpa using hnn
    · rw [if_neg (by omega), if_neg (by omega)]
      have : (∑ l ∈ Finset.Ico k (min n m), if l < i then s.A i l * upper s.A l j else 0) = 0 := by
        apply Finset.sum_eq_zero
        intro l hl
        have := Finset.mem_Ico.mp hl
        rw [if_neg (by omega)]
      rw [this]; simpa using hnn

/-- C74: complete pivoting keeps every multiplier of a completed elimination at most one in modulus. -/
theorem C74_multipliers (n m : ℕ) (tol : K) (ht : 0 < tol) (A : ℕ → ℕ → K) (i l : ℕ) (hi : i < n)
    (hl : l < (lucp n m tol A).2) : |lower (lucp n m tol A).1.A i l| ≤ 1 := by
  obtain ⟨-, h, -, -⟩ := lucp_inv (n := n) (m := m) A tol ht
  simp only [lower]
  split_ifs with h1 h2
  · exact h.mult i l hl h1 hi
  · simp
  · simp

/-! ## C75: null_vector -/

/-- The vector before the (wrong) permutation is applied. -/
def phiHat (n : ℕ) (tol : K) (A : ℕ → ℕ → K) : ℕ → K :=
  let U := upper (lucp n n tol A).1.A
  fun i => if i < n - 1 then backsub (n - 1) U (fun i => U i (n - 1)) i else -1

/-- The determinant of `A` is, up to sign, the product of the pivots. -/
theorem last_pivot_zero (n : ℕ) (hn : 1 ≤ n) (tol : K) (ht : 0 < tol) (A : ℕ → ℕ → K)
    (hk : (lucp n n tol A).2 = n - 1) (hdet : (Matrix.of fun i j : Fin n => A i j).det = 0) :
    (lucp n n tol A).1.A (n - 1) (n - 1) = 0 := by
  obtain ⟨-, h, h3, -⟩ := lucp_inv (n := n) (m := n) A tol ht
  obtain ⟨hp, hq⟩ := C74_perm n n tol ht A
  set s := (lucp n n tol A).1 with hs
  let p' : Equiv.Perm (Fin n) := ⟨fun i => ⟨s.p i, (hp i).mpr i.isLt⟩,
    fun i => ⟨s.p.symm i, (hp _).mp (by rw [Equiv.apply_symm_apply]; exact i.isLt)⟩,
    fun i => by simp, fun i => by simp⟩
  let q' : Equiv.Perm (Fin n) := ⟨fun i => ⟨s.q i, (hq i).mpr i.isLt⟩,
    fun i => ⟨s.q.symm i, (hq _).mp (by rw [Equiv.apply_symm_apply]; exact i.isLt)⟩,
    fun i => by simp, fun i => by simp⟩
  let L : Matrix (Fin n) (Fin n) K := Matrix.of fun i l => lower s.A i l
  let U : Matrix (Fin n) (Fin n) K := Matrix.of fun l j => upper s.A l j
  have hLU : L * U = ((Matrix.of fun i j : Fin n => A i j).submatrix p' id).submatrix id q' := by
    ext i j
    have := C74_exact n n tol ht A (by rw [hk]; omega) i j i.isLt j.isLt
    rw [Matrix.mul_apply]
    have e : ∑ l : Fin n, L i l * U l j = LUprod n n s i j := by
      rw [LUprod, min_self, ← Fin.sum_univ_eq_sum_range (fun l => lower s.A i l * upper s.A l j) n]
      rfl
    rw [e, this]
    rfl
  have hL : L.det = 1 := by
    have : ∀ i j : Fin n, i < j → L i j = 0 := by
      intro i j hij
      show lower s.A i j = 0
      have : i.val < j.val := hij
      simp only [lower]; rw [if_neg (by omega), if_neg (by omega)]
    rw [Matrix.det_of_lowerTriangular L this]
    apply Finset.prod_eq_one
    intro i _
    show lower s.A i i = 1
    simp [lower]
  have hU : U.det = ∏ i : Fin n, s.A i i := by
    have : ∀ i j : Fin n, j < i → U i j = 0 := by
      intro i j hij
      show upper s.A i j = 0
      have : j.val < i.val := hij
      simp only [upper]; rw [if_neg (by omega)]
    rw [Matrix.det_of_upperTriangular this]
    apply Finset.prod_congr rfl
    intro i _
    show upper s.A i i = _
    simp [upper]
  have h0 : (∏ i : Fin n, s.A i i) = 0 := by
    have := congrArg Matrix.det hLU
    rw [Matrix.det_mul, hL, hU, Matrix.det_permute', Matrix.det_permute, hdet] at this
    simpa using this
  obtain ⟨i, -, hi⟩ := Finset.prod_eq_zero_iff.mp h0
  rcases Nat.lt_or_ge i.val (n - 1) with hlt | hge
  · have := h3 i.val (by rw [hk]; exact hlt)
    rw [hi, abs_zero] at this
    exact absurd ht (not_lt.mpr this)
  · have : i.val = n - 1 := by omega
    rw [← this]; exact hi

/-- C75: with the column permutation applied the right way round (`phi[q[j]] = phiHat[j]`) the construction gives a null
vector of every singular matrix whose other pivots exceed the tolerance. -/
theorem C75_hat (n : ℕ) (hn : 1 ≤ n) (tol : K) (ht : 0 < tol) (A : ℕ → ℕ → K)
    (hk : (lucp n n tol A).2 = n - 1) (hdet : (Matrix.of fun i j : Fin n => A i j).det = 0) (i : ℕ) (hi : i < n) :
    ∑ j ∈ Finset.range n, A i ((lucp n n tol A).1.q j) * phiHat n tol A j = 0 := by
  have hlast := last_pivot_zero n hn tol ht A hk hdet
  obtain ⟨-, h, h3, -⟩ := lucp_inv (n := n) (m := n) A tol ht
  obtain ⟨hp, -⟩ := C74_perm n n tol ht A
  set s := (lucp n n tol A).1 with hs
  obtain ⟨i', rfl⟩ : ∃ i', i = s.p i' := ⟨s.p.symm i, by simp⟩
  have hi' : i' < n := (hp i').mp hi
  -- `U phiHat = 0`
  have hU : ∀ l < n, ∑ j ∈ Finset.range n, upper s.A l j * phiHat n tol A j = 0 := by
    intro l hl
    have hsucc : ∀ g : ℕ → K, ∑ j ∈ Finset.range n, g j = (∑ j ∈ Finset.range (n - 1), g j) + g (n - 1) := by
      intro g
      conv_lhs => rw [show n = (n - 1) + 1 by omega, Finset.sum_range_succ]
    rw [hsucc]
    have hph : phiHat n tol A (n - 1) = -1 := by simp [phiHat]
    rw [hph]
    rcases Nat.lt_or_ge l (n - 1) with hl1 | hl1
    · have hd : ∀ i < n - 1, upper s.A i i ≠ 0 := by
        intro i hi e0
        have := h3 i (by rw [hk]; exact hi)
        have e1 : upper s.A i i = s.A i i := by simp [upper]
        rw [← e1, e0, abs_zero] at this
        exact absurd ht (not_lt.mpr this)
      have hu : ∀ i j, j < i → upper s.A i j = 0 := by
        intro i j hij; simp only [upper]; rw [if_neg (by omega)]
      have hb := backsub_spec (n - 1) (upper s.A) (fun i => upper s.A i (n - 1)) hd hu l hl1
      have : ∑ j ∈ Finset.range (n - 1), upper s.A l j * phiHat n tol A j = upper s.A l (n - 1) := by
        rw [← hb]
        apply Finset.sum_congr rfl
        intro j hj
        have hj : j < n - 1 := by simpa using hj
        simp only [phiHat]
        rw [if_pos hj]
      rw [this]; ring
    · have hl2 : l = n - 1 := by omega
      subst hl2
      rw [Finset.sum_eq_zero (fun j hj => by
        have hj : j < n - 1 := by simpa using hj
        have : upper s.A (n - 1) j = 0 := by simp only [upper]; rw [if_neg (by omega)]
        rw [this]; ring)]
      have : upper s.A (n - 1) (n - 1) = 0 := by simp [upper, hlast]
      rw [this]; ring
  have : ∀ j ∈ Finset.range n, A (s.p i') (s.q j) * phiHat n tol A j
      = ∑ l ∈ Finset.range n, lower s.A i' l * (upper s.A l j * phiHat n tol A j) := by
    intro j hj
    have hj : j < n := by simpa using hj
    rw [← C74_exact n n tol ht A (by rw [hk]; omega) i' j hi' hj, LUprod, min_self, Finset.sum_mul]
    exact Finset.sum_congr rfl fun l _ => by rw [mul_assoc]
  rw [Finset.sum_congr rfl this, Finset.sum_comm]
  apply Finset.sum_eq_zero
  intro l hl
  rw [← Finset.mul_sum, hU l (by simpa using hl), mul_zero]

/-- C75 (partial): `null_vector(A)` is a nonzero null vector of a singular matrix whose other pivots exceed the tolerance,
when the column permutation is an involution.  Missing: other column permutations, where it is false
(`C75_fails`): `phi[q]` applies the permutation instead of its inverse. -/
theorem C75_null_partial (n : ℕ) (hn : 1 ≤ n) (tol : K) (ht : 0 < tol) (A : ℕ → ℕ → K)
    (hk : (lucp n n tol A).2 = n - 1) (hdet : (Matrix.of fun i j : Fin n => A i j).det = 0)
    (hinv : ∀ j, (lucp n n tol A).1.q ((lucp n n tol A).1.q j) = j) :
    (∀ i < n, ∑ j ∈ Finset.range n, A i j * nullVector n tol A j = 0) ∧ ∃ j < n, nullVector n tol A j ≠ 0 := by
  obtain ⟨-, hq⟩ := C74_perm n n tol ht A
  have hv : ∀ j, nullVector n tol A j = phiHat n tol A ((lucp n n tol A).1.q j) := fun j => rfl
  constructor
  · intro i hi
    rw [← C75_hat n hn tol ht A hk hdet i hi]
    refine Finset.sum_nbij' (lucp n n tol A).1.q (lucp n n tol A).1.q ?_ ?_ ?_ ?_ ?_
    · intro j hj; simpa using (hq j).mpr (by simpa using hj)
    · intro j hj; simpa using (hq j).mpr (by simpa using hj)
    · intro j _; exact hinv j
    · intro j _; exact hinv j
    · intro j _; rw [hinv j, hv]
  · refine ⟨(lucp n n tol A).1.q (n - 1), (hq _).mpr (by omega), ?_⟩
    rw [hv, hinv]
    simp [phiHat]

/-- The matrix `[[0,2,0],[1/2,0,1],[0,0,0]]`. -/
def badA (i j : ℕ) : ℚ := if i = 0 ∧ j = 1 then 2 else if i = 1 ∧ j = 0 then 1/2 else if i = 1 ∧ j = 2 then 1 else 0

/-- C75: the property is false: for `badA` (rank two) the returned vector is `(1/2, -1, 0)`, which is not a null vector. -/
theorem C75_fails : (lucp 3 3 (1/100) badA).2 = 2 ∧ (Matrix.of fun i j : Fin 3 => badA i j).det = 0 ∧
    (∑ j ∈ Finset.range 3, badA 0 j * nullVector 3 (1/100) badA j) = -2 := by
  refine ⟨?_, ?_, ?_⟩
  · decide +kernel
  · rw [Matrix.det_fin_three]; simp [badA]
  · decide +kernel

/-- A singular matrix meeting the hypotheses of `C75_null_partial` (one column exchange). -/
def goodA (i j : ℕ) : ℚ := if i = 0 ∧ j = 1 then 2 else if i = 0 ∧ j = 0 then 1 else if i = 1 ∧ j = 1 then 4
  else if i = 1 ∧ j = 0 then 2 else 0

example : (lucp 2 2 (1/100) goodA).2 = 1 ∧ (Matrix.of fun i j : Fin 2 => goodA i j).det = 0 ∧
    (lucp 2 2 (1/100) goodA).1.q = Equiv.swap 0 1 ∧
    (∑ j ∈ Finset.range 2, goodA 0 j * nullVector 2 (1/100) goodA j) = 0 := by
  have hp : pivot 2 2 0 goodA = (1, 1) := by decide +kernel
  have h2 : (lucp 2 2 (1/100) goodA).2 = 1 := by decide +kernel
  refine ⟨h2, ?_, ?_, ?_⟩
  · rw [Matrix.det_fin_two]; simp [goodA]; norm_num
  · have : (1/100 : ℚ) ≤ |goodA 1 1| := by decide +kernel
    have h' : (100⁻¹ : ℚ) ≤ |goodA 1 1| := by rw [one_div] at this; exact this
    simp [lucp, loop, exchange, hp, h']
  · decide +kernel

/-- A wide example for C74. -/
example : (lucp 2 3 (1/100) (fun i j => ((i : ℚ) + 1) * (j + 1) + i)).2 = min (2 - 1) 3 := by decide +kernel

end Funpy.Props
