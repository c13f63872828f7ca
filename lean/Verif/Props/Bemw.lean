import Verif.Lemmas.Bemw
import Mathlib.LinearAlgebra.Matrix.ToLinearEquiv
import Mathlib.Algebra.Order.BigOperators.Ring.Finset
import Mathlib.Data.Real.Basic
import Mathlib.Tactic.Linarith
import Mathlib.Tactic.NormNum
import Mathlib.LinearAlgebra.Matrix.NonsingularInverse

/-!
# C68: the multiply bordered solver `BEMW`
-/

namespace Funpy.Props

open Funpy.Bemw

variable {K : Type*} [Field K]

/-- The leading block with `k` borders, a matrix of size `n + k`. -/
def leadingBlock (D : Data K) (A : ℕ → ℕ → K) (k : ℕ) : Matrix (Fin (D.n + k)) (Fin (D.n + k)) K :=
  Matrix.of fun i j => mat D A i j

/-- The solver object inverts `A` and `Aᵀ`. -/
def SolverOk (D : Data K) (A : ℕ → ℕ → K) : Prop :=
  (∀ f, ∀ i < D.n, ∑ l ∈ Finset.range D.n, A i l * D.solve f l = f i) ∧
  (∀ f, ∀ i < D.n, ∑ l ∈ Finset.range D.n, A l i * D.solveAdj f l = f i)

/-- All bordered blocks are nonsingular (the method solves with each of them). -/
def BlocksOk (D : Data K) (A : ℕ → ℕ → K) : Prop := ∀ k, 1 ≤ k → k ≤ D.m → (leadingBlock D A k).det ≠ 0

theorem block_inj (D : Data K) (A : ℕ → ℕ → K) (k : ℕ) (h : (leadingBlock D A k).det ≠ 0) (x : ℕ → K)
    (hx : ∀ i < D.n + k, ∑ l ∈ Finset.range (D.n + k), mat D A i l * x l = 0) : ∀ i < D.n + k, x i = 0 := by
  by_contra hc
  push Not at hc
  obtain ⟨i, hi, hxi⟩ := hc
  apply h
  apply Matrix.exists_mulVec_eq_zero_iff.mp
  refine ⟨fun i => x i, fun e => hxi (congrFun e ⟨i, hi⟩), ?_⟩
  funext i
  have := hx i i.2
  rw [Finset.sum_range] at this
  simpa [Matrix.mulVec, dotProduct, leadingBlock] using this

theorem mat_b (D : Data K) (A : ℕ → ℕ → K) (k l : ℕ) (hl : l < D.n + k) : mat D A (D.n + k) l = D.b k l := by
  unfold mat
  rw [if_neg (by omega), if_neg (by omega), if_pos hl, show D.n + k - D.n = k by omega]

theorem mat_c (D : Data K) (A : ℕ → ℕ → K) (k i : ℕ) (hi : i < D.n + k) : mat D A i (D.n + k) = D.c k i := by
  unfold mat
  rw [if_neg (by omega), if_pos hi, show D.n + k - D.n = k by omega]

theorem mat_d (D : Data K) (A : ℕ → ℕ → K) (k : ℕ) : mat D A (D.n + k) (D.n + k) = D.d k := by
  unfold mat
  rw [if_neg (by omega), if_neg (by omega), if_neg (by omega), show D.n + k - D.n = k by omega]

/-- What the storage promises for border `k`. -/
structure Good (D : Data K) (A : ℕ → ℕ → K) (st : ℕ → ℕ → K) (k : ℕ) : Prop where
  v : ∀ i < D.n + k, ∑ l ∈ Finset.range (D.n + k), mat D A i l * stV D st k l = D.c k i
  w : ∀ i < D.n + k, ∑ l ∈ Finset.range (D.n + k), mat D A l i * stW st k l = D.b k i
  delta : stDelta st k = D.d k - dot (D.n + k) (D.b k) (stV D st k)
  eps : stEps st k = D.d k - dot (D.n + k) (D.c k) (stW st k)

theorem delta_ne0 (D : Data K) (A : ℕ → ℕ → K) (k : ℕ) (hB : (leadingBlock D A (k + 1)).det ≠ 0) (v : ℕ → K)
    (hv : ∀ i < D.n + k, ∑ l ∈ Finset.range (D.n + k), mat D A i l * v l = D.c k i) :
    D.d k - dot (D.n + k) (D.b k) v ≠ 0 := by
  intro h0
  have := block_inj D A (k + 1) hB (fun i => if i < D.n + k then v i else -1) (by
    intro i hi
    rw [← Nat.add_assoc, Finset.sum_range_succ, if_neg (by omega)]
    have e : ∑ l ∈ Finset.range (D.n + k), mat D A i l * (if l < D.n + k then v l else -1) =
        ∑ l ∈ Finset.range (D.n + k), mat D A i l * v l := by
      apply Finset.sum_congr rfl
      intro l hl
      rw [if_pos (by simpa using hl)]
    rw [e]
    by_cases h : i < D.n + k
    · rw [hv i h, mat_c D A k i h]; ring
    · have : i = D.n + k := by omega
      subst this
      rw [mat_d]
      have e2 : ∑ l ∈ Finset.range (D.n + k), mat D A (D.n + k) l * v l = dot (D.n + k) (D.b k) v := by
        unfold dot
        apply Finset.sum_congr rfl
        intro l hl
        rw [mat_b D A k l (by simpa using hl)]
      rw [e2]
      linear_combination -h0) (D.n + k) (by omega)
  rw [if_neg (by omega)] at this
  exact one_ne_zero (neg_eq_zero.mp this)

theorem dot_adj (D : Data K) (A : ℕ → ℕ → K) (k : ℕ) (v w : ℕ → K)
    (hv : ∀ i < D.n + k, ∑ l ∈ Finset.range (D.n + k), mat D A i l * v l = D.c k i)
    (hw : ∀ i < D.n + k, ∑ l ∈ Finset.range (D.n + k), mat D A l i * w l = D.b k i) :
    dot (D.n + k) (D.c k) w = dot (D.n + k) (D.b k) v := by
  unfold dot
  have e1 : ∑ i ∈ Finset.range (D.n + k), D.c k i * w i =
      ∑ i ∈ Finset.range (D.n + k), ∑ l ∈ Finset.range (D.n + k), mat D A i l * v l * w i := by
    apply Finset.sum_congr rfl
    intro i hi
    rw [← hv i (by simpa using hi), Finset.sum_mul]
  have e2 : ∑ i ∈ Finset.range (D.n + k), D.b k i * v i =
      ∑ i ∈ Finset.range (D.n + k), ∑ l ∈ Finset.range (D.n + k), mat D A l i * w l * v i := by
    apply Finset.sum_congr rfl
    intro i hi
    rw [← hw i (by simpa using hi), Finset.sum_mul]
  rw [e1, e2, Finset.sum_comm]
  apply Finset.sum_congr rfl; intro i _
  apply Finset.sum_congr rfl; intro l _
  ring

theorem Good.delta_ne {D : Data K} {A st k} (h : Good D A st k) (hB : (leadingBlock D A (k + 1)).det ≠ 0) :
    stDelta st k ≠ 0 := by
  rw [h.delta]; exact delta_ne0 D A k hB _ h.v

theorem Good.eps_eq {D : Data K} {A : ℕ → ℕ → K} {st k} (h : Good D A st k) : stEps st k = stDelta st k := by
  rw [h.delta, h.eps, dot_adj D A k _ _ h.v h.w]

theorem solveDetail_solves (D : Data K) (A : ℕ → ℕ → K) (hs : SolverOk D A) (hB : BlocksOk D A) (st : ℕ → ℕ → K) (j : ℕ) (hj : j ≤ D.m)
    (hg : ∀ k < j, Good D A st k) (y0 x : ℕ → K) : ∀ i < D.n + j,
    ∑ l ∈ Finset.range (D.n + j), mat D A i l * solveDetail D st y0 j x l = x i := by
  refine gen_solves (mat D A) D.n (stW st) (stEps st) D.c D.d D.solve (stV D st) (stDelta st) D.b ?_ j ?_ ?_ ?_ ?_ ?_ ?_ y0 x
  · intro f i hi
    rw [← hs.1 f i hi]
    apply Finset.sum_congr rfl
    intro l hl
    unfold mat
    rw [if_pos ⟨hi, by simpa using hl⟩]
  · intro k _ l hl; exact mat_b D A k l hl
  · intro k _ l hl; exact mat_c D A k l hl
  · intro k _; exact mat_d D A k
  · intro k hk; exact (hg k hk).v
  · intro k hk; exact (hg k hk).delta
  · intro k hk; exact (hg k hk).delta_ne (hB (k + 1) (by omega) (by omega))

theorem solveAdjDetail_solves (D : Data K) (A : ℕ → ℕ → K) (hs : SolverOk D A) (hB : BlocksOk D A) (st : ℕ → ℕ → K) (j : ℕ) (hj : j ≤ D.m)
    (hg : ∀ k < j, Good D A st k) (y0 x : ℕ → K) : ∀ i < D.n + j,
    ∑ l ∈ Finset.range (D.n + j), mat D A l i * solveAdjDetail D st y0 j x l = x i := by
  refine gen_solves (fun i l => mat D A l i) D.n (stV D st) (stDelta st) D.b D.d D.solveAdj (stW st) (stEps st) D.c ?_ j ?_ ?_ ?_ ?_ ?_ ?_ y0 x
  · intro f i hi
    rw [← hs.2 f i hi]
    apply Finset.sum_congr rfl
    intro l hl
    unfold mat
    rw [if_pos ⟨by simpa using hl, hi⟩]
  · intro k _ l hl; exact mat_c D A k l hl
  · intro k _ l hl; exact mat_b D A k l hl
  · intro k _; exact mat_d D A k
  · intro k hk; exact (hg k hk).w
  · intro k hk; exact (hg k hk).eps
  · intro k hk; rw [(hg k hk).eps_eq]; exact (hg k hk).delta_ne (hB (k + 1) (by omega) (by omega))

theorem Good.congr {D : Data K} {A : ℕ → ℕ → K} {st st' k} (h : Good D A st k)
    (hv : ∀ i < D.n + k, stV D st' k i = stV D st k i) (hw : ∀ i < D.n + k, stW st' k i = stW st k i)
    (h0 : st' k 0 = st k 0) (h1 : st' k 1 = st k 1) : Good D A st' k := by
  have sv : ∀ f : ℕ → K, ∑ l ∈ Finset.range (D.n + k), f l * stV D st' k l = ∑ l ∈ Finset.range (D.n + k), f l * stV D st k l :=
    fun f => Finset.sum_congr rfl fun l hl => by rw [hv l (by simpa using hl)]
  have sw : ∀ f : ℕ → K, ∑ l ∈ Finset.range (D.n + k), f l * stW st' k l = ∑ l ∈ Finset.range (D.n + k), f l * stW st k l :=
    fun f => Finset.sum_congr rfl fun l hl => by rw [hw l (by simpa using hl)]
  refine ⟨fun i hi => by rw [sv]; exact h.v i hi, fun i hi => by rw [sw (fun l => mat D A l i)]; exact h.w i hi, ?_, ?_⟩
  · unfold stDelta dot; rw [h0, sv]; exact h.delta
  · unfold stEps dot; rw [h1, sw]; exact h.eps

theorem prepareStep_good (D : Data K) (A : ℕ → ℕ → K) (hs : SolverOk D A) (hB : BlocksOk D A) (y0 : ℕ → K)
    (st : ℕ → ℕ → K) (k : ℕ) (hk : k < D.m) (hg : ∀ k' < k, Good D A st k') :
    ∀ k' < k + 1, Good D A (prepareStep D y0 st k) k' := by
  unfold prepareStep
  simp only []
  set vk := solveDetail D st y0 k (D.c k) with hvk
  set r := D.m - k - 1 with hr
  set st1 := setAt st r (fun q => if 2 + r + D.n ≤ q then vk (q - (2 + r + D.n)) else st r q) with hst1
  set st2 := setAt st1 k (setAt (st1 k) 0 (D.d k - dot (D.n + k) (D.b k) vk)) with hst2
  set wk := solveAdjDetail D st2 y0 k (D.b k) with hwk
  set st3 := setAt st2 k (fun q => if 2 ≤ q ∧ q < D.n + k + 2 then wk (q - 2) else st2 k q) with hst3
  set st4 := setAt st3 k (setAt (st3 k) 1 (D.d k - dot (D.n + k) (D.c k) wk)) with hst4
  have hv := solveDetail_solves D A hs hB st k (by omega) hg y0 (D.c k)
  rw [← hvk] at hv
  -- lookups
  have e1 : ∀ k' q, st1 k' q = if k' = r ∧ 2 + r + D.n ≤ q then vk (q - (2 + r + D.n)) else st k' q := by
    intro k' q
    rw [hst1]; unfold setAt
    by_cases h : k' = r
    · subst h; simp
    · simp [h]
  have e2 : ∀ k' q, st2 k' q = if k' = k ∧ q = 0 then D.d k - dot (D.n + k) (D.b k) vk else st1 k' q := by
    intro k' q
    rw [hst2]; unfold setAt
    by_cases h : k' = k
    · subst h; simp
    · simp [h]
  have e3 : ∀ k' q, st3 k' q = if k' = k ∧ 2 ≤ q ∧ q < D.n + k + 2 then wk (q - 2) else st2 k' q := by
    intro k' q
    rw [hst3]; unfold setAt
    by_cases h : k' = k
    · subst h; simp
    · simp [h]
  have e4 : ∀ k' q, st4 k' q = if k' = k ∧ q = 1 then D.d k - dot (D.n + k) (D.c k) wk else st3 k' q := by
    intro k' q
    rw [hst4]; unfold setAt
    by_cases h : k' = k
    · subst h; simp
    · simp [h]
  have hg2 : ∀ k' < k, Good D A st2 k' := by
    intro k' hk'
    refine (hg k' hk').congr ?_ ?_ ?_ ?_
    · intro i hi
      show st2 (D.m - k' - 1) _ = st (D.m - k' - 1) _
      rw [e2, if_neg (by omega), e1, if_neg (by omega)]
    · intro i hi
      show st2 k' _ = st k' _
      rw [e2, if_neg (by omega), e1, if_neg (by omega)]
    · rw [e2, if_neg (by omega), e1, if_neg (by omega)]
    · rw [e2, if_neg (by omega), e1, if_neg (by omega)]
  have hw := solveAdjDetail_solves D A hs hB st2 k (by omega) hg2 y0 (D.b k)
  rw [← hwk] at hw
  intro k' hk'
  by_cases hlt : k' < k
  · refine (hg2 k' hlt).congr ?_ ?_ ?_ ?_
    · intro i hi
      show st4 (D.m - k' - 1) _ = st2 (D.m - k' - 1) _
      rw [e4, if_neg (by omega), e3, if_neg (by omega)]
    · intro i hi
      show st4 k' _ = st2 k' _
      rw [e4, if_neg (by omega), e3, if_neg (by omega)]
    · rw [e4, if_neg (by omega), e3, if_neg (by omega)]
    · rw [e4, if_neg (by omega), e3, if_neg (by omega)]
  · have : k' = k := by omega
    subst this
    have hV : ∀ i, stV D st4 k' i = vk i := by
      intro i
      show st4 (D.m - k' - 1) (2 + (D.m - k' - 1) + D.n + i) = _
      rw [← hr, e4, if_neg (by omega), e3, if_neg (by omega), e2, if_neg (by omega), e1, if_pos (by omega)]
      congr 1; omega
    have hW : ∀ i < D.n + k', stW st4 k' i = wk i := by
      intro i hi
      show st4 k' (2 + i) = _
      rw [e4, if_neg (by omega), e3, if_pos (by omega)]
      congr 1; omega
    have sw : ∀ f : ℕ → K, ∑ l ∈ Finset.range (D.n + k'), f l * stW st4 k' l = ∑ l ∈ Finset.range (D.n + k'), f l * wk l :=
      fun f => Finset.sum_congr rfl fun l hl => by rw [hW l (by simpa using hl)]
    refine ⟨?_, ?_, ?_, ?_⟩
    · intro i hi
      simp only [hV]
      exact hv i hi
    · intro i hi
      rw [sw (fun l => mat D A l i)]
      exact hw i hi
    · show st4 k' 0 = _
      rw [e4, if_neg (by omega), e3, if_neg (by omega), e2, if_pos ⟨rfl, rfl⟩]
      unfold dot; simp only [hV]
    · show st4 k' 1 = _
      rw [e4, if_pos ⟨rfl, rfl⟩]
      unfold dot; rw [sw]

theorem prepare_good (D : Data K) (A : ℕ → ℕ → K) (hs : SolverOk D A) (hB : BlocksOk D A) (y0 : ℕ → K)
    (st0 : ℕ → ℕ → K) : ∀ k < D.m, Good D A (prepare D y0 st0) k := by
  have : ∀ j, j ≤ D.m → ∀ k < j, Good D A ((List.range j).foldl (prepareStep D y0) st0) k := by
    intro j
    induction j with
    | zero => intro _ k hk; omega
    | succ j ih =>
      intro hj
      rw [List.range_succ, List.foldl_append]
      exact prepareStep_good D A hs hB y0 _ j (by omega) (ih (by omega))
  exact this D.m le_rfl

/-- **C68** `BEMW.solve(f)` returns a solution of the multiply bordered system `BEMW.mat · x = f`, whatever the
uninitialised work arrays contain, provided every bordered block is nonsingular. -/
theorem C68_solve (D : Data K) (A : ℕ → ℕ → K) (hs : SolverOk D A) (hB : BlocksOk D A) (y0 : ℕ → K)
    (st0 : ℕ → ℕ → K) (f : ℕ → K) : ∀ i < D.n + D.m,
    ∑ l ∈ Finset.range (D.n + D.m), mat D A i l * solve D y0 st0 f l = f i :=
  solveDetail_solves D A hs hB _ D.m le_rfl (prepare_good D A hs hB y0 st0) y0 f

/-- **C68** `BEMW.solve_adj(f)` solves the transposed system. -/
theorem C68_solve_adj (D : Data K) (A : ℕ → ℕ → K) (hs : SolverOk D A) (hB : BlocksOk D A) (y0 : ℕ → K)
    (st0 : ℕ → ℕ → K) (f : ℕ → K) : ∀ i < D.n + D.m,
    ∑ l ∈ Finset.range (D.n + D.m), mat D A l i * solveAdj D y0 st0 f l = f i :=
  solveAdjDetail_solves D A hs hB _ D.m le_rfl (prepare_good D A hs hB y0 st0) y0 f

/-- **C68** The pivots divided by are never zero (both equal the Schur complement of the border). -/
theorem C68_pivots (D : Data K) (A : ℕ → ℕ → K) (hs : SolverOk D A) (hB : BlocksOk D A) (y0 : ℕ → K)
    (st0 : ℕ → ℕ → K) : ∀ k < D.m, stDelta (prepare D y0 st0) k ≠ 0 ∧ stEps (prepare D y0 st0) k ≠ 0 := by
  intro k hk
  have h := prepare_good D A hs hB y0 st0 k hk
  have h1 := h.delta_ne (hB (k + 1) (by omega) (by omega))
  exact ⟨h1, by rw [h.eps_eq]; exact h1⟩

/-- **C68** `min_norm(f)`, `f` of length `n + m - 1`, `m ≥ 1`: the result satisfies all equations but the last one and
has minimal Euclidean norm among all vectors doing so. -/
theorem C68_min_norm (D : Data ℝ) (A : ℕ → ℕ → ℝ) (hs : SolverOk D A) (hB : BlocksOk D A) (hm : 1 ≤ D.m) (y0 : ℕ → ℝ)
    (st0 : ℕ → ℕ → ℝ) (f : ℕ → ℝ) :
    (∀ i < D.n + D.m - 1, ∑ l ∈ Finset.range (D.n + D.m), mat D A i l * minNorm D y0 st0 f l = f i) ∧
    ∀ v : ℕ → ℝ, (∀ i < D.n + D.m - 1, ∑ l ∈ Finset.range (D.n + D.m), mat D A i l * v l = f i) →
      ∑ l ∈ Finset.range (D.n + D.m), minNorm D y0 st0 f l ^ 2 ≤ ∑ l ∈ Finset.range (D.n + D.m), v l ^ 2 := by
  set N := D.n + D.m with hN
  set x := solveZero D y0 st0 f with hx
  set t := solveNull D y0 st0 with ht
  have hx1 : ∀ i < N, ∑ l ∈ Finset.range N, mat D A i l * x l = if i < N - 1 then f i else 0 :=
    C68_solve D A hs hB y0 st0 _
  have ht1 : ∀ i < N, ∑ l ∈ Finset.range N, mat D A i l * t l = if i < N - 1 then 0 else 1 :=
    C68_solve D A hs hB y0 st0 _
  set e := dot N x t / dot N t t with he
  have hmn : ∀ l, minNorm D y0 st0 f l = x l - e * t l := fun l => rfl
  have htt : dot N t t ≠ 0 := by
    intro h0
    have hz : ∀ l ∈ Finset.range N, t l * t l = 0 :=
      (Finset.sum_eq_zero_iff_of_nonneg (fun l _ => mul_self_nonneg _)).mp h0
    have h1 := ht1 (N - 1) (by omega)
    rw [if_neg (by omega)] at h1
    rw [Finset.sum_eq_zero (fun l hl => by rw [mul_self_eq_zero.mp (hz l hl), mul_zero])] at h1
    norm_num at h1
  have hsum : ∀ i, ∑ l ∈ Finset.range N, mat D A i l * minNorm D y0 st0 f l =
      ∑ l ∈ Finset.range N, mat D A i l * x l - e * ∑ l ∈ Finset.range N, mat D A i l * t l := by
    intro i
    rw [Finset.mul_sum, ← Finset.sum_sub_distrib]
    exact Finset.sum_congr rfl fun l _ => by rw [hmn]; ring
  refine ⟨?_, ?_⟩
  · intro i hi
    rw [hsum, hx1 i (by omega), ht1 i (by omega), if_pos hi, if_pos hi]; ring
  · intro v hv
    -- v = minNorm + τ t
    set μ := ∑ l ∈ Finset.range N, mat D A (N - 1) l * v l with hμ
    have hdiff : ∀ i < N, v i - (x i + μ * t i) = 0 := by
      apply block_inj D A D.m (hB D.m hm le_rfl) (fun i => v i - (x i + μ * t i))
      intro i hi
      have e1 : ∑ l ∈ Finset.range N, mat D A i l * (v l - (x l + μ * t l)) =
          ∑ l ∈ Finset.range N, mat D A i l * v l - ∑ l ∈ Finset.range N, mat D A i l * x l
            - μ * ∑ l ∈ Finset.range N, mat D A i l * t l := by
        rw [Finset.mul_sum, ← Finset.sum_sub_distrib, ← Finset.sum_sub_distrib]
        exact Finset.sum_congr rfl fun l _ => by ring
      show ∑ l ∈ Finset.range N, mat D A i l * (v l - (x l + μ * t l)) = 0
      rw [e1, hx1 i hi, ht1 i hi]
      by_cases h : i < N - 1
      · rw [if_pos h, if_pos h, hv i h]; ring
      · rw [if_neg h, if_neg h, show i = N - 1 by omega, ← hμ]; ring
    have horth : ∑ l ∈ Finset.range N, (x l - e * t l) * t l = 0 := by
      have : ∑ l ∈ Finset.range N, (x l - e * t l) * t l = dot N x t - e * dot N t t := by
        unfold dot
        rw [Finset.mul_sum, ← Finset.sum_sub_distrib]
        exact Finset.sum_congr rfl fun l _ => by ring
      rw [this, he, div_mul_cancel₀ _ htt, sub_self]
    have hv2 : ∑ l ∈ Finset.range N, v l ^ 2 = ∑ l ∈ Finset.range N, (x l - e * t l) ^ 2
        + 2 * (e + μ) * ∑ l ∈ Finset.range N, (x l - e * t l) * t l + (e + μ) ^ 2 * ∑ l ∈ Finset.range N, t l ^ 2 := by
      rw [Finset.mul_sum, Finset.mul_sum, ← Finset.sum_add_distrib, ← Finset.sum_add_distrib]
      apply Finset.sum_congr rfl
      intro l hl
      have := hdiff l (by simpa using hl)
      rw [show v l = x l + μ * t l by linarith]; ring
    simp only [hmn]
    rw [hv2, horth]
    have : 0 ≤ (e + μ) ^ 2 * ∑ l ∈ Finset.range N, t l ^ 2 :=
      mul_nonneg (sq_nonneg _) (Finset.sum_nonneg fun l _ => sq_nonneg _)
    linarith

/-- Non-vacuity: `A = [2]` with one border `b = c = 1`, `d = 3`. -/
noncomputable def exBemw : Data ℝ where
  n := 1
  m := 1
  solve f := fun i => f i / 2
  solveAdj f := fun i => f i / 2
  b := fun _ _ => 1
  c := fun _ _ => 1
  d := fun _ => 3

example (f : ℕ → ℝ) : mat exBemw (fun _ _ => 2) 1 0 * solve exBemw 0 0 f 0 + mat exBemw (fun _ _ => 2) 1 1 * solve exBemw 0 0 f 1 = f 1 := by
  have h := C68_solve exBemw (fun _ _ => 2) ⟨by intro f i hi; simp [exBemw] at *; rw [hi]; field_simp, by intro f i hi; simp [exBemw] at *; rw [hi]; field_simp⟩
    (by
      intro k h1 h2
      have : k = 1 := by change k ≤ 1 at h2; omega
      subst this
      show (leadingBlock exBemw (fun _ _ => 2) 1).det ≠ 0
      have : (leadingBlock exBemw (fun _ _ => (2:ℝ)) 1).det = 5 := by
        refine (Matrix.det_fin_two (Matrix.of fun i j : Fin 2 => mat exBemw (fun _ _ => (2:ℝ)) i j)).trans ?_
        simp [mat, exBemw]
        norm_num
      rw [this]; norm_num) 0 0 f 1 (by decide)
  have e : exBemw.n + exBemw.m = 2 := rfl
  rw [e, Finset.sum_range_succ, Finset.sum_range_succ, Finset.sum_range_zero, zero_add] at h
  exact h

end Funpy.Props
