import Verif.Model.Brd
import Verif.Props.Lucp

/-!
# C108: bordered systems by LU factorisation
-/

namespace Funpy.Props
open Funpy.Brd Finset

section spec

variable {K : Type*} [Field K]

/-- `x` solves the `N × N` system `M x = f`. -/
def Solves (N : ℕ) (M : ℕ → ℕ → K) (x f : ℕ → K) : Prop := ∀ i < N, ∑ j ∈ range N, M i j * x j = f i

/-- The `N × N` matrix `M` is regular. -/
def Regular (N : ℕ) (M : ℕ → ℕ → K) : Prop := ∀ x, Solves N M x (fun _ => 0) → ∀ j < N, x j = 0

/-- The bordered matrix `[A c; b d]`. -/
def border (n : ℕ) (A : ℕ → ℕ → K) (b c : ℕ → K) (d : K) (i j : ℕ) : K :=
  if i < n then (if j < n then A i j else c i) else (if j < n then b j else d)

/-- The right-hand side `(0, 1)`. -/
def lastUnit (n : ℕ) (i : ℕ) : K := if i < n then 0 else 1

/-- What SuperLU promises: `L` is unit lower triangular, `U` is upper triangular, and row `i`, column `j` of `A` is row `perm_r[i]`, column `perm_c[j]`
of `L U`. -/
structure IsSuperLU (A : ℕ → ℕ → K) (lu : LU K) : Prop where
  /-- lower -/
  lower : ∀ i j, i < j → lu.L i j = 0
  /-- unit diagonal -/
  unit : ∀ i < lu.n, lu.L i i = 1
  /-- upper -/
  upper : ∀ i j, j < i → lu.U i j = 0
  /-- permutation of the rows -/
  rows : ∀ i, lu.permR i < lu.n ↔ i < lu.n
  /-- permutation of the columns -/
  cols : ∀ i, lu.permC i < lu.n ↔ i < lu.n
  /-- the product -/
  eq : ∀ i < lu.n, ∀ j < lu.n, ∑ l ∈ range lu.n, lu.L (lu.permR i) l * lu.U l (lu.permC j) = A i j

end spec

variable {K : Type*} [Field K]

theorem Solves_border (n : ℕ) (A : ℕ → ℕ → K) (b c : ℕ → K) (d : K) (x f : ℕ → K) :
    Solves (n + 1) (border n A b c d) x f ↔ (∀ i < n, ∑ j ∈ range n, A i j * x j + c i * x n = f i) ∧
      ∑ j ∈ range n, b j * x j + d * x n = f n := by
  have h1 : ∀ i < n, ∑ j ∈ range (n + 1), border n A b c d i j * x j = ∑ j ∈ range n, A i j * x j + c i * x n := by
    intro i hi
    rw [sum_range_succ]
    congr 1
    · exact sum_congr rfl fun j hj => by rw [border, if_pos hi, if_pos (by simpa using hj)]
    · rw [border, if_pos hi, if_neg (by omega)]
  have h2 : ∑ j ∈ range (n + 1), border n A b c d n j * x j = ∑ j ∈ range n, b j * x j + d * x n := by
    rw [sum_range_succ]
    congr 1
    · exact sum_congr rfl fun j hj => by rw [border, if_neg (by omega), if_pos (by simpa using hj)]
    · rw [border, if_neg (by omega), if_neg (by omega)]
  constructor
  · intro h
    exact ⟨fun i hi => by rw [← h1 i hi]; exact h i (by omega), by rw [← h2]; exact h n (by omega)⟩
  · rintro ⟨ha, hb⟩ i hi
    rcases Nat.lt_or_ge i n with h | h
    · rw [h1 i h]; exact ha i h
    · obtain rfl : i = n := by omega
      rw [h2]; exact hb

theorem det_ne_of_vecMul' {ι : Type*} [Fintype ι] [DecidableEq ι] {N : Matrix ι ι K} (h : N.det ≠ 0) {v : ι → K} (hv : Matrix.vecMul v N = 0) : v = 0 := by
  by_contra hne
  exact h (Matrix.exists_vecMul_eq_zero_iff.mp ⟨v, hne, hv⟩)

/-! ### The loops -/

theorem permutation_eq (n : ℕ) (arr : ℕ → K) (p : Equiv.Perm ℕ) (hp : ∀ i, p i < n ↔ i < n) (i : ℕ) (hi : i < n) :
    permutation n arr p i = arr (p.symm i) := by
  have key : ∀ m, ∀ j < m, ((List.range m).foldl (fun o i => LinHelpers.setAt o (p i) (arr i)) (fun _ => 0)) (p j) = arr j := by
    intro m
    induction m with
    | zero => intro j hj; omega
    | succ m ih =>
      intro j hj
      rw [List.range_succ, List.foldl_append]
      simp only [List.foldl_cons, List.foldl_nil, LinHelpers.setAt]
      split_ifs with h
      · rw [p.injective h]
      · have : j ≠ m := fun e => h (by rw [e])
        exact ih j (by omega)
  have := key n (p.symm i) ((hp _).mp (by simpa using hi))
  rwa [Equiv.apply_symm_apply] at this

theorem forsub_spec (N : ℕ) (L : ℕ → ℕ → K) (b : ℕ → K) (hd : ∀ i < N, L i i ≠ 0) (hl : ∀ i j, i < j → L i j = 0) (i : ℕ) (hi : i < N) :
    ∑ j ∈ range N, L i j * forsub N L b j = b i := by
  set st : (ℕ → K) → ℕ → (ℕ → K) :=
    fun x i => LinHelpers.setAt x i ((b i - ∑ j ∈ range i, L i j * x j) / L i i) with hst
  have key : ∀ m ≤ N, ∀ i < m, ∑ j ∈ range (i + 1), L i j * (List.range m).foldl st b j = b i := by
    intro m
    induction m with
    | zero => intro _ i h; omega
    | succ m ih =>
      intro hm i him
      rw [List.range_succ, List.foldl_append]
      simp only [List.foldl_cons, List.foldl_nil]
      set x := (List.range m).foldl st b
      have hx : st x m = LinHelpers.setAt x m ((b m - ∑ j ∈ range m, L m j * x j) / L m m) := rfl
      rw [hx]
      have hlow : ∀ k ≤ m, ∀ r, ∑ j ∈ range k, L r j * LinHelpers.setAt x m ((b m - ∑ j ∈ range m, L m j * x j) / L m m) j
          = ∑ j ∈ range k, L r j * x j := by
        intro k hk r
        refine sum_congr rfl fun j hj => ?_
        have := mem_range.mp hj
        rw [LinHelpers.setAt, if_neg (by omega)]
      rcases Nat.lt_or_ge i m with h | h
      · rw [hlow (i + 1) (by omega), ih (by omega) i h]
      · obtain rfl : i = m := by omega
        rw [sum_range_succ, hlow i le_rfl, LinHelpers.setAt, if_pos rfl, mul_div_cancel₀ _ (hd i (by omega))]
        ring
  have h1 := key N le_rfl i hi
  change ∑ j ∈ range (i + 1), L i j * forsub N L b j = b i at h1
  rw [← h1, ← sum_range_add_sum_Ico _ (show i + 1 ≤ N by omega)]
  rw [add_eq_left]
  refine sum_eq_zero fun j hj => ?_
  rw [hl i j (by have := mem_Ico.mp hj; omega), zero_mul]

/-- Sums over permuted indices. -/
theorem sum_perm (n : ℕ) (p : Equiv.Perm ℕ) (hp : ∀ i, p i < n ↔ i < n) (g : ℕ → K) : ∑ i ∈ range n, g (p i) = ∑ i ∈ range n, g i := by
  refine sum_nbij' p p.symm ?_ ?_ ?_ ?_ ?_
  · intro i hi; simpa using (hp i).mpr (by simpa using hi)
  · intro i hi; simp only [mem_range] at hi ⊢; exact (hp _).mp (by simpa using hi)
  · intro i _; simp
  · intro i _; simp
  · intro i _; rfl

section super

variable {A : ℕ → ℕ → K} {lu : LU K}

/-- A regular matrix has nonzero pivots. -/
theorem IsSuperLU.pivots (h : IsSuperLU A lu) (hA : Regular lu.n A) : ∀ k < lu.n, lu.U k k ≠ 0 := by
  intro k hk e
  have hdet : (Matrix.of fun i j : Fin lu.n => lu.U i j).det = 0 := by
    rw [Matrix.det_of_upperTriangular (M := Matrix.of fun i j : Fin lu.n => lu.U i j) (fun i j hij => h.upper i j hij)]
    exact prod_eq_zero (i := (⟨k, hk⟩ : Fin lu.n)) (mem_univ _) (by simpa using e)
  obtain ⟨v, hv, hz⟩ := Matrix.exists_mulVec_eq_zero_iff.mpr hdet
  apply hv
  set w : ℕ → K := fun j => if hj : j < lu.n then v ⟨j, hj⟩ else 0 with hw
  have hU : ∀ l < lu.n, ∑ j ∈ range lu.n, lu.U l j * w j = 0 := by
    intro l hl
    have := congrFun hz ⟨l, hl⟩
    simp only [Matrix.mulVec, dotProduct, Matrix.of_apply, Pi.zero_apply] at this
    rw [← this, ← Fin.sum_univ_eq_sum_range (fun j => lu.U l j * w j)]
    refine sum_congr rfl fun j _ => ?_
    simp [hw]
  have hs : Solves lu.n A (fun j => w (lu.permC j)) (fun _ => 0) := by
    intro i hi
    have : ∀ j ∈ range lu.n, A i j * w (lu.permC j) = ∑ l ∈ range lu.n, lu.L (lu.permR i) l * (lu.U l (lu.permC j) * w (lu.permC j)) := by
      intro j hj
      rw [← h.eq i hi j (by simpa using hj), sum_mul]
      exact sum_congr rfl fun l _ => by ring
    rw [sum_congr rfl this, sum_comm]
    refine sum_eq_zero fun l hl => ?_
    rw [← mul_sum, sum_perm lu.n lu.permC h.cols (fun j => lu.U l j * w j), hU l (by simpa using hl), mul_zero]
  funext j
  have h1 := hA _ hs (lu.permC.symm j) ((h.cols _).mp (by simp))
  simpa [hw] using h1

theorem rows_eq (h : IsSuperLU A lu) (hU : ∀ k < lu.n, lu.U k k ≠ 0) (w : ℕ → K) (i : ℕ) (hi : i < lu.n) :
    ∑ j ∈ range lu.n, A i j * Lucp.backsub lu.n lu.U w (lu.permC j) = ∑ l ∈ range lu.n, lu.L (lu.permR i) l * w l := by
  have : ∀ j ∈ range lu.n, A i j * Lucp.backsub lu.n lu.U w (lu.permC j)
      = ∑ l ∈ range lu.n, lu.L (lu.permR i) l * (lu.U l (lu.permC j) * Lucp.backsub lu.n lu.U w (lu.permC j)) := by
    intro j hj
    rw [← h.eq i hi j (by simpa using hj), sum_mul]
    exact sum_congr rfl fun l _ => by ring
  rw [sum_congr rfl this, sum_comm]
  refine sum_congr rfl fun l hl => ?_
  rw [← mul_sum, sum_perm lu.n lu.permC h.cols (fun j => lu.U l j * Lucp.backsub lu.n lu.U w j),
    Lucp.backsub_spec lu.n lu.U w hU h.upper l (by simpa using hl)]

theorem L_gamma (h : IsSuperLU A lu) (c : ℕ → K) (i : ℕ) (hi : i < lu.n) :
    ∑ l ∈ range lu.n, lu.L (lu.permR i) l * forsub lu.n lu.L (permutation lu.n c lu.permR) l = c i := by
  rw [forsub_spec lu.n lu.L _ (fun k hk => by rw [h.unit k hk]; exact one_ne_zero) h.lower _ ((h.rows i).mpr hi),
    permutation_eq lu.n c lu.permR h.rows _ ((h.rows i).mpr hi), Equiv.symm_apply_apply]

theorem U_beta (h : IsSuperLU A lu) (hU : ∀ k < lu.n, lu.U k k ≠ 0) (b : ℕ → K) (j : ℕ) (hj : j < lu.n) :
    ∑ l ∈ range lu.n, lu.U l (lu.permC j) * lu.beta b l = b j := by
  have := forsub_spec lu.n (transp lu.U) (permutation lu.n b lu.permC) (fun k hk => hU k hk) (fun i j hij => h.upper j i hij) _ ((h.cols j).mpr hj)
  rw [permutation_eq lu.n b lu.permC h.cols _ ((h.cols j).mpr hj), Equiv.symm_apply_apply] at this
  exact this

theorem b_dot (h : IsSuperLU A lu) (hU : ∀ k < lu.n, lu.U k k ≠ 0) (b w : ℕ → K) :
    ∑ j ∈ range lu.n, b j * Lucp.backsub lu.n lu.U w (lu.permC j) = dot lu.n (lu.beta b) w := by
  have : ∀ j ∈ range lu.n, b j * Lucp.backsub lu.n lu.U w (lu.permC j)
      = ∑ l ∈ range lu.n, lu.beta b l * (lu.U l (lu.permC j) * Lucp.backsub lu.n lu.U w (lu.permC j)) := by
    intro j hj
    rw [← U_beta h hU b j (by simpa using hj), sum_mul]
    exact sum_congr rfl fun l _ => by ring
  rw [sum_congr rfl this, sum_comm, dot]
  refine sum_congr rfl fun l hl => ?_
  rw [← mul_sum, sum_perm lu.n lu.permC h.cols (fun j => lu.U l j * Lucp.backsub lu.n lu.U w j),
    Lucp.backsub_spec lu.n lu.U w hU h.upper l (by simpa using hl)]

/-- The elimination step: for every right-hand side and every last component. -/
theorem lu_rows (h : IsSuperLU A lu) (hU : ∀ k < lu.n, lu.U k k ≠ 0) (b c : ℕ → K) (d : K) (f : ℕ → K) (z : K) :
    let w := fun i => forsub lu.n lu.L (permutation lu.n f lu.permR) i - z * lu.gamma c i
    (∀ i < lu.n, ∑ j ∈ range lu.n, A i j * Lucp.backsub lu.n lu.U w (lu.permC j) + c i * z = f i) ∧
      ∑ j ∈ range lu.n, b j * Lucp.backsub lu.n lu.U w (lu.permC j) + d * z
        = dot lu.n (lu.beta b) (forsub lu.n lu.L (permutation lu.n f lu.permR)) + lu.delta b c d * z := by
  intro w
  constructor
  · intro i hi
    rw [rows_eq h hU w i hi]
    have : ∀ l ∈ range lu.n, lu.L (lu.permR i) l * w l = lu.L (lu.permR i) l * forsub lu.n lu.L (permutation lu.n f lu.permR) l
        - z * (lu.L (lu.permR i) l * forsub lu.n lu.L (permutation lu.n c lu.permR) l) := by
      intro l _; simp only [w, LU.gamma]; ring
    rw [sum_congr rfl this, sum_sub_distrib, ← mul_sum, L_gamma h f i hi, L_gamma h c i hi]
    ring
  · rw [b_dot h hU b w, LU.delta]
    have : dot lu.n (lu.beta b) w = dot lu.n (lu.beta b) (forsub lu.n lu.L (permutation lu.n f lu.permR))
        - z * dot lu.n (lu.beta b) (lu.gamma c) := by
      simp only [dot, w, mul_sum, ← sum_sub_distrib]
      exact sum_congr rfl fun l _ => by ring
    rw [this]; ring

theorem backsub_congr (N : ℕ) (U : ℕ → ℕ → K) (v w : ℕ → K) (hvw : ∀ i < N, v i = w i) (hd : ∀ i < N, U i i ≠ 0) (hu : ∀ i j, j < i → U i j = 0) :
    ∀ i < N, Lucp.backsub N U v i = Lucp.backsub N U w i := by
  -- both solve the same regular triangular system
  have key : ∀ t ≤ N, ∀ i, N - t ≤ i → i < N → Lucp.backsub N U v i = Lucp.backsub N U w i := by
    intro t
    induction t with
    | zero => intro _ i h1 h2; omega
    | succ t ih =>
      intro ht i h1 h2
      rcases Nat.lt_or_ge i (N - t) with h | h
      · have e1 := Lucp.backsub_spec N U v hd hu i h2
        have e2 := Lucp.backsub_spec N U w hd hu i h2
        rw [hvw i h2, ← e2, ← sum_range_add_sum_Ico _ (show i ≤ N by omega), ← sum_range_add_sum_Ico _ (show i ≤ N by omega),
          sum_eq_sum_Ico_succ_bot h2, sum_eq_sum_Ico_succ_bot h2] at e1
        have z1 : ∀ u : ℕ → K, ∑ j ∈ range i, U i j * u j = 0 := fun u => sum_eq_zero fun j hj => by
          rw [hu i j (by simpa using hj), zero_mul]
        have z2 : ∑ j ∈ Ico (i + 1) N, U i j * Lucp.backsub N U v j = ∑ j ∈ Ico (i + 1) N, U i j * Lucp.backsub N U w j :=
          sum_congr rfl fun j hj => by
            have := mem_Ico.mp hj
            rw [ih (by omega) j (by omega) (by omega)]
        rw [z1, z1, z2, zero_add, zero_add, add_left_inj] at e1
        exact mul_left_cancel₀ (hd i h2) e1
      · exact ih (by omega) i h h2
  intro i hi
  exact key N le_rfl i (by omega) hi

theorem forsub_zero (h : IsSuperLU A lu) : ∀ i < lu.n, forsub lu.n lu.L (permutation lu.n (fun _ => 0) lu.permR) i = 0 := by
  intro i
  induction i using Nat.strong_induction_on with
  | _ i ih =>
    intro hi
    have := forsub_spec lu.n lu.L (permutation lu.n (fun _ => (0 : K)) lu.permR) (fun k hk => by rw [h.unit k hk]; exact one_ne_zero) h.lower i hi
    rw [permutation_eq lu.n _ lu.permR h.rows i hi, ← sum_range_add_sum_Ico _ (show i ≤ lu.n by omega), sum_eq_sum_Ico_succ_bot hi,
      sum_eq_zero (fun j hj => by rw [ih j (by simpa using hj) (by have := mem_range.mp hj; omega), mul_zero]),
      sum_eq_zero (fun j hj => by rw [h.lower i j (by have := mem_Ico.mp hj; omega), zero_mul]), h.unit i hi] at this
    simpa using this

theorem lu_delta_ne (h : IsSuperLU A lu) (hU : ∀ k < lu.n, lu.U k k ≠ 0) {b c : ℕ → K} {d : K}
    (hM : Regular (lu.n + 1) (border lu.n A b c d)) : lu.delta b c d ≠ 0 := by
  intro e
  obtain ⟨h1, h2⟩ := lu_rows h hU b c d (fun _ => 0) 1
  set w := fun i => forsub lu.n lu.L (permutation lu.n (fun _ => (0 : K)) lu.permR) i - 1 * lu.gamma c i
  have hs : Solves (lu.n + 1) (border lu.n A b c d) (fun j => if j < lu.n then Lucp.backsub lu.n lu.U w (lu.permC j) else 1) (fun _ => 0) := by
    rw [Solves_border]
    constructor
    · intro i hi
      rw [← h1 i hi]
      simp only [lt_irrefl, if_false]
      congr 1
      exact sum_congr rfl fun j hj => by rw [if_pos (by simpa using hj)]
    · have e1 : ∑ j ∈ range lu.n, b j * (if j < lu.n then Lucp.backsub lu.n lu.U w (lu.permC j) else 1)
          = ∑ j ∈ range lu.n, b j * Lucp.backsub lu.n lu.U w (lu.permC j) :=
        sum_congr rfl fun j hj => by rw [if_pos (by simpa using hj)]
      simp only [lt_irrefl, if_false]
      rw [e1, h2, e, dot, sum_eq_zero (fun l hl => by rw [forsub_zero h l (by simpa using hl), mul_zero])]
      ring
  have := hM _ hs lu.n (by omega)
  simp at this

/-- C108: `solve(A, b, c, d, f)` solves the bordered system for regular `A` and regular bordered matrix (in particular it does not divide by zero). -/
theorem C108_solve (h : IsSuperLU A lu) (hA : Regular lu.n A) (b c : ℕ → K) (d : K) (hM : Regular (lu.n + 1) (border lu.n A b c d)) (f : ℕ → K) :
    lu.delta b c d ≠ 0 ∧ Solves (lu.n + 1) (border lu.n A b c d) (lu.solve b c d f) f := by
  have hU := h.pivots hA
  have hd := lu_delta_ne h hU hM
  refine ⟨hd, ?_⟩
  obtain ⟨h1, h2⟩ := lu_rows h hU b c d f
    ((f lu.n - dot lu.n (lu.beta b) (forsub lu.n lu.L (permutation lu.n f lu.permR))) / lu.delta b c d)
  rw [Solves_border]
  simp only [LU.solve, lt_irrefl, if_false]
  constructor
  · intro i hi
    rw [← h1 i hi]
    congr 1
    exact sum_congr rfl fun j hj => by rw [if_pos (by simpa using hj)]
  · have e1 := h2
    rw [mul_div_cancel₀ _ hd] at e1
    refine Eq.trans (Eq.trans ?_ e1) (by ring)
    congr 1
    exact sum_congr rfl fun j hj => by rw [if_pos (by simpa using hj)]

/-- C108: `solve_nonsing` solves the bordered system with right-hand side `(0, 1)`. -/
theorem C108_nonsing (h : IsSuperLU A lu) (hA : Regular lu.n A) (b c : ℕ → K) (d : K) (hM : Regular (lu.n + 1) (border lu.n A b c d)) :
    lu.delta b c d ≠ 0 ∧ Solves (lu.n + 1) (border lu.n A b c d) (lu.solveNonsing b c d) (lastUnit lu.n) := by
  have hU := h.pivots hA
  have hd := lu_delta_ne h hU hM
  refine ⟨hd, ?_⟩
  obtain ⟨h1, h2⟩ := lu_rows h hU b c d (fun _ => 0) (1 / lu.delta b c d)
  have hc := backsub_congr lu.n lu.U (fun i => forsub lu.n lu.L (permutation lu.n (fun _ => (0 : K)) lu.permR) i - 1 / lu.delta b c d * lu.gamma c i)
    (fun i => -(1 / lu.delta b c d) * lu.gamma c i) (fun i hi => by simp only [forsub_zero h i hi]; ring) hU h.upper
  rw [Solves_border]
  simp only [LU.solveNonsing, lt_irrefl, if_false, lastUnit]
  constructor
  · intro i hi
    rw [if_pos hi]
    refine Eq.trans ?_ (h1 i hi)
    congr 1
    refine sum_congr rfl fun j hj => ?_
    rw [if_pos (by simpa using hj), hc _ ((h.cols j).mpr (by simpa using hj))]
  · refine Eq.trans ?_ (h2.trans ?_)
    · congr 1
      refine sum_congr rfl fun j hj => ?_
      rw [if_pos (by simpa using hj), hc _ ((h.cols j).mpr (by simpa using hj))]
    · rw [dot, sum_eq_zero (fun l hl => by rw [forsub_zero h l (by simpa using hl), mul_zero]), mul_div_cancel₀ _ hd, zero_add]

/-- C108: the second vector of `solve_null_nonsing` solves the transposed bordered system with right-hand side `(0, 1)`. -/
theorem C108_adjoint (h : IsSuperLU A lu) (hA : Regular lu.n A) (b c : ℕ → K) (d : K) (hM : Regular (lu.n + 1) (border lu.n A b c d)) :
    Solves (lu.n + 1) (fun i j => border lu.n A b c d j i) (lu.solveNonsingAdj b c d) (lastUnit lu.n) := by
  have hU := h.pivots hA
  have hd := lu_delta_ne h hU hM
  have hdd : d - dot lu.n (lu.gamma c) (lu.beta b) = lu.delta b c d := by
    rw [LU.delta, dot, dot]
    congr 1
    exact sum_congr rfl fun l _ => mul_comm _ _
  have hb : (fun i j => border lu.n A b c d j i) = border lu.n (fun i j => A j i) c b d := by
    funext i j
    simp only [border]
    split_ifs <;> rfl
  rw [hb, Solves_border]
  simp only [LU.solveNonsingAdj, lt_irrefl, if_false, lastUnit, hdd]
  set z := 1 / lu.delta b c d with hz
  have hL : ∀ i < lu.n, transp lu.L i i ≠ 0 := fun i hi => by
    rw [transp, h.unit i hi]; exact one_ne_zero
  set χ := Lucp.backsub lu.n (transp lu.L) (fun i => -z * lu.beta b i) with hχ
  have hspec : ∀ l < lu.n, ∑ k ∈ range lu.n, lu.L k l * χ k = -z * lu.beta b l := fun l hl =>
    Lucp.backsub_spec lu.n (transp lu.L) _ hL (fun i j hij => h.lower j i hij) l hl
  constructor
  · intro j hj
    rw [if_pos hj]
    have : ∀ i ∈ range lu.n, A i j * (if i < lu.n then χ (lu.permR i) else z)
        = ∑ l ∈ range lu.n, lu.U l (lu.permC j) * (lu.L (lu.permR i) l * χ (lu.permR i)) := by
      intro i hi
      have hi' : i < lu.n := by simpa using hi
      rw [if_pos hi', ← h.eq i hi' j hj, sum_mul]
      exact sum_congr rfl fun l _ => by ring
    rw [sum_congr rfl this, sum_comm]
    have h2 : ∀ l ∈ range lu.n, ∑ i ∈ range lu.n, lu.U l (lu.permC j) * (lu.L (lu.permR i) l * χ (lu.permR i))
        = -z * (lu.U l (lu.permC j) * lu.beta b l) := by
      intro l hl
      rw [← mul_sum, sum_perm lu.n lu.permR h.rows (fun k => lu.L k l * χ k), hspec l (by simpa using hl)]
      ring
    rw [sum_congr rfl h2, ← mul_sum, U_beta h hU b j hj]
    ring
  · have h3 : ∑ j ∈ range lu.n, c j * (if j < lu.n then χ (lu.permR j) else z) = -z * dot lu.n (lu.beta b) (lu.gamma c) := by
      have : ∀ i ∈ range lu.n, c i * (if i < lu.n then χ (lu.permR i) else z)
          = ∑ l ∈ range lu.n, lu.gamma c l * (lu.L (lu.permR i) l * χ (lu.permR i)) := by
        intro i hi
        have hi' : i < lu.n := by simpa using hi
        rw [if_pos hi', ← L_gamma h c i hi', sum_mul]
        exact sum_congr rfl fun l _ => by rw [LU.gamma]; ring
      rw [sum_congr rfl this, sum_comm, dot, mul_sum]
      refine sum_congr rfl fun l hl => ?_
      rw [← mul_sum, sum_perm lu.n lu.permR h.rows (fun k => lu.L k l * χ k), hspec l (by simpa using hl)]
      ring
    rw [h3, hz]
    have : lu.delta b c d = d - dot lu.n (lu.beta b) (lu.gamma c) := rfl
    rw [show -(1 / lu.delta b c d) * dot lu.n (lu.beta b) (lu.gamma c) + d * (1 / lu.delta b c d)
      = (d - dot lu.n (lu.beta b) (lu.gamma c)) * (1 / lu.delta b c d) by ring, ← this, mul_div_cancel₀ _ hd]

end super

/-! ### `brd_null` and `brd_null_simp` -/

section null

variable {K : Type*} [Field K] [LinearOrder K] [IsStrictOrderedRing K]

omit [IsStrictOrderedRing K] in
/-- C108 (partial): if the last pivot is at least `eps`, `brd_null` returns the solutions of the bordered system and of its transpose with right-hand side
`(0, 1)`.  Missing: last pivots below `eps`, in particular all negative ones (`C108_negative_fails`). -/
theorem C108_null_partial {A : ℕ → ℕ → K} {lu : LU K} (h : IsSuperLU A lu) (hA : Regular lu.n A) (b c : ℕ → K) (d eps : K)
    (hM : Regular (lu.n + 1) (border lu.n A b c d)) (he : eps ≤ lu.U (lu.n - 1) (lu.n - 1)) :
    ∃ v w, lu.brdNull eps b c d = some (v, w) ∧ Solves (lu.n + 1) (border lu.n A b c d) v (lastUnit lu.n) ∧
      Solves (lu.n + 1) (fun i j => border lu.n A b c d j i) w (lastUnit lu.n) :=
  ⟨_, _, by rw [LU.brdNull, if_neg (not_lt.mpr he)], (C108_nonsing h hA b c d hM).2, C108_adjoint h hA b c d hM⟩

/-- C108 fails: `brd_null` raises a `NameError` for the regular `1 × 1` matrix `A = (-1)` (no absolute value is taken of the pivot), and for every
matrix that is really singular. -/
theorem C108_negative_fails (eps : K) (he : 0 < eps) (b c : ℕ → K) (d : K) :
    (∃ lu : LU K, IsSuperLU (fun _ _ => -1) lu ∧ lu.n = 1 ∧ Regular 1 (fun _ _ => (-1 : K)) ∧ lu.brdNull eps b c d = none) ∧
    ∀ lu : LU K, lu.U (lu.n - 1) (lu.n - 1) = 0 → lu.brdNull eps b c d = none := by
  refine ⟨⟨⟨1, fun i j => if i = j then 1 else 0, fun i j => if i = j then -1 else 0, 1, 1⟩, ⟨?_, ?_, ?_, ?_, ?_, ?_⟩, rfl, ?_, ?_⟩, ?_⟩
  · intro i j hij; simp; omega
  · intro i _; simp
  · intro i j hij; simp; omega
  · intro i; rfl
  · intro i; rfl
  · intro i hi j hj
    have hi' : i = 0 := by simpa using hi
    have hj' : j = 0 := by simpa using hj
    subst hi' hj'
    simp
  · intro x hx j hj
    obtain rfl : j = 0 := by omega
    simpa using hx 0 (by omega)
  · rw [LU.brdNull, if_pos]
    simp
    linarith
  · intro lu h0
    rw [LU.brdNull, if_pos (by rw [h0]; exact he)]

omit [IsStrictOrderedRing K] in
/-- `nullvector(A)` is the function `null_vector(A)` of `nullspace.py` (C75). -/
theorem C108_nullvector (n : ℕ) (tol : K) (A : ℕ → ℕ → K) : nullvector n tol A = Lucp.nullVector n tol A := rfl

/-- The factorisation of `lucp` has the convention of SuperLU only if both permutations are involutions. -/
theorem lucp_super (n : ℕ) (tol : K) (ht : 0 < tol) (A : ℕ → ℕ → K) (hn : 1 ≤ n) (hk : (Lucp.lucp n n tol A).2 = n - 1)
    (hp : ∀ i, (Lucp.lucp n n tol A).1.p ((Lucp.lucp n n tol A).1.p i) = i)
    (hq : ∀ j, (Lucp.lucp n n tol A).1.q ((Lucp.lucp n n tol A).1.q j) = j) : IsSuperLU A (LU.ofLucp n tol A) := by
  obtain ⟨h1, h2⟩ := C74_perm n n tol ht A
  refine ⟨?_, ?_, ?_, h1, h2, ?_⟩
  · intro i j hij
    simp only [LU.ofLucp, Lucp.lower]
    rw [if_neg (by omega), if_neg (by omega)]
  · intro i _
    simp [LU.ofLucp, Lucp.lower]
  · intro i j hij
    simp only [LU.ofLucp, Lucp.upper]
    rw [if_neg (by omega)]
  · intro i hi j hj
    have := C74_exact n n tol ht A (by rw [hk]; omega) ((Lucp.lucp n n tol A).1.p i) ((Lucp.lucp n n tol A).1.q j) ((h1 i).mpr hi) ((h2 j).mpr hj)
    rw [hp, hq, LUprod, min_self] at this
    exact this

/-- C108 (partial): for regular `A`, `brd_null_simp` solves the bordered system with right-hand side `(0, 1)` if the two pivot permutations of `lucp` are
involutions.  Missing: other pivot orders, where it is false (`C108_lucp_fails`). -/
theorem C108_simp_partial (n : ℕ) (hn : 1 ≤ n) (tol eps : K) (ht : 0 < tol) (A : ℕ → ℕ → K) (hk : (Lucp.lucp n n tol A).2 = n - 1)
    (hp : ∀ i, (Lucp.lucp n n tol A).1.p ((Lucp.lucp n n tol A).1.p i) = i)
    (hq : ∀ j, (Lucp.lucp n n tol A).1.q ((Lucp.lucp n n tol A).1.q j) = j)
    (hA : Regular n A) (he : eps ≤ |(Lucp.lucp n n tol A).1.A (n - 1) (n - 1)|) (b c : ℕ → K) (d : K)
    (hM : Regular (n + 1) (border n A b c d)) : Solves (n + 1) (border n A b c d) (brdNullSimp n tol eps A b c d) (lastUnit n) := by
  have hU : (LU.ofLucp n tol A).U (n - 1) (n - 1) = (Lucp.lucp n n tol A).1.A (n - 1) (n - 1) := by simp [LU.ofLucp, Lucp.upper]
  have hs := lucp_super n tol ht A hn hk hp hq
  simp only [brdNullSimp]
  rw [hU, if_neg (not_lt.mpr he)]
  exact (C108_nonsing hs hA b c d hM).2

omit [IsStrictOrderedRing K] in
/-- In the singular branch the particular solution is zero and the result is the null vector scaled so that its product with `b` is one. -/
theorem solveSing_eq (lu : LU K) (hn : 1 ≤ lu.n) (hr : ∀ i, lu.permR i < lu.n ↔ i < lu.n) (hl : ∀ i j, i < j → lu.L i j = 0)
    (hu : ∀ i < lu.n, lu.L i i = 1) (hup : ∀ i j, j < i → lu.U i j = 0) (hd : ∀ i < lu.n - 1, lu.U i i ≠ 0) (b c : ℕ → K) (d : K) :
    ∀ i, lu.solveSing b c d i = if i < lu.n then 1 / dot lu.n b lu.phi * lu.phi i else 0 := by
  have hz : dot lu.n lu.psi (fun _ => (0 : K)) / dot lu.n lu.psi c = 0 := by simp [dot]
  -- forward substitution of zero
  have hf : ∀ i < lu.n, forsub lu.n lu.L (fun i => (0 : K) - c (lu.permR i) * 0) i = 0 := by
    intro i
    induction i using Nat.strong_induction_on with
    | _ i ih =>
      intro hi
      have := forsub_spec lu.n lu.L (fun i => (0 : K) - c (lu.permR i) * 0) (fun k hk => by rw [hu k hk]; exact one_ne_zero) hl i hi
      rw [← sum_range_add_sum_Ico _ (show i ≤ lu.n by omega), sum_eq_sum_Ico_succ_bot hi,
        sum_eq_zero (fun j hj => by rw [ih j (by simpa using hj) (by have := mem_range.mp hj; omega), mul_zero]),
        sum_eq_zero (fun j hj => by rw [hl i j (by have := mem_Ico.mp hj; omega), zero_mul]), hu i hi] at this
      simpa using this
  have hb0 : ∀ i < lu.n - 1, Lucp.backsub (lu.n - 1) lu.U (forsub lu.n lu.L (fun i => (0 : K) - c (lu.permR i) * 0)) i = 0 := by
    have key : ∀ t ≤ lu.n - 1, ∀ i, lu.n - 1 - t ≤ i → i < lu.n - 1 →
        Lucp.backsub (lu.n - 1) lu.U (forsub lu.n lu.L (fun i => (0 : K) - c (lu.permR i) * 0)) i = 0 := by
      intro t
      induction t with
      | zero => intro _ i h1 h2; omega
      | succ t ih =>
        intro ht i h1 h2
        rcases Nat.lt_or_ge i (lu.n - 1 - t) with h | h
        · have e1 := Lucp.backsub_spec (lu.n - 1) lu.U (forsub lu.n lu.L (fun i => (0 : K) - c (lu.permR i) * 0)) hd hup i h2
          rw [hf i (by omega), ← sum_range_add_sum_Ico _ (show i ≤ lu.n - 1 by omega), sum_eq_sum_Ico_succ_bot h2,
            sum_eq_zero (fun j hj => by rw [hup i j (by simpa using hj), zero_mul]),
            sum_eq_zero (fun j hj => by
              have := mem_Ico.mp hj
              rw [ih (by omega) j (by omega) (by omega), mul_zero]), zero_add, add_zero] at e1
          exact (mul_eq_zero.mp e1).resolve_left (hd i h2)
        · exact ih (by omega) i h h2
    intro i hi
    exact key (lu.n - 1) le_rfl i (by omega) hi
  have hperm : ∀ i < lu.n, permutation lu.n (fun i => if i < lu.n - 1 then
      Lucp.backsub (lu.n - 1) lu.U (forsub lu.n lu.L (fun i => (0 : K) - c (lu.permR i) * 0)) i else 0) lu.permR i = 0 := by
    intro i hi
    rw [permutation_eq lu.n _ lu.permR hr i hi]
    split_ifs with h
    · exact hb0 _ h
    · rfl
  intro i
  simp only [LU.solveSing, hz]
  split_ifs with hi
  · rw [hperm i hi, zero_add, dot, sum_eq_zero (fun j hj => by rw [hperm j (by simpa using hj), mul_zero])]
    simp
  · rfl

/-- C108 (partial): for a matrix `A` with rank defect one, `brd_null_simp` solves the bordered system with right-hand side `(0, 1)`, with last component zero,
if the column permutation of `lucp` is an involution. -/
theorem C108_sing_partial (n : ℕ) (hn : 1 ≤ n) (tol eps : K) (ht : 0 < tol) (he : 0 < eps) (A : ℕ → ℕ → K) (hk : (Lucp.lucp n n tol A).2 = n - 1)
    (hq : ∀ j, (Lucp.lucp n n tol A).1.q ((Lucp.lucp n n tol A).1.q j) = j)
    (hdet : (Matrix.of fun i j : Fin n => A i j).det = 0) (b c : ℕ → K) (d : K)
    (hM : Regular (n + 1) (border n A b c d)) :
    dot n (LU.ofLucp n tol A).psi c ≠ 0 ∧ dot n b (LU.ofLucp n tol A).phi ≠ 0 ∧
      brdNullSimp n tol eps A b c d n = 0 ∧
      Solves (n + 1) (border n A b c d) (brdNullSimp n tol eps A b c d) (lastUnit n) := by
  obtain ⟨-, hinv, h3, -⟩ := Lucp.lucp_inv (n := n) (m := n) A tol ht
  obtain ⟨hp1, hq1⟩ := C74_perm n n tol ht A
  have h0 := last_pivot_zero n hn tol ht A hk hdet
  have hU : (LU.ofLucp n tol A).U (n - 1) (n - 1) = 0 := by
    have : (LU.ofLucp n tol A).U (n - 1) (n - 1) = (Lucp.lucp n n tol A).1.A (n - 1) (n - 1) := by simp [LU.ofLucp, Lucp.upper]
    rw [this, h0]
  have hpiv : ∀ i < n - 1, (LU.ofLucp n tol A).U i i ≠ 0 := by
    intro i hi e0
    have := h3 i (by rw [hk]; exact hi)
    have e1 : (LU.ofLucp n tol A).U i i = (Lucp.lucp n n tol A).1.A i i := by simp [LU.ofLucp, Lucp.upper]
    rw [← e1, e0, abs_zero] at this
    exact absurd ht (not_lt.mpr this)
  have hlow : ∀ i j, i < j → (LU.ofLucp n tol A).L i j = 0 := by
    intro i j hij
    simp only [LU.ofLucp, Lucp.lower]
    rw [if_neg (by omega), if_neg (by omega)]
  have hunit : ∀ i < n, (LU.ofLucp n tol A).L i i = 1 := by
    intro i _; simp [LU.ofLucp, Lucp.lower]
  have hupp : ∀ i j, j < i → (LU.ofLucp n tol A).U i j = 0 := by
    intro i j hij
    simp only [LU.ofLucp, Lucp.upper]
    rw [if_neg (by omega)]
  obtain ⟨hphi, j0, hj0, hne⟩ := C75_null_partial n hn tol ht A hk hdet hq
  change ∀ i < n, ∑ j ∈ range n, A i j * (LU.ofLucp n tol A).phi j = 0 at hphi
  change (LU.ofLucp n tol A).phi j0 ≠ 0 at hne
  -- the product with `b` is not zero
  have hbphi : dot n b (LU.ofLucp n tol A).phi ≠ 0 := by
    intro e
    apply hne
    have hs : Solves (n + 1) (border n A b c d) (fun j => if j < n then (LU.ofLucp n tol A).phi j else 0) (fun _ => 0) := by
      rw [Solves_border]
      simp only [lt_irrefl, if_false, mul_zero, add_zero]
      constructor
      · intro i hi
        rw [← hphi i hi]
        exact sum_congr rfl fun j hj => by rw [if_pos (by simpa using hj)]
      · rw [← e]
        exact sum_congr rfl fun j hj => by rw [if_pos (by simpa using hj)]
    have := hM _ hs j0 (by omega)
    simpa [hj0] using this
  -- the left null vector
  set lu := LU.ofLucp n tol A with hlu
  have hlun : lu.n = n := rfl
  set y : ℕ → K := fun i => if i < n - 1 then Lucp.backsub (n - 1) (transp lu.L) (fun j => lu.L (n - 1) j) i else -1 with hy
  have hyL : ∀ l < n, ∑ i ∈ range n, y i * lu.L i l = if l = n - 1 then -1 else 0 := by
    intro l hl
    have hsplit : ∑ i ∈ range n, y i * lu.L i l = ∑ i ∈ range (n - 1), y i * lu.L i l + y (n - 1) * lu.L (n - 1) l := by
      conv_lhs => rw [show n = (n - 1) + 1 by omega, sum_range_succ]
    rw [hsplit, show y (n - 1) = -1 by simp [hy]]
    split_ifs with h
    · subst h
      rw [sum_eq_zero (fun i hi => by rw [hlow i (n - 1) (by simpa using hi), mul_zero]), hunit (n - 1) hl]
      ring
    · have hl' : l < n - 1 := by omega
      have := Lucp.backsub_spec (n - 1) (transp lu.L) (fun j => lu.L (n - 1) j)
        (fun i hi => by rw [transp, hunit i (by omega)]; exact one_ne_zero) (fun i j hij => hlow j i hij) l hl'
      have e1 : ∑ i ∈ range (n - 1), y i * lu.L i l = lu.L (n - 1) l := by
        rw [← this]
        refine sum_congr rfl fun i hi => ?_
        rw [hy]
        simp only []
        rw [if_pos (by simpa using hi), transp, mul_comm]
      rw [e1]; ring
  have hpsi : ∀ i < n, lu.psi ((Lucp.lucp n n tol A).1.p i) = y i := by
    intro i hi
    have : lu.psi = permutation n y lu.permR := rfl
    rw [this, permutation_eq n y lu.permR hp1 _ ((hp1 i).mpr hi)]
    congr 1
    exact Equiv.symm_apply_apply _ _
  have hleft : ∀ j < n, ∑ i ∈ range n, lu.psi i * A i j = 0 := by
    intro j hj
    obtain ⟨j', rfl⟩ : ∃ j', j = (Lucp.lucp n n tol A).1.q j' := ⟨(Lucp.lucp n n tol A).1.q.symm j, by simp⟩
    have hj' : j' < n := (hq1 j').mp hj
    rw [← sum_perm n (Lucp.lucp n n tol A).1.p hp1]
    have : ∀ i ∈ range n, lu.psi ((Lucp.lucp n n tol A).1.p i) * A ((Lucp.lucp n n tol A).1.p i) ((Lucp.lucp n n tol A).1.q j')
        = ∑ l ∈ range n, (y i * lu.L i l) * lu.U l j' := by
      intro i hi
      have hi' : i < n := by simpa using hi
      rw [hpsi i hi', ← C74_exact n n tol ht A (by rw [hk]; omega) i j' hi' hj', LUprod, min_self, mul_sum]
      exact sum_congr rfl fun l _ => by rw [mul_assoc]; rfl
    rw [sum_congr rfl this, sum_comm]
    refine sum_eq_zero fun l hl => ?_
    rw [← sum_mul, hyL l (by simpa using hl)]
    split_ifs with h
    · subst h
      rcases Nat.lt_or_ge j' (n - 1) with h' | h'
      · rw [hupp _ _ h', mul_zero]
      · obtain rfl : j' = n - 1 := by omega
        rw [hU, mul_zero]
    · rw [zero_mul]
  have hpsic : dot n lu.psi c ≠ 0 := by
    intro e
    -- the transposed bordered matrix has the null vector `(ψ, 0)`
    have hdet' : (Matrix.of fun i j : Fin (n + 1) => border n A b c d i j).det ≠ 0 := by
      intro e
      obtain ⟨v, hv, hz⟩ := Matrix.exists_mulVec_eq_zero_iff.mpr e
      apply hv
      set w : ℕ → K := fun j => if hj : j < n + 1 then v ⟨j, hj⟩ else 0 with hw
      have hs : Solves (n + 1) (border n A b c d) w (fun _ => 0) := by
        intro i hi
        have := congrFun hz ⟨i, hi⟩
        simp only [Matrix.mulVec, dotProduct, Matrix.of_apply, Pi.zero_apply] at this
        rw [← this, ← Fin.sum_univ_eq_sum_range (fun j => border n A b c d i j * w j)]
        refine sum_congr rfl fun j _ => ?_
        simp only [hw]
        rw [dif_pos j.isLt]
      funext j
      have := hM w hs j j.isLt
      simp only [hw] at this
      rwa [dif_pos j.isLt] at this
    have hv := det_ne_of_vecMul' hdet' (v := fun i : Fin (n + 1) => if (i : ℕ) < n then lu.psi i else 0) (by
      funext j
      simp only [Matrix.vecMul, dotProduct, Matrix.of_apply, Pi.zero_apply]
      rw [Fin.sum_univ_eq_sum_range (fun i => (if i < n then lu.psi i else 0) * border n A b c d i j) (n + 1), sum_range_succ]
      simp only [lt_irrefl, if_false, zero_mul, add_zero]
      rcases Nat.lt_or_ge (j : ℕ) n with h | h
      · rw [← hleft j h]
        refine sum_congr rfl fun i hi => ?_
        have hi' : i < n := by simpa using hi
        rw [if_pos hi', border, if_pos hi', if_pos h]
      · rw [← e, dot]
        refine sum_congr rfl fun i hi => ?_
        have hi' : i < n := by simpa using hi
        rw [if_pos hi', border, if_pos hi', if_neg (by omega)])
    have h1 : lu.psi ((Lucp.lucp n n tol A).1.p (n - 1)) = 0 := by
      have hlt : (Lucp.lucp n n tol A).1.p (n - 1) < n := (hp1 _).mpr (by omega)
      have := congrFun hv ⟨(Lucp.lucp n n tol A).1.p (n - 1), by omega⟩
      simpa [hlt] using this
    rw [hpsi (n - 1) (by omega)] at h1
    simp [hy] at h1
  have hbr : brdNullSimp n tol eps A b c d = lu.solveSing b c d := by
    simp only [brdNullSimp]
    rw [if_pos (by rw [← hlu, hU, abs_zero]; exact he)]
  have hform := solveSing_eq lu (by rw [hlun]; exact hn) hp1 hlow hunit hupp hpiv b c d
  refine ⟨hpsic, hbphi, ?_, ?_⟩
  · rw [hbr, hform]
    simp [hlun]
  · rw [hbr, Solves_border]
    have hn' : lu.solveSing b c d n = 0 := by rw [hform]; simp [hlun]
    rw [hn']
    simp only [mul_zero, add_zero, lastUnit, lt_irrefl, if_false]
    constructor
    · intro i hi
      rw [if_pos hi]
      have : ∀ j ∈ range n, A i j * lu.solveSing b c d j = 1 / dot n b lu.phi * (A i j * lu.phi j) := by
        intro j hj
        rw [hform, if_pos (by simpa [hlun] using hj), hlun]
        ring
      rw [sum_congr rfl this, ← mul_sum, hphi i hi, mul_zero]
    · have : ∀ j ∈ range n, b j * lu.solveSing b c d j = 1 / dot n b lu.phi * (b j * lu.phi j) := by
        intro j hj
        rw [hform, if_pos (by simpa [hlun] using hj), hlun]
        ring
      rw [sum_congr rfl this, ← mul_sum]
      exact one_div_mul_cancel hbphi

end null

/-- `[[0,0,1],[3,0,0],[0,2,0]]`. -/
def cycA (i j : ℕ) : ℚ := if i = 0 ∧ j = 2 then 1 else if i = 1 ∧ j = 0 then 3 else if i = 2 ∧ j = 1 then 2 else 0

/-- C108 fails for `brd_null_simp` in general: for the regular matrix `cycA` with `b = 0`, `c = (1, 2, 3)`, `d = 1` the returned vector `v` does not solve the
system: its first row gives `-1` instead of `0`.  (`lucp` returns the inverse of the permutations of SuperLU.) -/
theorem C108_lucp_fails : (Lucp.lucp 3 3 (1/100) cycA).2 = 2 ∧ Regular 3 cycA ∧ Regular 4 (border 3 cycA (fun _ => 0) (fun i => (i : ℚ) + 1) 1) ∧
    (∑ j ∈ range 4, border 3 cycA (fun _ => 0) (fun i => (i : ℚ) + 1) 1 0 j *
      brdNullSimp 3 (1/100) (1/100) cycA (fun _ => 0) (fun i => (i : ℚ) + 1) 1 j) = -1 := by
  refine ⟨by decide +kernel, ?_, ?_, by decide +kernel⟩
  · intro x hx j hj
    have h0 := hx 0 (by omega)
    have h1 := hx 1 (by omega)
    have h2 := hx 2 (by omega)
    simp [sum_range_succ, cycA] at h0 h1 h2
    interval_cases j <;> assumption
  · intro x hx j hj
    have h0 := hx 0 (by omega)
    have h1 := hx 1 (by omega)
    have h2 := hx 2 (by omega)
    have h3 := hx 3 (by omega)
    simp [sum_range_succ, cycA, border] at h0 h1 h2 h3
    rw [h3] at h0 h1 h2
    simp at h0 h1 h2
    interval_cases j <;> assumption

/-- `C108_solve` and the theorems on `brd_null`: `A = (2)` with the border `b = 1`, `c = 1`, `d = 1`. -/
example : ∃ lu : LU ℚ, IsSuperLU (fun _ _ => 2) lu ∧ lu.n = 1 ∧ Regular 1 (fun _ _ => (2 : ℚ)) ∧
    Regular 2 (border 1 (fun _ _ => (2 : ℚ)) (fun _ => 1) (fun _ => 1) 1) ∧ 1/100 ≤ lu.U 0 0 := by
  refine ⟨⟨1, fun i j => if i = j then 1 else 0, fun i j => if i = j then 2 else 0, 1, 1⟩, ⟨?_, ?_, ?_, ?_, ?_, ?_⟩, rfl, ?_, ?_, ?_⟩
  · intro i j hij; simp; omega
  · intro i _; simp
  · intro i j hij; simp; omega
  · intro i; rfl
  · intro i; rfl
  · intro i hi j hj
    have hi' : i = 0 := by simpa using hi
    have hj' : j = 0 := by simpa using hj
    subst hi' hj'
    simp
  · intro x hx j hj
    obtain rfl : j = 0 := by omega
    simpa using hx 0 (by omega)
  · intro x hx j hj
    have h0 := hx 0 (by omega)
    have h1 := hx 1 (by omega)
    simp [sum_range_succ, border] at h0 h1
    interval_cases j <;> linarith
  · norm_num

/-- `C108_sing_partial`: the singular matrix `goodA` (one column exchange) with the border `b = (1, 0)`, `c = (1, 0)`, `d = 0`. -/
example : (Lucp.lucp 2 2 (1/100) goodA).2 = 1 ∧ (Matrix.of fun i j : Fin 2 => goodA i j).det = 0 ∧
    Regular 3 (border 2 goodA (fun j => if j = 0 then 1 else 0) (fun j => if j = 0 then 1 else 0) 0) := by
  refine ⟨by decide +kernel, ?_, ?_⟩
  · rw [Matrix.det_fin_two]; simp [goodA]; norm_num
  · intro x hx j hj
    have h0 := hx 0 (by omega)
    have h1 := hx 1 (by omega)
    have h2 := hx 2 (by omega)
    simp [sum_range_succ, goodA, border] at h0 h1 h2
    interval_cases j <;> linarith

end Funpy.Props
