import Verif.Props.QR
import Verif.Model.Householder
import Mathlib.LinearAlgebra.Matrix.SchurComplement
import Mathlib.LinearAlgebra.Matrix.Rank
import Mathlib.LinearAlgebra.Matrix.Block
import Mathlib.Tactic.FieldSimp
import Mathlib.Tactic.Linarith

/-!
# C118: the Householder QR factorisation behind `QR(A)`, `QRCholesky(A)` and `qr(A)`
-/

namespace Funpy.Props
open QR Matrix Equiv

variable {m n : ℕ}

/-- A pivot choice never returns to the columns that are done. -/
def LegalPivot (piv : ℕ → Matrix (Fin m) (Fin n) ℝ → Fin n) : Prop := ∀ i R, i < n → i ≤ (piv i R).val

/-- Column pivoting: the column with the largest remaining part is chosen. -/
def MaxPivot (piv : ℕ → Matrix (Fin m) (Fin n) ℝ → Fin n) : Prop :=
  ∀ i R, i < n → i ≤ (piv i R).val ∧ ∀ j : Fin n, i ≤ j.val →
    ∑ a : Fin m, (if i ≤ a.val then R a j ^ 2 else 0) ≤ ∑ a : Fin m, (if i ≤ a.val then R a (piv i R) ^ 2 else 0)

lemma below_nonneg (R : Matrix (Fin m) (Fin n) ℝ) (i : ℕ) (j : Fin n) : 0 ≤ below R i j :=
  Finset.sum_nonneg fun a _ => by split_ifs <;> positivity

lemma sum_split (f : Fin m → ℝ) (i : Fin m) :
    ∑ a, (if a.val < i.val then 0 else if a = i then f i else f a) = f i + ∑ a : Fin m, if i.val < a.val then f a else 0 := by
  have : ∀ a : Fin m, (if a.val < i.val then 0 else if a = i then f i else f a)
      = (if a = i then f i else 0) + if i.val < a.val then f a else 0 := by
    intro a
    by_cases h1 : a.val < i.val
    · rw [if_pos h1, if_neg (by intro h; rw [h] at h1; exact lt_irrefl _ h1), if_neg (by omega), add_zero]
    · rw [if_neg h1]
      by_cases h2 : a = i
      · rw [if_pos h2, if_pos h2, if_neg (by rw [h2]; exact lt_irrefl _), add_zero]
      · rw [if_neg h2, if_neg h2, if_pos (by have : a.val ≠ i.val := fun h => h2 (Fin.ext h); omega), zero_add]
  simp only [this, Finset.sum_add_distrib, Finset.sum_ite_eq', Finset.mem_univ, if_true]

lemma hvec_dot (R : Matrix (Fin m) (Fin n) ℝ) (i : Fin m) (j : Fin n) (beta : ℝ) (w : Fin m → ℝ) :
    hvec R i j beta ⬝ᵥ w = w i + ∑ a : Fin m, if i.val < a.val then R a j / (R i j - beta) * w a else 0 := by
  rw [dotProduct]
  have : ∀ a, hvec R i j beta a * w a = if a.val < i.val then 0 else if a = i then
      (fun a => if a = i then w i else R a j / (R i j - beta) * w a) i
      else (fun a => if a = i then w i else R a j / (R i j - beta) * w a) a := by
    intro a
    simp only [hvec]
    by_cases h1 : a.val < i.val
    · simp only [if_pos h1, zero_mul]
    · by_cases h2 : a = i
      · simp only [if_neg h1, if_pos h2, one_mul, if_true]; rw [h2]
      · simp only [if_neg h1, if_neg h2]
  rw [Finset.sum_congr rfl fun a _ => this a, sum_split (fun a => if a = i then w i else R a j / (R i j - beta) * w a) i]
  simp only [if_true]
  congr 1
  apply Finset.sum_congr rfl
  intro a _
  by_cases h : i.val < a.val
  · rw [if_pos h, if_pos h, if_neg (by intro h'; rw [h'] at h; exact lt_irrefl _ h)]
  · rw [if_neg h, if_neg h]

/-- the facts about `larfg` -/
lemma larfg_facts (alpha x2 : ℝ) (h : x2 ≠ 0) (h0 : 0 ≤ x2) :
    (larfg alpha x2).1 ^ 2 = alpha ^ 2 + x2 ∧ (larfg alpha x2).1 ≠ 0 ∧ (larfg alpha x2).1 - alpha ≠ 0 ∧
      (larfg alpha x2).2 = ((larfg alpha x2).1 - alpha) / (larfg alpha x2).1 := by
  have hp : 0 < alpha ^ 2 + x2 := by have := lt_of_le_of_ne h0 (Ne.symm h); positivity
  have hs := Real.sq_sqrt hp.le
  have hs' := Real.sqrt_pos.mpr hp
  rw [larfg, if_neg h]
  by_cases ha : 0 ≤ alpha
  · simp only [if_pos ha]
    refine ⟨by rw [neg_sq, hs], by linarith [hs'], ?_, trivial⟩
    have : -Real.sqrt (alpha ^ 2 + x2) - alpha < 0 := by linarith
    exact this.ne
  · simp only [if_neg ha]
    exact ⟨hs, hs'.ne', (by linarith : (0 : ℝ) < _).ne', trivial⟩

/-- the vector of a nontrivial reflection: `tau |v|² = 2` and `tau (v · x) = alpha - beta` for the column `x` itself -/
lemma hvec_norm (R : Matrix (Fin m) (Fin n) ℝ) (i : Fin m) (j : Fin n) (h : below R i j ≠ 0) :
    (larfg (R i j) (below R i j)).2 * (hvec R i j (larfg (R i j) (below R i j)).1 ⬝ᵥ hvec R i j (larfg (R i j) (below R i j)).1) = 2 ∧
    (larfg (R i j) (below R i j)).2 * (hvec R i j (larfg (R i j) (below R i j)).1 ⬝ᵥ fun a => R a j)
      = R i j - (larfg (R i j) (below R i j)).1 ∧ (larfg (R i j) (below R i j)).2 ≠ 0 := by
  obtain ⟨h1, h2, h3, h4⟩ := larfg_facts (R i j) _ h (below_nonneg R i j)
  set b := (larfg (R i j) (below R i j)).1
  set t := (larfg (R i j) (below R i j)).2
  set al := R i j with hal
  have h3' : al - b ≠ 0 := by intro h; apply h3; linarith
  have e1 : (∑ a : Fin m, if i.val < a.val then R a j / (al - b) * hvec R i j b a else 0) = below R i j / (al - b) ^ 2 := by
    rw [below, Finset.sum_div]
    apply Finset.sum_congr rfl
    intro a _
    by_cases h : i.val < a.val
    · rw [if_pos h, if_pos h, hvec, if_neg (by omega), if_neg (by intro h'; rw [h'] at h; exact lt_irrefl _ h), ← hal]
      field_simp
    · rw [if_neg h, if_neg h, zero_div]
  have e2 : (∑ a : Fin m, if i.val < a.val then R a j / (al - b) * R a j else 0) = below R i j / (al - b) := by
    rw [below, Finset.sum_div]
    apply Finset.sum_congr rfl
    intro a _
    by_cases h : i.val < a.val
    · rw [if_pos h, if_pos h]; field_simp
    · rw [if_neg h, if_neg h, zero_div]
  have hi : hvec R i j b i = 1 := by rw [hvec, if_neg (lt_irrefl _), if_pos rfl]
  have hx : below R i j = b ^ 2 - al ^ 2 := by linarith
  refine ⟨?_, ?_, ?_⟩
  · rw [hvec_dot, ← hal, hi, e1, h4, hx]
    field_simp
    ring
  · rw [hvec_dot, ← hal, e2, h4, hx]
    field_simp
    ring
  · rw [h4]; exact div_ne_zero h3 h2

/-! ## Reflections -/

/-- `1 - tau v vᵀ` -/
def refl (p : (Fin m → ℝ) × ℝ) : Matrix (Fin m) (Fin m) ℝ := 1 - p.2 • vecMulVec p.1 p.1

lemma refl_mul (p : (Fin m → ℝ) × ℝ) (M : Matrix (Fin m) (Fin n) ℝ) : refl p * M = larf p.1 p.2 M := by
  rw [refl, larf, Matrix.sub_mul, Matrix.one_mul, Matrix.smul_mul, vecMulVec_mul]

lemma refl_transpose (p : (Fin m → ℝ) × ℝ) : (refl p)ᵀ = refl p := by
  ext i j
  simp only [refl, Matrix.transpose_apply, Matrix.sub_apply, Matrix.smul_apply, vecMulVec_apply, Matrix.one_apply, eq_comm (a := j)]
  rw [mul_comm (p.1 j)]

/-- Each pair is trivial (`tau = 0`) or a reflection. -/
def IsRefl (p : (Fin m → ℝ) × ℝ) : Prop := p.2 = 0 ∨ p.2 * (p.1 ⬝ᵥ p.1) = 2

lemma refl_sq (p : (Fin m → ℝ) × ℝ) (h : IsRefl p) : refl p * refl p = 1 := by
  rcases h with h | h
  · simp [refl, h]
  · have : vecMulVec p.1 p.1 * vecMulVec p.1 p.1 = (p.1 ⬝ᵥ p.1) • vecMulVec p.1 p.1 := by
      rw [vecMulVec_mul_vecMulVec, vecMulVec_smul]
    rw [refl, Matrix.sub_mul, Matrix.one_mul, Matrix.mul_sub, Matrix.mul_one, Matrix.smul_mul, Matrix.mul_smul, this, smul_smul, smul_smul,
      mul_assoc, h, mul_two, add_smul]
    abel

lemma refl_det (p : (Fin m → ℝ) × ℝ) (h : IsRefl p) : (refl p).det = if p.2 = 0 then 1 else -1 := by
  by_cases h0 : p.2 = 0
  · simp [refl, h0]
  · rw [if_neg h0]
    have h2 := h.resolve_left h0
    have : refl p = 1 + replicateCol Unit (-(p.2 • p.1)) * replicateRow Unit p.1 := by
      ext i j
      simp only [refl, Matrix.sub_apply, Matrix.add_apply, Matrix.mul_apply, replicateCol_apply, replicateRow_apply, Matrix.smul_apply,
        vecMulVec_apply, Pi.neg_apply, Pi.smul_apply, smul_eq_mul, Finset.univ_unique, Finset.sum_singleton]
      ring
    rw [this, det_one_add_replicateCol_mul_replicateRow, dotProduct_neg, dotProduct_smul, smul_eq_mul, h2]
    norm_num

lemma orgqr_append (vs : List ((Fin m → ℝ) × ℝ)) (p : (Fin m → ℝ) × ℝ) : orgqr (vs ++ [p]) = orgqr vs * refl p := by
  rw [orgqr, List.foldl_append]; rfl

lemma orgqr_facts (vs : List ((Fin m → ℝ) × ℝ)) (h : ∀ p ∈ vs, IsRefl p) :
    (orgqr vs)ᵀ * orgqr vs = 1 ∧ (orgqr vs).det = (-1) ^ countNonzero (vs.map Prod.snd) := by
  induction vs using List.reverseRecOn with
  | nil => simp [orgqr, countNonzero]
  | append_singleton vs p ih =>
    obtain ⟨h1, h2⟩ := ih fun q hq => h q (List.mem_append_left _ hq)
    have hp := h p (by simp)
    rw [orgqr_append]
    constructor
    · rw [Matrix.transpose_mul, refl_transpose, Matrix.mul_assoc, ← Matrix.mul_assoc _ (orgqr vs), h1, Matrix.one_mul, refl_sq p hp]
    · rw [Matrix.det_mul, h2, refl_det p hp, List.map_append, countNonzero, countNonzero, List.countP_append, pow_add]
      by_cases h0 : p.2 = 0 <;> simp [h0]

/-! ## The invariant -/

structure HInv (A : Matrix (Fin m) (Fin n) ℝ) (s : HState m n) (i : ℕ) : Prop where
  refls : ∀ p ∈ s.vs, IsRefl p
  len : s.vs.length = i
  eq : ∀ a j, A a (s.C j) = (orgqr s.vs * s.R) a j
  upper : ∀ (a : Fin m) (j : Fin n), j.val < i → j.val < a.val → s.R a j = 0
  last : ∀ k (hk : k < s.vs.length), k + 1 = m → (s.vs[k]).2 = 0

lemma hstep_inv (piv : ℕ → Matrix (Fin m) (Fin n) ℝ → Fin n) (hpiv : LegalPivot piv) (A : Matrix (Fin m) (Fin n) ℝ) (s : HState m n)
    (i : ℕ) (hm : i < m) (hn : i < n) (h : HInv A s i) : HInv A (hstep piv s i) (i + 1) := by
  rw [hstep, dif_pos ⟨hm, hn⟩]
  simp only
  set r : Fin m := ⟨i, hm⟩ with hr
  set c : Fin n := ⟨i, hn⟩ with hc
  set sw := Equiv.swap c (piv i s.R) with hsw
  set R := s.R.submatrix id sw with hR
  set bt := larfg (R r c) (below R i c) with hbt
  set v := hvec R r c bt.1 with hv
  have hswj : ∀ j : Fin n, j.val < i → sw j = j := by
    intro j hj
    apply Equiv.swap_apply_of_ne_of_ne
    · intro e; rw [e] at hj; exact lt_irrefl _ hj
    · intro e; have := hpiv i s.R hn; rw [← e] at this; omega
  have hup : ∀ (a : Fin m) (j : Fin n), j.val < i → j.val < a.val → R a j = 0 := by
    intro a j hj ha
    simp only [hR, Matrix.submatrix_apply, id, hswj j hj]
    exact h.upper a j hj ha
  have hrefl : IsRefl (v, bt.2) := by
    by_cases h0 : below R i c = 0
    · left; simp only [hbt, larfg, if_pos h0]
    · right; exact (hvec_norm R r c h0).1
  refine ⟨?_, by simp [h.len], ?_, ?_, ?_⟩
  · intro p hp
    rcases List.mem_append.1 hp with hp | hp
    · exact h.refls p hp
    · rw [List.mem_singleton.1 hp]; exact hrefl
  · intro a j
    rw [orgqr_append, ← refl_mul (v, bt.2), Matrix.mul_assoc, ← Matrix.mul_assoc (refl _), refl_sq _ hrefl, Matrix.one_mul]
    have := h.eq a (sw j)
    rw [Equiv.trans_apply, this, Matrix.mul_apply, Matrix.mul_apply]
    rfl
  · intro a j hj ha
    have hentry : larf v bt.2 R a j = R a j - bt.2 * (v ⬝ᵥ fun a => R a j) * v a := by
      simp only [larf, Matrix.sub_apply, Matrix.smul_apply, vecMulVec_apply, smul_eq_mul, vecMul]
      ring
    show larf v bt.2 R a j = 0
    rw [hentry]
    rcases Nat.lt_succ_iff_lt_or_eq.1 hj with hj | hj
    · have : v ⬝ᵥ (fun a => R a j) = 0 := by
        rw [hv, hvec_dot]
        have h1 : R r j = 0 := hup r j hj hj
        have h2 : ∀ a : Fin m, (if r.val < a.val then R a c / (R r c - bt.1) * R a j else 0) = 0 := by
          intro a
          by_cases h : r.val < a.val
          · rw [if_pos h, hup a j hj (by simp only [hr] at h; omega), mul_zero]
          · rw [if_neg h]
        simp only [h2, h1, Finset.sum_const_zero, add_zero]
      rw [this, hup a j hj ha]; ring
    · have hjc : j = c := Fin.ext hj
      subst hjc
      have har : r.val < a.val := by simp only [hr]; omega
      by_cases h0 : below R i c = 0
      · have hb : bt.2 = 0 := by simp only [hbt, larfg, if_pos h0]
        have hz := (Finset.sum_eq_zero_iff_of_nonneg (fun a _ => by split_ifs <;> positivity)).1 h0 a (Finset.mem_univ a)
        rw [if_pos (by simpa [hr] using har)] at hz
        rw [hb, pow_eq_zero_iff (by norm_num)] at *
        rw [hz]; ring
      · obtain ⟨-, h2, -⟩ := hvec_norm R r c h0
        obtain ⟨-, -, h3, -⟩ := larfg_facts (R r c) _ h0 (below_nonneg R i c)
        have h2' : bt.2 * (v ⬝ᵥ fun a => R a c) = R r c - bt.1 := h2
        have h3' : R r c - bt.1 ≠ 0 := by intro h; apply h3; simp only [← hbt]; linarith
        rw [h2', hv, hvec, if_neg (by omega), if_neg (by intro h'; rw [h'] at har; exact lt_irrefl _ har)]
        field_simp
        ring
  · intro k hk hkm
    rw [List.getElem_append]
    split_ifs with hk'
    · exact h.last k hk' hkm
    · have hki : k = i := by simp [h.len] at hk hk'; omega
      have : below R i c = 0 := by
        apply Finset.sum_eq_zero
        intro a _
        rw [if_neg (by omega)]
      simp only [hbt, larfg, if_pos this, List.getElem_singleton]

lemma hrun_inv (piv : ℕ → Matrix (Fin m) (Fin n) ℝ → Fin n) (hpiv : LegalPivot piv) (A : Matrix (Fin m) (Fin n) ℝ) :
    ∀ i, i ≤ min m n → HInv A ((List.range i).foldl (hstep piv) ⟨A, Equiv.refl _, []⟩) i
  | 0, _ => ⟨by simp, rfl, by simp [orgqr], fun _ _ h => absurd h (Nat.not_lt_zero _), by simp⟩
  | i + 1, hi => by
    rw [List.range_succ, List.foldl_append]
    exact hstep_inv piv hpiv A _ i (by omega) (by omega) (hrun_inv piv hpiv A i (by omega))

/-- C118: for every real matrix and every legal choice of pivots `qr(A)` returns an orthogonal `Q`, an upper triangular
`R` and a permutation with `A[:, C] = Q R`, and the counted number `k` gives the determinant of `Q`: `det Q = (-1)^k`. -/
theorem C118_qr (piv : ℕ → Matrix (Fin m) (Fin n) ℝ → Fin n) (hpiv : LegalPivot piv) (A : Matrix (Fin m) (Fin n) ℝ) :
    (QR.qr piv A).Qᵀ * (QR.qr piv A).Q = 1 ∧ (∀ (i : Fin m) (j : Fin n), j.val < i.val → (QR.qr piv A).R i j = 0) ∧
      (∀ i j, A i ((QR.qr piv A).C j) = ((QR.qr piv A).Q * (QR.qr piv A).R) i j) ∧ (QR.qr piv A).Q.det = (-1) ^ (QR.qr piv A).k := by
  have h := hrun_inv piv hpiv A (min m n) le_rfl
  have h' : HInv A (hrun piv A) (min m n) := h
  obtain ⟨h1, h2⟩ := orgqr_facts _ h'.refls
  have hR : (QR.qr piv A).R = (hrun piv A).R := by
    funext a j
    simp only [QR.qr]
    split_ifs with hj
    · exact (h'.upper a j (by omega) hj).symm
    · rfl
  refine ⟨h1, fun i j hj => by simp only [QR.qr, if_pos hj], fun i j => by rw [hR]; exact h'.eq i j, ?_⟩
  have hk : (QR.qr piv A).k = countNonzero ((hrun piv A).vs.map Prod.snd) := by
    simp only [QR.qr]
    split_ifs with hmn
    · rcases Nat.eq_zero_or_pos m with hm0 | hm0
      · have : (hrun piv A).vs = [] := List.length_eq_zero_iff.1 (by rw [h'.len]; omega)
        rw [this]; rfl
      · have hl : (hrun piv A).vs.length = m := by rw [h'.len]; omega
        have hne : (hrun piv A).vs.map Prod.snd ≠ [] := by
          intro e; have := congrArg List.length e; simp [hl] at this; omega
        conv_rhs => rw [← List.dropLast_append_getLast hne]
        have hz : ((hrun piv A).vs.map Prod.snd).getLast hne = 0 := by
          rw [List.getLast_eq_getElem, List.getElem_map]
          apply h'.last
          simp [hl]; omega
        rw [countNonzero, countNonzero, List.countP_append, hz]
        simp
    · rfl
  rw [hk]; exact h2

/-- C118: so the assumptions of the theorems about `QR` and `QRCholesky` (C72, C73) hold for every real matrix. -/
theorem C118_isQR (piv : ℕ → Matrix (Fin m) (Fin n) ℝ → Fin n) (hpiv : LegalPivot piv) (A : Matrix (Fin m) (Fin n) ℝ) :
    IsQR A (QR.qr piv A) := by
  obtain ⟨h1, h2, h3, h4⟩ := C118_qr piv hpiv A
  exact ⟨h1, h2, h3, h4⟩

/-! ## Column pivoting reveals the rank -/

/-- The squared norm of column `j` in the rows from `i` on. -/
def tailSq (i : ℕ) (R : Matrix (Fin m) (Fin n) ℝ) (j : Fin n) : ℝ := ∑ a : Fin m, if i ≤ a.val then R a j ^ 2 else 0

lemma larf_entry (v : Fin m → ℝ) (t : ℝ) (R : Matrix (Fin m) (Fin n) ℝ) (a : Fin m) (j : Fin n) :
    larf v t R a j = R a j - t * (v ⬝ᵥ fun a => R a j) * v a := by
  simp only [larf, Matrix.sub_apply, Matrix.smul_apply, vecMulVec_apply, smul_eq_mul, vecMul]
  ring

lemma larf_tailSq (v : Fin m → ℝ) (t : ℝ) (h : IsRefl (v, t)) (k i : ℕ) (hik : i ≤ k) (hv : ∀ a : Fin m, a.val < k → v a = 0)
    (R : Matrix (Fin m) (Fin n) ℝ) (j : Fin n) : tailSq i (larf v t R) j = tailSq i R j := by
  set d := v ⬝ᵥ fun a => R a j with hd
  have e1 : ∀ w : Fin m → ℝ, ∑ a : Fin m, (if i ≤ a.val then v a * w a else 0) = v ⬝ᵥ w := by
    intro w
    apply Finset.sum_congr rfl
    intro a _
    by_cases ha : i ≤ a.val
    · rw [if_pos ha]
    · rw [if_neg ha, hv a (by omega), zero_mul]
  have e2 : tailSq i (larf v t R) j = tailSq i R j - 2 * t * d * (∑ a : Fin m, if i ≤ a.val then v a * R a j else 0)
      + t ^ 2 * d ^ 2 * ∑ a : Fin m, if i ≤ a.val then v a * v a else 0 := by
    simp only [tailSq, Finset.mul_sum, ← Finset.sum_sub_distrib, ← Finset.sum_add_distrib]
    apply Finset.sum_congr rfl
    intro a _
    by_cases ha : i ≤ a.val
    · simp only [if_pos ha, larf_entry, ← hd]; ring
    · simp only [if_neg ha]; ring
  rw [e2, e1, e1, ← hd]
  rcases h with h | h
  · simp only at h; rw [h]; ring
  · simp only at h
    have : t ^ 2 * d ^ 2 * (v ⬝ᵥ v) = t * d ^ 2 * (t * (v ⬝ᵥ v)) := by ring
    rw [this, h]; ring

/-- The diagonal entry dominates everything right and below of it. -/
def Dominates (s : HState m n) (i : ℕ) : Prop :=
  ∀ i' (hm : i' < m) (hn : i' < n), i' < i → ∀ j : Fin n, i' ≤ j.val → tailSq i' s.R j ≤ s.R ⟨i', hm⟩ ⟨i', hn⟩ ^ 2

lemma hstep_dom (piv : ℕ → Matrix (Fin m) (Fin n) ℝ → Fin n) (hpiv : MaxPivot piv) (A : Matrix (Fin m) (Fin n) ℝ) (s : HState m n)
    (i : ℕ) (hm : i < m) (hn : i < n) (h : HInv A s i) (hD : Dominates s i) : Dominates (hstep piv s i) (i + 1) := by
  have hup' := (hstep_inv piv (fun i R h => (hpiv i R h).1) A s i hm hn h).upper
  rw [hstep, dif_pos ⟨hm, hn⟩] at hup' ⊢
  simp only at hup' ⊢
  set r : Fin m := ⟨i, hm⟩ with hr
  set c : Fin n := ⟨i, hn⟩ with hc
  set sw := Equiv.swap c (piv i s.R) with hsw
  set R := s.R.submatrix id sw with hR
  set bt := larfg (R r c) (below R i c) with hbt
  set v := hvec R r c bt.1 with hv
  have hle := (hpiv i s.R hn).1
  have hswj : ∀ j : Fin n, j.val < i → sw j = j := by
    intro j hj
    apply Equiv.swap_apply_of_ne_of_ne
    · intro e; rw [e] at hj; exact lt_irrefl _ hj
    · intro e; rw [← e] at hle; omega
  have hswge : ∀ j : Fin n, i ≤ j.val → i ≤ (sw j).val := by
    intro j hj
    by_contra hlt
    have h1 := hswj (sw j) (by omega)
    have h2 := sw.injective h1
    rw [h2] at hlt; exact hlt hj
  have hv0 : ∀ a : Fin m, a.val < i → v a = 0 := fun a ha => by rw [hv, hvec, if_pos ha]
  have hrefl : IsRefl (v, bt.2) := by
    by_cases h0 : below R i c = 0
    · left; simp only [hbt, larfg, if_pos h0]
    · right; exact (hvec_norm R r c h0).1
  intro i' hm' hn' hi' j hj
  show tailSq i' (larf v bt.2 R) j ≤ larf v bt.2 R ⟨i', hm'⟩ ⟨i', hn'⟩ ^ 2
  rw [larf_tailSq v bt.2 hrefl i i' (by omega) hv0]
  have hts : ∀ j, tailSq i' R j = tailSq i' s.R (sw j) := fun j => rfl
  rcases Nat.lt_succ_iff_lt_or_eq.1 hi' with hlt | heq
  · have e : larf v bt.2 R ⟨i', hm'⟩ ⟨i', hn'⟩ = s.R ⟨i', hm'⟩ ⟨i', hn'⟩ := by
      rw [larf_entry, hv0 _ hlt, mul_zero, sub_zero]
      simp only [hR, Matrix.submatrix_apply, id, hswj ⟨i', hn'⟩ hlt]
    rw [e, hts]
    apply hD i' hm' hn' hlt
    by_cases hji : j.val < i
    · rw [hswj j hji]; exact hj
    · exact le_trans (by omega) (hswge j (by omega))
  · subst heq
    have h1 : tailSq i' (larf v bt.2 R) c = larf v bt.2 R r c ^ 2 := by
      rw [tailSq, Finset.sum_eq_single r]
      · rw [if_pos le_rfl]
      · intro a _ ha
        by_cases hia : i' ≤ a.val
        · have : a.val ≠ i' := fun e => ha (Fin.ext e)
          rw [if_pos hia, hup' a c (by simp [hc]) (by simp only [hc]; omega)]; norm_num
        · rw [if_neg hia]
      · simp
    rw [show (⟨i', hm'⟩ : Fin m) = r from rfl, show (⟨i', hn'⟩ : Fin n) = c from rfl, ← h1, larf_tailSq v bt.2 hrefl i' i' le_rfl hv0, hts, hts,
      hsw, Equiv.swap_apply_left]
    exact (hpiv i' s.R hn).2 _ (hswge j hj)

lemma hrun_dom (piv : ℕ → Matrix (Fin m) (Fin n) ℝ → Fin n) (hpiv : MaxPivot piv) (A : Matrix (Fin m) (Fin n) ℝ) :
    ∀ i, i ≤ min m n → Dominates ((List.range i).foldl (hstep piv) ⟨A, Equiv.refl _, []⟩) i
  | 0, _ => fun _ _ _ h => absurd h (Nat.not_lt_zero _)
  | i + 1, hi => by
    rw [List.range_succ, List.foldl_append]
    exact hstep_dom piv hpiv A _ i (by omega) (by omega) (hrun_inv piv (fun i R h => (hpiv i R h).1) A i (by omega))
      (hrun_dom piv hpiv A i (by omega))

/-- C118: with column pivoting the diagonal of `R` decreases in modulus. -/
theorem C118_decreasing (piv : ℕ → Matrix (Fin m) (Fin n) ℝ → Fin n) (hpiv : MaxPivot piv) (A : Matrix (Fin m) (Fin n) ℝ) (i j : ℕ)
    (hij : i ≤ j) (hm : j < m) (hn : j < n) :
    |(QR.qr piv A).R ⟨j, hm⟩ ⟨j, hn⟩| ≤ |(QR.qr piv A).R ⟨i, by omega⟩ ⟨i, by omega⟩| := by
  have h := hrun_dom piv hpiv A (min m n) le_rfl i (by omega) (by omega) (by omega) ⟨j, hn⟩ hij
  simp only [QR.qr, lt_irrefl, if_false]
  apply sq_le_sq.1
  refine le_trans ?_ h
  rw [tailSq]
  refine le_trans (le_of_eq ?_) (Finset.single_le_sum (fun a _ => ?_) (Finset.mem_univ (⟨j, hm⟩ : Fin m)))
  · rw [if_pos hij]; rfl
  · split_ifs <;> positivity

/-- C118: with column pivoting the number of nonzero diagonal entries of `R` is the rank of `A`; they come first, and all
rows of `R` from there on vanish. -/
theorem C118_rank (piv : ℕ → Matrix (Fin m) (Fin n) ℝ → Fin n) (hpiv : MaxPivot piv) (A : Matrix (Fin m) (Fin n) ℝ) :
    (∀ i (hm : i < m) (hn : i < n), (QR.qr piv A).R ⟨i, hm⟩ ⟨i, hn⟩ ≠ 0 ↔ i < A.rank) ∧
      ∀ (a : Fin m) (j : Fin n), A.rank ≤ a.val → (QR.qr piv A).R a j = 0 := by
  have hleg : LegalPivot piv := fun i R h => (hpiv i R h).1
  have hQR := C118_isQR piv hleg A
  have hdom := hrun_dom piv hpiv A (min m n) le_rfl
  set R := (QR.qr piv A).R with hRdef
  -- a zero on the diagonal kills the remaining rows
  have hzero : ∀ i (hm : i < m) (hn : i < n), R ⟨i, hm⟩ ⟨i, hn⟩ = 0 → ∀ (a : Fin m) (j : Fin n), i ≤ a.val → R a j = 0 := by
    intro i hm hn h0 a j ha
    by_cases hja : j.val < a.val
    · exact hQR.upper a j hja
    · have hij : i ≤ j.val := by omega
      have h := hdom i hm hn (by omega) j hij
      have h0' : (hrun piv A).R ⟨i, hm⟩ ⟨i, hn⟩ = 0 := by
        have := h0; simp only [hRdef, QR.qr, lt_irrefl, if_false] at this; exact this
      have h00 : tailSq i (hrun piv A).R j ≤ 0 := by
        refine le_trans h (le_of_eq ?_)
        show (hrun piv A).R ⟨i, hm⟩ ⟨i, hn⟩ ^ 2 = 0
        rw [h0']; norm_num
      have hz := (Finset.sum_eq_zero_iff_of_nonneg (fun a _ => by split_ifs <;> positivity)).1
        (le_antisymm h00 (Finset.sum_nonneg fun a _ => by split_ifs <;> positivity)) a (Finset.mem_univ a)
      rw [if_pos ha, pow_eq_zero_iff (by norm_num)] at hz
      simp only [hRdef, QR.qr, if_neg hja]; exact hz
  -- the first zero
  have hex : ∃ r, r ≤ min m n ∧ (∀ i (hm : i < m) (hn : i < n), i < r → R ⟨i, hm⟩ ⟨i, hn⟩ ≠ 0) ∧
      ∀ (a : Fin m) (j : Fin n), r ≤ a.val → R a j = 0 := by
    by_cases hall : ∃ i, ∃ (hm : i < m) (hn : i < n), R ⟨i, hm⟩ ⟨i, hn⟩ = 0
    · classical
      refine ⟨Nat.find hall, ?_, ?_, ?_⟩
      · obtain ⟨hm, hn, -⟩ := Nat.find_spec hall; omega
      · intro i hm hn hi h0
        exact Nat.find_min hall hi ⟨hm, hn, h0⟩
      · obtain ⟨hm, hn, h0⟩ := Nat.find_spec hall
        exact hzero _ hm hn h0
    · refine ⟨min m n, le_rfl, fun i hm hn _ h0 => hall ⟨i, hm, hn, h0⟩, fun a j ha => hQR.upper a j ?_⟩
      have := a.isLt; have := j.isLt; omega
  obtain ⟨r, hr, hd, hz⟩ := hex
  -- it is the rank
  have hrank : A.rank = r := by
    have hdetQ : (QR.qr piv A).Q.det ≠ 0 := by
      rw [hQR.detQ]; exact pow_ne_zero _ (by norm_num)
    have hA : A.rank = R.rank := by
      have e : A.submatrix (Equiv.refl _) (QR.qr piv A).C = (QR.qr piv A).Q * R := by
        ext a j; exact hQR.eq a j
      rw [← rank_submatrix A (Equiv.refl _) (QR.qr piv A).C, e, rank_mul_eq_right_of_det_ne_zero _ _ hdetQ]
    rw [hA]
    apply le_antisymm
    · refine le_trans (rank_le_card_of_support_subset R (Finset.univ.filter fun a : Fin m => a.val < r) ?_) ?_
      · intro a ha
        simp only [Finset.coe_filter, Finset.mem_univ, true_and, Set.mem_setOf_eq]
        by_contra hlt
        apply ha
        funext j
        exact hz a j (by omega)
      · refine le_trans (Finset.card_le_card_of_injOn (t := Finset.range r) (fun a => a.val) ?_ ?_) (by simp)
        · intro a ha; simpa using ha
        · intro a _ b _ e; exact Fin.ext e
    · set S : Matrix (Fin r) (Fin r) ℝ := R.submatrix (fun i => ⟨i.val, by omega⟩) (fun i => ⟨i.val, by omega⟩) with hS
      have hSup : S.BlockTriangular id := by
        intro a b hab
        exact hQR.upper _ _ hab
      have hSd : S.det ≠ 0 := by
        rw [det_of_upperTriangular hSup]
        exact Finset.prod_ne_zero_iff.mpr fun i _ => hd i.val (by omega) (by omega) i.isLt
      have := rank_of_det_ne_zero hSd
      rw [Fintype.card_fin] at this
      rw [← this]
      exact rank_submatrix_le R _ _
  rw [hrank]
  refine ⟨fun i hm hn => ⟨fun h => ?_, hd i hm hn⟩, hz⟩
  by_contra hlt
  exact h (hz ⟨i, hm⟩ ⟨i, hn⟩ (by simpa using hlt))

/-- C118: so `QR(A)` works for every real square matrix: `det()` is the determinant, `det_sign()` its sign, and `solve`,
`solve_adj` solve the systems with `A` and `Aᵀ` if `A` is regular. -/
theorem C118_solver (piv : ℕ → Matrix (Fin n) (Fin n) ℝ → Fin n) (hpiv : LegalPivot piv) (A : Matrix (Fin n) (Fin n) ℝ) :
    (QR.qr piv A).det le_rfl = A.det ∧ (QR.qr piv A).detSign le_rfl = (SignType.sign A.det : ℝ) ∧
      (A.det ≠ 0 → ∀ b, A *ᵥ (QR.qr piv A).solve b = b ∧ Aᵀ *ᵥ (QR.qr piv A).solveAdj b = b) :=
  have h := C118_isQR piv hpiv A
  ⟨C72_det h, C72_det_sign h, fun hA b => ⟨C72_solve h hA b, C72_solve_adj h hA b⟩⟩

/-- C118: and `QRCholesky(A).solve(b)` is a least squares solution for every real matrix whose rank is determined
correctly and that has at most as many rows as columns (otherwise the constructor raises), the one of minimal norm if the rank is one less than the number of columns. -/
theorem C118_least_squares {r e d : ℕ} (piv : ℕ → Matrix (Fin (r + e)) (Fin (r + d)) ℝ → Fin (r + d)) (hpiv : MaxPivot piv)
    (A : Matrix (Fin (r + e)) (Fin (r + d)) ℝ) (hr : A.rank = r) (_he : e ≤ d) (L : Matrix (Fin d) (Fin d) ℝ) (b : Fin (r + e) → ℝ) :
    Aᵀ *ᵥ (A *ᵥ (QR.qr piv A).solveSingular L b) = Aᵀ *ᵥ b := by
  have h := C118_isQR piv (fun i R h => (hpiv i R h).1) A
  obtain ⟨h1, h2⟩ := C118_rank piv hpiv A
  rw [hr] at h1 h2
  exact C73_least_squares h (fun i => (h1 i.val (by omega) (by omega)).2 i.isLt) (fun i j => h2 _ j (by simp)) L b

/-- C118: `QRCholesky(A).solve(b)` for a matrix of rank `r` with `r + 1` columns. -/
theorem C118_pinv {r e : ℕ} (piv : ℕ → Matrix (Fin (r + e)) (Fin (r + 1)) ℝ → Fin (r + 1)) (hpiv : MaxPivot piv)
    (A : Matrix (Fin (r + e)) (Fin (r + 1)) ℝ) (hr : A.rank = r) (_he : e ≤ 1) (L : Matrix (Fin 1) (Fin 1) ℝ) (hL : IsChol (QR.qr piv A).M L)
    (b : Fin (r + e) → ℝ) : IsPinvSolution A b ((QR.qr piv A).solveSingular L b) := by
  have h := C118_isQR piv (fun i R h => (hpiv i R h).1) A
  obtain ⟨h1, h2⟩ := C118_rank piv hpiv A
  rw [hr] at h1 h2
  exact C73_pinv_partial h (fun i => (h1 i.val (by omega) (by omega)).2 i.isLt) (fun i j => h2 _ j (by simp)) L hL b

/-- C118 fails for complex matrices: for a single entry that is not real the factor `tau` is not zero although it is not
counted, `Q = 1 - tau` has neither determinant `1` nor `-1`, and `det()` is not the determinant. -/
theorem C118_complex_fails (z : ℂ) (hz : z.im ≠ 0) :
    (larfgComplexOne z).2 ≠ 0 ∧ (1 - (larfgComplexOne z).2) * (larfgComplexOne z).1 = z ∧
      1 - (larfgComplexOne z).2 ≠ 1 ∧ 1 - (larfgComplexOne z).2 ≠ -1 ∧ (detComplexOne z : ℂ) ≠ z := by
  have hp : 0 < z.re ^ 2 + z.im ^ 2 := by positivity
  have hs := Real.sqrt_pos.mpr hp
  obtain ⟨b, hb, hb0⟩ : ∃ b : ℝ, larfgComplexOne z = ((b : ℂ), (⟨(b - z.re) / b, -z.im / b⟩ : ℂ)) ∧ b ≠ 0 := by
    refine ⟨if 0 ≤ z.re then -Real.sqrt (z.re ^ 2 + z.im ^ 2) else Real.sqrt (z.re ^ 2 + z.im ^ 2), by rw [larfgComplexOne, if_neg hz], ?_⟩
    split_ifs
    · exact neg_ne_zero.mpr hs.ne'
    · exact hs.ne'
  have him : (1 - (⟨(b - z.re) / b, -z.im / b⟩ : ℂ)).im ≠ 0 := by
    simp only [Complex.sub_im, Complex.one_im, zero_sub, neg_div, neg_neg]
    exact div_ne_zero hz hb0
  rw [hb]
  refine ⟨?_, ?_, ?_, ?_, ?_⟩
  · intro h
    have := congrArg Complex.im h
    simp only [Complex.zero_im] at this
    exact div_ne_zero (neg_ne_zero.mpr hz) hb0 this
  · apply Complex.ext
    · simp only [Complex.mul_re, Complex.sub_re, Complex.one_re, Complex.ofReal_re, Complex.ofReal_im, mul_zero, sub_zero]
      field_simp; ring
    · simp only [Complex.mul_im, Complex.sub_im, Complex.one_im, Complex.ofReal_re, Complex.ofReal_im, mul_zero, zero_add, Complex.sub_re]
      field_simp; ring
  · intro h; exact him (by rw [h]; rfl)
  · intro h; exact him (by rw [h]; simp)
  · intro h
    have := congrArg Complex.im h
    rw [Complex.ofReal_im] at this
    exact hz this.symm

private lemma sign_mul_exp (b : ℝ) (hb : b ≠ 0) :
    ((SignType.sign b : SignType) : ℝ) * Real.exp (Real.log |b|) = b := by
  rw [Real.exp_log (abs_pos.mpr hb)]
  exact sign_mul_abs b

/-- C118, what `det()` of a complex `1 × 1` matrix is instead: plus or minus the modulus (the sign is the opposite of that
of the real part); for a real nonzero entry it is the entry. -/
theorem C118_complex_actual (z : ℂ) :
    (z.im ≠ 0 → detComplexOne z = if 0 ≤ z.re then -‖z‖ else ‖z‖) ∧
      (z.im = 0 → z ≠ 0 → (detComplexOne z : ℂ) = z) := by
  constructor
  · intro hz
    have hp : 0 < z.re ^ 2 + z.im ^ 2 := by positivity
    have hs := Real.sqrt_pos.mpr hp
    have hn : ‖z‖ = Real.sqrt (z.re ^ 2 + z.im ^ 2) := Complex.norm_eq_sqrt_sq_add_sq z
    have hone : (-1 : ℝ) ^ (countNonzero [] + 0) = 1 := by simp [countNonzero]
    simp only [detComplexOne, larfgComplexOne, if_neg hz, hone, one_mul, Complex.ofReal_re]
    rw [hn]
    split_ifs
    · exact sign_mul_exp _ (neg_ne_zero.mpr hs.ne')
    · exact sign_mul_exp _ hs.ne'
  · intro hz h0
    have hre : z.re ≠ 0 := fun h => h0 (Complex.ext h hz)
    have hone : (-1 : ℝ) ^ (countNonzero [] + 0) = 1 := by simp [countNonzero]
    simp only [detComplexOne, larfgComplexOne, if_pos hz, hone, one_mul]
    rw [sign_mul_exp _ hre]
    exact Complex.ext (by simp) (by simp [hz])

/-- a column with the largest remaining part exists, so there is a pivot choice as assumed -/
noncomputable def maxPiv [NeZero n] (i : ℕ) (R : Matrix (Fin m) (Fin n) ℝ) : Fin n :=
  if h : i < n then
    (Finset.exists_max_image (Finset.univ.filter fun j : Fin n => i ≤ j.val) (fun j => ∑ a : Fin m, if i ≤ a.val then R a j ^ 2 else 0)
      ⟨⟨i, h⟩, by simp⟩).choose
  else 0

/-- non-vacuity: LAPACK's pivot rule satisfies `MaxPivot`, no pivoting satisfies `LegalPivot`. -/
theorem maxPiv_spec [NeZero n] : MaxPivot (maxPiv : ℕ → Matrix (Fin m) (Fin n) ℝ → Fin n) := by
  intro i R h
  have hs := (Finset.exists_max_image (Finset.univ.filter fun j : Fin n => i ≤ j.val)
    (fun j => ∑ a : Fin m, if i ≤ a.val then R a j ^ 2 else 0) ⟨⟨i, h⟩, by simp⟩).choose_spec
  rw [maxPiv, dif_pos h]
  exact ⟨by simpa using hs.1, fun j hj => hs.2 j (by simpa using hj)⟩

example : LegalPivot (fun i (_ : Matrix (Fin 3) (Fin 3) ℝ) => Fin.ofNat 3 i) := fun i _ h => by
  simp [Fin.ofNat, Nat.mod_eq_of_lt h]

example : (!![1, 2; 3, 4] : Matrix (Fin 2) (Fin 2) ℝ).det ≠ 0 := by norm_num [Matrix.det_fin_two]

end Funpy.Props
