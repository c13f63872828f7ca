import Verif.Model.AbstractQR
import Mathlib.Algebra.BigOperators.Intervals
import Mathlib.Algebra.Module.Submodule.Basic
import Mathlib.LinearAlgebra.BilinearMap
import Mathlib.Algebra.Module.BigOperators
import Mathlib.Tactic.LinearCombination
import Mathlib.Tactic.Module

/-!
# Householder QR: orthonormality and factorisation
-/

namespace Funpy.AQR
open Finset

variable {X : Type} [AddCommGroup X] [Module ℝ X]

/-- Properties of the inner product used: bilinear, symmetric. -/
structure IsIP (ip : X → X → ℝ) : Prop where
  add_left : ∀ x y z, ip (x + y) z = ip x z + ip y z
  smul_left : ∀ (a : ℝ) x y, ip (a • x) y = a * ip x y
  symm : ∀ x y, ip x y = ip y x

namespace IsIP
variable {ip : X → X → ℝ} (h : IsIP ip)
include h

lemma add_right (x y z : X) : ip x (y + z) = ip x y + ip x z := by rw [h.symm, h.add_left, h.symm y, h.symm z]
lemma smul_right (a : ℝ) (x y : X) : ip x (a • y) = a * ip x y := by rw [h.symm, h.smul_left, h.symm]
lemma neg_left (x y : X) : ip (-x) y = -ip x y := by rw [← neg_one_smul ℝ, h.smul_left]; ring
lemma sub_left (x y z : X) : ip (x - y) z = ip x z - ip y z := by rw [sub_eq_add_neg, h.add_left, h.neg_left]; ring
lemma sub_right (x y z : X) : ip x (y - z) = ip x y - ip x z := by rw [h.symm, h.sub_left, h.symm y, h.symm z]
lemma zero_left (y : X) : ip 0 y = 0 := by have := h.smul_left 0 0 y; simpa using this

lemma refl_add (v x y : X) : refl ip v (x + y) = refl ip v x + refl ip v y := by
  simp only [refl, h.add_right]; module
lemma refl_smul (v : X) (a : ℝ) (x : X) : refl ip v (a • x) = a • refl ip v x := by
  simp only [refl, h.smul_right]; module
lemma refl_sub (v x y : X) : refl ip v (x - y) = refl ip v x - refl ip v y := by
  simp only [refl, h.sub_right]; module
lemma refl_refl (v x : X) (hv : ip v v = 1) : refl ip v (refl ip v x) = x := by
  simp only [refl, h.sub_right, h.smul_right, hv]; module
lemma refl_ip (v x y : X) (hv : ip v v = 1) : ip (refl ip v x) (refl ip v y) = ip x y := by
  simp only [refl, h.sub_right, h.smul_right, h.sub_left, h.smul_left, hv, h.symm x v]; ring
lemma refl_orth (v x : X) (hv : ip v x = 0) : refl ip v x = x := by simp [refl, hv]
end IsIP

lemma refl_mem (S : Submodule ℝ X) (ip : X → X → ℝ) {v x : X} (hv : v ∈ S) (hx : x ∈ S) : refl ip v x ∈ S :=
  S.sub_mem hx (S.smul_mem _ hv)

/-- `H(V 0) (H(V 1) ⋯ (H(V (k-1)) x))` -/
noncomputable def prodRefl (ip : X → X → ℝ) (V : ℕ → X) : ℕ → X → X
  | 0, x => x
  | k + 1, x => prodRefl ip V k (refl ip (V k) x)

lemma prodRefl_congr (ip : X → X → ℝ) (V W : ℕ → X) : ∀ (k : ℕ) (x : X), (∀ i < k, V i = W i) → prodRefl ip V k x = prodRefl ip W k x
  | 0, _, _ => rfl
  | k + 1, x, h => by
    rw [prodRefl, prodRefl, h k (by omega)]
    exact prodRefl_congr ip V W k _ fun i hi => h i (by omega)

section
variable {ip : X → X → ℝ} (h : IsIP ip) (V : ℕ → X)
include h

lemma prodRefl_add : ∀ (k : ℕ) (x y : X), prodRefl ip V k (x + y) = prodRefl ip V k x + prodRefl ip V k y
  | 0, _, _ => rfl
  | k + 1, x, y => by rw [prodRefl, h.refl_add, prodRefl_add k]; rfl

lemma prodRefl_smul : ∀ (k : ℕ) (a : ℝ) (x : X), prodRefl ip V k (a • x) = a • prodRefl ip V k x
  | 0, _, _ => rfl
  | k + 1, a, x => by rw [prodRefl, h.refl_smul, prodRefl_smul k]; rfl

lemma prodRefl_sub (k : ℕ) (x y : X) : prodRefl ip V k (x - y) = prodRefl ip V k x - prodRefl ip V k y := by
  have := prodRefl_add h V k (x - y) y
  rw [sub_add_cancel] at this
  rw [this, add_sub_cancel_right]

lemma prodRefl_ip : ∀ (k : ℕ) (x y : X), (∀ i < k, ip (V i) (V i) = 1) → ip (prodRefl ip V k x) (prodRefl ip V k y) = ip x y
  | 0, _, _, _ => rfl
  | k + 1, x, y, hv => by
    rw [prodRefl, prodRefl, prodRefl_ip k _ _ (fun i hi => hv i (by omega)), h.refl_ip _ _ _ (hv k (by omega))]

lemma prodRefl_tail (j : ℕ) : ∀ (d : ℕ) (x : X), (∀ i, j ≤ i → i < j + d → ip (V i) x = 0) → prodRefl ip V (j + d) x = prodRefl ip V j x
  | 0, _, _ => rfl
  | d + 1, x, hv => by
    rw [← add_assoc, prodRefl, h.refl_orth _ _ (hv (j + d) (by omega) (by omega))]
    exact prodRefl_tail j d x fun i h1 h2 => hv i h1 (by omega)
end

lemma prodRefl_mem (S : Submodule ℝ X) (ip : X → X → ℝ) (V : ℕ → X) : ∀ (k : ℕ) (x : X), (∀ i < k, V i ∈ S) → x ∈ S →
    prodRefl ip V k x ∈ S
  | 0, _, _, hx => hx
  | k + 1, _, hv, hx => prodRefl_mem S ip V k _ (fun i hi => hv i (by omega)) (refl_mem S ip (hv k (by omega)) hx)

/-- What `formQ` computes. -/
lemma formQ_eq (ip : X → X → ℝ) (V E : ℕ → X) (m : ℕ) : ∀ K, K ≤ m → ∀ Q : ℕ → X, ∀ j < m,
    (List.range K).reverse.foldl (fun Q k => fun j => if k ≤ j ∧ j < m then refl ip (V k) (Q j) else Q j) Q j
      = prodRefl ip V (min K (j + 1)) (Q j) := by
  intro K
  induction K with
  | zero => intro _ Q j _; simp [prodRefl]
  | succ K ih =>
    intro hK Q j hj
    rw [List.range_succ, List.reverse_append, List.reverse_singleton, List.singleton_append, List.foldl_cons,
      ih (by omega) _ j hj]
    by_cases hKj : K ≤ j
    · rw [if_pos ⟨hKj, hj⟩, min_eq_left (by omega), min_eq_left (by omega)]; rfl
    · rw [if_neg (by omega), min_eq_right (by omega), min_eq_right (by omega)]

/-- The invariant of the main loop. -/
structure Inv (S : Submodule ℝ X) (ip : X → X → ℝ) (nrm : X → ℝ) (tol C : ℝ) (m : ℕ) (A0 : ℕ → X) (k : ℕ) (s : St X) : Prop where
  A_mem : ∀ j < m, s.A j ∈ S
  E_mem : ∀ j < m, s.E j ∈ S
  E_orth : ∀ i < m, ∀ j < m, ip (s.E i) (s.E j) = if i = j then 1 else 0
  EA : ∀ i < k, ∀ j, k ≤ j → j < m → ip (s.E i) (s.A j) = 0
  A_norm : ∀ j, k ≤ j → j < m → ip (s.A j) (s.A j) ≤ ip (A0 j) (A0 j)
  V_mem : ∀ i < k, s.V i ∈ S
  V_one : ∀ i < k, ip (s.V i) (s.V i) = 1
  VE : ∀ i < k, ∀ l < i, ip (s.V i) (s.E l) = 0
  R_low : ∀ i j, j < i → s.R i j = 0
  R_fut : ∀ i j, k ≤ i → s.R i j = 0
  R_diag : ∀ i < k, 0 ≤ s.R i i
  todo : ∀ j, k ≤ j → j < m → A0 j = ∑ i ∈ range k, s.R i j • prodRefl ip s.V (i + 1) (s.E i) + prodRefl ip s.V k (s.A j)
  done : ∀ j < k, ∃ w ∈ S, A0 j = ∑ i ∈ range (j + 1), s.R i j • prodRefl ip s.V (i + 1) (s.E i) + w ∧
    ip w w ≤ 7 * (tol * (C * max 1 (√(ip (A0 j) (A0 j))))) ^ 2

lemma reorth_eq {ip : X → X → ℝ} (E : ℕ → X) (k : ℕ) (v : X) (hv : ∀ i < k, ip (E i) v = 0) : reorth ip E k v = v := by
  rw [reorth]
  have : ∀ l : List ℕ, (∀ i ∈ l, i < k) → l.foldl (fun v i => v - ip (E i) v • E i) v = v := by
    intro l
    induction l with
    | nil => intro _; rfl
    | cons a l ih =>
      intro hl
      rw [List.foldl_cons, hv a (hl a (by simp)), zero_smul, sub_zero]
      exact ih fun i hi => hl i (by simp [hi])
  exact this _ fun i hi => by have := List.mem_range.mp hi; omega

lemma sgn_sq {x : ℝ} (hx : x ≠ 0) : sgn x * sgn x = 1 ∧ sgn x * x = |x| := by
  rw [sgn]
  rcases lt_trichotomy x 0 with h | h | h
  · rw [if_pos h, abs_of_neg h]; constructor <;> ring
  · exact absurd h hx
  · rw [if_neg (by linarith), if_neg hx, abs_of_pos h]; constructor <;> ring

/-- One pass keeps the invariant. -/
lemma step_inv (S : Submodule ℝ X) {ip : X → X → ℝ} (h : IsIP ip) (hpos : ∀ x ∈ S, 0 ≤ ip x x) (nrm : X → ℝ) (tol C : ℝ) (htol : 0 < tol)
    (hC : 0 ≤ C) (hnrm : ∀ x ∈ S, nrm x ≤ C * √(ip x x)) (hn0 : ∀ x ∈ S, ip x x = 1 → 0 < nrm x) (m : ℕ) (A0 : ℕ → X) (k : ℕ) (hk : k < m)
    (s : St X) (I : Inv S ip nrm tol C m A0 k s) : Inv S ip nrm tol C m A0 (k + 1) (step ip nrm tol m k s) := by
  have hEk : ip (s.E k) (s.E k) = 1 := by rw [I.E_orth k hk k hk, if_pos rfl]
  set scl := scale nrm k s with hscl
  have hscl0 : 0 < scl := lt_of_lt_of_le (hn0 _ (I.E_mem k hk) hEk) (le_max_left _ _)
  set δ := tol * scl with hδ
  have hδ0 : 0 < δ := mul_pos htol hscl0
  set sg := sigma ip nrm tol k s with hsg
  set ex := ip (s.E k) (s.A k) with hex
  have hsgc : (sg = 1 ∧ |ex| < δ) ∨ (sg * sg = 1 ∧ sg * ex = -|ex|) := by
    rw [hsg, sigma]
    simp only [← hex, ← hscl, ← hδ]
    split_ifs with hc
    · exact Or.inl ⟨rfl, hc⟩
    · right
      have he0 : 0 < |ex| := lt_of_lt_of_le hδ0 (not_lt.mp hc)
      have hne : ex ≠ 0 := abs_pos.mp he0
      have h1 : ex / |ex| ≠ 0 := div_ne_zero hne he0.ne'
      obtain ⟨h2, h3⟩ := sgn_sq h1
      constructor
      · linear_combination h2
      · have h4 : sgn (ex / |ex|) * ex = |ex| := by
          have : abs (ex / |ex|) = 1 := by rw [abs_div, abs_abs, div_self he0.ne']
          rw [this] at h3
          have h5 : ex = ex / |ex| * |ex| := by field_simp
          calc sgn (ex / |ex|) * ex = sgn (ex / |ex|) * (ex / |ex|) * |ex| := by rw [mul_assoc, ← h5]
            _ = |ex| := by rw [h3, one_mul]
        linear_combination -h4
  have hsq : sg * sg = 1 := by
    rcases hsgc with ⟨h1, _⟩ | ⟨h1, _⟩
    · rw [h1]; ring
    · exact h1
  set e := sg • s.E k with he
  have hee : ip e e = 1 := by rw [he, h.smul_left, h.smul_right, hEk]; linear_combination hsq
  have heS : e ∈ S := S.smul_mem _ (I.E_mem k hk)
  have heE : ∀ i < m, i ≠ k → ip (s.E i) e = 0 := by
    intro i hi hik
    rw [he, h.smul_right, I.E_orth i hi k hk, if_neg hik, mul_zero]
  have hAk0 := hpos _ (I.A_mem k hk)
  set r := √(ip (s.A k) (s.A k)) with hr
  have hr0 : 0 ≤ r := Real.sqrt_nonneg _
  have hrr : r * r = ip (s.A k) (s.A k) := Real.mul_self_sqrt hAk0
  set ea := ip e (s.A k) with hea
  have hea' : ea = sg * ex := by rw [hea, he, h.smul_left]
  set u := r • e - s.A k with hu
  have huS : u ∈ S := S.sub_mem (S.smul_mem _ heS) (I.A_mem k hk)
  have huE : ∀ i < k, ip (s.E i) u = 0 := by
    intro i hi
    rw [hu, h.sub_right, h.smul_right, heE i (by omega) (by omega), I.EA i hi k le_rfl hk]; ring
  have huu : ip u u = 2 * r * r - 2 * r * ea := by
    rw [hu]
    simp only [h.sub_left, h.sub_right, h.smul_left, h.smul_right, hee, h.symm (s.A k) e, ← hea, ← hrr]
    ring
  set v := hvec ip nrm tol k s e with hv
  have hvdef : v = if √(ip u u) < δ then e else (1 / √(ip u u)) • u := by
    rw [hv, hvec]
    simp only [← hr, ← hu, reorth_eq s.E k u huE, ← hscl, ← hδ]
  have hvS : v ∈ S := by
    rw [hvdef]; split_ifs
    · exact heS
    · exact S.smul_mem _ huS
  have hvE : ∀ i < k, ip v (s.E i) = 0 := by
    intro i hi
    rw [hvdef]; split_ifs
    · rw [h.symm, heE i (by omega) (by omega)]
    · rw [h.smul_left, h.symm u (s.E i), huE i hi, mul_zero]
  have hv1 : ip v v = 1 := by
    rw [hvdef]; split_ifs with hc
    · exact hee
    · have h1 : 0 < √(ip u u) := lt_of_lt_of_le hδ0 (not_lt.mp hc)
      have h2 := Real.mul_self_sqrt (hpos u huS)
      rw [h.smul_left, h.smul_right]
      generalize √(ip u u) = q at h1 h2 ⊢
      rw [← h2]
      field_simp
  have hAkC : nrm (s.A k) ≤ C * √(ip (A0 k) (A0 k)) :=
    (hnrm _ (I.A_mem k hk)).trans (mul_le_mul_of_nonneg_left (Real.sqrt_le_sqrt (I.A_norm k le_rfl hk)) hC)
  have hsclC : scl ≤ C * max 1 (√(ip (A0 k) (A0 k))) := by
    rw [hscl, scale]
    apply max_le
    · refine (hnrm _ (I.E_mem k hk)).trans (mul_le_mul_of_nonneg_left ?_ hC)
      rw [hEk, Real.sqrt_one]; exact le_max_left _ _
    · exact hAkC.trans (mul_le_mul_of_nonneg_left (le_max_right _ _) hC)
  -- the error in the reflected column
  have herr : ip (s.A k - refl ip v (r • e)) (s.A k - refl ip v (r • e)) ≤ 7 * δ ^ 2 := by
    by_cases hc : √(ip u u) < δ
    · have hve : v = e := by rw [hvdef, if_pos hc]
      have h1 : s.A k - refl ip v (r • e) = s.A k + r • e := by
        rw [hve, refl, h.smul_right, hee]; module
      have h2 : ip (s.A k + r • e) (s.A k + r • e) = 2 * r * r + 2 * r * ea := by
        simp only [h.add_left, h.add_right, h.smul_left, h.smul_right, hee, h.symm (s.A k) e, ← hea, ← hrr]; ring
      have h3 : ip u u < δ ^ 2 := by
        have h4 := Real.mul_self_sqrt (hpos u huS)
        have h5 := Real.sqrt_nonneg (ip u u)
        nlinarith
      rw [h1, h2]
      rw [huu] at h3
      rcases hsgc with ⟨h4, h5⟩ | ⟨h4, h5⟩
      · rw [h4, one_mul] at hea'
        have h6 : ea < δ := by rw [hea']; exact (abs_lt.mp h5).2
        have h7 : r ≤ 1.4 * δ := by
          by_contra hcon
          push Not at hcon
          nlinarith
        have h8 : r * ea ≤ r * δ := mul_le_mul_of_nonneg_left h6.le hr0
        nlinarith
      · have h6 : ea ≤ 0 := by rw [hea', h5]; linarith [abs_nonneg ex]
        have h7 : r * ea ≤ 0 := mul_nonpos_of_nonneg_of_nonpos hr0 h6
        nlinarith
    · have h1 : 0 < √(ip u u) := lt_of_lt_of_le hδ0 (not_lt.mp hc)
      have h2 := Real.mul_self_sqrt (hpos u huS)
      have hve : v = (1 / √(ip u u)) • u := by rw [hvdef, if_neg hc]
      have h3 : 0 < ip u u := by rw [← h2]; exact mul_pos h1 h1
      have h4 : refl ip v (r • e) = s.A k := by
        rw [hve, refl, h.smul_left, smul_smul (2 * (1 / √(ip u u) * ip u (r • e)))]
        have h5 : 2 * ip u (r • e) = ip u u := by
          rw [huu, h.smul_right, hu, h.sub_left, h.smul_left, hee, h.symm (s.A k) e, ← hea]; ring
        have h6 : 2 * (1 / √(ip u u) * ip u (r • e)) * (1 / √(ip u u)) = 1 := by
          have : 2 * (1 / √(ip u u) * ip u (r • e)) * (1 / √(ip u u)) = (2 * ip u (r • e)) / (√(ip u u) * √(ip u u)) := by
            field_simp
          rw [this, h5, h2, div_self h3.ne']
        rw [h6, one_smul, hu]; abel
      rw [h4, sub_self, h.zero_left]
      positivity
  -- the new state
  set s' := step ip nrm tol m k s with hs'
  have hE' : ∀ i, s'.E i = if i = k then e else s.E i := fun i => rfl
  have hV' : ∀ i, s'.V i = if i = k then v else s.V i := fun i => rfl
  have hA' : ∀ j, k < j → j < m → s'.A j = refl ip v (s.A j) - ip e (refl ip v (s.A j)) • e := by
    intro j h1 h2
    show (if k < j ∧ j < m then _ else _) = _
    rw [if_pos ⟨h1, h2⟩]
  have hA'' : ∀ j, ¬ (k < j ∧ j < m) → s'.A j = s.A j := by
    intro j hj
    show (if k < j ∧ j < m then _ else _) = _
    rw [if_neg hj]
  have hRk : ∀ j, k < j → j < m → s'.R k j = ip e (refl ip v (s.A j)) := by
    intro j h1 h2
    show (if k = k then (if j = k then _ else if k < j ∧ j < m then _ else _) else _) = _
    rw [if_pos rfl, if_neg (by omega), if_pos ⟨h1, h2⟩]
  have hRkk : s'.R k k = r := by
    show (if k = k then (if k = k then _ else _) else _) = _
    rw [if_pos rfl, if_pos rfl]
  have hRi : ∀ i j, i ≠ k → s'.R i j = s.R i j := by
    intro i j hi
    show (if i = k then _ else _) = _
    rw [if_neg hi]
  have hVi : ∀ i < k, s'.V i = s.V i := fun i hi => by rw [hV', if_neg (by omega)]
  have hEi : ∀ i < k, s'.E i = s.E i := fun i hi => by rw [hE', if_neg (by omega)]
  have hP : ∀ i, i ≤ k → ∀ x, prodRefl ip s'.V i x = prodRefl ip s.V i x := fun i hi x =>
    prodRefl_congr ip _ _ i x fun l hl => hVi l (by omega)
  have hPk : ∀ x, prodRefl ip s'.V (k + 1) x = prodRefl ip s.V k (refl ip v x) := by
    intro x
    rw [prodRefl, hP k le_rfl, hV', if_pos rfl]
  have hterm : ∀ i < k, ∀ j, s'.R i j • prodRefl ip s'.V (i + 1) (s'.E i) = s.R i j • prodRefl ip s.V (i + 1) (s.E i) := by
    intro i hi j
    rw [hRi i j (by omega), hP (i + 1) (by omega), hEi i hi]
  have hunit : ∀ i < k, ip (s.V i) (s.V i) = 1 := I.V_one
  refine ⟨?_, ?_, ?_, ?_, ?_, ?_, ?_, ?_, ?_, ?_, ?_, ?_, ?_⟩
  · intro j hj
    by_cases hkj : k < j
    · rw [hA' j hkj hj]
      have := refl_mem S ip hvS (I.A_mem j hj)
      exact S.sub_mem this (S.smul_mem _ heS)
    · rw [hA'' j (by omega)]; exact I.A_mem j hj
  · intro j hj
    rw [hE']; split_ifs
    · exact heS
    · exact I.E_mem j hj
  · intro i hi j hj
    rw [hE', hE']
    by_cases h1 : i = k <;> by_cases h2 : j = k
    · rw [if_pos h1, if_pos h2, hee, if_pos (by omega)]
    · rw [if_pos h1, if_neg h2, h.symm, heE j hj h2, if_neg (by omega)]
    · rw [if_neg h1, if_pos h2, heE i hi h1, if_neg (by omega)]
    · rw [if_neg h1, if_neg h2, I.E_orth i hi j hj]
  · intro i hi j hj1 hj2
    rw [hA' j (by omega) hj2]
    by_cases hik : i = k
    · subst hik
      rw [hE', if_pos rfl, h.sub_right, h.smul_right, hee]; ring
    · rw [hEi i (by omega), h.sub_right, h.smul_right, heE i (by omega) hik, refl, h.sub_right, h.smul_right,
        I.EA i (by omega) j (by omega) hj2, h.symm (s.E i) v, hvE i (by omega)]
      ring
  · intro j hj1 hj2
    rw [hA' j (by omega) hj2]
    have h1 := h.refl_ip v (s.A j) (s.A j) hv1
    have h2 := I.A_norm j (by omega) hj2
    simp only [h.sub_left, h.sub_right, h.smul_left, h.smul_right, hee, h1, h.symm (refl ip v (s.A j)) e]
    nlinarith [sq_nonneg (ip e (refl ip v (s.A j)))]
  · intro i hi
    rw [hV']; split_ifs with hik
    · exact hvS
    · exact I.V_mem i (by omega)
  · intro i hi
    rw [hV']; split_ifs with hik
    · exact hv1
    · exact I.V_one i (by omega)
  · intro i hi l hl
    rw [hEi l (by omega), hV']; split_ifs with hik
    · exact hvE l (by omega)
    · exact I.VE i (by omega) l hl
  · intro i j hij
    by_cases hik : i = k
    · show (if i = k then (if j = k then _ else if k < j ∧ j < m then _ else s.R i j) else _) = _
      rw [if_pos hik, if_neg (by omega), if_neg (by omega)]
      exact I.R_low i j hij
    · rw [hRi i j hik]; exact I.R_low i j hij
  · intro i j hi
    rw [hRi i j (by omega)]; exact I.R_fut i j (by omega)
  · intro i hi
    by_cases hik : i = k
    · rw [hik, hRkk]; exact hr0
    · rw [hRi i i hik]; exact I.R_diag i (by omega)
  · intro j hj1 hj2
    rw [sum_range_succ, sum_congr rfl fun i hi => hterm i (mem_range.mp hi) j, hRk j (by omega) hj2, hPk, hPk, hE', if_pos rfl,
      hA' j (by omega) hj2, I.todo j (by omega) hj2, add_assoc, ← prodRefl_smul h, ← prodRefl_add h, ← h.refl_smul, ← h.refl_add]
    congr 2
    rw [add_sub_cancel, h.refl_refl _ _ hv1]
  · intro j hj
    by_cases hjk : j = k
    · subst hjk
      refine ⟨prodRefl ip s.V j (s.A j - refl ip v (r • e)), ?_, ?_, ?_⟩
      · exact prodRefl_mem S ip s.V j _ I.V_mem (S.sub_mem (I.A_mem j hk) (refl_mem S ip hvS (S.smul_mem _ heS)))
      · rw [sum_range_succ, sum_congr rfl fun i hi => hterm i (mem_range.mp hi) j, hRkk, hPk, hE', if_pos rfl, add_assoc,
          ← prodRefl_smul h, ← prodRefl_add h, h.refl_smul v r e, add_sub_cancel]
        exact I.todo j le_rfl hk
      · rw [prodRefl_ip h _ _ _ _ I.V_one]
        refine herr.trans ?_
        have h1 : δ ≤ tol * (C * max 1 (√(ip (A0 j) (A0 j)))) := mul_le_mul_of_nonneg_left hsclC htol.le
        have h2 : δ ^ 2 ≤ (tol * (C * max 1 (√(ip (A0 j) (A0 j))))) ^ 2 := pow_le_pow_left₀ hδ0.le h1 2
        linarith
    · obtain ⟨w, hwS, hw1, hw2⟩ := I.done j (by omega)
      refine ⟨w, hwS, ?_, hw2⟩
      rw [hw1]
      congr 1
      apply sum_congr rfl
      intro i hi
      exact (hterm i (by have := mem_range.mp hi; omega) j).symm

/-- Householder QR: `Q` is orthonormal, `R` is upper triangular with nonnegative diagonal and `A ≈ Q R`. -/
theorem abstractQR_spec (S : Submodule ℝ X) {ip : X → X → ℝ} (h : IsIP ip) (hpos : ∀ x ∈ S, 0 ≤ ip x x) (nrm : X → ℝ) (tol C : ℝ)
    (htol : 0 < tol) (hC : 0 ≤ C) (hnrm : ∀ x ∈ S, nrm x ≤ C * √(ip x x)) (hn0 : ∀ x ∈ S, ip x x = 1 → 0 < nrm x) (m : ℕ) (A E : ℕ → X)
    (hA : ∀ j < m, A j ∈ S) (hE : ∀ j < m, E j ∈ S) (hEo : ∀ i < m, ∀ j < m, ip (E i) (E j) = if i = j then 1 else 0) :
    (∀ j < m, (abstractQR ip nrm tol m A E).1 j ∈ S) ∧
    (∀ i < m, ∀ j < m, ip ((abstractQR ip nrm tol m A E).1 i) ((abstractQR ip nrm tol m A E).1 j) = if i = j then 1 else 0) ∧
    (∀ i j, j < i → (abstractQR ip nrm tol m A E).2 i j = 0) ∧ (∀ i < m, 0 ≤ (abstractQR ip nrm tol m A E).2 i i) ∧
    ∀ j < m, ∃ w ∈ S, A j = ∑ i ∈ range (j + 1), (abstractQR ip nrm tol m A E).2 i j • (abstractQR ip nrm tol m A E).1 i + w ∧
      ip w w ≤ 7 * (tol * (C * max 1 (√(ip (A j) (A j))))) ^ 2 := by
  have hinv : ∀ k ≤ m, Inv S ip nrm tol C m A k (iter ip nrm tol m ⟨A, E, A, fun _ _ => 0⟩ k) := by
    intro k
    induction k with
    | zero =>
      intro _
      refine ⟨hA, hE, hEo, ?_, fun j _ _ => le_rfl, ?_, ?_, ?_, fun _ _ _ => rfl, fun _ _ _ => rfl, ?_, ?_, ?_⟩
      all_goals intro i hi
      all_goals first | (exact absurd hi (Nat.not_lt_zero _)) | skip
      intro _
      simp [iter, prodRefl]
    | succ k ih => intro hk; exact step_inv S h hpos nrm tol C htol hC hnrm hn0 m A k (by omega) _ (ih (by omega))
  have I := hinv m le_rfl
  set s := iter ip nrm tol m ⟨A, E, A, fun _ _ => 0⟩ m with hs
  have hQ : ∀ j < m, (abstractQR ip nrm tol m A E).1 j = prodRefl ip s.V (j + 1) (s.E j) := by
    intro j hj
    show formQ ip m s.V s.E j = _
    rw [formQ, formQ_eq ip s.V s.E m m le_rfl s.E j hj, min_eq_right (by omega)]
  have hR : (abstractQR ip nrm tol m A E).2 = s.R := rfl
  have hQm : ∀ j < m, prodRefl ip s.V (j + 1) (s.E j) = prodRefl ip s.V m (s.E j) := by
    intro j hj
    have := prodRefl_tail h s.V (j + 1) (m - (j + 1)) (s.E j) fun i h1 h2 => I.VE i (by omega) j (by omega)
    rw [← this]; congr 1; omega
  refine ⟨?_, ?_, ?_, ?_, ?_⟩
  · intro j hj
    rw [hQ j hj]
    exact prodRefl_mem S ip s.V _ _ (fun i hi => I.V_mem i (by omega)) (I.E_mem j hj)
  · intro i hi j hj
    rw [hQ i hi, hQ j hj, hQm i hi, hQm j hj, prodRefl_ip h _ _ _ _ I.V_one, I.E_orth i hi j hj]
  · rw [hR]; exact I.R_low
  · rw [hR]; exact I.R_diag
  · intro j hj
    obtain ⟨w, hw, h1, h2⟩ := I.done j hj
    refine ⟨w, hw, ?_, h2⟩
    rw [h1, hR]
    congr 1
    apply sum_congr rfl
    intro i hi
    rw [hQ i (by have := mem_range.mp hi; omega)]

end Funpy.AQR
