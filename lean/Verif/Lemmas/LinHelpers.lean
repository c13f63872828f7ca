import Verif.Model.LinHelpers
import Verif.Lemmas.ListAux
import Mathlib.GroupTheory.Perm.Sign
import Mathlib.LinearAlgebra.Dimension.Finrank
import Mathlib.LinearAlgebra.FiniteDimensional.Lemmas
import Mathlib.LinearAlgebra.Dual.Lemmas
import Mathlib.Tactic
import Mathlib.Data.List.GetD

/-! Lemmas for `Props/LinHelpers.lean`. -/

namespace Funpy.LinHelpers

open Equiv

/-! ## minimumSwaps -/

/-- Functions invariant under `σ`. -/
def Inv {n : ℕ} (σ : Perm (Fin n)) : Submodule ℚ (Fin n → ℚ) where
  carrier := {v | ∀ j, v (σ j) = v j}
  zero_mem' := by intro j; rfl
  add_mem' := by intro a b ha hb j; simp [ha j, hb j]
  smul_mem' := by intro c a ha j; simp [ha j]

theorem mem_Inv {n : ℕ} (σ : Perm (Fin n)) (v : Fin n → ℚ) : v ∈ Inv σ ↔ ∀ j, v (σ j) = v j := Iff.rfl

open Module in
theorem finrank_inf_ker {V : Type*} [AddCommGroup V] [Module ℚ V] [FiniteDimensional ℚ V] (W : Submodule ℚ V)
    (φ : V →ₗ[ℚ] ℚ) : finrank ℚ W ≤ finrank ℚ ↥(W ⊓ LinearMap.ker φ) + 1 := by
  have h1 := Submodule.finrank_sup_add_finrank_inf_eq W (LinearMap.ker φ)
  have h2 := LinearMap.finrank_range_add_finrank_ker φ
  have h3 : finrank ℚ (LinearMap.range φ) ≤ 1 := by
    have := Submodule.finrank_le (LinearMap.range φ); simpa using this
  have h4 := Submodule.finrank_le (W ⊔ LinearMap.ker φ)
  omega

open Module in
theorem finrank_Inv_prod {n : ℕ} (l : List (Perm (Fin n))) (hl : ∀ g ∈ l, g.IsSwap) :
    n ≤ finrank ℚ (Inv l.prod) + l.length := by
  induction l with
  | nil =>
    have : Inv (1 : Perm (Fin n)) = ⊤ := by
      ext v; simp [mem_Inv]
    rw [List.prod_nil, this]; simp
  | cons g l ih =>
    obtain ⟨x, y, -, rfl⟩ := hl g (by simp)
    have ih' := ih (fun g hg => hl g (by simp [hg]))
    let φ : (Fin n → ℚ) →ₗ[ℚ] ℚ := (LinearMap.proj x : (Fin n → ℚ) →ₗ[ℚ] ℚ) - (LinearMap.proj y : (Fin n → ℚ) →ₗ[ℚ] ℚ)
    have h1 := finrank_inf_ker (Inv l.prod) φ
    have h2 : Inv l.prod ⊓ LinearMap.ker φ ≤ Inv (swap x y * l.prod) := by
      rintro v ⟨hv, hk⟩ j
      have hk' : v x = v y := by
        have : v x - v y = 0 := hk
        linarith
      rw [Perm.mul_apply, ← (mem_Inv _ _).mp hv j]
      rcases eq_or_ne (l.prod j) x with h | h
      · rw [h, swap_apply_left, hk']
      · rcases eq_or_ne (l.prod j) y with h' | h'
        · rw [h', swap_apply_right, hk']
        · rw [swap_apply_of_ne_of_ne h h']
    have h3 := Submodule.finrank_mono h2
    rw [List.prod_cons, List.length_cons]
    omega

open Module in
theorem finrank_Inv_step {n : ℕ} (τ : Perm (Fin n)) (i : Fin n) (h : τ i ≠ i) :
    finrank ℚ (Inv τ) + 1 ≤ finrank ℚ (Inv (τ * swap i (τ.symm i))) := by
  set y := τ.symm i with hy
  have hτy : τ y = i := by simp [hy]
  have hyi : y ≠ i := fun h1 => h (by rw [← h1]; rw [hτy, h1])
  apply Submodule.finrank_lt_finrank_of_lt
  constructor
  · intro v hv j
    rw [Perm.mul_apply, (mem_Inv _ _).mp hv]
    have hk : v i = v y := by rw [← (mem_Inv _ _).mp hv y, hτy]
    rcases eq_or_ne j i with h' | h'
    · rw [h', swap_apply_left, hk]
    · rcases eq_or_ne j y with h'' | h''
      · rw [h'', swap_apply_right, hk]
      · rw [swap_apply_of_ne_of_ne h' h'']
  · intro hle
    have hmem : Pi.single i (1 : ℚ) ∈ Inv (τ * swap i y) := by
      intro j
      have hfix : (τ * swap i y) i = i := by simp [hτy]
      by_cases hj : j = i
      · rw [hj, hfix]
      · have : (τ * swap i y) j ≠ i := fun h1 => hj ((τ * swap i y).injective (h1.trans hfix.symm))
        rw [Pi.single_eq_of_ne this, Pi.single_eq_of_ne hj]
    have := (mem_Inv _ _).mp (hle hmem) y
    rw [hτy, Pi.single_eq_same, Pi.single_eq_of_ne hyi] at this
    exact one_ne_zero this

/-- The loop invariant. -/
structure SwapInv {n : ℕ} (σ τ : Perm (Fin n)) (l : List (Perm (Fin n))) (i : ℕ)
    (s : (ℕ → ℕ) × (ℕ → ℕ) × ℕ) : Prop where
  fix : ∀ j : Fin n, j.val < i → τ j = j
  ha : ∀ j : Fin n, i ≤ j.val → s.1 j = (τ j).val
  hb : ∀ j : Fin n, i ≤ j.val → s.2.1 j = (τ.symm j).val
  len : l.length = s.2.2
  swaps : ∀ g ∈ l, g.IsSwap
  prod : τ * l.prod = σ
  dim : Module.finrank ℚ (Inv σ) + l.length ≤ Module.finrank ℚ (Inv τ)

theorem swapStep_inv {n : ℕ} {σ τ : Perm (Fin n)} {l : List (Perm (Fin n))} {i : ℕ} (hi : i < n)
    {s : (ℕ → ℕ) × (ℕ → ℕ) × ℕ} (h : SwapInv σ τ l i s) :
    (swapStep s i = s ∧ τ ⟨i, hi⟩ = ⟨i, hi⟩ ∧ SwapInv σ τ l (i + 1) s) ∨
    (τ ⟨i, hi⟩ ≠ ⟨i, hi⟩ ∧ SwapInv σ (τ * swap ⟨i, hi⟩ (τ.symm ⟨i, hi⟩))
      (swap ⟨i, hi⟩ (τ.symm ⟨i, hi⟩) :: l) (i + 1) (swapStep s i)) := by
  set I : Fin n := ⟨i, hi⟩ with hI
  have hx := h.ha I le_rfl
  have hy := h.hb I le_rfl
  simp only [hI] at hx hy
  by_cases hxi : τ I = I
  · left
    have : s.1 i = i := by rw [hx, ← hI, hxi]
    refine ⟨by simp [swapStep, this], hxi, ⟨?_, fun j hj => h.ha j (by omega), fun j hj => h.hb j (by omega),
      h.len, h.swaps, h.prod, h.dim⟩⟩
    intro j hj
    rcases Nat.lt_succ_iff_lt_or_eq.mp hj with h1 | h1
    · exact h.fix j h1
    · have : j = I := Fin.ext h1
      rw [this, hxi]
  · right
    refine ⟨hxi, ?_⟩
    set y := τ.symm I with hyd
    have hτy : τ y = I := by simp [hyd]
    have hyI : I ≠ y := by rintro h1; apply hxi; rw [← h1] at hτy; exact hτy
    have hxv : s.1 i ≠ i := by
      rw [hx]; intro h1; exact hxi (Fin.ext h1)
    have hst : swapStep s i = (setAt s.1 y (τ I), setAt s.2.1 (τ I) y, s.2.2 + 1) := by
      have hy' : s.2.1 i = y.val := hy
      simp only [swapStep, if_pos hxv]
      rw [hy', hx]
    have hyi : i < y.val := by
      rcases Nat.lt_trichotomy y.val i with h1 | h1 | h1
      · have := h.fix y h1; rw [hτy] at this; exact absurd this hyI
      · exact absurd (Fin.ext h1.symm) hyI
      · exact h1
    rw [hst]
    refine ⟨?_, ?_, ?_, by simp [h.len], ?_, ?_, ?_⟩
    · intro j hj
      rcases Nat.lt_succ_iff_lt_or_eq.mp hj with h1 | h1
      · have h2 : j ≠ I := fun h2 => by rw [h2] at h1; exact absurd h1 (by simp [hI])
        have h3 : j ≠ y := fun h3 => by rw [h3] at h1; omega
        simp [swap_apply_of_ne_of_ne h2 h3, h.fix j h1]
      · have : j = I := Fin.ext h1
        simp [this, hτy]
    · intro j hj
      have h2 : j ≠ I := fun h2 => by rw [h2] at hj; simp [hI] at hj
      by_cases h3 : j = y
      · simp [h3, setAt]
      · have h4 : j.val ≠ y.val := fun h4 => h3 (Fin.ext h4)
        simp only [setAt, if_neg h4, Perm.mul_apply, swap_apply_of_ne_of_ne h2 h3]
        exact h.ha j (by omega)
    · intro j hj
      have h2 : j ≠ I := fun h2 => by rw [h2] at hj; simp [hI] at hj
      have hsymm : (τ * swap I y).symm j = swap I y (τ.symm j) := by
        rw [Equiv.symm_apply_eq]; simp
      rw [hsymm]
      by_cases h3 : j = τ I
      · simp [h3, setAt]
      · have h4 : j.val ≠ (τ I).val := fun h4 => h3 (Fin.ext h4)
        have h5 : τ.symm j ≠ I := fun h5 => h3 (by rw [← h5]; simp)
        have h6 : τ.symm j ≠ y := fun h6 => h2 (by rw [hyd] at h6; exact τ.symm.injective h6)
        simp only [setAt, if_neg h4, swap_apply_of_ne_of_ne h5 h6]
        exact h.hb j (by omega)
    · intro g hg
      rcases List.mem_cons.mp hg with rfl | h1
      · exact ⟨I, y, hyI, rfl⟩
      · exact h.swaps g h1
    · rw [List.prod_cons, mul_assoc, ← mul_assoc (swap I y) (swap I y), swap_mul_self, one_mul, h.prod]
    · have := finrank_Inv_step τ I hxi
      have h2 := h.dim
      rw [List.length_cons]
      exact le_trans (by omega) this

theorem foldl_last {α : Type*} [DecidableEq α] (f : ℕ → α) (v : α) (n : ℕ) (k : ℕ) (hk : k < n)
    (hf : f k = v) (hu : ∀ j < n, f j = v → j = k) (z : ℕ) :
    (List.range n).foldl (fun acc j => if f j = v then j else acc) z = k := by
  induction n with
  | zero => omega
  | succ n ih =>
    rw [List.range_succ, List.foldl_append]
    simp only [List.foldl_cons, List.foldl_nil]
    by_cases h : f n = v
    · rw [if_pos h]; exact hu n (by omega) h
    · rw [if_neg h]
      exact ih (by rcases Nat.lt_succ_iff_lt_or_eq.mp hk with h1 | h1
                   · exact h1
                   · subst h1; exact absurd hf h) (fun j hj => hu j (by omega))

theorem getD_ofFn {n : ℕ} (f : Fin n → ℕ) (j : ℕ) (hj : j < n) : (List.ofFn f).getD j 0 = f ⟨j, hj⟩ := by
  rw [List.getD_eq_getElem _ _ (by simpa using hj)]; simp

theorem minimumSwaps_inv {n : ℕ} (σ : Perm (Fin n)) :
    ∃ l : List (Perm (Fin n)), l.length = minimumSwaps (List.ofFn fun i => (σ i).val) ∧ (∀ g ∈ l, g.IsSwap) ∧
      l.prod = σ ∧ Module.finrank ℚ (Inv σ) + l.length ≤ n := by
  set arr := List.ofFn fun i => (σ i).val with harr
  have hlen : arr.length = n := by simp [harr]
  let a : ℕ → ℕ := fun i => arr.getD i 0
  let b : ℕ → ℕ := fun v => (List.range arr.length).foldl (fun acc k => if arr.getD k 0 = v then k else acc) 0
  have key : ∀ m ≤ n, ∃ τ l, SwapInv σ τ l m ((List.range m).foldl swapStep (a, b, 0)) := by
    intro m
    induction m with
    | zero =>
      intro _
      refine ⟨σ, [], ⟨by simp, ?_, ?_, rfl, by simp, by simp, by simp⟩⟩
      · intro j _
        exact getD_ofFn (fun i => (σ i).val) j.val j.isLt
      · intro j _
        show b j = _
        simp only [b, hlen]
        refine foldl_last (fun k => arr.getD k 0) j.val n _ (σ.symm j).isLt ?_ ?_ 0
        · rw [harr]; rw [getD_ofFn (fun i => (σ i).val) _ (σ.symm j).isLt]; simp
        · intro k hk h1
          simp only [harr] at h1
          rw [getD_ofFn (fun i => (σ i).val) k hk] at h1
          have : σ ⟨k, hk⟩ = j := Fin.ext h1
          rw [← this]; simp
    | succ m ih =>
      intro hm
      obtain ⟨τ, l, h⟩ := ih (by omega)
      rw [List.range_succ, List.foldl_append]
      simp only [List.foldl_cons, List.foldl_nil]
      rcases swapStep_inv (by omega) h with ⟨h1, -, h2⟩ | ⟨-, h2⟩
      · rw [h1]; exact ⟨_, _, h2⟩
      · exact ⟨_, _, h2⟩
  obtain ⟨τ, l, h⟩ := key n le_rfl
  have hτ : τ = 1 := by ext j; rw [h.fix j j.isLt]; rfl
  refine ⟨l, ?_, h.swaps, by have := h.prod; rwa [hτ, one_mul] at this, ?_⟩
  · rw [h.len]; simp only [minimumSwaps, hlen, a, b]
  · have := h.dim
    have h3 := Submodule.finrank_le (Inv τ)
    rw [Module.finrank_fin_fun] at h3
    omega

end Funpy.LinHelpers
