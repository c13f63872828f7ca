import Verif.Lemmas.Jacobi3
import Verif.Spec.Cheb

/-!
# C56: conversion between ultraspherical / Jacobi bases

`Spec.jacobiSeries a b c` is the function with the coefficients `c` in the Jacobi basis `P_k^{(a,b)}`,
`Spec.ultraSeriesR lam c` the one with the coefficients `c` in the basis `C^{(lam)}` (Chebyshev polynomials for
`lam = 0`).
-/

namespace Funpy.Props
open Spec Finset Funpy.Jac

/-- C56: `jac2jac` maps the `P^{(alpha,beta)}` coefficients of a function to its `P^{(gam,delta)}` coefficients, for
all admissible parameters with integer differences and any number of coefficients `≥ 2` (or `≥ 1` if no parameter
is lowered). -/
theorem C56_jac2jac {alpha beta gam delta : ℝ} (ha : -1 < alpha) (hb : -1 < beta) (hg : -1 < gam)
    (hd : -1 < delta) (hz1 : ∃ m : ℤ, gam - alpha = m) (hz2 : ∃ m : ℤ, delta - beta = m) (c : List ℝ)
    (hc : 2 ≤ c.length ∨ (1 ≤ c.length ∧ alpha ≤ gam ∧ beta ≤ delta)) :
    ∃ c', jac2jac c alpha beta gam delta = some c' ∧ c'.length = c.length ∧
      ∀ x, jacobiSeries gam delta c' x = jacobiSeries alpha beta c x :=
  jac2jac_series ha hb hg hd hz1 hz2 c hc

example : ∃ c', jac2jac [1, 2, 3] (1 / 2) (-1 / 3) (-1 / 2) (5 / 3) = some c' ∧ c'.length = 3 ∧
    ∀ x, jacobiSeries (-1 / 2) (5 / 3) c' x = jacobiSeries (1 / 2) (-1 / 3) [1, 2, 3] x :=
  C56_jac2jac (by norm_num) (by norm_num) (by norm_num) (by norm_num) ⟨-1, by norm_num⟩ ⟨2, by norm_num⟩ _
    (Or.inl (by simp))

/-- C56: parameters that do not differ by integers (beyond `1e-15`) are refused. -/
theorem C56_noninteger {alpha beta gam delta : ℝ} (c : List ℝ)
    (h : (∀ m : ℤ, 1 / 10 ^ 15 < |alpha + m - gam|) ∨ (∀ m : ℤ, 1 / 10 ^ 15 < |beta + m - delta|)) :
    jac2jac c alpha beta gam delta = none :=
  jac2jac_none c h

example : jac2jac [1, 2] (1 / 2) 0 0 0 = none := by
  apply C56_noninteger _ (Or.inl _)
  intro m
  have h : (1 : ℝ) / 2 ≤ |1 / 2 + (m : ℝ) - 0| := by
    rcases le_or_gt 0 m with h | h
    · have : (0 : ℝ) ≤ m := by exact_mod_cast h
      rw [abs_of_nonneg (by linarith)]; linarith
    · have : (m : ℝ) ≤ -1 := by exact_mod_cast (by omega : m ≤ -1)
      rw [abs_of_nonpos (by linarith)]; linarith
  refine lt_of_lt_of_le ?_ h
  norm_num

/-- C56: `ultra2ultra` maps the `C^{(lamIn)}` coefficients of a function to its `C^{(lamOut)}` coefficients, for all
orders `≥ 0` with integer difference and any positive number of coefficients. -/
theorem C56_ultra2ultra {lamIn lamOut : ℝ} (hi : 0 ≤ lamIn) (ho : 0 ≤ lamOut) (hz : ∃ m : ℤ, lamOut - lamIn = m)
    (c : List ℝ) (hc : c ≠ []) :
    ∃ c', ultra2ultra c lamIn lamOut = some c' ∧ c'.length = c.length ∧
      ∀ x, ultraSeriesR lamOut c' x = ultraSeriesR lamIn c x := by
  have hc1 : 1 ≤ c.length := List.length_pos_iff.mpr hc
  have hz' : ∃ m : ℤ, lamOut - 1 / 2 - (lamIn - 1 / 2) = m := by
    obtain ⟨m, hm⟩ := hz; exact ⟨m, by rw [← hm]; ring⟩
  unfold ultra2ultra
  simp only []
  rw [bcastInto_map_range _ _ _ (by rw [scl_length]; omega), Option.bind_some]
  set c1 := (List.range c.length).map fun k => c.getD k 0 / (scl lamIn (c.length - 1)).getD k 0 with hc1'
  have hl1 : c1.length = c.length := by simp [hc1']
  by_cases h2 : 2 ≤ c.length ∨ lamIn ≤ lamOut
  · obtain ⟨c2, e1, e2, e3⟩ := C56_jac2jac (alpha := lamIn - 1 / 2) (beta := lamIn - 1 / 2) (gam := lamOut - 1 / 2)
      (delta := lamOut - 1 / 2) (by linarith) (by linarith) (by linarith) (by linarith) hz' hz' c1
      (by rcases h2 with h | h
          · exact Or.inl (by omega)
          · exact Or.inr ⟨by omega, by linarith, by linarith⟩)
    have e2' : c2.length = c.length := by omega
    rw [e1, Option.bind_some, bcastInto_map_range _ _ _ (by rw [scl_length]; omega), Option.map_some,
      if_neg (by simp [e2'])]
    refine ⟨_, rfl, by simp [e2'], fun x => ?_⟩
    have := unscaled_series ho c2 (by omega) x
    rw [← e2', this, e3, hc1', scaled_series hi c hc1]
  · have h2 := not_or.mp h2
    obtain ⟨y, rfl⟩ : ∃ y, c = [y] := by
      match c, hc, h2.1 with
      | [y], _, _ => exact ⟨y, rfl⟩
      | y :: z :: l, _, h => simp at h
    have hlt : lamOut < lamIn := not_le.mp h2.2
    have hge : lamOut + 1 ≤ lamIn := by
      obtain ⟨m, hm⟩ := hz
      have : (m : ℝ) < 0 := by linarith
      have : m ≤ -1 := by
        have : m < 0 := by exact_mod_cast this
        omega
      have : (m : ℝ) ≤ -1 := by exact_mod_cast this
      linarith
    obtain ⟨s0, hs0⟩ := scl_basis hi (le_refl 0) 0
    have hsc : (scl lamIn 0).getD 0 0 = 1 := by
      have : (ultraBasisR lamIn 0 0 : ℝ) = 1 := by
        unfold ultraBasisR; split_ifs <;> simp [gegenbauer]
      rw [this, jacobi_zero, eq_div_iff s0, one_mul] at hs0
      exact hs0
    obtain ⟨t0, ht0⟩ := scl_basis ho (le_refl 0) 0
    have htc : (scl lamOut 0).getD 0 0 = 1 := by
      have : (ultraBasisR lamOut 0 0 : ℝ) = 1 := by
        unfold ultraBasisR; split_ifs <;> simp [gegenbauer]
      rw [this, jacobi_zero, eq_div_iff t0, one_mul] at ht0
      exact ht0
    have hc1y : c1 = [y] := by
      rw [hc1']
      simp only [List.length_cons, List.length_nil, zero_add, Nat.sub_self, List.range_one, List.map_cons, List.map_nil]
      rw [hsc]; simp
    have hj : jac2jac [y] (lamIn - 1 / 2) (lamIn - 1 / 2) (lamOut - 1 / 2) (lamOut - 1 / 2)
        = jac2jac [y, y] (lamIn - 1 / 2) (lamIn - 1 / 2) (lamOut - 1 / 2) (lamOut - 1 / 2) := by
      unfold jac2jac jacobiIntegerConversion
      rw [loop_skip (by linarith) (by simp [fuelFor]), loop_skip (by linarith) (by simp [fuelFor])]
      simp only [Option.bind_some]
      unfold fuelFor
      rw [loop, loop, if_pos (by linarith), if_pos (by linarith), left_single]
    obtain ⟨c2, e1, e2, e3⟩ := C56_jac2jac (alpha := lamIn - 1 / 2) (beta := lamIn - 1 / 2) (gam := lamOut - 1 / 2)
      (delta := lamOut - 1 / 2) (by linarith) (by linarith) (by linarith) (by linarith) hz' hz' [y, y]
      (Or.inl (by simp))
    obtain ⟨r0, r1, rfl⟩ : ∃ r0 r1, c2 = [r0, r1] := by
      match c2, e2 with
      | [r0, r1], _ => exact ⟨r0, r1, rfl⟩
    have hr0 : r0 = y := by
      have := e3 0
      simp only [jacobiSeries, List.length_cons, List.length_nil, zero_add, Nat.reduceAdd, sum_range_succ,
        range_zero, sum_empty, jacobi_zero, jacobi_one] at this
      simp at this
      ring_nf at this
      linarith
    have hn : ([y] : List ℝ).length - 1 = 0 := rfl
    rw [hc1y, hj, e1, Option.bind_some, hn]
    have hb : bcastInto (fun x1 x2 => x1 * x2) [r0, r1] (scl lamOut 0) = some [r0, r1] := by
      obtain ⟨t, ht⟩ : ∃ t, scl lamOut 0 = [t] := by
        have := scl_length lamOut 0
        match h : scl lamOut 0, this with
        | [t], _ => exact ⟨t, rfl⟩
      rw [ht] at htc ⊢
      simp at htc
      simp [bcastInto, bcast, htc]
    rw [hb, Option.map_some]
    refine ⟨[r0], by simp, rfl, fun x => ?_⟩
    rw [hr0]
    unfold ultraSeriesR ultraBasisR
    simp only [List.length_cons, List.length_nil, zero_add, sum_range_one]
    split_ifs <;> simp [gegenbauer]

example : ∃ c', ultra2ultra [5] 2 0 = some c' ∧ c'.length = 1 ∧ ∀ x, ultraSeriesR 0 c' x = ultraSeriesR 2 [5] x :=
  C56_ultra2ultra (by norm_num) (by norm_num) ⟨-2, by norm_num⟩ _ (by simp)

example : ∃ c', ultra2ultra [1, 2, 3] 0 2 = some c' ∧ c'.length = 3 ∧
    ∀ x, ultraSeriesR 2 c' x = ultraSeriesR 0 [1, 2, 3] x :=
  C56_ultra2ultra (by norm_num) (by norm_num) ⟨2, by norm_num⟩ _ (by simp)

theorem mapM_forall {α β : Type} (f : α → Option β) (P : α → β → Prop) (l : List α)
    (h : ∀ a ∈ l, ∃ b, f a = some b ∧ P a b) : ∃ bs, l.mapM f = some bs ∧ List.Forall₂ P l bs := by
  induction l with
  | nil => exact ⟨[], rfl, List.Forall₂.nil⟩
  | cons a l ih =>
    obtain ⟨b, h1, h2⟩ := h a (by simp)
    obtain ⟨bs, h3, h4⟩ := ih fun a ha => h a (by simp [ha])
    exact ⟨b :: bs, by simp [List.mapM_cons, h1, h3], List.Forall₂.cons h2 h4⟩

/-- C56: `Fun.from_ultra(v, m, lam)` — column `j` of the result has the Chebyshev coefficients of the function whose
`C^{(lam)}` coefficients are the `j`-th block of `v`. -/
theorem C56_from_ultra (v : List ℝ) (m n : ℕ) (hm : 0 < m) (hn : 0 < n) (hv : v.length = m * n) (lam : ℕ) :
    ∃ cs, fromUltra v m lam = some cs ∧ cs.length = m ∧ ∀ j, ∀ hj : j < cs.length, (cs[j]).length = n ∧
      ∀ x, chebEval cs[j] x = ∑ k ∈ range n, v.getD (j * n + k) 0 * ultraBasisR lam k x := by
  have hdiv : v.length / m = n := by rw [hv, Nat.mul_div_cancel_left _ hm]
  unfold fromUltra
  rw [if_neg (by rw [hv]; simp; omega)]
  simp only []
  rw [hdiv]
  obtain ⟨cs, h1, h2⟩ := mapM_forall (fun j => ultra2ultra ((v.drop (j * n)).take n) lam 0)
    (fun j c => c.length = n ∧ ∀ x, chebEval c x = ∑ k ∈ range n, v.getD (j * n + k) 0 * ultraBasisR lam k x)
    (List.range m) (by
      intro j hj
      have hj := List.mem_range.mp hj
      have hlen : ((v.drop (j * n)).take n).length = n := by
        rw [List.length_take, List.length_drop, hv]
        have : j * n + n ≤ m * n := by rw [← Nat.succ_mul]; exact Nat.mul_le_mul_right n hj
        omega
      obtain ⟨c', e1, e2, e3⟩ := C56_ultra2ultra (lamIn := lam) (lamOut := 0) (by positivity) (le_refl _)
        ⟨-(lam : ℤ), by push_cast; ring⟩ ((v.drop (j * n)).take n) (by
          intro h; rw [h] at hlen; simp at hlen; omega)
      refine ⟨c', e1, by omega, fun x => ?_⟩
      have e4 := e3 x
      unfold ultraSeriesR at e4
      rw [hlen] at e4
      have e5 : chebEval c' x = ∑ k ∈ range c'.length, c'.getD k 0 * ultraBasisR 0 k x := by
        simp [chebEval, chebPoly, ultraBasisR, Polynomial.eval_finsetSum]
      rw [e5, e4]
      apply sum_congr rfl
      intro k hk
      congr 1
      have hk := mem_range.mp hk
      rw [List.getD_eq_getElem _ _ (by omega), List.getD_eq_getElem _ _ (by
        have : j * n + n ≤ m * n := by rw [← Nat.succ_mul]; exact Nat.mul_le_mul_right n hj
        omega), List.getElem_take, List.getElem_drop])
  have hl : cs.length = m := by rw [← h2.length_eq, List.length_range]
  refine ⟨cs, h1, hl, fun j hj => ?_⟩
  have := (List.forall₂_iff_get.mp h2).2 j (by simpa [hl] using hj) hj
  simpa using this

example : ∃ cs, fromUltra [1, 2, 3, 4, 5, 6] 2 (1 : ℕ) = some cs ∧ cs.length = 2 ∧ ∀ j, ∀ hj : j < cs.length,
    (cs[j]).length = 3 ∧
      ∀ x, chebEval cs[j] x = ∑ k ∈ range 3, [1, 2, 3, 4, 5, 6].getD (j * 3 + k) 0 * ultraBasisR (1 : ℕ) k x :=
  C56_from_ultra [1, 2, 3, 4, 5, 6] 2 3 (by omega) (by omega) (by simp) 1

/-- C56, the part on the arguments: `ultra2ultra` overwrites the array it is given. Converting `[0, 1]` (the function
`x` in Chebyshev coefficients) to `lam = 1` leaves `[0, -2]` in the caller's array, which does not represent the same
function in either basis. -/
theorem C56_input_fails :
    ultra2ultraInputAfter [0, 1] 0 1 = some [0, -2] ∧ ([0, -2] : List ℝ) ≠ [0, 1] ∧
      ultraSeriesR 0 [0, -2] 1 ≠ ultraSeriesR 0 [0, 1] 1 ∧ ultraSeriesR 1 [0, -2] 1 ≠ ultraSeriesR 0 [0, 1] 1 := by
  refine ⟨?_, by norm_num, ?_, ?_⟩
  · simp [ultra2ultraInputAfter, bcastInto, bcast, scl, cumprod, negOdd, List.range_succ, List.mapIdx, List.mapIdx.go]
  · simp [ultraSeriesR, sum_range_succ, ultraBasisR]; norm_num
  · simp [ultraSeriesR, sum_range_succ, ultraBasisR, gegenbauer]; norm_num

/-- C56: without a change of order the caller's array keeps its values. -/
theorem C56_input_same {lam : ℝ} (hl : 0 ≤ lam) (c : List ℝ) (hc : c ≠ []) :
    ultra2ultraInputAfter c lam lam = some c := by
  have hc1 : 1 ≤ c.length := List.length_pos_iff.mpr hc
  unfold ultra2ultraInputAfter
  simp only []
  rw [bcastInto_map_range _ _ _ (by rw [scl_length]; omega), Option.bind_some, if_neg (by
    rintro (h | h) <;> linarith), bcastInto_map_range _ _ _ (by simp [scl_length]; omega)]
  congr 1
  rw [List.length_map, List.length_range]
  conv_rhs => rw [list_eq_map_range c]
  apply List.map_congr_left
  intro k hk
  have hk := List.mem_range.mp hk
  rw [gmr _ hk]
  have := (scl_basis hl (by omega : k ≤ c.length - 1) 0).1
  field_simp

end Funpy.Props
