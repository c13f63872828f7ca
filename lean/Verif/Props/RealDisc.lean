import Verif.Model.RealDisc
import Verif.Props.OpDisc

/-!
# C137: the discretisation for constant solutions
-/

namespace Funpy.Props
open Spec Cheb RealDisc Finset MeasureTheory

/-! ### Specification -/

/-- The operator has constant coefficient functions (one coefficient each), and the flag of the term without derivative is set. -/
def ConstCoef (s : UltraS.Source) : Prop :=
  (∃ a rest, s.coeff = (true, [a]) :: rest) ∧ ∀ q ∈ s.integral, (∃ a, q.1 = [a]) ∧ ∃ b, q.2 = [b]

/-- The function `v` applied to every row: `∑_j L_ij u_j`. -/
noncomputable def applySysConst {m : ℕ} (e : Ends) (s : Fin m → Fin m → UltraS.Source) (u : Fin m → ℝ) (i : Fin m) (y : ℝ) : ℝ :=
  ∑ j, applyLin e (s i j) (fun _ => u j) y

/-! ### Proofs -/

private lemma eval_const (a x : ℝ) : chebEval [a] x = a := by
  simp [chebEval]

private lemma fold_items (l : List (List ℝ × List ℝ)) (h : ∀ q ∈ l, (∃ a, q.1 = [a]) ∧ ∃ b, q.2 = [b]) (acc : ℝ) :
    l.foldlM (fun (acc : ℝ) q => do
      let a ← item q.1
      let b ← item q.2
      some (acc + a * b)) acc = some (acc + (l.map fun q => q.1.getD 0 0 * q.2.getD 0 0).sum) := by
  induction l generalizing acc with
  | nil => simp
  | cons q l ih =>
    obtain ⟨⟨a, ha⟩, b, hb⟩ := h q List.mem_cons_self
    rw [List.foldlM_cons]
    have : (do
      let a ← item q.1
      let b ← item q.2
      some (acc + a * b)) = some (acc + a * b) := by rw [ha, hb]; rfl
    rw [this]
    refine (Option.bind_some _ _).trans ?_
    rw [ih (fun q hq => h q (List.mem_cons_of_mem _ hq)), List.map_cons, List.sum_cons, ha, hb]
    simp only [List.getD_cons_zero]
    rw [add_assoc]

private lemma deriv_terms (e : Ends) (a u y : ℝ) (rest : List (Bool × List ℝ)) :
    (((true, [a]) :: rest).mapIdx fun j p => if p.1 then chebEval p.2 (Mapping.bwd e y) * iteratedDeriv j (fun _ : ℝ => u) y else 0).sum = a * u := by
  rw [List.mapIdx_cons, List.sum_cons]
  have : (rest.mapIdx fun i p => if p.1 = true then chebEval p.2 (Mapping.bwd e y) * iteratedDeriv (i + 1) (fun _ : ℝ => u) y else 0).sum = 0 := by
    apply List.sum_eq_zero
    intro x hx
    rw [List.mem_mapIdx] at hx
    obtain ⟨i, hi, rfl⟩ := hx
    rw [iteratedDeriv_const]
    simp
  rw [this]
  simp [eval_const]

/-- What the operator does with a constant function. -/
private lemma apply_const (e : Ends) (s : UltraS.Source) (hs : ConstCoef s) (u y : ℝ) :
    ∃ a, (s.coeff.head?.map fun p => p.2.getD 0 0) = some a ∧
      quasi2diffmat s = some (a + (s.integral.map fun q => q.1.getD 0 0 * q.2.getD 0 0).sum) ∧
      applyLin e s (fun _ => u) y = (a + (e.e1 - e.e0) * (s.integral.map fun q => q.1.getD 0 0 * q.2.getD 0 0).sum) * u := by
  obtain ⟨⟨a, rest, ha⟩, hi⟩ := hs
  refine ⟨a, by rw [ha]; rfl, ?_, ?_⟩
  · rw [quasi2diffmat, ha]
    exact fold_items s.integral hi a
  · rw [applyLin, ha, deriv_terms, add_mul]
    congr 1
    rw [mul_right_comm, mul_comm (e.e1 - e.e0), ← List.sum_map_mul_left]
    have : (s.integral.map fun p => chebEval p.1 (Mapping.bwd e y) * ∫ t in e.e0..e.e1, chebEval p.2 (Mapping.bwd e t) * u)
        = s.integral.map fun q => u * (e.e1 - e.e0) * (q.1.getD 0 0 * q.2.getD 0 0) := by
      apply List.map_congr_left
      intro q hq
      obtain ⟨⟨b, hb⟩, d, hd⟩ := hi q hq
      rw [hb, hd]
      simp only [eval_const, intervalIntegral.integral_const, smul_eq_mul, List.getD_cons_zero]
      ring
    rw [this]

/-- C137: for constant coefficients the discretised operator applied to a vector of constants is the operator applied to the constant functions, if
there is no integral term or the interval has length one (derivatives of constants vanish, so they do not contribute). -/
theorem C137_matrix_partial {m : ℕ} (e : Ends) (s : Fin m → Fin m → UltraS.Source) (hs : ∀ i j, ConstCoef (s i j))
    (hl : e.e1 - e.e0 = 1 ∨ ∀ i j, (s i j).integral = []) :
    ∃ M, RealDisc.matrix m s = some M ∧ ∀ (u : Fin m → ℝ) (i : Fin m) (y : ℝ), ∑ j, M i j * u j = applySysConst e s u i y := by
  have hsome : ∀ i j, (quasi2diffmat (s i j)).isSome := fun i j => by
    obtain ⟨a, -, h, -⟩ := apply_const e (s i j) (hs i j) 0 0
    rw [h]; rfl
  refine ⟨_, if_pos hsome, fun u i y => sum_congr rfl fun j _ => ?_⟩
  obtain ⟨a, -, h1, h2⟩ := apply_const e (s i j) (hs i j) (u j) y
  rw [h1, h2, Option.getD_some]
  rcases hl with h | h
  · rw [h, one_mul]
  · rw [h]; simp

/-- C137, what is computed on other intervals: the integral terms lack the factor `b - a`. -/
theorem C137_integral_partial (e : Ends) (s : UltraS.Source) (hs : ConstCoef s) :
    ∃ a S, quasi2diffmat s = some (a + S) ∧ ∀ u y, applyLin e s (fun _ => u) y = (a + (e.e1 - e.e0) * S) * u := by
  obtain ⟨a, h0, h1, -⟩ := apply_const e s hs 0 0
  refine ⟨a, _, h1, fun u y => ?_⟩
  obtain ⟨a', h0', -, h2⟩ := apply_const e s hs u y
  rw [h0] at h0'
  obtain rfl := Option.some.inj h0'
  exact h2

/-- C137 fails for integral terms: on every interval whose length is not one, the entry for `u ↦ ∫ u` is one, not `b - a`. -/
theorem C137_length_fails (e : Ends) (h : e.e1 - e.e0 ≠ 1) :
    let s : UltraS.Source := ⟨[(true, [0])], [([1], [1])]⟩
    quasi2diffmat s = some 1 ∧ ∀ y, applyLin e s (fun _ => 1) y ≠ 1 := by
  intro s
  have hs : ConstCoef s := ⟨⟨0, [], rfl⟩, by simp [s]⟩
  refine ⟨by simp [s, quasi2diffmat, item], fun y => ?_⟩
  obtain ⟨a, h0, -, h2⟩ := apply_const e s hs 1 y
  rw [h2]
  have ha : a = 0 := by simpa [s] using h0.symm
  rw [ha]
  simpa [s] using h

/-- C137 fails for integral terms whose functions have more than one coefficient: `item()` raises. -/
theorem C137_item_fails (p : Bool × List ℝ) (rest : List (Bool × List ℝ)) (q : List ℝ × List ℝ) (l : List (List ℝ × List ℝ))
    (h : q.1.length ≠ 1 ∨ q.2.length ≠ 1) : quasi2diffmat ⟨p :: rest, q :: l⟩ = none := by
  have hi : ∀ c : List ℝ, c.length ≠ 1 → item c = none := by
    intro c hc
    match c with
    | [] => rfl
    | [a] => simp at hc
    | a :: b :: c => rfl
  rw [quasi2diffmat]
  simp only [List.foldlM_cons]
  rcases h with h | h
  · rw [hi _ h]; rfl
  · rw [hi _ h]
    rcases item q.1 with _ | a <;> rfl

/-- C137 fails for coefficients which are not constant: only the first Chebyshev coefficient is used, whatever the others are; so for
`L u = (a + b (2 t - e0 - e1) / (e1 - e0)) u` with `b ≠ 0` the entry is `a`, the value of `L 1` only at the mid point. -/
theorem C137_nonconstant_fails (e : Ends) (flag : Bool) (a : ℝ) (c : List ℝ) (rest : List (Bool × List ℝ)) (b : ℝ) (hb : b ≠ 0) :
    quasi2diffmat ⟨(flag, a :: c) :: rest, []⟩ = some a ∧
    ∀ y, Mapping.bwd e y ≠ 0 → applyLin e ⟨[(true, [a, b])], []⟩ (fun _ => 1) y ≠ a := by
  refine ⟨rfl, fun y hy => ?_⟩
  have : applyLin e ⟨[(true, [a, b])], []⟩ (fun _ => 1) y = a + b * Mapping.bwd e y := by
    simp [applyLin, chebEval, sum_range_succ]
  rw [this]
  intro h
  exact mul_ne_zero hb hy (by linarith)

/-- the hypotheses hold for `u'' + 3 u + 2 ∫ u` on `[0, 1]` -/
example : ConstCoef ⟨[(true, [3]), (false, [0]), (true, [1])], [([2], [1])]⟩ ∧ (1 : ℝ) - 0 = 1 :=
  ⟨⟨⟨3, _, rfl⟩, by simp⟩, by norm_num⟩

end Funpy.Props
