import Verif.Props.NewtonAffine
import Verif.Lemmas.ChebRoots
import Verif.Lemmas.Tech
import Mathlib.LinearAlgebra.FiniteDimensional.Lemmas

/-!
# C124: the discretised problem `a u^(r) = f` is well posed
-/

namespace Funpy.Props
namespace WPos
end WPos
open Spec Cheb UltraS OpDisc Matrix Finset Sect Eigs Funpy.Newton WPos

variable {n : ℕ}

/-! ### Specification -/

/-- The operator `a u^(r)`: the coefficients of the lower derivatives are flagged as zero. -/
def WPos.powOp (r : ℕ) (a : ℝ) : Source := ⟨List.replicate r (false, []) ++ [(true, [a])], []⟩

/-- The (linear parts of the) conditions determine polynomials of degree `< r`. -/
def WPos.Unisolvent (r : ℕ) (bcs : List BC) : Prop :=
  ∀ p : Polynomial ℝ, p.degree < r → (∀ b ∈ bcs, BC.sem (fun y => p.eval y) b - BC.sem (fun _ => 0) b = 0) → p = 0

/-! ### Proofs -/

lemma WPos.applyLin_pow (e : Ends) (r : ℕ) (a : ℝ) (u : ℝ → ℝ) (y : ℝ) : applyLin e (powOp r a) u y = a * iteratedDeriv r u y := by
  unfold applyLin powOp
  rw [mapIdx_eq_map, List.zipIdx_append, List.map_append, List.sum_append]
  have h0 : ((List.replicate r (false, ([] : List ℝ))).zipIdx.map fun p : (Bool × List ℝ) × ℕ =>
      if p.1.1 then chebEval p.1.2 (Mapping.bwd e y) * iteratedDeriv p.2 u y else 0).sum = 0 := by
    apply List.sum_eq_zero
    intro t ht
    obtain ⟨⟨p, j⟩, hp, rfl⟩ := List.mem_map.1 ht
    have h1 := List.fst_mem_of_mem_zipIdx hp
    rw [List.mem_replicate] at h1
    simp only at h1
    rw [h1.2]
    rfl
  have h0' := h0
  simp only [Nat.zero_add] at h0' ⊢
  rw [h0']
  simp [chebEval]

lemma WPos.pow_fits (hr : r ≤ n) (a : ℝ) : Fits n n (powOp r a) := by
  refine ⟨fun j hj hf => ?_, by simp [powOp]⟩
  by_cases h : j < r
  · exfalso
    simp only [powOp] at hf
    rw [List.getElem_append_left (by simpa using h)] at hf
    simp at hf
  · have hj' : j = r := by simp [powOp] at hj; omega
    subst hj'
    have : (powOp j a).coeff[j] = (true, [a]) := by
      simp only [powOp]
      rw [List.getElem_append_right (by simp)]
      simp
    rw [this]
    exact ⟨Or.inl rfl, by simp; omega⟩

lemma WPos.pow_secFits (hn : 2 ≤ n) (r : ℕ) (a : ℝ) : SecFits n n (powOp r a) := by
  refine ⟨fun j hj hf => ?_, by simp [powOp]⟩
  by_cases h : j < r
  · exfalso
    simp only [powOp] at hf
    rw [List.getElem_append_left (by simpa using h)] at hf
    simp at hf
  · have hj' : j = r := by simp [powOp] at hj; omega
    subst hj'
    have : (powOp j a).coeff[j] = (true, [a]) := by
      simp only [powOp]
      rw [List.getElem_append_right (by simp)]
      simp
    rw [this]
    exact ⟨Or.inl rfl, by simp; omega⟩

lemma WPos.bwd_affine (e : Ends) (y : ℝ) : Mapping.bwd e y = 2 / Mapping.diff e * y + -(e.e0 + e.e1) / Mapping.diff e := by
  unfold Mapping.bwd; ring

lemma WPos.deriv_series (e : Ends) (r : ℕ) (x : Fin n → ℝ) (y : ℝ) :
    iteratedDeriv r (funOf e x) y = ultraSeries r (discDiff n r (Mapping.diff e) *ᵥ x) (Mapping.bwd e y) := by
  have hfo : funOf e x = fun t => (chebPoly (List.ofFn x)).eval (2 / Mapping.diff e * t + -(e.e0 + e.e1) / Mapping.diff e) := by
    funext t
    rw [funOf, chebEval_eq_eval, bwd_affine]
  rw [hfo, iteratedDeriv_poly_affine, discDiff_series, ← bwd_affine]
  congr 1
  have h2 : ultraSeries 0 x = fun t => (chebPoly (List.ofFn x)).eval (1 * t + 0) := by
    funext t
    rw [ultraSeries_zero_eq, chebEval_eq_eval, one_mul, add_zero]
  rw [h2, iteratedDeriv_poly_affine]
  simp

/-- Solutions satisfy the equation exactly if the right-hand side has at most `n - r` coefficients. -/
lemma WPos.exact (d : Disc n) (hn : 2 ≤ n) (he : d.e.e0 < d.e.e1) (hr : d.r ≤ n) (a : ℝ) (hs : d.src = powOp d.r a)
    (hb : ∀ b ∈ d.bcs, BC.PointsIn d.e b ∧ BC.Mentions b) (M : List (Fin n → ℝ)) (hM : OpDisc.matrix d = some M) (g : List ℝ)
    (hg : g.length = d.bcs.length) (f x : Fin n → ℝ) (hsol : M.map (· ⬝ᵥ x) = projectVector d g f)
    (hf : ∀ i : Fin n, n - d.r ≤ i → f i = 0) :
    (∀ k (hk : k < d.bcs.length), BC.sem (funOf d.e x) d.bcs[k] - BC.sem (fun _ => 0) d.bcs[k] = g.getD k 0) ∧
    ∀ y, a * iteratedDeriv d.r (funOf d.e x) y = funOf d.e f y := by
  obtain ⟨h1, ρ, h2, h3⟩ := C98_solution_partial d hn he hb (by rw [hs]; simp [powOp]) M hM g hg f x hsol n (fun i hi => by omega)
    (by rw [hs]; exact pow_fits hr a)
  refine ⟨h1, fun y => ?_⟩
  rw [hs] at h3
  simp only [applyLin_pow] at h3
  have hρ : ρ = a • (discDiff n d.r (Mapping.diff d.e) *ᵥ x) - convertmat n 0 ((d.r : ℤ) - 1) *ᵥ f := by
    apply ultraSeries_inj d.r hn
    intro t
    have h4 := h3 (Mapping.fwd d.e t)
    rw [deriv_series, funOf, (C01_inverse d.e he).1] at h4
    rw [← h4, sub_eq_add_neg (a • _), ultraSeries_add, ultraSeries_smul]
    have h5 : ultraSeries d.r (-(convertmat n 0 ((d.r : ℤ) - 1) *ᵥ f)) t = -ultraSeries d.r (convertmat n 0 ((d.r : ℤ) - 1) *ᵥ f) t := by
      have := ultraSeries_smul d.r (-1) (convertmat n 0 ((d.r : ℤ) - 1) *ᵥ f) t
      rwa [neg_one_smul, neg_one_mul] at this
    rw [h5, convertmat_series n 0 d.r (by omega) (Or.inl hn), ultraSeries_zero_eq]
    ring
  have hρ0 : ρ = 0 := by
    funext i
    by_cases hi : (i : ℕ) < n - d.r
    · exact h2 i hi
    · rw [hρ, Pi.sub_apply, Pi.smul_apply, discDiff_supp n d.r _ x n (fun i hi => by omega) i (by omega),
        convertmat_supp n 0 _ f (n - d.r) hf i (by omega)]
      simp
  have := h3 y
  rw [hρ0] at this
  have hz : ultraSeries d.r (0 : Fin n → ℝ) (Mapping.bwd d.e y) = 0 := by
    simp [ultraSeries]
  rw [hz] at this
  linarith

lemma WPos.deg_of_deriv (p : Polynomial ℝ) (r : ℕ) (h : Polynomial.derivative^[r] p = 0) : p.degree < r := by
  rw [Polynomial.degree_lt_iff_coeff_zero]
  intro m hm
  have h1 : (Polynomial.derivative^[r] p).coeff (m - r) = 0 := by rw [h]; simp
  rw [Polynomial.coeff_iterate_derivative, Nat.sub_add_cancel hm, smul_eq_zero] at h1
  rcases h1 with h1 | h1
  · exact absurd h1 (Nat.descFactorial_eq_zero_iff_lt.not.2 (by omega))
  · exact h1

lemma WPos.funOf_poly (e : Ends) (x : Fin n → ℝ) : ∃ p : Polynomial ℝ, ∀ y, funOf e x y = p.eval y := by
  refine ⟨(chebPoly (List.ofFn x)).comp (Polynomial.C (2 / Mapping.diff e) * Polynomial.X + Polynomial.C (-(e.e0 + e.e1) / Mapping.diff e)), ?_⟩
  intro y
  rw [funOf, chebEval_eq_eval, Polynomial.eval_comp, bwd_affine]
  simp

lemma WPos.funOf_zero (e : Ends) (y : ℝ) : funOf e (0 : Fin n → ℝ) y = 0 := by
  rw [funOf, ← ultraSeries_zero_eq]; simp [ultraSeries]

lemma WPos.funOf_inj (e : Ends) (he : e.e0 < e.e1) (x : Fin n → ℝ) (h : ∀ y, funOf e x y = 0) : x = 0 := by
  apply ultraSeries_zero_inj
  intro t
  have := h (Mapping.fwd e t)
  rw [funOf, (C01_inverse e he).1] at this
  rw [ultraSeries_zero_eq, this]
  simp [ultraSeries]

/-- The rows of the homogeneous problem. -/
lemma WPos.project_zero (d : Disc n) (hsq : d.bcs.length = d.r) (hr : d.r ≤ n) :
    projectVector d (List.replicate d.bcs.length 0) 0 = List.replicate n (0 : ℝ) := by
  unfold projectVector keepRows
  rw [mulVec_zero]
  apply List.ext_getElem
  · simp; omega
  · intro i h1 h2
    rw [List.getElem_replicate, List.getElem_append]
    split_ifs
    · simp
    · simp

/-- **C124, regularity.**  The assembled matrix of `a u^(r) = f`, `a ≠ 0`, with `r` conditions is regular, for every number `n ≥ max(2, r)` of
coefficients, exactly if the conditions determine the polynomials of degree `< r`. -/
theorem C124_regular (d : Disc n) (hn : 2 ≤ n) (he : d.e.e0 < d.e.e1) (hr : d.r ≤ n) (a : ℝ) (ha : a ≠ 0) (hs : d.src = powOp d.r a)
    (hsq : d.bcs.length = d.r) (hb : ∀ b ∈ d.bcs, BC.PointsIn d.e b ∧ BC.Mentions b) (M : List (Fin n → ℝ)) (hM : OpDisc.matrix d = some M) :
    (∀ x : Fin n → ℝ, M.map (· ⬝ᵥ x) = List.replicate n 0 → x = 0) ↔ Unisolvent d.r d.bcs := by
  have hz : ∀ k, (List.replicate d.bcs.length (0:ℝ)).getD k 0 = 0 := fun k => by rw [getD_replicate']
  constructor
  · intro h p hp hbc
    have hpn : p.natDegree < n := by
      by_cases h0 : p = 0
      · rw [h0, Polynomial.natDegree_zero]; omega
      · exact lt_of_lt_of_le ((Polynomial.natDegree_lt_iff_degree_lt h0).2 hp) hr
    obtain ⟨c, hc, hce⟩ := exists_comp p n hpn d.e.e0 d.e.e1
    subst hc
    have hx : ∀ y, funOf d.e (fun i : Fin c.length => c.getD i 0) y = p.eval y := by
      intro y
      have hl : List.ofFn (fun i : Fin c.length => c.getD i 0) = c := by
        apply List.ext_getElem (by simp)
        intro i h1 h2
        rw [List.getElem_ofFn, getD_lt' _ _ _ h2]
      rw [funOf, hl, hce]
      have h2 := (C01_inverse d.e he).2 y
      rw [show 0.5 * (d.e.e1 * (Mapping.bwd d.e y + 1) + d.e.e0 * (1 - Mapping.bwd d.e y)) = Mapping.fwd d.e (Mapping.bwd d.e y) by
        unfold Mapping.fwd; ring, h2]
    have hfx := funext hx
    obtain ⟨M', hM', hsol⟩ := C98_consistent_partial d hn he hb (by rw [hs]; simp [powOp]) (List.replicate d.bcs.length 0) (by simp) 0
      (fun i : Fin c.length => c.getD i 0) c.length (fun i hi => by omega) (by rw [hs]; exact pow_fits hr a) (fun k hk => by
        rw [hz, hfx]
        exact hbc _ (List.getElem_mem hk)) (fun y => by
        rw [hs, applyLin_pow, hfx]
        have h1 := iteratedDeriv_poly_affine p 1 0 d.r y
        simp only [one_mul, add_zero, one_pow] at h1
        rw [h1, Polynomial.iterate_derivative_eq_zero_of_degree_lt hp, funOf_zero]
        simp)
    rw [hM] at hM'
    obtain rfl := Option.some.inj hM'
    rw [project_zero d hsq hr] at hsol
    have h0 := h _ hsol
    rw [h0] at hx
    apply Polynomial.funext
    intro y
    rw [← hx y, funOf_zero, Polynomial.eval_zero]
  · intro h x hx
    rw [← project_zero d hsq hr] at hx
    obtain ⟨h1, h2⟩ := WPos.exact d hn he hr a hs hb M hM _ (by simp) 0 x hx (fun _ _ => rfl)
    obtain ⟨p, hp⟩ := funOf_poly d.e x
    have hfx : funOf d.e x = fun y => p.eval y := funext hp
    have hp0 : p = 0 := by
      apply h
      · apply deg_of_deriv
        apply Polynomial.funext
        intro y
        have h3 := h2 y
        have h4 := iteratedDeriv_poly_affine p 1 0 d.r y
        simp only [one_mul, add_zero, one_pow] at h4
        rw [hfx, h4] at h3
        have h5 : funOf d.e (0 : Fin n → ℝ) y = 0 := funOf_zero d.e y
        rw [h5] at h3
        rw [Polynomial.eval_zero]
        exact (mul_eq_zero.1 h3).resolve_left ha
      · intro b hbm
        obtain ⟨k, hk, rfl⟩ := List.getElem_of_mem hbm
        rw [← hfx, h1 k hk, hz]
    apply funOf_inj d.e he
    intro y
    rw [hp, hp0, Polynomial.eval_zero]

/-- **C124, solutions.**  In this case the discretised problem has exactly one solution for all boundary values `g` and all right-hand sides `f`; its function
satisfies the conditions exactly, and if `f` has at most `n - r` coefficients it satisfies `a u^(r) = f` exactly. -/
theorem C124_solution (d : Disc n) (hn : 2 ≤ n) (he : d.e.e0 < d.e.e1) (hr : d.r ≤ n) (a : ℝ) (ha : a ≠ 0) (hs : d.src = powOp d.r a)
    (hsq : d.bcs.length = d.r) (hb : ∀ b ∈ d.bcs, BC.PointsIn d.e b ∧ BC.Mentions b) (hu : Unisolvent d.r d.bcs)
    (g : List ℝ) (hg : g.length = d.bcs.length) (f : Fin n → ℝ) :
    ∃ M, OpDisc.matrix d = some M ∧ (∃! x : Fin n → ℝ, M.map (· ⬝ᵥ x) = projectVector d g f) ∧
      ∀ x : Fin n → ℝ, M.map (· ⬝ᵥ x) = projectVector d g f →
        (∀ k (hk : k < d.bcs.length), BC.sem (funOf d.e x) d.bcs[k] - BC.sem (fun _ => 0) d.bcs[k] = g.getD k 0) ∧
        ((∀ i : Fin n, n - d.r ≤ i → f i = 0) → ∀ y, a * iteratedDeriv d.r (funOf d.e x) y = funOf d.e f y) := by
  obtain ⟨M, hM, -, hl⟩ := C98_shape d hn he hr hb
  have hlen := hl.2 hsq
  have hreg := (C124_regular d hn he hr a ha hs hsq hb M hM).2 hu
  have hpl : (projectVector d g f).length = n := by
    simp only [projectVector, keepRows, List.length_append, List.length_map, List.length_take, List.length_finRange]
    omega
  refine ⟨M, hM, ?_, fun x hx => ⟨?_, fun hf => (WPos.exact d hn he hr a hs hb M hM g hg f x hx hf).2⟩⟩
  · -- the matrix as a linear map
    set A : (Fin n → ℝ) →ₗ[ℝ] (Fin n → ℝ) := Matrix.mulVecLin (Matrix.of fun i j => M.getD i 0 j) with hA
    have hAx : ∀ x i, A x i = M.getD i 0 ⬝ᵥ x := fun x i => rfl
    have hrow : ∀ (x : Fin n → ℝ) (L : List ℝ), L.length = n → (M.map (· ⬝ᵥ x) = L ↔ A x = fun i : Fin n => L.getD i 0) := by
      intro x L hL
      constructor
      · rintro rfl
        funext i
        rw [hAx, getD_lt' _ _ _ (by rw [hlen]; exact i.2), getD_lt' _ _ _ (by simpa [hlen] using i.2), List.getElem_map]
      · intro h
        apply List.ext_getElem (by rw [List.length_map, hlen, hL])
        intro i h1 h2
        have hin : i < n := by omega
        have := congrFun h ⟨i, hin⟩
        rw [hAx, getD_lt' _ _ _ (by rw [hlen]; exact hin)] at this
        simp only at this
        rw [getD_lt' _ _ _ h2] at this
        rw [List.getElem_map]
        exact this
    have hinj : Function.Injective A := by
      rw [← LinearMap.ker_eq_bot, LinearMap.ker_eq_bot']
      intro x hx
      apply hreg
      rw [hrow x _ (by simp), hx]
      funext i
      rw [getD_replicate']
      rfl
    have hsurj : Function.Surjective A := LinearMap.injective_iff_surjective.1 hinj
    obtain ⟨x, hx⟩ := hsurj fun i => (projectVector d g f).getD i 0
    refine ⟨x, (hrow x _ hpl).2 hx, fun y hy => hinj ?_⟩
    rw [hx]
    exact (hrow y _ hpl).1 hy
  · exact (C98_rows d hn he hb M hM g hg f x hx).1

/-- **C124.**  The Dirichlet problem `u'' = f`, `u(e0) = α`, `u(e1) = β`: the conditions are unisolvent. -/
theorem C124_dirichlet (e : Ends) (he : e.e0 < e.e1) (α β : ℝ) :
    Unisolvent 2 [.sub (.ev .u e.e0) (.const α), .sub (.ev .u e.e1) (.const β)] := by
  intro p hp hbc
  have h0 := hbc _ (List.mem_cons_self ..)
  have h1 := hbc (.sub (.ev .u e.e1) (.const β)) (by simp)
  simp only [BC.sem, FE.sem] at h0 h1
  have r0 : p.eval e.e0 = 0 := by linarith
  have r1 : p.eval e.e1 = 0 := by linarith
  by_contra hne
  have hc : p.roots.toFinset.card ≤ p.natDegree := (Multiset.toFinset_card_le _).trans (Polynomial.card_roots' p)
  have hsub : ({e.e0, e.e1} : Finset ℝ) ⊆ p.roots.toFinset := by
    intro t ht
    simp only [Finset.mem_insert, Finset.mem_singleton] at ht
    rw [Multiset.mem_toFinset, Polynomial.mem_roots hne]
    rcases ht with rfl | rfl
    · exact r0
    · exact r1
  have h2 := Finset.card_le_card hsub
  rw [Finset.card_pair he.ne] at h2
  have h3 := (Polynomial.natDegree_lt_iff_degree_lt hne).2 hp
  omega

/-- The hypotheses are met, and the discretised Dirichlet problem `u'' = f` on `[0, 1]` has exactly one solution for every `n ≥ 2`. -/
example (hn : 2 ≤ n) (f : Fin n → ℝ) : let d : Disc n := ⟨⟨0, 1⟩, 2, 0, powOp 2 1, [.sub (.ev .u 0) (.const 1), .sub (.ev .u 1) (.const 2)]⟩
    ∃ M, OpDisc.matrix d = some M ∧ ∃! x : Fin n → ℝ, M.map (· ⬝ᵥ x) = projectVector d [1, 2] f := by
  intro d
  obtain ⟨M, h1, h2, -⟩ := C124_solution d hn (by norm_num [d]) hn 1 one_ne_zero rfl rfl (by
    intro b hb
    simp only [d, List.mem_cons, List.not_mem_nil, or_false] at hb
    rcases hb with rfl | rfl <;> simp [BC.PointsIn, BC.Mentions, d]) (C124_dirichlet ⟨0, 1⟩ (by norm_num) 1 2) [1, 2] rfl f
  exact ⟨M, h1, h2⟩

end Funpy.Props
