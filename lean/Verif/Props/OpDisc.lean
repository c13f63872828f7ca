import Verif.Model.OpDisc
import Verif.Props.ChebColloc
import Verif.Props.Ultra

/-!
# C98: the discretised boundary value problem
-/

namespace Funpy.Props
open Spec Cheb UltraS OpDisc Matrix Finset

/-- Specification: the linear operator `∑_j a_j u^{(j)} + ∑_i c_i ∫ d_i u` on the interval. -/
noncomputable def applyLin (e : Ends) (s : Source) (u : ℝ → ℝ) (y : ℝ) : ℝ :=
  (s.coeff.mapIdx fun j p => if p.1 then chebEval p.2 (Mapping.bwd e y) * iteratedDeriv j u y else 0).sum
    + (s.integral.map fun p => chebEval p.1 (Mapping.bwd e y) *
        ∫ t in e.e0..e.e1, chebEval p.2 (Mapping.bwd e t) * u t).sum

/-- The function on the interval with the Chebyshev coefficients `x`. -/
noncomputable def funOf {n : ℕ} (e : Ends) (x : Fin n → ℝ) (t : ℝ) : ℝ := chebEval (List.ofFn x) (Mapping.bwd e t)

/-- All products occurring in `L u` for `u` with `dg` coefficients are represented exactly with `n`
coefficients (see C41; constant-coefficient operators always satisfy this with `dg = n`). -/
def Fits (n dg : ℕ) (s : Source) : Prop :=
  (∀ j (hj : j < s.coeff.length), s.coeff[j].1 = true →
      MultExact n s.coeff[j].2 j ∧ s.coeff[j].2.length + (dg - j) ≤ n + 1) ∧
  (∀ p ∈ s.integral, MultExact n p.1 0 ∧ p.1.length ≤ n ∧ MultExact n p.2 0 ∧ p.2.length + dg ≤ n + 1)

variable {n : ℕ}

private lemma mapM_some {α β : Type*} (l : List α) (f : α → Option β) (g : α → β) (h : ∀ a ∈ l, f a = some (g a)) :
    l.mapM f = some (l.map g) := by
  induction l with
  | nil => rfl
  | cons a l ih =>
    rw [List.mapM_cons, h a (by simp), ih fun b hb => h b (by simp [hb])]
    rfl

/-- the constraint rows exist and represent the linear parts of the conditions -/
private lemma rows_spec (d : Disc n) (hn : 2 ≤ n) (he : d.e.e0 < d.e.e1)
    (hb : ∀ b ∈ d.bcs, BC.PointsIn d.e b ∧ BC.Mentions b) :
    ∃ R : BC → Fin n → ℝ, constraintRows d = some (d.bcs.map R) ∧
      ∀ b ∈ d.bcs, ∀ x : Fin n → ℝ, R b ⬝ᵥ x = BC.sem (funOf d.e x) b - BC.sem (fun _ => 0) b := by
  refine ⟨fun b i => ((b.row d.e d.eps n).getD []).getD i 0, ?_, ?_⟩
  · apply mapM_some
    intro b hbm
    obtain ⟨row, h1, -, -⟩ := C97_row b d.e he d.eps n hn (hb b hbm).1 (hb b hbm).2
    rw [h1]; rfl
  · intro b hbm x
    obtain ⟨row, h1, h2, h3⟩ := C97_row b d.e he d.eps n hn (hb b hbm).1 (hb b hbm).2
    have := h3 (List.ofFn x) (by simp)
    rw [show (fun t => chebEval (List.ofFn x) (Mapping.bwd d.e t)) = funOf d.e x from rfl] at this
    rw [← this]
    simp only [h1, Option.getD_some, dotProduct]
    have hz := zip_quad' row (List.ofFn x) n h2 (by simp) id
    rw [List.map_id] at hz
    rw [hz, Finset.sum_range]
    apply Finset.sum_congr rfl
    intro i _
    rw [getD_lt' (List.ofFn x) _ _ (by simp)]
    simp

private lemma keepRows_map {α β : Type*} (r : ℕ) (A : Fin n → α) (f : α → β) :
    (keepRows r A).map f = keepRows r fun i => f (A i) := by
  simp [keepRows, List.map_map, Function.comp_def]

private lemma keepRows_inj {α : Type*} (r : ℕ) (A B : Fin n → α) :
    keepRows r A = keepRows r B ↔ ∀ i : Fin n, (i : ℕ) < n - r → A i = B i := by
  constructor
  · intro h i hi
    have := congrArg (fun l : List α => l[(i : ℕ)]?) h
    simp only [keepRows, List.getElem?_map, List.getElem?_take, if_pos hi] at this
    rw [List.getElem?_eq_getElem (by simp)] at this
    simpa using this
  · intro h
    apply List.map_congr_left
    intro i hi
    apply h
    obtain ⟨k, hk, rfl⟩ := List.getElem_of_mem hi
    rw [List.length_take, List.length_finRange] at hk
    simp only [List.getElem_take, List.getElem_finRange, Fin.val_cast]
    omega

/-- C98: the matrix exists, and it is square exactly when there are as many boundary conditions as the
projection order. -/
theorem C98_shape (d : Disc n) (hn : 2 ≤ n) (he : d.e.e0 < d.e.e1) (hr : d.r ≤ n)
    (hb : ∀ b ∈ d.bcs, BC.PointsIn d.e b ∧ BC.Mentions b) :
    ∃ M, OpDisc.matrix d = some M ∧ M.length = d.bcs.length + (n - d.r) ∧ (M.length = n ↔ d.bcs.length = d.r) := by
  obtain ⟨R, hR, -⟩ := rows_spec d hn he hb
  have hlen : (d.bcs.map R ++ keepRows d.r (fun i => (quasi2diffmat n (Mapping.diff d.e) d.r d.src) i)).length
      = d.bcs.length + (n - d.r) := by
    simp only [keepRows, List.length_append, List.length_map, List.length_take, List.length_finRange]
    omega
  refine ⟨_, by rw [OpDisc.matrix, hR]; rfl, hlen, ?_⟩
  rw [hlen]; omega

private lemma op_series (d : Disc n) (hn : 2 ≤ n) (he : d.e.e0 < d.e.e1) (hout : d.src.coeff.length ≤ d.r + 1)
    (x : Fin n → ℝ) (dg : ℕ) (hx : ∀ i : Fin n, dg ≤ i → x i = 0) (hfit : Fits n dg d.src) (y : ℝ) :
    ultraSeries d.r (quasi2diffmat n (Mapping.diff d.e) d.r d.src *ᵥ x) (Mapping.bwd d.e y)
      = applyLin d.e d.src (funOf d.e x) y := by
  rw [C65_quasi2diffmat_partial n hn d.e he.ne d.r d.src hout x dg hx hfit.1 hfit.2 y]
  simp only [ultraSeries_zero_eq]
  rfl

private lemma rhs_series (d : Disc n) (hn : 2 ≤ n) (f : Fin n → ℝ) (x : ℝ) :
    ultraSeries d.r (basisConv n d.r *ᵥ f) x = chebEval (List.ofFn f) x := by
  rw [basisConv, if_neg (by simp), discConvert, C39_convertmat n 0 d.r (by omega) (Or.inl hn), ultraSeries_zero_eq]

private lemma ultraSeries_sub (lam : ℕ) (v w : Fin n → ℝ) (x : ℝ) :
    ultraSeries lam (v - w) x = ultraSeries lam v x - ultraSeries lam w x := by
  unfold ultraSeries
  rw [← sum_sub_distrib]
  exact sum_congr rfl fun i _ => by rw [Pi.sub_apply]; ring

/-- C98: let `x` solve the discretised system with right-hand side `project_vector(f, cts=True)` and constraint values `g`.  Then the
function with coefficients `x` satisfies every boundary condition exactly, and the assembled matrix maps `x` to the coefficients of `f`
up to the `r` highest degrees. -/
theorem C98_rows (d : Disc n) (hn : 2 ≤ n) (he : d.e.e0 < d.e.e1)
    (hb : ∀ b ∈ d.bcs, BC.PointsIn d.e b ∧ BC.Mentions b)
    (M : List (Fin n → ℝ)) (hM : OpDisc.matrix d = some M)
    (g : List ℝ) (hg : g.length = d.bcs.length) (f x : Fin n → ℝ)
    (hsol : M.map (· ⬝ᵥ x) = projectVector d g f) :
    (∀ k (hk : k < d.bcs.length), BC.sem (funOf d.e x) d.bcs[k] - BC.sem (fun _ => 0) d.bcs[k] = g.getD k 0) ∧
    ∃ ρ : Fin n → ℝ, (∀ i : Fin n, (i : ℕ) < n - d.r → ρ i = 0) ∧
      ∀ y, ultraSeries d.r (quasi2diffmat n (Mapping.diff d.e) d.r d.src *ᵥ x) (Mapping.bwd d.e y) - funOf d.e f y
        = ultraSeries d.r ρ (Mapping.bwd d.e y) := by
  obtain ⟨R, hR, hRx⟩ := rows_spec d hn he hb
  obtain rfl : d.bcs.map R ++ keepRows d.r (fun i => (quasi2diffmat n (Mapping.diff d.e) d.r d.src) i) = M := by
    have : OpDisc.matrix d = some (d.bcs.map R ++ keepRows d.r (fun i => (quasi2diffmat n (Mapping.diff d.e) d.r d.src) i)) := by
      rw [OpDisc.matrix, hR]; rfl
    exact Option.some.inj (this.symm.trans hM)
  rw [List.map_append, projectVector] at hsol
  obtain ⟨h1, h2⟩ := List.append_inj hsol (by simp [hg])
  rw [keepRows_map, keepRows_inj] at h2
  refine ⟨?_, quasi2diffmat n (Mapping.diff d.e) d.r d.src *ᵥ x - basisConv n d.r *ᵥ f, ?_, ?_⟩
  · intro k hk
    rw [← hRx _ (List.getElem_mem _) x, ← h1, getD_lt' _ _ _ (by simpa using hk)]
    simp
  · intro i hi
    rw [Pi.sub_apply, ← h2 i hi, sub_eq_zero]
    rfl
  · intro y
    rw [ultraSeries_sub, rhs_series d hn]
    rfl

/-- C98: let `x` solve the discretised system with right-hand side `project_vector(f, cts=True)` and
constraint values `g`.  Then the function with coefficients `x` satisfies every boundary condition
exactly, and `L u - f` is a combination of the ultraspherical polynomials `C^{(r)}_k` with
`k ≥ n - r` only. -/
theorem C98_solution_partial (d : Disc n) (hn : 2 ≤ n) (he : d.e.e0 < d.e.e1)
    (hb : ∀ b ∈ d.bcs, BC.PointsIn d.e b ∧ BC.Mentions b) (hout : d.src.coeff.length ≤ d.r + 1)
    (M : List (Fin n → ℝ)) (hM : OpDisc.matrix d = some M)
    (g : List ℝ) (hg : g.length = d.bcs.length) (f x : Fin n → ℝ)
    (hsol : M.map (· ⬝ᵥ x) = projectVector d g f)
    (dg : ℕ) (hx : ∀ i : Fin n, dg ≤ i → x i = 0) (hfit : Fits n dg d.src) :
    (∀ k (hk : k < d.bcs.length), BC.sem (funOf d.e x) d.bcs[k] - BC.sem (fun _ => 0) d.bcs[k] = g.getD k 0) ∧
    ∃ ρ : Fin n → ℝ, (∀ i : Fin n, (i : ℕ) < n - d.r → ρ i = 0) ∧
      ∀ y, applyLin d.e d.src (funOf d.e x) y - funOf d.e f y = ultraSeries d.r ρ (Mapping.bwd d.e y) := by
  obtain ⟨h1, ρ, h2, h3⟩ := C98_rows d hn he hb M hM g hg f x hsol
  refine ⟨h1, ρ, h2, fun y => ?_⟩
  rw [← h3 y, op_series d hn he hout x dg hx hfit]

/-- C98, converse: a polynomial that satisfies the boundary conditions and the equation on the interval
solves the discretised system. -/
theorem C98_consistent_partial (d : Disc n) (hn : 2 ≤ n) (he : d.e.e0 < d.e.e1)
    (hb : ∀ b ∈ d.bcs, BC.PointsIn d.e b ∧ BC.Mentions b) (hout : d.src.coeff.length ≤ d.r + 1)
    (g : List ℝ) (hg : g.length = d.bcs.length) (f x : Fin n → ℝ)
    (dg : ℕ) (hx : ∀ i : Fin n, dg ≤ i → x i = 0) (hfit : Fits n dg d.src)
    (hbc : ∀ k (hk : k < d.bcs.length), BC.sem (funOf d.e x) d.bcs[k] - BC.sem (fun _ => 0) d.bcs[k] = g.getD k 0)
    (heq : ∀ y, applyLin d.e d.src (funOf d.e x) y = funOf d.e f y) :
    ∃ M, OpDisc.matrix d = some M ∧ M.map (· ⬝ᵥ x) = projectVector d g f := by
  obtain ⟨R, hR, hRx⟩ := rows_spec d hn he hb
  refine ⟨d.bcs.map R ++ keepRows d.r (fun i => (quasi2diffmat n (Mapping.diff d.e) d.r d.src) i), by rw [OpDisc.matrix, hR]; rfl, ?_⟩
  have hL : quasi2diffmat n (Mapping.diff d.e) d.r d.src *ᵥ x = basisConv n d.r *ᵥ f := by
    apply ultraSeries_inj d.r hn
    intro t
    have h1 := op_series d hn he hout x dg hx hfit (Mapping.fwd d.e t)
    rw [heq, (C01_inverse d.e he).1] at h1
    rw [h1, rhs_series d hn, funOf, (C01_inverse d.e he).1]
  rw [List.map_append, projectVector, keepRows_map]
  congr 1
  · apply ext_getD 0
    · simp [hg]
    intro k hk
    have hk' : k < d.bcs.length := by simpa using hk
    rw [← hbc k hk', ← hRx _ (List.getElem_mem _) x, getD_lt' _ _ _ hk]
    simp
  · rw [← hL]
    rfl

/-- C98: one Newton step for a linear problem.  If `x` solves the system whose right-hand side is minus
the residual of `u` (equation residual `f = L u - rhs`, boundary residuals `b(u)`), then `u + x`
satisfies all boundary conditions exactly. -/
theorem C98_step_bcs (d : Disc n) (hn : 2 ≤ n) (he : d.e.e0 < d.e.e1)
    (hb : ∀ b ∈ d.bcs, BC.PointsIn d.e b ∧ BC.Mentions b)
    (M : List (Fin n → ℝ)) (hM : OpDisc.matrix d = some M) (f u x : Fin n → ℝ)
    (hsol : M.map (· ⬝ᵥ x) = (projectVector d (d.bcs.map fun b => BC.sem (funOf d.e u) b) f).map (- ·)) :
    ∀ b ∈ d.bcs, BC.sem (fun t => funOf d.e u t + funOf d.e x t) b = 0 := by
  intro b hbm
  obtain ⟨R, hR, hRx⟩ := rows_spec d hn he hb
  obtain rfl : d.bcs.map R ++ keepRows d.r (fun i => (quasi2diffmat n (Mapping.diff d.e) d.r d.src) i) = M := by
    have : OpDisc.matrix d = some (d.bcs.map R ++ keepRows d.r (fun i => (quasi2diffmat n (Mapping.diff d.e) d.r d.src) i)) := by
      rw [OpDisc.matrix, hR]; rfl
    exact Option.some.inj (this.symm.trans hM)
  rw [List.map_append, projectVector, List.map_append] at hsol
  obtain ⟨h1, -⟩ := List.append_inj hsol (by simp)
  obtain ⟨k, hk, rfl⟩ := List.getElem_of_mem hbm
  have h1k := congrArg (fun l : List ℝ => l.getD k 0) h1
  rw [getD_lt' _ _ _ (by simpa using hk), getD_lt' _ _ _ (by simpa using hk)] at h1k
  simp only [List.getElem_map] at h1k
  obtain ⟨row, hrow, hl, hv⟩ := C97_row _ d.e he d.eps n hn (hb _ hbm).1 (hb _ hbm).2
  apply C97_correction _ d.e he d.eps n hn (hb _ hbm).1 row hrow (List.ofFn u) (List.ofFn x) (by simp) (by simp)
  rw [hv (List.ofFn x) (by simp)]
  have := hRx _ hbm x
  rw [h1k] at this
  exact this.symm

/-- non-vacuity: the Poisson problem `u'' = f` on `[0, 1]` with Dirichlet conditions `u(0) = 1`,
`u(1) = 2` satisfies the hypotheses for every number of coefficients and every `x`. -/
example (hn : 2 ≤ n) : let d : Disc n := ⟨⟨0, 1⟩, 2, 0, ⟨[(false, []), (false, []), (true, [1])], []⟩,
      [.sub (.ev .u 0) (.const 1), .sub (.ev .u 1) (.const 2)]⟩
    (∀ b ∈ d.bcs, BC.PointsIn d.e b ∧ BC.Mentions b) ∧ d.src.coeff.length ≤ d.r + 1 ∧ Fits n n d.src := by
  refine ⟨?_, by simp, ?_, by simp⟩
  · intro b hb
    simp only [List.mem_cons, List.not_mem_nil, or_false] at hb
    rcases hb with rfl | rfl <;> simp [BC.PointsIn, BC.Mentions]
  · intro j hj hf
    simp only [List.length_cons, List.length_nil] at hj
    interval_cases j
    · simp at hf
    · simp at hf
    · exact ⟨Or.inl (by simp), by simp; omega⟩

end Funpy.Props
