import Verif.Model.SysDisc
import Verif.Props.OpDisc
import Verif.Props.TrigSpec

/-!
# C115: discretisation of systems
-/

namespace Funpy.Props
open Matrix Finset Funpy Funpy.SysDisc Cheb Spec UltraS OpDisc

section Blocks
set_option linter.unusedSectionVars false
variable {𝕜 : Type} [CommSemiring 𝕜]

private lemma zip_ofFn {n : ℕ} (a b : Fin n → 𝕜) : (List.zipWith (· * ·) (List.ofFn a) (List.ofFn b)).sum = ∑ i, a i * b i := by
  rw [show List.zipWith (· * ·) (List.ofFn a) (List.ofFn b) = List.ofFn fun i => a i * b i by
    apply List.ext_getElem <;> simp, List.sum_ofFn]

private lemma zip_flatten {m n : ℕ} (a : Fin m → Fin n → 𝕜) (b : Fin m → Fin n → 𝕜) :
    (List.zipWith (· * ·) (List.ofFn fun j => List.ofFn (a j)).flatten (flat b)).sum = ∑ j, ∑ i, a j i * b j i := by
  induction m with
  | zero => simp [flat]
  | succ m ih =>
    have hb : flat b = List.ofFn (b 0) ++ flat fun j => b j.succ := by simp [flat, List.ofFn_succ]
    rw [List.ofFn_succ, List.flatten_cons, hb, List.zipWith_append (by simp), List.sum_append, zip_ofFn, ih, Fin.sum_univ_succ]

private lemma flat_eq {α : Type} {m n : ℕ} (u : Fin m → Fin n → α) : flat u = (List.ofFn fun i => List.ofFn (u i)).flatten := by
  rw [flat, List.flatMap_def, List.map_ofFn]; rfl

lemma bmat_matvec {m p n : ℕ} (A : Fin m → Fin m → Fin p → Fin n → 𝕜) (u : Fin m → Fin n → 𝕜) :
    matvec (bmat A) (flat u) = flat fun i k => ∑ j, ∑ l, A i j k l * u j l := by
  have h : matvec (bmat A) (flat u) = (List.ofFn fun i => List.ofFn fun k =>
      (List.zipWith (· * ·) (List.ofFn fun j => List.ofFn (A i j k)).flatten (flat u)).sum).flatten := by
    unfold matvec bmat
    rw [List.map_flatten, List.map_ofFn]
    congr 1
    congr 1
    funext i
    rw [Function.comp, List.map_ofFn]
    rfl
  rw [h, flat_eq fun i k => ∑ j, ∑ l, A i j k l * u j l]
  refine congrArg List.flatten (congrArg List.ofFn (funext fun i => congrArg List.ofFn (funext fun k => ?_)))
  exact zip_flatten (fun j => A i j k) u

lemma flat_inj {α : Type} {m n : ℕ} (u v : Fin m → Fin n → α) (h : flat u = flat v) : u = v := by
  induction m with
  | zero => funext i; exact i.elim0
  | succ m ih =>
    have e : ∀ w : Fin (m + 1) → Fin n → α, flat w = List.ofFn (w 0) ++ flat fun j => w j.succ := fun w => by simp [flat, List.ofFn_succ]
    rw [e u, e v] at h
    obtain ⟨h1, h2⟩ := List.append_inj h (by simp)
    have h3 := ih _ _ h2
    funext i
    refine Fin.cases (List.ofFn_injective h1) (fun j => congrFun h3 j) i

private lemma flat_length {α : Type} {m n : ℕ} (u : Fin m → Fin n → α) : (flat u).length = m * n := by
  induction m with
  | zero => simp [flat]
  | succ m ih =>
    have e : flat u = List.ofFn (u 0) ++ flat fun j => u j.succ := by simp [flat, List.ofFn_succ]
    rw [e, List.length_append, ih, List.length_ofFn]
    ring

private lemma bmat_length {m p n : ℕ} (A : Fin m → Fin m → Fin p → Fin n → 𝕜) : (bmat A).length = m * p := by
  have := flat_length fun i k => (List.ofFn fun j => List.ofFn (A i j k)).flatten
  rw [← this, bmat, flat, List.flatMap_def, List.map_ofFn]
  rfl

private lemma bmat_width {m p n : ℕ} (A : Fin m → Fin m → Fin p → Fin n → 𝕜) : ∀ r ∈ bmat A, r.length = m * n := by
  intro r hr
  rw [bmat, List.mem_flatten] at hr
  obtain ⟨l, hl, hr⟩ := hr
  rw [List.mem_ofFn] at hl
  obtain ⟨i, rfl⟩ := hl
  rw [List.mem_ofFn] at hr
  obtain ⟨k, rfl⟩ := hr
  have := flat_length fun j => A i j k
  rw [← this, flat, List.flatMap_def, List.map_ofFn]
  rfl

end Blocks

/-! ### Fourier -/

/-- C115 (periodic systems): with an odd number `n > 1` of modes, the matrix for a system of `m` equations applied to the stacked Fourier coefficients of
`u₁, …, u_m` gives the stacked coefficients of `∑ⱼ L_ij u_j`, `i = 1, …, m`, up to the dropping of entries below `eps`. -/
theorem C115_fourier_partial {m : ℕ} (n : ℕ) (hn : n % 2 = 1) (hn1 : 1 < n) (e : Ends) (he : e.e0 < e.e1) (eps : ℝ)
    (s : Fin m → Fin m → TrigSpec.Source)
    (hc : ∀ i j, ∀ p ∈ (s i j).coeff, p.2.length ≠ 0) (hb : ∀ i j, ∀ p ∈ (s i j).nl, p.2.length ≠ 0)
    (hint : ∀ i j, (s i j).integral = [] ∨ ∃ c d, (s i j).integral = [(c, d)] ∧ c.length ≠ 0 ∧ ∀ x, trigEval d x = 1)
    (u : Fin m → Fin n → ℂ) :
    ∃ v : Fin m → Fin n → ℂ, matvec (trigMatrix n (Mapping.diff e) eps s) (flat u) = flat v ∧ ∀ i k,
      ‖v i k - fourier (fun y => ∑ j, applyOp e (s i j) (fourierFun e (u j)) (Mapping.fwd e y)) (wave n k)‖ ≤
        |eps| * ∑ j, ∑ l, ‖u j l‖ := by
  rw [trigMatrix, if_neg (by omega)]
  refine ⟨_, bmat_matvec _ u, fun i k => ?_⟩
  have hfw : Continuous (Mapping.fwd e) := by unfold Mapping.fwd; fun_prop
  rw [fourier_sum_fin (fun j y => applyOp e (s i j) (fourierFun e (u j)) (Mapping.fwd e y)) (fun j => (continuous_applyOp n hn e he (s i j) (u j)).comp hfw), ← sum_sub_distrib, mul_sum]
  refine (norm_sum_le _ _).trans (sum_le_sum fun j _ => ?_)
  have h1 := C94_dropped_entries n (Mapping.diff e) eps (s i j) (u j) k
  rw [C94_assemble_partial n hn e he (s i j) (hc i j) (hb i j) (hint i j)] at h1
  exact h1

/-- C115: the periodic matrix is square, with `m n` rows of length `m n`. -/
theorem C115_fourier_shape {m : ℕ} (n : ℕ) (hn1 : 1 < n) (len eps : ℝ) (s : Fin m → Fin m → TrigSpec.Source) :
    (trigMatrix n len eps s).length = m * n ∧ ∀ r ∈ trigMatrix n len eps s, r.length = m * n := by
  rw [trigMatrix, if_neg (by omega)]
  exact ⟨bmat_length _, bmat_width _⟩

/-- C115 fails for one mode: the matrix for a system of two equations has four rows of length one. -/
theorem C115_one_mode_fails (len eps : ℝ) (s : Fin 2 → Fin 2 → TrigSpec.Source) :
    (trigMatrix 1 len eps s).length = 4 ∧ ∀ r ∈ trigMatrix 1 len eps s, r.length = 1 := by
  rw [trigMatrix, if_pos rfl]
  simp [List.ofFn_succ]

/-- non-vacuity: the system `u₁'' - u₂ = …`, `u₂'' + 2 cos(πx) u₁ = …` on `[0, 2]` with five modes. -/
example : let s : Fin 2 → Fin 2 → TrigSpec.Source := fun i j =>
      if i = j then ⟨[(false, [0]), (false, [0]), (true, [1])], [], []⟩
      else if i = 0 then ⟨[(true, [-1])], [], []⟩ else ⟨[(true, [1, 0, 1])], [], []⟩
    (∀ i j, ∀ p ∈ (s i j).coeff, p.2.length ≠ 0) ∧ (∀ i j, ∀ p ∈ (s i j).nl, p.2.length ≠ 0) ∧
    ∀ i j, (s i j).integral = [] := by
  refine ⟨?_, ?_, ?_⟩ <;> intro i j <;> fin_cases i <;> fin_cases j <;> simp

/-! ### Ultraspherical -/

variable {m n : ℕ}

private lemma keep_iff {r : ℕ} (a b : Fin m → Fin n → ℝ) :
    flat (fun i => keep r (a i)) = flat (fun i => keep r (b i)) ↔ ∀ i, ∀ k : Fin n, (k : ℕ) < n - r → a i k = b i k := by
  constructor
  · intro h i k hk
    exact congrFun (congrFun (flat_inj _ _ h) i) ⟨k, hk⟩
  · intro h
    congr 1
    funext i k
    exact h i _ k.2

private lemma matrix_spec (d : Sys m) (x : Fin m → Fin n → ℝ) :
    matvec (ultraMatrix n d) (flat x) =
      flat fun i => keep d.r fun k => (∑ j, UltraS.quasi2diffmat n (Mapping.diff d.e) d.r (d.src i j) *ᵥ x j) k := by
  rw [ultraMatrix, bmat_matvec]
  congr 1
  funext i k
  rw [SysDisc.keep, Finset.sum_apply]
  rfl

private lemma rhs_spec (d : Sys m) (f : Fin m → Fin n → ℝ) :
    ultraRhs n d f = flat fun i => keep d.r fun k => (UltraS.basisConv n d.r *ᵥ f i) k := by
  rw [ultraRhs, ultraProjection, bmat_matvec]
  congr 1
  funext i k
  rw [SysDisc.keep]
  rw [sum_eq_single i]
  · simp only [if_true]; rfl
  · intro j _ hj
    simp only [if_neg (Ne.symm hj), SysDisc.keep, Matrix.zero_apply, zero_mul, sum_const_zero]
  · simp

private lemma sys_op_series (d : Sys m) (hn : 2 ≤ n) (he : d.e.e0 < d.e.e1) (i : Fin m)
    (hout : ∀ j, (d.src i j).coeff.length ≤ d.r + 1) (x : Fin m → Fin n → ℝ) (dg : ℕ) (hx : ∀ j, ∀ k : Fin n, dg ≤ k → x j k = 0)
    (hfit : ∀ j, Fits n dg (d.src i j)) (y : ℝ) :
    ultraSeries d.r (∑ j, UltraS.quasi2diffmat n (Mapping.diff d.e) d.r (d.src i j) *ᵥ x j) (Mapping.bwd d.e y)
      = ∑ j, applyLin d.e (d.src i j) (funOf d.e (x j)) y := by
  have hs : ∀ v : Fin m → Fin n → ℝ, ∀ t, ultraSeries d.r (∑ j, v j) t = ∑ j, ultraSeries d.r (v j) t := by
    intro v t
    unfold ultraSeries
    rw [sum_comm]
    exact sum_congr rfl fun k _ => by rw [Finset.sum_apply, sum_mul]
  rw [hs]
  refine sum_congr rfl fun j _ => ?_
  rw [C65_quasi2diffmat_partial n hn d.e he.ne d.r (d.src i j) (hout j) (x j) dg (hx j) (hfit j).1 (hfit j).2 y]
  simp only [ultraSeries_zero_eq]
  rfl

private lemma sys_rhs_series (r : ℕ) (hn : 2 ≤ n) (f : Fin n → ℝ) (x : ℝ) :
    ultraSeries r (UltraS.basisConv n r *ᵥ f) x = chebEval (List.ofFn f) x := by
  rw [UltraS.basisConv, if_neg (by simp), UltraS.discConvert, C39_convertmat n 0 r (by omega) (Or.inl hn), ultraSeries_zero_eq]

private lemma sys_ultraSeries_sub (lam : ℕ) (v w : Fin n → ℝ) (x : ℝ) :
    ultraSeries lam (v - w) x = ultraSeries lam v x - ultraSeries lam w x := by
  unfold ultraSeries
  rw [← sum_sub_distrib]
  exact sum_congr rfl fun i _ => by rw [Pi.sub_apply]; ring

/-- C115 (systems on an interval, no boundary conditions): if the stacked coefficients `x` solve the discretised system with right-hand side
`project_vector(f)`, then every equation holds up to ultraspherical polynomials `C^{(r)}_k` with `k ≥ n - r`. -/
theorem C115_solution_partial (d : Sys m) (hn : 2 ≤ n) (he : d.e.e0 < d.e.e1)
    (hout : ∀ i j, (d.src i j).coeff.length ≤ d.r + 1) (f x : Fin m → Fin n → ℝ)
    (hsol : matvec (ultraMatrix n d) (flat x) = ultraRhs n d f)
    (dg : ℕ) (hx : ∀ j, ∀ k : Fin n, dg ≤ k → x j k = 0) (hfit : ∀ i j, Fits n dg (d.src i j)) (i : Fin m) :
    ∃ ρ : Fin n → ℝ, (∀ k : Fin n, (k : ℕ) < n - d.r → ρ k = 0) ∧
      ∀ y, ∑ j, applyLin d.e (d.src i j) (funOf d.e (x j)) y - funOf d.e (f i) y = ultraSeries d.r ρ (Mapping.bwd d.e y) := by
  rw [matrix_spec, rhs_spec, keep_iff] at hsol
  refine ⟨∑ j, UltraS.quasi2diffmat n (Mapping.diff d.e) d.r (d.src i j) *ᵥ x j - UltraS.basisConv n d.r *ᵥ f i, ?_, ?_⟩
  · intro k hk
    rw [Pi.sub_apply, hsol i k hk, sub_self]
  · intro y
    rw [sys_ultraSeries_sub, sys_op_series d hn he i (hout i) x dg hx (hfit i), sys_rhs_series d.r hn]
    rfl

/-- C115, converse: polynomials that satisfy all equations solve the discretised system. -/
theorem C115_consistent_partial (d : Sys m) (hn : 2 ≤ n) (he : d.e.e0 < d.e.e1)
    (hout : ∀ i j, (d.src i j).coeff.length ≤ d.r + 1) (f x : Fin m → Fin n → ℝ)
    (dg : ℕ) (hx : ∀ j, ∀ k : Fin n, dg ≤ k → x j k = 0) (hfit : ∀ i j, Fits n dg (d.src i j))
    (heq : ∀ i y, ∑ j, applyLin d.e (d.src i j) (funOf d.e (x j)) y = funOf d.e (f i) y) :
    matvec (ultraMatrix n d) (flat x) = ultraRhs n d f := by
  rw [matrix_spec, rhs_spec, keep_iff]
  intro i k _
  have hL : ∑ j, UltraS.quasi2diffmat n (Mapping.diff d.e) d.r (d.src i j) *ᵥ x j = UltraS.basisConv n d.r *ᵥ f i := by
    apply ultraSeries_inj d.r hn
    intro t
    have h1 := sys_op_series d hn he i (hout i) x dg hx (hfit i) (Mapping.fwd d.e t)
    rw [heq, (C01_inverse d.e he).1] at h1
    rw [h1, sys_rhs_series d.r hn, funOf, (C01_inverse d.e he).1]
  rw [hL]

/-- C115: the matrix has `m (n - r)` rows of length `m n`, as many as the right-hand side has entries. -/
theorem C115_shape (d : Sys m) (f : Fin m → Fin n → ℝ) :
    (ultraMatrix n d).length = m * (n - d.r) ∧ (∀ r ∈ ultraMatrix n d, r.length = m * n) ∧
    (ultraRhs n d f).length = m * (n - d.r) := by
  refine ⟨bmat_length _, bmat_width _, ?_⟩
  rw [ultraRhs, matvec, List.length_map, ultraProjection, bmat_length]

/-- C115 fails with boundary conditions: for two or more unknowns every boundary condition makes the construction raise, and without boundary conditions the
matrix for a differential operator (`0 < r ≤ n`) has fewer rows than columns. -/
theorem C115_bcs_fails (d : Sys m) (hm : 2 ≤ m) : (d.bcs ≠ [] → buildConstraints d = none) ∧
    (0 < d.r → d.r ≤ n → (ultraMatrix n d).length < m * n) := by
  constructor
  · intro h
    obtain ⟨b, l, hb⟩ := List.exists_cons_of_ne_nil h
    rw [buildConstraints, hb, List.mapM_cons, if_neg (by omega)]
    rfl
  · intro h0 hr
    rw [(C115_shape d 0).1]
    exact Nat.mul_lt_mul_of_pos_left (by omega) (by omega)

/-- With one unknown the boundary conditions are built. -/
theorem C115_bcs_scalar (d : Sys 1) : buildConstraints d = some d.bcs := by
  rw [buildConstraints]
  simp only [if_true]
  induction d.bcs with
  | nil => rfl
  | cons b l ih => rw [List.mapM_cons, ih]; rfl

/-- non-vacuity: `u₁' + u₂ = f₁`, `u₁ - u₂' = f₂` on `[0, 3]` meets the hypotheses for every number of coefficients. -/
example (hn : 2 ≤ n) : let d : Sys 2 := ⟨⟨0, 3⟩, 1, fun i j => if i = j then ⟨[(false, []), (true, [if i = 0 then 1 else -1])], []⟩ else
      ⟨[(true, [1])], []⟩, []⟩
    d.e.e0 < d.e.e1 ∧ (∀ i j, (d.src i j).coeff.length ≤ d.r + 1) ∧ ∀ i j, Fits n n (d.src i j) := by
  refine ⟨by norm_num, fun i j => by fin_cases i <;> fin_cases j <;> simp, fun i j => ?_⟩
  have h1 : ∀ a : ℝ, Fits n n ⟨[(false, []), (true, [a])], []⟩ := by
    intro a
    refine ⟨?_, by simp⟩
    intro j hj hf
    simp only [List.length_cons, List.length_nil] at hj
    interval_cases j
    · simp at hf
    · exact ⟨Or.inl (by simp), by simp; omega⟩
  have h2 : Fits n n ⟨[(true, [1])], []⟩ := by
    refine ⟨?_, by simp⟩
    intro j hj hf
    simp only [List.length_cons, List.length_nil] at hj
    interval_cases j
    exact ⟨Or.inl (by simp), by simp; omega⟩
  fin_cases i <;> fin_cases j <;> first | exact h2 | exact h1 _

end Funpy.Props
