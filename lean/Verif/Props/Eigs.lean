import Verif.Model.Eigs
import Verif.Props.OpDisc
import Mathlib.LinearAlgebra.UnitaryGroup
import Mathlib.LinearAlgebra.Matrix.Block
import Mathlib.LinearAlgebra.Matrix.ToLinearEquiv

/-!
# C101: eigenvalues of operators
-/

namespace Funpy.Props
open Spec Cheb Matrix OpDisc UltraS Eigs

variable {n : ℕ}

/-! ### Specification -/

/-- What scipy documents of `ordqz(A, B, output='complex')`: `A = Q AA Zᴴ`, `B = Q BB Zᴴ` with unitary `Q`, `Z` and upper
triangular `AA`, `BB`; `α` and `β` are the diagonals. -/
def IsQZ (A B : Matrix (Fin n) (Fin n) ℂ) (α β : Fin n → ℂ) : Prop :=
  ∃ AA BB Q Z : Matrix (Fin n) (Fin n) ℂ, Q ∈ unitaryGroup (Fin n) ℂ ∧ Z ∈ unitaryGroup (Fin n) ℂ ∧
    (∀ i k, k < i → AA i k = 0) ∧ (∀ i k, k < i → BB i k = 0) ∧ A = Q * AA * Zᴴ ∧ B = Q * BB * Zᴴ ∧
    (∀ i, α i = AA i i) ∧ ∀ i, β i = BB i i

/-- The conditions without their constant parts, at `u`. -/
def HomogeneousBC (d : Disc n) (u : ℝ → ℝ) : Prop :=
  ∀ b ∈ d.bcs, BC.sem u b - BC.sem (fun _ => 0) b = 0

/-! ### Generalised eigenvalues -/

lemma eigs_pencil_det {A B : Matrix (Fin n) (Fin n) ℂ} {α β : Fin n → ℂ} (h : IsQZ A B α β) (l : ℂ) :
    (∃ v ≠ 0, A *ᵥ v = l • (B *ᵥ v)) ↔ ∃ i, α i = l * β i := by
  obtain ⟨AA, BB, Q, Z, hQ, hZ, hA, hB, rfl, rfl, ha, hb⟩ := h
  have h1 : (∃ v ≠ 0, (Q * AA * Zᴴ) *ᵥ v = l • ((Q * BB * Zᴴ) *ᵥ v)) ↔
      ∃ v ≠ 0, (Q * (AA - l • BB) * Zᴴ) *ᵥ v = 0 := by
    have : Q * (AA - l • BB) * Zᴴ = Q * AA * Zᴴ - l • (Q * BB * Zᴴ) := by
      rw [Matrix.mul_sub, Matrix.sub_mul, Matrix.mul_smul, Matrix.smul_mul]
    simp only [this, sub_mulVec, smul_mulVec, sub_eq_zero]
  have hq : Q.det ≠ 0 := fun h0 => by
    have := congrArg det (mem_unitaryGroup_iff.1 hQ)
    rw [det_mul, h0] at this
    simp at this
  have hz : Zᴴ.det ≠ 0 := fun h0 => by
    have := congrArg det (mem_unitaryGroup_iff.1 hZ)
    rw [det_mul, star_eq_conjTranspose, h0] at this
    simp at this
  rw [h1, exists_mulVec_eq_zero_iff, det_mul, det_mul]
  have ht : (AA - l • BB).det = ∏ i, (α i - l * β i) := by
    rw [det_of_upperTriangular]
    · simp [ha, hb]
    · intro i k hik
      simp only [id] at hik
      simp [hA i k hik, hB i k hik]
  rw [ht, mul_eq_zero, mul_eq_zero, or_iff_left hz, or_iff_right hq, Finset.prod_eq_zero_iff]
  simp [sub_eq_zero]

lemma geMatvec_length (d : Disc n) (x : Fin n → ℝ) : (geMatvec d x).length = n := by
  simp only [geMatvec, List.length_append, List.length_replicate, keepRows, List.length_map, List.length_take,
    List.length_finRange]
  omega

lemma geMatvec_eq (d : Disc n) (hr : d.r ≤ n) (x : Fin n → ℝ) :
    geMatvec d x = projectVector d (List.replicate d.r 0) x := by
  simp only [geMatvec, projectVector, keepRows, List.length_map, List.length_take, List.length_finRange]
  congr 2
  omega

lemma keepRows_getD (r : ℕ) (v : Fin n → ℝ) (i : ℕ) (hi : i < n - r) :
    (keepRows r v).getD i 0 = v ⟨i, by omega⟩ := by
  rw [keepRows, getD_lt' _ _ _ (by simp; omega)]
  simp

lemma geMatvec_getD (d : Disc n) (hr : d.r ≤ n) (x : Fin n → ℝ) (i : Fin n) :
    (geMatvec d x).getD i 0 = if h : d.r ≤ (i : ℕ) then (basisConv n d.r *ᵥ x) ⟨i - d.r, by omega⟩ else 0 := by
  rw [geMatvec_eq d hr, projectVector, getD_append', List.length_replicate]
  split_ifs with h1 h2 h2
  · omega
  · rw [getD_replicate']
  · rw [keepRows_getD _ _ _ (by omega)]
  · omega

lemma rhsDense_mulVec (d : Disc n) (hr : d.r ≤ n) (v : Fin n → ℂ) (i : Fin n) :
    (rhsDense d *ᵥ v) i = (((geMatvec d fun k => (v k).re).getD i 0 : ℝ) : ℂ)
      + (((geMatvec d fun k => (v k).im).getD i 0 : ℝ) : ℂ) * Complex.I := by
  have h0 : (rhsDense d *ᵥ v) i = ∑ k, (((geMatvec d (Pi.single k 1)).getD i 0 : ℝ) : ℂ) * v k := rfl
  rw [h0]
  simp only [geMatvec_getD d hr]
  split_ifs with h
  · have key : ∀ w : Fin n → ℝ, (basisConv n d.r *ᵥ w) ⟨i - d.r, by omega⟩
        = ∑ k, (basisConv n d.r *ᵥ Pi.single k 1) ⟨i - d.r, by omega⟩ * w k := by
      intro w
      simp only [mulVec_single_one]
      rfl
    rw [key, key]
    push_cast
    rw [Finset.sum_mul, ← Finset.sum_add_distrib]
    refine Finset.sum_congr rfl fun k _ => ?_
    conv_lhs => rw [← Complex.re_add_im (v k)]
    ring
  · simp

lemma dense_mulVec (M : List (Fin n → ℝ)) (v : Fin n → ℂ) (i : Fin n) :
    (dense M *ᵥ v) i = ((M.getD i 0 ⬝ᵥ fun k => (v k).re : ℝ) : ℂ)
      + ((M.getD i 0 ⬝ᵥ fun k => (v k).im : ℝ) : ℂ) * Complex.I := by
  simp only [dense, mulVec, dotProduct, of_apply]
  push_cast
  rw [Finset.sum_mul, ← Finset.sum_add_distrib]
  refine Finset.sum_congr rfl fun k _ => ?_
  conv_lhs => rw [← Complex.re_add_im (v k)]
  ring

lemma geMatvec_lin (d : Disc n) (hr : d.r ≤ n) (a b : Fin n → ℝ) (s t : ℝ) (i : Fin n) :
    (geMatvec d (s • a + t • b)).getD i 0 = s * (geMatvec d a).getD i 0 + t * (geMatvec d b).getD i 0 := by
  simp only [geMatvec_getD d hr]
  split_ifs
  · rw [mulVec_add, mulVec_smul, mulVec_smul]; simp
  · simp

/-- The rows of `M` applied to `a` are `geMatvec d f`, entry by entry or as lists. -/
lemma rows_iff (d : Disc n) (M : List (Fin n → ℝ)) (hM : M.length = n) (a f : Fin n → ℝ) :
    (∀ i : Fin n, M.getD i 0 ⬝ᵥ a = (geMatvec d f).getD i 0) ↔ M.map (· ⬝ᵥ a) = geMatvec d f := by
  constructor
  · intro h
    apply List.ext_getElem
    · rw [List.length_map, hM, geMatvec_length]
    · intro i h1 h2
      rw [List.length_map, hM] at h1
      have := h ⟨i, h1⟩
      rw [getD_lt' _ _ _ (by simpa [hM] using h1), getD_lt' _ _ _ h2] at this
      rw [List.getElem_map, this]
  · intro h i
    rw [← h, getD_lt' _ _ _ (by omega), getD_lt' _ _ _ (by simp; omega), List.getElem_map]

/-- The complex vector equation in real and imaginary parts. -/
lemma complex_split (d : Disc n) (hr : d.r ≤ n) (M : List (Fin n → ℝ)) (hM : M.length = n) (v : Fin n → ℂ) (l : ℂ) :
    dense M *ᵥ v = l • (rhsDense d *ᵥ v) ↔
      M.map (· ⬝ᵥ fun k => (v k).re) = geMatvec d (l.re • (fun k => (v k).re) + (-l.im) • fun k => (v k).im) ∧
      M.map (· ⬝ᵥ fun k => (v k).im) = geMatvec d (l.im • (fun k => (v k).re) + l.re • fun k => (v k).im) := by
  rw [← rows_iff d M hM, ← rows_iff d M hM, ← forall_and, funext_iff]
  refine forall_congr' fun i => ?_
  rw [Pi.smul_apply, smul_eq_mul, dense_mulVec, rhsDense_mulVec d hr, geMatvec_lin d hr, geMatvec_lin d hr, Complex.ext_iff]
  simp only [Complex.add_re, Complex.add_im, Complex.mul_re, Complex.mul_im, Complex.ofReal_re, Complex.ofReal_im,
    Complex.I_re, Complex.I_im]
  constructor
  · rintro ⟨h1, h2⟩
    constructor <;> linarith
  · rintro ⟨h1, h2⟩
    constructor <;> linarith

lemma funOf_lin (e : Ends) (s t : ℝ) (a b : Fin n → ℝ) (y : ℝ) :
    funOf e (s • a + t • b) y = s * funOf e a y + t * funOf e b y := by
  simp only [funOf, ← ultraSeries_zero_eq, ultraSeries, Pi.add_apply, Pi.smul_apply, smul_eq_mul, Finset.mul_sum]
  rw [← Finset.sum_add_distrib]
  exact Finset.sum_congr rfl fun k _ => by ring

/-- What `eigs` returns, in terms of the rows of the discretised problem. -/
lemma eigs_rows (ordqz : Matrix (Fin n) (Fin n) ℂ → Matrix (Fin n) (Fin n) ℂ → Option ((Fin n → ℂ) × (Fin n → ℂ)))
    (hqz : ∀ A B α β, ordqz A B = some (α, β) → IsQZ A B α β)
    (d : Disc n) (tol : ℝ) (ht : 0 ≤ tol) (hn : 2 ≤ n) (he : d.e.e0 < d.e.e1) (hr : d.r ≤ n)
    (hb : ∀ b ∈ d.bcs, BC.PointsIn d.e b ∧ BC.Mentions b) (ls : List ℂ) (hls : eigs ordqz d tol = some (true, ls)) :
    ∀ l ∈ ls, ∃ (M : List (Fin n → ℝ)) (a b : Fin n → ℝ), OpDisc.matrix d = some M ∧ d.bcs.length = d.r ∧ (a ≠ 0 ∨ b ≠ 0) ∧
      M.map (· ⬝ᵥ a) = projectVector d (List.replicate d.r 0) (l.re • a + (-l.im) • b) ∧
      M.map (· ⬝ᵥ b) = projectVector d (List.replicate d.r 0) (l.im • a + l.re • b) := by
  intro l hl
  unfold eigs at hls
  obtain ⟨M, hM, hls⟩ := Option.map_eq_some_iff.1 hls
  obtain ⟨M', hM', hlen, hsq⟩ := C98_shape d hn he hr hb
  obtain rfl : M = M' := Option.some.inj (hM.symm.trans hM')
  split_ifs at hls with hMn
  · have hbr := hsq.1 hMn
    rcases hq : ordqz (dense M) (rhsDense d) with _ | ⟨α, β⟩
    · rw [hq] at hls; simp at hls
    · rw [hq] at hls
      simp only [Prod.mk.injEq, true_and] at hls
      subst hls
      simp only [List.mem_map, List.mem_filter, List.mem_finRange, true_and, decide_eq_true_eq] at hl
      obtain ⟨i, hi, rfl⟩ := hl
      have hβ : β i ≠ 0 := fun h0 => by rw [h0, norm_zero] at hi; linarith
      obtain ⟨v, hv, hAv⟩ := (eigs_pencil_det (hqz _ _ _ _ hq) (α i / β i)).2 ⟨i, by field_simp⟩
      obtain ⟨h1, h2⟩ := (complex_split d hr M hMn v _).1 hAv
      rw [geMatvec_eq d hr] at h1 h2
      refine ⟨M, fun k => (v k).re, fun k => (v k).im, hM, hbr, ?_, h1, h2⟩
      by_contra hc
      push Not at hc
      apply hv
      funext k
      exact Complex.ext (congrFun hc.1 k) (congrFun hc.2 k)
  · simp at hls

/-- **C101.**  Every value returned by a successful `eigs` is a generalised eigenvalue of the discretised
operator: there is a nonzero function `u + i v` (with `n` coefficients) which satisfies the homogeneous boundary conditions, and
`L(u + i v) = λ (u + i v)` up to terms in the `r` projected-out ultraspherical degrees.  Partial: products
of the coefficients of the operator with the eigenfunction have to fit (`Fits`; always so for constant coefficients). -/
theorem C101_sound_partial (ordqz : Matrix (Fin n) (Fin n) ℂ → Matrix (Fin n) (Fin n) ℂ → Option ((Fin n → ℂ) × (Fin n → ℂ)))
    (hqz : ∀ A B α β, ordqz A B = some (α, β) → IsQZ A B α β)
    (d : Disc n) (tol : ℝ) (ht : 0 ≤ tol) (hn : 2 ≤ n) (he : d.e.e0 < d.e.e1) (hr : d.r ≤ n)
    (hb : ∀ b ∈ d.bcs, BC.PointsIn d.e b ∧ BC.Mentions b) (hout : d.src.coeff.length ≤ d.r + 1)
    (hfit : Fits n n d.src) (ls : List ℂ) (hls : eigs ordqz d tol = some (true, ls)) :
    ∀ l ∈ ls, ∃ a b : Fin n → ℝ, (a ≠ 0 ∨ b ≠ 0) ∧ HomogeneousBC d (funOf d.e a) ∧ HomogeneousBC d (funOf d.e b) ∧
      ∃ ρ σ : Fin n → ℝ, (∀ i : Fin n, (i : ℕ) < n - d.r → ρ i = 0 ∧ σ i = 0) ∧ ∀ y,
        applyLin d.e d.src (funOf d.e a) y - (l.re * funOf d.e a y - l.im * funOf d.e b y)
          = ultraSeries d.r ρ (Mapping.bwd d.e y) ∧
        applyLin d.e d.src (funOf d.e b) y - (l.im * funOf d.e a y + l.re * funOf d.e b y)
          = ultraSeries d.r σ (Mapping.bwd d.e y) := by
  intro l hl
  obtain ⟨M, a, b, hM, hbr, hab, h1, h2⟩ := eigs_rows ordqz hqz d tol ht hn he hr hb ls hls l hl
  have hz : ∀ k, (List.replicate d.r (0:ℝ)).getD k 0 = 0 := fun k => by
    rw [getD_replicate']
  obtain ⟨c1, ρ, hρ, e1⟩ := C98_solution_partial d hn he hb hout M hM _ (by simp [hbr]) _ _ h1 n (fun i hi => by omega) hfit
  obtain ⟨c2, σ, hσ, e2⟩ := C98_solution_partial d hn he hb hout M hM _ (by simp [hbr]) _ _ h2 n (fun i hi => by omega) hfit
  refine ⟨a, b, hab, ?_, ?_, ρ, σ, fun i hi => ⟨hρ i hi, hσ i hi⟩, fun y => ⟨?_, ?_⟩⟩
  · intro b hbm
    obtain ⟨k, hk, rfl⟩ := List.getElem_of_mem hbm
    rw [c1 k hk, hz]
  · intro b hbm
    obtain ⟨k, hk, rfl⟩ := List.getElem_of_mem hbm
    rw [c2 k hk, hz]
  · rw [← e1, funOf_lin]; ring
  · rw [← e2, funOf_lin]

/-- **C101.**  The number of boundary conditions has to be the projection order, otherwise `eigs` reports failure. -/
theorem C101_nonsquare (ordqz : Matrix (Fin n) (Fin n) ℂ → Matrix (Fin n) (Fin n) ℂ → Option ((Fin n → ℂ) × (Fin n → ℂ)))
    (d : Disc n) (tol : ℝ) (hn : 2 ≤ n) (he : d.e.e0 < d.e.e1) (hr : d.r ≤ n)
    (hb : ∀ b ∈ d.bcs, BC.PointsIn d.e b ∧ BC.Mentions b) (hne : d.bcs.length ≠ d.r) :
    eigs ordqz d tol = some (false, [0]) := by
  obtain ⟨M, hM, -, hsq⟩ := C98_shape d hn he hr hb
  unfold eigs
  rw [hM, Option.map_some, if_neg fun h => hne (hsq.1 h)]

/-- **C101.**  Exact eigenpairs are found: if a function `u + i v ≠ 0` with at most `dg` coefficients satisfies the homogeneous
conditions and `L(u + i v) = λ (u + i v)` exactly, then a successful `eigs` returns `λ`, unless the diagonal entry `β`
belonging to it is at most the tolerance. -/
theorem C101_complete_partial (ordqz : Matrix (Fin n) (Fin n) ℂ → Matrix (Fin n) (Fin n) ℂ → Option ((Fin n → ℂ) × (Fin n → ℂ)))
    (hqz : ∀ A B α β, ordqz A B = some (α, β) → IsQZ A B α β)
    (d : Disc n) (tol : ℝ) (ht : 0 ≤ tol) (hn : 2 ≤ n) (he : d.e.e0 < d.e.e1) (hr : d.r ≤ n)
    (hb : ∀ b ∈ d.bcs, BC.PointsIn d.e b ∧ BC.Mentions b) (hout : d.src.coeff.length ≤ d.r + 1)
    (dg : ℕ) (hfit : Fits n dg d.src) (ls : List ℂ) (hls : eigs ordqz d tol = some (true, ls))
    (a b : Fin n → ℝ) (hab : a ≠ 0 ∨ b ≠ 0) (had : ∀ i : Fin n, dg ≤ i → a i = 0) (hbd : ∀ i : Fin n, dg ≤ i → b i = 0)
    (hba : HomogeneousBC d (funOf d.e a)) (hbb : HomogeneousBC d (funOf d.e b)) (l : ℂ)
    (h1 : ∀ y, applyLin d.e d.src (funOf d.e a) y = l.re * funOf d.e a y - l.im * funOf d.e b y)
    (h2 : ∀ y, applyLin d.e d.src (funOf d.e b) y = l.im * funOf d.e a y + l.re * funOf d.e b y) :
    l ∈ ls ∨ ∃ M α β, OpDisc.matrix d = some M ∧ ordqz (dense M) (rhsDense d) = some (α, β) ∧
      ∃ i, α i = l * β i ∧ ‖β i‖ ≤ tol := by
  unfold eigs at hls
  obtain ⟨M, hM, hls⟩ := Option.map_eq_some_iff.1 hls
  obtain ⟨M', hM', -, hsq⟩ := C98_shape d hn he hr hb
  obtain rfl : M = M' := Option.some.inj (hM.symm.trans hM')
  split_ifs at hls with hMn
  · have hbr := hsq.1 hMn
    rcases hq : ordqz (dense M) (rhsDense d) with _ | ⟨α, β⟩
    · rw [hq] at hls; simp at hls
    · rw [hq] at hls
      simp only [Prod.mk.injEq, true_and] at hls
      subst hls
      have hz : ∀ k, (List.replicate d.r (0:ℝ)).getD k 0 = 0 := fun k => by rw [getD_replicate']
      obtain ⟨M1, e1, r1⟩ := C98_consistent_partial d hn he hb hout (List.replicate d.r 0) (by simp [hbr])
        (l.re • a + (-l.im) • b) a dg had hfit (fun k hk => by rw [hz]; exact hba _ (List.getElem_mem hk))
        (fun y => by rw [funOf_lin, h1]; ring)
      obtain ⟨M2, e2, r2⟩ := C98_consistent_partial d hn he hb hout (List.replicate d.r 0) (by simp [hbr])
        (l.im • a + l.re • b) b dg hbd hfit (fun k hk => by rw [hz]; exact hbb _ (List.getElem_mem hk))
        (fun y => by rw [funOf_lin, h2])
      obtain rfl : M = M1 := Option.some.inj (hM.symm.trans e1)
      obtain rfl : M = M2 := Option.some.inj (hM.symm.trans e2)
      rw [← geMatvec_eq d hr] at r1 r2
      obtain ⟨i, hi⟩ := (eigs_pencil_det (hqz _ _ _ _ hq) l).1 ⟨fun k => ⟨a k, b k⟩, by
        intro h0
        rcases hab with h | h
        · exact h (funext fun k => congrArg Complex.re (congrFun h0 k))
        · exact h (funext fun k => congrArg Complex.im (congrFun h0 k)),
        (complex_split d hr M hMn (fun k => ⟨a k, b k⟩) l).2 ⟨r1, r2⟩⟩
      by_cases hβ : tol < ‖β i‖
      · left
        simp only [List.mem_map, List.mem_filter, List.mem_finRange, true_and, decide_eq_true_eq]
        refine ⟨i, hβ, ?_⟩
        have : β i ≠ 0 := fun h0 => by rw [h0, norm_zero] at hβ; linarith
        rw [hi]; field_simp
      · exact Or.inr ⟨M, α, β, hM, hq, i, hi, not_lt.1 hβ⟩
  · simp at hls

/-- non-vacuity: `u''` on `[0, 1]` with Dirichlet conditions satisfies the hypotheses for every number of coefficients; a QZ
decomposition of a diagonal pencil is the pencil itself. -/
example (hn : 2 ≤ n) : let d : Disc n := ⟨⟨0, 1⟩, 2, 0, ⟨[(false, []), (false, []), (true, [1])], []⟩,
      [.ev .u 0, .ev .u 1]⟩
    (∀ b ∈ d.bcs, BC.PointsIn d.e b ∧ BC.Mentions b) ∧ d.src.coeff.length ≤ d.r + 1 ∧ Fits n n d.src ∧
      d.bcs.length = d.r ∧ d.r ≤ n := by
  refine ⟨?_, by simp, ⟨?_, by simp⟩, rfl, hn⟩
  · intro b hb
    simp only [List.mem_cons, List.not_mem_nil, or_false] at hb
    rcases hb with rfl | rfl <;> simp [BC.PointsIn, BC.Mentions]
  · intro j hj hf
    simp only [List.length_cons, List.length_nil] at hj
    interval_cases j
    · simp at hf
    · simp at hf
    · exact ⟨Or.inl (by simp), by simp; omega⟩

example (α β : Fin n → ℂ) : IsQZ (diagonal α) (diagonal β) α β :=
  ⟨diagonal α, diagonal β, 1, 1, one_mem _, one_mem _, fun i k h => diagonal_apply_ne _ (ne_of_gt h),
    fun i k h => diagonal_apply_ne _ (ne_of_gt h), by simp, by simp, by simp, by simp⟩

end Funpy.Props
