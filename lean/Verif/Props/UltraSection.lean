import Verif.Lemmas.UltraSection
import Verif.Props.Eigs

/-!
# C121: variable coefficients -- what the discretisation does when products do not fit
-/

namespace Funpy.Props
namespace Sect
end Sect
open Spec Cheb UltraS OpDisc Matrix Finset Sect Eigs

variable {n : ℕ}

/-! ### Specification -/

/-- The multiplication matrices of the coefficients are exact (see C41) and the coefficients have at most `n` coefficients; nothing is
assumed on the degree of the functions they are multiplied with.  The integrands of integral terms have to fit. -/
def Sect.SecFits (n dg : ℕ) (s : Source) : Prop :=
  (∀ j (hj : j < s.coeff.length), s.coeff[j].1 = true → MultExact n s.coeff[j].2 j ∧ s.coeff[j].2.length ≤ n) ∧
  (∀ p ∈ s.integral, MultExact n p.1 0 ∧ p.1.length ≤ n ∧ MultExact n p.2 0 ∧ p.2.length + dg ≤ n + 1)

/-- `φ` on the interval is a combination of the `C^{(r)}_k` with `k ≥ n - 2 r` (and `k < 2 n`). -/
def Sect.IsTail (e : Ends) (n r : ℕ) (φ : ℝ → ℝ) : Prop :=
  ∃ ρ : Fin (2 * n) → ℝ, (∀ i : Fin (2 * n), (i : ℕ) + 2 * r < n → ρ i = 0) ∧ ∀ y, φ y = ultraSeries r ρ (Mapping.bwd e y)

/-! ### Proofs -/

/-- C41 for products which do not fit: the first `k` coefficients of the product are exact. -/
theorem C41_section_partial (k : ℕ) (c : List ℝ) (lam : ℕ) (hk : 2 ≤ k) (hex : MultExact k c lam) (hlen : c.length ≤ k) (g : Fin k → ℝ) :
    ∃ t : Fin (2 * k) → ℝ, (∀ i : Fin (2 * k), (i : ℕ) < k → t i = 0) ∧
      ∀ x, chebEval c x * ultraSeries lam g x = ultraSeries lam (multmat k c lam *ᵥ g) x + ultraSeries lam t x := by
  by_cases hc1 : c.length = 1
  · refine ⟨0, fun _ _ => rfl, fun x => ?_⟩
    rw [multmat_scalar k c hc1 lam g x]
    simp [ultraSeries]
  rcases hex with h | ⟨hc0, hl, hk100, _⟩ | ⟨hc0, hl, a, ha, hae⟩
  · exact absurd h hc1
  · interval_cases lam
    · obtain ⟨w, hw⟩ := multmat_T_section k c hc1 hlen hk100 g
      exact hw.tail
    · obtain ⟨w, hw⟩ := multmat_U_section k c hc1 hlen hk100 g
      exact hw.tail
  · obtain ⟨K, hK, w, hw⟩ := multmat_lam_section k c hc1 hc0 hlen lam hl g hk
    obtain ⟨t, ht, hE⟩ := hw.tail
    refine ⟨t, ht, fun x => ?_⟩
    rw [← hE x]
    congr 1
    have hcv : (convertmat k 0 ((lam : ℤ) - 1) *ᵥ fun i : Fin k => c.getD i 0) = a := by
      apply ultraSeries_inj lam hk
      intro x
      rw [convertmat_series k 0 lam (by omega) (Or.inl hk), pad_eval 0 k c hlen, ← ha x]
      rfl
    rw [hcv] at hK ⊢
    rw [ha x, sum_list_fin]
    have haz : ∀ j, K ≤ j → (List.ofFn a).getD j 0 = 0 := by
      intro j hj
      by_cases h : j < k
      · rw [getD_lt' _ _ _ (by simpa using h), List.getElem_ofFn]
        have h1 := hK ⟨j, h⟩ hj
        rcases hae ⟨j, h⟩ with h2 | h2
        · exact h2
        · exact absurd h1 (not_lt.mpr h2)
      · exact getD_ge' _ _ _ (by simpa using h)
    unfold basisSum
    rcases le_total K k with hKk | hKk
    · symm
      apply sum_subset (by intro j; simp; omega)
      intro j _ hj
      rw [haz j (by simpa using hj), zero_mul]
    · apply sum_subset (by intro j; simp; omega)
      intro j _ hj
      rw [getD_ge' _ _ _ (by simpa using hj), zero_mul]

lemma Sect.IsTail.zero (e : Ends) (n r : ℕ) : IsTail e n r fun _ => 0 :=
  ⟨0, fun _ _ => rfl, fun y => by simp [ultraSeries]⟩

lemma Sect.IsTail.add {e : Ends} {n r : ℕ} {φ ψ : ℝ → ℝ} (h1 : IsTail e n r φ) (h2 : IsTail e n r ψ) : IsTail e n r fun y => φ y + ψ y := by
  obtain ⟨ρ, h, hρ⟩ := h1
  obtain ⟨σ, h', hσ⟩ := h2
  refine ⟨ρ + σ, fun i hi => ?_, fun y => ?_⟩
  · rw [Pi.add_apply, h i hi, h' i hi, add_zero]
  · show φ y + ψ y = _
    rw [ultraSeries_add, hρ, hσ]

lemma Sect.IsTail.congr {e : Ends} {n r : ℕ} {φ ψ : ℝ → ℝ} (h : IsTail e n r φ) (hy : ∀ y, ψ y = φ y) : IsTail e n r ψ := by
  obtain ⟨ρ, h, hρ⟩ := h
  exact ⟨ρ, h, fun y => (hy y).trans (hρ y)⟩

lemma Sect.sum_tail (e : Ends) (out : ℕ) (v : Fin n → ℝ) {α : Type*} (l : List α) (A : α → Matrix (Fin n) (Fin n) ℝ) (φ : α → ℝ → ℝ)
    (h : ∀ a ∈ l, IsTail e n out fun y => φ a y - ultraSeries out (A a *ᵥ v) (Mapping.bwd e y)) :
    IsTail e n out fun y => (l.map fun a => φ a y).sum - ultraSeries out ((l.map A).sum *ᵥ v) (Mapping.bwd e y) := by
  induction l with
  | nil => exact (IsTail.zero e n out).congr fun y => by simp [ultraSeries]
  | cons a l ih =>
    refine ((h a (by simp)).add (ih fun b hb => h b (by simp [hb]))).congr fun y => ?_
    simp only [List.map_cons, List.sum_cons, add_mulVec, ultraSeries_add]
    ring

lemma Sect.mapIdx_eq_map {α β : Type*} (l : List α) (f : ℕ → α → β) : l.mapIdx f = l.zipIdx.map fun p => f p.2 p.1 := by
  apply List.ext_getElem <;> simp

/-- **C121.**  The assembled matrix, applied to the Chebyshev coefficients of any `u` with `n` coefficients, gives `L u` up to a combination
of the `C^{(out)}_k` with `k ≥ n - 2 out`. -/
theorem C121_assemble (hn : 2 ≤ n) (e : Ends) (he : e.e0 ≠ e.e1) (out : ℕ) (s : Source) (hout : s.coeff.length ≤ out + 1)
    (v : Fin n → ℝ) (d : ℕ) (hv : ∀ i : Fin n, d ≤ i → v i = 0) (hfit : SecFits n d s) :
    IsTail e n out fun y => applyLin e s (funOf e v) y - ultraSeries out (quasi2diffmat n (Mapping.diff e) out s *ᵥ v) (Mapping.bwd e y) := by
  have hfo : ∀ t, funOf e v t = ultraSeries 0 v (Mapping.bwd e t) := fun t => by rw [ultraSeries_zero_eq]; rfl
  have h1 := sum_tail e out v s.coeff.zipIdx
    (fun p => if p.1.1 then discConvert n p.2 out * multmat n p.1.2 p.2 * discDiff n p.2 (Mapping.diff e) else 0)
    (fun p y => if p.1.1 then chebEval p.1.2 (Mapping.bwd e y) * iteratedDeriv p.2 (funOf e v) y else 0) (by
      rintro ⟨p, j⟩ hp
      have hj : j < s.coeff.length := by simpa using List.snd_lt_of_mem_zipIdx hp
      have hpj : s.coeff[j] = p := by
        have := List.fst_eq_of_mem_zipIdx hp
        simpa using this.symm
      by_cases hf : p.1 = true
      · obtain ⟨hex, hlen⟩ := hfit.1 j hj (by rw [hpj]; exact hf)
        rw [hpj] at hex hlen
        obtain ⟨t, ht, hE⟩ := C41_section_partial n p.2 j hn hex hlen (discDiff n j (Mapping.diff e) *ᵥ v)
        obtain ⟨t', ht', hE'⟩ := tail_convert (2 * n) j out (by omega) (by omega) t n ht
        refine ⟨t', fun i hi => ht' i (by omega), fun y => ?_⟩
        simp only [hf, if_true]
        rw [Matrix.mul_assoc, ← mulVec_mulVec, ← mulVec_mulVec, discConvert, convertmat_series n j out (by omega) (Or.inl hn), hE']
        have h2 := hE (Mapping.bwd e y)
        rw [discDiff_series] at h2
        have h3 : iteratedDeriv j (funOf e v) y = (2 / Mapping.diff e) ^ j * iteratedDeriv j (ultraSeries 0 v) (Mapping.bwd e y) := by
          rw [show funOf e v = fun t => ultraSeries 0 v (Mapping.bwd e t) from funext hfo]
          simp only [Cheb.bwd_eq]
          rw [iteratedDeriv_affine _ j (ultraSeries_contDiff v j)]
        rw [h3, h2]
        ring
      · refine (IsTail.zero e n out).congr fun y => ?_
        simp [hf, ultraSeries])
  have h2 := sum_tail e out v s.integral
    (fun p => discConvert n 0 out * multmat n p.1 0 * discInt n (Mapping.diff e) * multmat n p.2 0)
    (fun p y => chebEval p.1 (Mapping.bwd e y) * ∫ t in e.e0..e.e1, chebEval p.2 (Mapping.bwd e t) * funOf e v t) (by
      intro p hp
      have hq := C65_quasi2diffmat_partial n hn e he out ⟨[], [p]⟩ (by simp) v d hv (by simp)
        (by intro q hq; simp only [List.mem_singleton] at hq; subst hq; exact hfit.2 q hp)
      refine (IsTail.zero e n out).congr fun y => ?_
      have := hq y
      simp only [quasi2diffmat, List.mapIdx_nil, List.sum_nil, List.map_cons, List.map_nil, List.sum_cons, zero_add, add_zero,
        Bool.false_eq_true, if_false] at this
      rw [this]
      simp only [hfo]
      ring)
  refine (h1.add h2).congr fun y => ?_
  unfold applyLin quasi2diffmat
  simp only [Bool.false_and, Bool.false_eq_true, if_false, mapIdx_eq_map, add_mulVec, ultraSeries_add]
  ring

/-- **C121, boundary value problems.**  If `x` solves the discretised problem then the function with these coefficients satisfies the boundary
conditions exactly, and the residual `L u - f` is a combination of the `C^{(r)}_k` with `k ≥ n - 2 r`. -/
theorem C121_residual (d : Disc n) (hn : 2 ≤ n) (he : d.e.e0 < d.e.e1) (hb : ∀ b ∈ d.bcs, BC.PointsIn d.e b ∧ BC.Mentions b)
    (hout : d.src.coeff.length ≤ d.r + 1) (M : List (Fin n → ℝ)) (hM : OpDisc.matrix d = some M) (g : List ℝ)
    (hg : g.length = d.bcs.length) (f x : Fin n → ℝ) (hsol : M.map (· ⬝ᵥ x) = projectVector d g f)
    (dg : ℕ) (hx : ∀ i : Fin n, dg ≤ i → x i = 0) (hfit : SecFits n dg d.src) :
    (∀ k (hk : k < d.bcs.length), BC.sem (funOf d.e x) d.bcs[k] - BC.sem (fun _ => 0) d.bcs[k] = g.getD k 0) ∧
    IsTail d.e n d.r fun y => applyLin d.e d.src (funOf d.e x) y - funOf d.e f y := by
  obtain ⟨hbc, ρ, hρ, hEq⟩ := C98_rows d hn he hb M hM g hg f x hsol
  refine ⟨hbc, ?_⟩
  have h1 := C121_assemble hn d.e he.ne d.r d.src hout x dg hx hfit
  have h2 : IsTail d.e n d.r fun y => ultraSeries d.r ρ (Mapping.bwd d.e y) :=
    ⟨pad2 ρ, fun i hi => by
      unfold pad2
      rw [dif_pos (by omega : (i : ℕ) < n)]
      exact hρ _ (by simp; omega), fun y => by rw [pad2_eval]⟩
  refine (h1.add h2).congr fun y => ?_
  rw [← hEq y]
  ring

/-- **C121, eigenvalues.**  Every value returned by a successful `eigs` belongs to a nonzero function `u + i v` with `n` coefficients which
satisfies the homogeneous boundary conditions exactly and `L (u + i v) = λ (u + i v)` up to combinations of the `C^{(r)}_k` with `k ≥ n - 2 r`. -/
theorem C121_eigs (ordqz : Matrix (Fin n) (Fin n) ℂ → Matrix (Fin n) (Fin n) ℂ → Option ((Fin n → ℂ) × (Fin n → ℂ)))
    (hqz : ∀ A B α β, ordqz A B = some (α, β) → IsQZ A B α β)
    (d : Disc n) (tol : ℝ) (ht : 0 ≤ tol) (hn : 2 ≤ n) (he : d.e.e0 < d.e.e1) (hr : d.r ≤ n)
    (hb : ∀ b ∈ d.bcs, BC.PointsIn d.e b ∧ BC.Mentions b) (hout : d.src.coeff.length ≤ d.r + 1)
    (hfit : SecFits n n d.src) (ls : List ℂ) (hls : eigs ordqz d tol = some (true, ls)) :
    ∀ l ∈ ls, ∃ a b : Fin n → ℝ, (a ≠ 0 ∨ b ≠ 0) ∧ HomogeneousBC d (funOf d.e a) ∧ HomogeneousBC d (funOf d.e b) ∧
      IsTail d.e n d.r (fun y => applyLin d.e d.src (funOf d.e a) y - (l.re * funOf d.e a y - l.im * funOf d.e b y)) ∧
      IsTail d.e n d.r (fun y => applyLin d.e d.src (funOf d.e b) y - (l.im * funOf d.e a y + l.re * funOf d.e b y)) := by
  intro l hl
  obtain ⟨M, a, b, hM, hbr, hab, h1, h2⟩ := eigs_rows ordqz hqz d tol ht hn he hr hb ls hls l hl
  have hz : ∀ k, (List.replicate d.r (0:ℝ)).getD k 0 = 0 := fun k => by
    rw [getD_replicate']
  obtain ⟨c1, t1⟩ := C121_residual d hn he hb hout M hM _ (by simp [hbr]) _ _ h1 n (fun i hi => by omega) hfit
  obtain ⟨c2, t2⟩ := C121_residual d hn he hb hout M hM _ (by simp [hbr]) _ _ h2 n (fun i hi => by omega) hfit
  refine ⟨a, b, hab, ?_, ?_, t1.congr fun y => ?_, t2.congr fun y => ?_⟩
  · intro b hbm
    obtain ⟨k, hk, rfl⟩ := List.getElem_of_mem hbm
    rw [c1 k hk, hz]
  · intro b hbm
    obtain ⟨k, hk, rfl⟩ := List.getElem_of_mem hbm
    rw [c2 k hk, hz]
  · rw [funOf_lin]; ring
  · rw [funOf_lin]

/-- **C121, sharpness.**  For `L u = u' + x u` on `[-1, 1]` with `n = 3` and `r = 1` (so `n - 2 r = 1`) the degree `k = 1` does occur: the
stronger statement of C98, `k ≥ n - r`, is false when a product does not fit. -/
theorem C121_sharp : let s : Source := ⟨[(true, [0, 1]), (true, [1])], []⟩
    SecFits 3 3 s ∧ ∀ ρ : Fin (2 * 3) → ℝ, (∀ y, applyLin ⟨-1, 1⟩ s (funOf ⟨-1, 1⟩ ![0, 0, 1]) y
      - ultraSeries 1 (quasi2diffmat 3 (Mapping.diff ⟨-1, 1⟩) 1 s *ᵥ ![0, 0, 1]) (Mapping.bwd ⟨-1, 1⟩ y)
        = ultraSeries 1 ρ (Mapping.bwd ⟨-1, 1⟩ y)) → ρ 1 = -(1 / 4) := by
  intro s
  have hex : MultExact 3 [0, 1] 0 := Or.inr (Or.inl ⟨by simp, by simp, Or.inl (by omega), by omega⟩)
  refine ⟨⟨fun j hj hf => ?_, by simp [s]⟩, fun ρ hρ => ?_⟩
  · simp only [s, List.length_cons, List.length_nil] at hj
    interval_cases j
    · exact ⟨hex, by simp [s]⟩
    · exact ⟨Or.inl (by simp [s]), by simp [s]⟩
  have hb : ∀ y, Mapping.bwd ⟨-1, 1⟩ y = y := fun y => by
    simp only [Mapping.bwd, Mapping.diff]; norm_num
  obtain ⟨t, ht, hE⟩ := C41_section_partial 3 [0, 1] 0 (by omega) hex (by simp) ![0, 0, 1]
  have hB := C65_quasi2diffmat_partial 3 (by omega) ⟨-1, 1⟩ (by norm_num) 1 ⟨[(false, []), (true, [1])], []⟩ (by simp) ![0, 0, 1] 3
    (fun i hi => by omega) (fun j hj hf => by
      simp only [List.length_cons, List.length_nil] at hj
      interval_cases j
      · simp at hf
      · exact ⟨Or.inl (by simp), by simp⟩) (by simp)
  have hT2 : ∀ x : ℝ, (Polynomial.Chebyshev.T ℝ 2).eval x = 2 * x ^ 2 - 1 := fun x => by simp [Polynomial.Chebyshev.T_two]
  have hT3 : ∀ x : ℝ, (Polynomial.Chebyshev.T ℝ 3).eval x = 4 * x ^ 3 - 3 * x := fun x => by
    have := Polynomial.Chebyshev.T_add_two ℝ 1
    norm_num at this
    rw [this]
    simp [Polynomial.Chebyshev.T_two]
    ring
  have hT : ∀ x, ultraSeries 0 t x = ultraSeries 0 ![0, 0, 0, 1 / 2, 0, 0] x := by
    have h1 : pad2 (multmat 3 [0, 1] 0 *ᵥ ![0, 0, 1]) + t = ![0, 1 / 2, 0, 1 / 2, 0, 0] := by
      apply ultraSeries_inj 0 (by omega)
      intro x
      rw [ultraSeries_add, pad2_eval, ← hE x]
      simp [chebEval, sum_range_succ, ultraSeries, Fin.sum_univ_succ, ultraBasis, hT2, hT3]
      ring
    intro x
    congr 1
    funext i
    have h2 := congrFun h1 i
    have h3 := ht i
    rw [Pi.add_apply] at h2
    unfold pad2 at h2
    by_cases hi : (i : ℕ) < 3
    · rw [h3 hi]
      fin_cases i <;> simp at hi ⊢
    · rw [dif_neg hi, zero_add] at h2
      rw [h2]
      fin_cases i <;> simp at hi ⊢
  have key : ρ = ![0, -(1 / 4), 0, 1 / 4, 0, 0] := by
    apply ultraSeries_inj 1 (by omega)
    intro x
    have h1 := hρ x
    have h2 := hB x
    have h3 := hE x
    simp only [applyLin, quasi2diffmat, s, List.mapIdx_cons, List.mapIdx_nil, List.sum_cons, List.sum_nil, List.map_nil, if_true,
      Bool.false_eq_true, if_false, Bool.false_and, add_zero, zero_add, hb, add_mulVec, ultraSeries_add] at h1 h2
    rw [h2] at h1
    have h4 : ultraSeries 1 ((discConvert 3 0 1 * multmat 3 [0, 1] 0 * discDiff 3 0 (Mapping.diff ⟨-1, 1⟩)) *ᵥ ![0, 0, 1]) x
        = ultraSeries 0 (multmat 3 [0, 1] 0 *ᵥ ![0, 0, 1]) x := by
      rw [show discDiff 3 0 (Mapping.diff ⟨-1, 1⟩) = 1 from if_pos rfl, mul_one, ← mulVec_mulVec, discConvert,
        convertmat_series 3 0 1 (by omega) (Or.inl (by omega))]
    have h5 : (fun t => ultraSeries 0 ![0, 0, 1] t) = funOf ⟨-1, 1⟩ ![0, 0, 1] := by
      funext t
      rw [ultraSeries_zero_eq]
      simp [funOf, hb]
    have h6 : iteratedDeriv 0 (funOf ⟨-1, 1⟩ ![0, 0, 1]) x = ultraSeries 0 ![0, 0, 1] x := by
      rw [iteratedDeriv_zero, ← h5]
    rw [h4, h5, h6, h3, hT] at h1
    rw [← h1]
    simp [ultraSeries, Fin.sum_univ_succ, ultraBasis, gegenbauer, hT2, hT3]
    ring
  rw [key]
  rfl

/-- The hypotheses are satisfied by `u'' + x u = f` on `[0, 1]` with two Dirichlet conditions, for every number `10 ≤ n < 100` of coefficients
(`Fits n n` of C98 is not). -/
example (h10 : 10 ≤ n) (hn : n < 100) : let d : Disc n := ⟨⟨0, 1⟩, 2, 0, ⟨[(true, [1 / 2, 1 / 2]), (false, []), (true, [1])], []⟩,
      [.sub (.ev .u 0) (.const 1), .sub (.ev .u 1) (.const 2)]⟩
    (∀ b ∈ d.bcs, BC.PointsIn d.e b ∧ BC.Mentions b) ∧ d.src.coeff.length ≤ d.r + 1 ∧ SecFits n n d.src ∧ ¬ Fits n n d.src := by
  refine ⟨?_, by simp, ⟨?_, by simp⟩, ?_⟩
  · intro b hb
    simp only [List.mem_cons, List.not_mem_nil, or_false] at hb
    rcases hb with rfl | rfl <;> simp [BC.PointsIn, BC.Mentions]
  · intro j hj hf
    simp only [List.length_cons, List.length_nil] at hj
    interval_cases j
    · exact ⟨Or.inr (Or.inl ⟨by simp, by simp, Or.inl hn, by omega⟩), by simp; omega⟩
    · simp at hf
    · exact ⟨Or.inl (by simp), by simp; omega⟩
  · intro h
    have := (h.1 0 (by simp) rfl).2
    simp at this
    omega

end Funpy.Props
