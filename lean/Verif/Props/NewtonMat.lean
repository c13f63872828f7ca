import Verif.Model.NewtonMat
import Verif.Props.UltraSection
import Verif.Props.Linearize
import Verif.Props.ChebChop

/-!
# C120: the assembled Newton matrix is the derivative of the equation
-/

namespace Funpy.Props
namespace NMat
end NMat
open Spec Cheb UltraS Linearize NewtonMat Matrix NMat Sect
open scoped ContDiff

/-! ### Specification -/

/-- The values of (the first column of) a function. -/
noncomputable def NMat.val (f : ChebFun) (y : ℝ) : ℝ := chebEval (coef f) (Mapping.bwd f.dom y)

/-- The functions `u_0, u_1, …` denoted by the columns of the argument. -/
noncomputable def NMat.funs (u : List ChebFun) (i : ℕ) : ℝ → ℝ :=
  match u[i]? with
  | some f => NMat.val f
  | none => fun _ => 0

/-- The block `b` is a compiled form of the linearised operator `B` at the columns `u`: the coefficient function of order `k` returns
`gs k`, a function on the domain which differs there from the coefficient by at most `δ k`; the info function says `False` only for
coefficients which vanish. -/
structure NMat.Compiled (e : Ends) (B : Linearize.Block) (b : LinBlock) (u : List ChebFun) (gs : ℕ → ChebFun) (δ : ℕ → ℝ) : Prop where
  /-- one function for every order -/
  length : b.coeffs.length = B.dops.length
  /-- what it returns -/
  value : ∀ k < B.dops.length, ∃ f : Fn, b.coeffs[k]? = some (some f) ∧ f u = some (gs k)
  /-- a function on the domain -/
  dom : ∀ k < B.dops.length, (gs k).dom = e ∧ (gs k).onefun.Proper
  /-- it is accurate -/
  acc : ∀ k (hk : k < B.dops.length), ∀ y ∈ Set.Icc e.e0 e.e1, |val (gs k) y - B.dops[k].eval e (funs u) y| ≤ δ k
  /-- the flags -/
  flag : ∀ k (hk : k < B.dops.length), b.info.getD k false = true ∨ ∀ y ∈ Set.Icc e.e0 e.e1, B.dops[k].eval e (funs u) y = 0

/-- Without integral terms: neither the block has them nor does the info function announce them. -/
def NMat.NoIntegrals (b : LinBlock) : Prop := b.nonloc = none ∧ b.info.getLastD false = false

/-- The number of coefficients dropped by `simplify(eps=eps)`. -/
noncomputable def NMat.dropped (eps : ℝ) (g : ChebFun) : ℕ := g.onefun.coeffs.n - (simplifyFun eps g).onefun.coeffs.n

/-! ### Auxiliary facts -/

lemma NMat.chebEval_contDiff (c : List ℝ) (al be : ℝ) : ContDiff ℝ ∞ fun y => chebEval c (al * y + be) := by
  unfold chebEval
  apply ContDiff.sum
  intro i _
  have h := Polynomial.contDiff_aeval (𝕜 := ℝ) (Polynomial.Chebyshev.T ℝ i) ∞
  simp only [Polynomial.coe_aeval_eq_eval] at h
  exact contDiff_const.mul (h.comp ((contDiff_const.mul contDiff_id).add contDiff_const))

lemma NMat.bwd_affine (e : Ends) : ∃ al be : ℝ, ∀ y, Mapping.bwd e y = al * y + be := by
  refine ⟨2 / Mapping.diff e, Mapping.bwd e 0, fun y => ?_⟩
  unfold Mapping.bwd Mapping.diff
  ring

lemma NMat.smooth_val (c : List ℝ) (e : Ends) : ContDiff ℝ ∞ fun y => chebEval c (Mapping.bwd e y) := by
  obtain ⟨al, be, h⟩ := bwd_affine e
  simp only [h]
  exact chebEval_contDiff c al be

lemma NMat.smooth_funs (u : List ChebFun) (i : ℕ) : ContDiff ℝ ∞ (funs u i) := by
  unfold funs
  split
  · exact smooth_val _ _
  · exact contDiff_const

/-- Simplifying a coefficient changes its values by at most `dropped * eps^(1/3)`. -/
lemma NMat.simplify_val (eps : ℝ) (h0 : 0 < eps) (h1 : eps < 1) (g : ChebFun) (hg : g.onefun.Proper) (he : g.dom.e0 < g.dom.e1)
    (y : ℝ) (hy : y ∈ Set.Icc g.dom.e0 g.dom.e1) :
    |val g y - chebEval (coef (simplifyFun eps g)) (Mapping.bwd g.dom y)| ≤ dropped eps g * eps ^ ((1 : ℝ) / 3) := by
  unfold dropped simplifyFun
  by_cases hh : g.onefun.ishappy = true
  · rw [if_pos hh]
    have hm : 0 < g.onefun.coeffs.cols.length := Nat.pos_of_ne_zero hg.m_ne
    have hm' : 0 < (simplifyCoeffs g.onefun.coeffs eps).cols.length := by
      rw [show (simplifyCoeffs g.onefun.coeffs eps).cols.length = _ from simplify_m _ _]; exact hm
    have hx : |Mapping.bwd g.dom y| ≤ 1 := by
      have hpos : 0 < g.dom.e1 - g.dom.e0 := by linarith
      have h2 := hy.1
      have h3 := hy.2
      rw [abs_le]
      simp only [Mapping.bwd, Mapping.diff]
      rw [le_div_iff₀ hpos, div_le_iff₀ hpos]
      constructor <;> linarith
    have := C22_error g.onefun.coeffs hg.wf eps h0 h1 (Mapping.bwd g.dom y) hx 0 hm
      ((simplifyCoeffs g.onefun.coeffs eps).cols[0]) (List.getElem?_eq_getElem hm')
    unfold val coef
    rw [getD_lt' _ _ _ hm, getD_lt' _ _ _ hm']
    exact this
  · rw [if_neg hh]
    simp [val]

lemma NMat.mapM_evalCoeff (eps : ℝ) (u : List ChebFun) (l : List (Option Fn)) (gs : ℕ → ChebFun)
    (h : ∀ k < l.length, ∃ f : Fn, l[k]? = some (some f) ∧ f u = some (gs k)) :
    l.mapM (evalCoeff eps u) = some ((List.range l.length).map fun k => simplifyFun eps (gs k)) := by
  induction l generalizing gs with
  | nil => rfl
  | cons a l ih =>
    obtain ⟨f, hf, hv⟩ := h 0 (by simp)
    simp only [List.getElem?_cons_zero, Option.some.injEq] at hf
    have := ih (fun k => gs (k + 1)) fun k hk => by
      obtain ⟨f, hf, hv⟩ := h (k + 1) (by simpa using hk)
      exact ⟨f, by simpa using hf, hv⟩
    rw [List.mapM_cons, this]
    subst hf
    simp [evalCoeff, hv, List.range_succ_eq_map, Function.comp_def]

lemma NMat.mapIdx_sum {α : Type*} (l : List α) (f : ℕ → α → ℝ) : (l.mapIdx f).sum = ∑ k : Fin l.length, f k l[k] := by
  rw [← List.sum_ofFn]
  congr 1
  apply List.ext_getElem <;> simp

/-- **C120.**  Let `a(u) = 0` be a scalar differential equation and `b` the compiled form of its symbolic linearisation.  Then the block can be
evaluated at `u`, and the linear operator that is discretised is, for every smooth `p`, the directional derivative of `a` at `u` in direction
`p`, up to the errors of the coefficient functions and of their simplification. -/
theorem C120_operator (a : Op) (ha : OpSmooth a) (hl : IsLocal a) (e : Ends) (he : e.e0 < e.e1) (u : List ChebFun) (b : LinBlock)
    (gs : ℕ → ChebFun) (δ : ℕ → ℝ) (eps : ℝ) (h0 : 0 < eps) (h1 : eps < 1) (hb : NoIntegrals b)
    (hc : ∀ B, linearize expandTerms [a] 1 = [[B]] → Compiled e B b u gs δ) :
    ∃ q, b.quasi u eps = some q ∧ (sourceOf q).coeff.length = a.order 0 + 1 ∧ ∀ p : ℝ → ℝ, ContDiff ℝ ∞ p → ∀ y ∈ Set.Icc e.e0 e.e1,
      ∃ D, HasDerivAt (fun ε => a.eval e (pert (funs u) 0 p ε) y) D 0 ∧
        |applyLin e (sourceOf q) p y - D|
          ≤ ∑ k ∈ Finset.range (a.order 0 + 1), (δ k + dropped eps (gs k) * eps ^ ((1 : ℝ) / 3)) * |iteratedDeriv k p y| := by
  have hB : linearize expandTerms [a] 1 = [[block expandTerms (a.order 0) 0 a]] := by
    simp [linearize, diffOrder]
  set B := block expandTerms (a.order 0) 0 a with hBdef
  have hlen : B.dops.length = a.order 0 + 1 := by simp [hBdef, block]
  specialize hc B hB
  have hq := mapM_evalCoeff eps u b.coeffs gs (by rw [hc.length]; exact hc.value)
  refine ⟨⟨b.info, (List.range b.coeffs.length).map fun k => simplifyFun eps (gs k), .none⟩, ?_, ?_, ?_⟩
  · unfold LinBlock.quasi
    rw [hq, hb.1]
    rfl
  · simp [sourceOf, hc.length, hlen]
  set q : QuasiOp.Block ChebFun := ⟨b.info, (List.range b.coeffs.length).map fun k => simplifyFun eps (gs k), .none⟩ with hqdef
  intro p hp y hy
  obtain ⟨B', hB', hio, hder⟩ := C103_differential e (funs u) (smooth_funs u) p hp a ha hl
  rw [hB] at hB'
  obtain rfl : B = B' := by simpa using hB'
  refine ⟨_, hder y, ?_⟩
  have hint : (sourceOf q).integral = [] := by
    unfold sourceOf
    simp only [hqdef]
    rw [if_neg (by rw [hb.2]; simp)]
  have hslen : (sourceOf q).coeff.length = a.order 0 + 1 := by simp [sourceOf, hqdef, hc.length, hlen]
  unfold applyLin
  rw [hint]
  simp only [blockAction, hio, List.map_nil, List.sum_nil, add_zero]
  rw [mapIdx_sum, mapIdx_sum]
  have e1 : ∀ (l : ℕ) (hl : (sourceOf q).coeff.length = l), (∑ k : Fin (sourceOf q).coeff.length, (if ((sourceOf q).coeff[k]).1 = true then
      chebEval ((sourceOf q).coeff[k]).2 (Mapping.bwd e y) * iteratedDeriv k (p) y else 0))
      = ∑ k : Fin l, if b.info.getD k false = true then chebEval (coef (simplifyFun eps (gs k))) (Mapping.bwd e y) * iteratedDeriv k (p) y else 0 := by
    rintro l rfl
    apply Finset.sum_congr rfl
    intro k _
    have hk : (sourceOf q).coeff[k] = (b.info.getD k false, coef (simplifyFun eps (gs k))) := by
      show (List.mapIdx _ _)[(k : ℕ)] = _
      rw [List.getElem_mapIdx]
      simp [hqdef]
    rw [hk]
  rw [e1 B.dops.length (by rw [hslen, hlen]), ← Finset.sum_sub_distrib]
  rw [← hlen, Finset.sum_range]
  refine (Finset.abs_sum_le_sum_abs _ _).trans (Finset.sum_le_sum fun k _ => ?_)
  have hk := k.isLt
  have hd := hc.dom k hk
  have hs := simplify_val eps h0 h1 (gs k) hd.2 (by rw [hd.1]; exact he) y (by rw [hd.1]; exact hy)
  rw [hd.1] at hs
  have hacc := hc.acc k hk y hy
  have hnn : 0 ≤ δ k + dropped eps (gs k) * eps ^ ((1 : ℝ) / 3) :=
    add_nonneg ((abs_nonneg _).trans hacc) ((abs_nonneg _).trans hs)
  by_cases hf : b.info.getD k false = true
  · rw [if_pos hf, ← sub_mul, abs_mul]
    refine mul_le_mul_of_nonneg_right ?_ (abs_nonneg _)
    rw [abs_sub_comm] at hs
    calc _ = |(chebEval (coef (simplifyFun eps (gs k))) (Mapping.bwd e y) - val (gs k) y)
          + (val (gs k) y - B.dops[k].eval e (funs u) y)| := by congr 1; simp
      _ ≤ _ := (abs_add_le _ _).trans ((add_le_add hs hacc).trans (le_of_eq (add_comm _ _)))
  · rw [if_neg hf]
    rcases hc.flag k hk with h | h
    · exact absurd h hf
    · have := h y hy
      simp only [Fin.getElem_fin] at this ⊢
      rw [this]
      simpa using mul_nonneg hnn (abs_nonneg _)

/-- **C120, the matrix.**  Let `a(u) = 0` be a scalar differential equation and `b` the compiled form of its symbolic linearisation.  Then the block can be
evaluated at `u`, and the matrix which is assembled from it maps the coefficients `v` of every function `p` for which the products fit
to the `C^{(r)}` coefficients of the directional derivative of `a` at `u` in direction `p`, up to the errors of the coefficient functions
and of their simplification. -/
theorem C120_jacobian (a : Op) (ha : OpSmooth a) (hl : IsLocal a) (e : Ends) (he : e.e0 < e.e1) (u : List ChebFun) (b : LinBlock)
    (gs : ℕ → ChebFun) (δ : ℕ → ℝ) (eps : ℝ) (h0 : 0 < eps) (h1 : eps < 1) (hb : NoIntegrals b)
    (hc : ∀ B, linearize expandTerms [a] 1 = [[B]] → Compiled e B b u gs δ) :
    ∃ q, b.quasi u eps = some q ∧ ∀ (n : ℕ) (_ : 2 ≤ n) (r : ℕ) (_ : a.order 0 ≤ r) (v : Fin n → ℝ) (d : ℕ)
      (_ : ∀ i : Fin n, d ≤ i → v i = 0) (_ : Fits n d (sourceOf q)), ∀ y ∈ Set.Icc e.e0 e.e1,
      ∃ D, HasDerivAt (fun ε => a.eval e (pert (funs u) 0 (funOf e v) ε) y) D 0 ∧
        |ultraSeries r (quasi2diffmat n (Mapping.diff e) r (sourceOf q) *ᵥ v) (Mapping.bwd e y) - D|
          ≤ ∑ k ∈ Finset.range (a.order 0 + 1), (δ k + dropped eps (gs k) * eps ^ ((1 : ℝ) / 3)) * |iteratedDeriv k (funOf e v) y| := by
  obtain ⟨q, hq, hslen, hop⟩ := C120_operator a ha hl e he u b gs δ eps h0 h1 hb hc
  refine ⟨q, hq, fun n hn r hr v d hv hfit y hy => ?_⟩
  obtain ⟨D, hD, hle⟩ := hop (funOf e v) (smooth_val _ _) y hy
  refine ⟨D, hD, ?_⟩
  have hfo : (fun t => ultraSeries 0 v (Mapping.bwd e t)) = funOf e v := by
    funext t; rw [ultraSeries_zero_eq]; rfl
  rw [C65_quasi2diffmat_partial n hn e he.ne r (sourceOf q) (by omega) v d hv hfit.1 hfit.2 y, hfo]
  simp only [ultraSeries_zero_eq]
  exact hle

/-- **C120, a Newton step.**  Let `x` solve the assembled system whose right-hand side is minus the residual: the values `g` of the boundary
conditions at `u` and `w`, the coefficients of `a(u)` up to `η`.  Then `u + p` satisfies the boundary conditions, and `a(u) + a'(u) p` is a
combination of the `r` highest polynomials, up to the errors of the coefficients. -/
theorem C120_step (a : Op) (ha : OpSmooth a) (hl : IsLocal a) {n : ℕ} (d : OpDisc.Disc n) (hn : 2 ≤ n) (he : d.e.e0 < d.e.e1)
    (f : ChebFun) (b : LinBlock) (gs : ℕ → ChebFun) (δ : ℕ → ℝ) (eps : ℝ) (h0 : 0 < eps) (h1 : eps < 1) (hb : NoIntegrals b)
    (hc : ∀ B, linearize expandTerms [a] 1 = [[B]] → Compiled d.e B b [f] gs δ)
    (hsrc : ∀ q, b.quasi [f] eps = some q → d.src = sourceOf q) (hr : a.order 0 ≤ d.r)
    (hbc : ∀ c ∈ d.bcs, BC.PointsIn d.e c ∧ BC.Mentions c) (M : List (Fin n → ℝ)) (hM : OpDisc.matrix d = some M)
    (w u x : Fin n → ℝ) (hu : ∀ y, funOf d.e u y = val f y) (η : ℝ)
    (hw : ∀ y ∈ Set.Icc d.e.e0 d.e.e1, |funOf d.e w y - a.eval d.e (funs [f]) y| ≤ η)
    (hsol : M.map (· ⬝ᵥ x) = (OpDisc.projectVector d (d.bcs.map fun c => BC.sem (funOf d.e u) c) w).map (- ·))
    (dg : ℕ) (hx : ∀ i : Fin n, dg ≤ i → x i = 0) (hfit : Fits n dg d.src) :
    (∀ c ∈ d.bcs, BC.sem (fun t => val f t + funOf d.e x t) c = 0) ∧
    ∃ ρ : Fin n → ℝ, (∀ i : Fin n, (i : ℕ) < n - d.r → ρ i = 0) ∧ ∀ y ∈ Set.Icc d.e.e0 d.e.e1,
      ∃ D, HasDerivAt (fun ε => a.eval d.e (pert (funs [f]) 0 (funOf d.e x) ε) y) D 0 ∧
        |a.eval d.e (funs [f]) y + D - ultraSeries d.r ρ (Mapping.bwd d.e y)| ≤ η +
          ∑ k ∈ Finset.range (a.order 0 + 1), (δ k + dropped eps (gs k) * eps ^ ((1 : ℝ) / 3)) * |iteratedDeriv k (funOf d.e x) y| := by
  obtain ⟨q, hq, hslen, hjac⟩ := C120_operator a ha hl d.e he [f] b gs δ eps h0 h1 hb hc
  have hsq := hsrc q hq
  constructor
  · intro c hcm
    have := C98_step_bcs d hn he hbc M hM w u x hsol c hcm
    rw [← this]
    congr 1
    funext t
    rw [hu]
  have hneg : (OpDisc.projectVector d (d.bcs.map fun c => BC.sem (funOf d.e u) c) w).map (- ·)
      = OpDisc.projectVector d ((d.bcs.map fun c => BC.sem (funOf d.e u) c).map (- ·)) (-w) := by
    unfold OpDisc.projectVector OpDisc.keepRows
    rw [List.map_append, mulVec_neg]
    simp only [List.map_map]
    rfl
  have hcoeff : d.src.coeff.length ≤ d.r + 1 := by rw [hsq]; omega
  obtain ⟨-, ρ, hρ, hres⟩ := C98_solution_partial d hn he hbc hcoeff M hM _ (by simp) (-w) x (hsol.trans hneg) dg hx hfit
  refine ⟨ρ, hρ, fun y hy => ?_⟩
  obtain ⟨D, hD, hle⟩ := hjac (funOf d.e x) (smooth_val _ _) y hy
  refine ⟨D, hD, ?_⟩
  have hwn : funOf d.e (-w) y = - funOf d.e w y := by
    unfold funOf
    rw [← ultraSeries_zero_eq, ← ultraSeries_zero_eq]
    simp [ultraSeries, Finset.sum_neg_distrib]
  have h2 := hres y
  rw [hwn] at h2
  rw [← hsq] at hle
  have h3 := hw y hy
  have : a.eval d.e (funs [f]) y + D - ultraSeries d.r ρ (Mapping.bwd d.e y)
      = -(funOf d.e w y - a.eval d.e (funs [f]) y) + -(applyLin d.e d.src (funOf d.e x) y - D) := by
    rw [← h2]; ring
  rw [this]
  refine (abs_add_le _ _).trans ?_
  rw [abs_neg, abs_neg]
  exact add_le_add h3 hle

/-- **C120, a Newton step, whatever the products.**  The same without the assumption that the products with the correction fit: let `x` solve the assembled system whose right-hand side is minus the residual: the values `g` of the boundary
conditions at `u` and `w`, the coefficients of `a(u)` up to `η`.  Then `u + p` satisfies the boundary conditions, and `a(u) + a'(u) p` is a
combination of the `C^{(r)}_k` with `k ≥ n - 2 r`, up to the errors of the coefficients. -/
theorem C120_step_section (a : Op) (ha : OpSmooth a) (hl : IsLocal a) {n : ℕ} (d : OpDisc.Disc n) (hn : 2 ≤ n) (he : d.e.e0 < d.e.e1)
    (f : ChebFun) (b : LinBlock) (gs : ℕ → ChebFun) (δ : ℕ → ℝ) (eps : ℝ) (h0 : 0 < eps) (h1 : eps < 1) (hb : NoIntegrals b)
    (hc : ∀ B, linearize expandTerms [a] 1 = [[B]] → Compiled d.e B b [f] gs δ)
    (hsrc : ∀ q, b.quasi [f] eps = some q → d.src = sourceOf q) (hr : a.order 0 ≤ d.r)
    (hbc : ∀ c ∈ d.bcs, BC.PointsIn d.e c ∧ BC.Mentions c) (M : List (Fin n → ℝ)) (hM : OpDisc.matrix d = some M)
    (w u x : Fin n → ℝ) (hu : ∀ y, funOf d.e u y = val f y) (η : ℝ)
    (hw : ∀ y ∈ Set.Icc d.e.e0 d.e.e1, |funOf d.e w y - a.eval d.e (funs [f]) y| ≤ η)
    (hsol : M.map (· ⬝ᵥ x) = (OpDisc.projectVector d (d.bcs.map fun c => BC.sem (funOf d.e u) c) w).map (- ·))
    (hfit : SecFits n n d.src) :
    (∀ c ∈ d.bcs, BC.sem (fun t => val f t + funOf d.e x t) c = 0) ∧
    ∃ φ : ℝ → ℝ, IsTail d.e n d.r φ ∧ ∀ y ∈ Set.Icc d.e.e0 d.e.e1,
      ∃ D, HasDerivAt (fun ε => a.eval d.e (pert (funs [f]) 0 (funOf d.e x) ε) y) D 0 ∧
        |a.eval d.e (funs [f]) y + D - φ y| ≤ η +
          ∑ k ∈ Finset.range (a.order 0 + 1), (δ k + dropped eps (gs k) * eps ^ ((1 : ℝ) / 3)) * |iteratedDeriv k (funOf d.e x) y| := by
  obtain ⟨q, hq, hslen, hjac⟩ := C120_operator a ha hl d.e he [f] b gs δ eps h0 h1 hb hc
  have hsq := hsrc q hq
  constructor
  · intro c hcm
    have := C98_step_bcs d hn he hbc M hM w u x hsol c hcm
    rw [← this]
    congr 1
    funext t
    rw [hu]
  have hneg : (OpDisc.projectVector d (d.bcs.map fun c => BC.sem (funOf d.e u) c) w).map (- ·)
      = OpDisc.projectVector d ((d.bcs.map fun c => BC.sem (funOf d.e u) c).map (- ·)) (-w) := by
    unfold OpDisc.projectVector OpDisc.keepRows
    rw [List.map_append, mulVec_neg]
    simp only [List.map_map]
    rfl
  have hcoeff : d.src.coeff.length ≤ d.r + 1 := by rw [hsq]; omega
  obtain ⟨-, hres⟩ := C121_residual d hn he hbc hcoeff M hM _ (by simp) (-w) x (hsol.trans hneg) n (fun i hi => by omega) hfit
  refine ⟨_, hres, fun y hy => ?_⟩
  obtain ⟨D, hD, hle⟩ := hjac (funOf d.e x) (smooth_val _ _) y hy
  refine ⟨D, hD, ?_⟩
  have hwn : funOf d.e (-w) y = - funOf d.e w y := by
    unfold funOf
    rw [← ultraSeries_zero_eq, ← ultraSeries_zero_eq]
    simp [ultraSeries, Finset.sum_neg_distrib]
  rw [← hsq] at hle
  have h3 := hw y hy
  have : a.eval d.e (funs [f]) y + D - (applyLin d.e d.src (funOf d.e x) y - funOf d.e (-w) y)
      = -(funOf d.e w y - a.eval d.e (funs [f]) y) + -(applyLin d.e d.src (funOf d.e x) y - D) := by
    rw [hwn]; ring
  rw [this]
  refine (abs_add_le _ _).trans ?_
  rw [abs_neg, abs_neg]
  exact add_le_add h3 hle

/-! ### An example -/

/-- A function on `[-1, 1]` with the given coefficients. -/
noncomputable def NMat.mkFun (c : List ℝ) : ChebFun := ⟨⟨-1, 1⟩, ⟨⟨c.length, [c]⟩, 2 ^ (-52 : ℤ), 1, 1 + 2 ^ 14, false⟩⟩

/-- The equation `u'' + u² = 0`. -/
noncomputable def NMat.exEq : Op := .loc (.add (.fn 0 2) (.pow (.fn 0 0) 2))

/-- What is compiled for it, at `u = x`: the coefficients `2 u`, `0`, `1`. -/
noncomputable def NMat.exBlock : LinBlock :=
  ⟨[some fun _ => some (mkFun [0, 2]), some fun _ => some (mkFun [0]), some fun _ => some (mkFun [1])], [true, false, true, false], none⟩

/-- The hypotheses of C120 are met by `u'' + u² = 0` linearised at `u = x`, and the products with a linear function fit into five
coefficients. -/
example : OpSmooth exEq ∧ IsLocal exEq ∧ NoIntegrals exBlock ∧
    (∀ B, linearize expandTerms [exEq] 1 = [[B]] →
      Compiled ⟨-1, 1⟩ B exBlock [mkFun [0, 1]] (fun k => mkFun ([[0, 2], [0], [1]].getD k [0])) fun _ => 0) ∧
    ∃ q, exBlock.quasi [mkFun [0, 1]] (2 ^ (-52 : ℤ)) = some q ∧ Fits 5 2 (sourceOf q) := by
  have ev : ∀ y, ∀ k (hk : k < 3), ((block expandTerms 2 0 exEq).dops[k]'(by simpa [block] using hk)).eval ⟨-1, 1⟩ (funs [mkFun [0, 1]]) y
      = val (mkFun (([[0, 2], [0], [1]] : List (List ℝ)).getD k [0])) y := by
    intro y k hk
    have hv : val (mkFun [0, 1]) y = y := by
      simp [val, mkFun, coef, chebEval, Finset.sum_range_succ, Mapping.bwd, Mapping.diff]; norm_num
    have h2 : val (mkFun [0, 2]) y = 2 * y := by
      simp [val, mkFun, coef, chebEval, Finset.sum_range_succ, Mapping.bwd, Mapping.diff]; norm_num
    have h0 : val (mkFun [0]) y = 0 := by simp [val, mkFun, coef, chebEval]
    have h1 : val (mkFun [1]) y = 1 := by simp [val, mkFun, coef, chebEval]
    have hf : funs [mkFun [0, 1]] 0 y = y := by simp [funs, hv]
    interval_cases k
    · simp only [List.getD_cons_zero, h2]
      simp [block, exEq, expandTerms, Op.terms, Loc.terms, Op.monomials, Loc.monomials, Atom.split, prodMon, powMon,
        coeffOf, opSum, List.range_succ, Op.eval, Loc.eval, hf]
    · simp only [List.getD_cons_zero, List.getD_cons_succ, h0]
      simp [block, exEq, expandTerms, Op.terms, Loc.terms, Op.monomials, Loc.monomials, Atom.split, prodMon, powMon,
        coeffOf, opSum, List.range_succ, Op.eval, Loc.eval]
    · simp only [List.getD_cons_zero, List.getD_cons_succ, h1]
      simp [block, exEq, expandTerms, Op.terms, Loc.terms, Op.monomials, Loc.monomials, Atom.split, prodMon, powMon,
        coeffOf, opSum, List.range_succ, Op.eval, Loc.eval]
  have hB0 : linearize expandTerms [exEq] 1 = [[block expandTerms 2 0 exEq]] := by
    simp [linearize, diffOrder, exEq, Op.order, Loc.order]
  have hlen : (block expandTerms 2 0 exEq).dops.length = 3 := by simp [block]
  refine ⟨by simp [exEq, OpSmooth, LocSmooth], by simp [exEq, IsLocal], ⟨rfl, rfl⟩, ?_, ?_⟩
  · intro B hB
    rw [hB0] at hB
    obtain rfl : block expandTerms 2 0 exEq = B := by simpa using hB
    refine ⟨by rw [hlen]; rfl, ?_, ?_, ?_, ?_⟩
    · intro k hk
      rw [hlen] at hk
      interval_cases k
      · exact ⟨_, rfl, rfl⟩
      · exact ⟨_, rfl, rfl⟩
      · exact ⟨_, rfl, rfl⟩
    · intro k hk
      rw [hlen] at hk
      interval_cases k <;> refine ⟨rfl, ⟨?_, ?_⟩⟩ <;> simp [mkFun, Arr.WF, Arr.m]
    · intro k hk y hy
      rw [ev y k (by rw [hlen] at hk; exact hk)]
      simp
    · intro k hk
      rw [hlen] at hk
      interval_cases k
      · exact Or.inl rfl
      · refine Or.inr fun y _ => ?_
        rw [ev y 1 (by norm_num)]
        simp [val, mkFun, coef, chebEval]
      · exact Or.inl rfl
  · refine ⟨⟨[true, false, true, false], [mkFun [0, 2], mkFun [0], mkFun [1]], .none⟩, ?_, ?_, ?_⟩
    · simp [LinBlock.quasi, exBlock, evalCoeff, simplifyFun, mkFun]
    · intro j hj hf
      simp only [sourceOf, List.length_mapIdx, List.length_cons, List.length_nil] at hj
      interval_cases j
      · exact ⟨Or.inr (Or.inl ⟨by simp [sourceOf, coef, mkFun], by norm_num, Or.inl (by norm_num), by norm_num⟩), by simp [sourceOf, coef, mkFun]⟩
      · simp [sourceOf] at hf
      · exact ⟨Or.inl (by simp [sourceOf, coef, mkFun]), by simp [sourceOf, coef, mkFun]⟩
    · simp [sourceOf]

end Funpy.Props
