import Verif.Model.Linearize
import Mathlib.Analysis.Calculus.FDeriv.Symmetric
import Mathlib.Analysis.Calculus.ParametricIntervalIntegral
import Mathlib.Analysis.Calculus.IteratedDeriv.Lemmas
import Mathlib.Analysis.Calculus.ContDiff.Operations
import Mathlib.Analysis.Calculus.ContDiff.Deriv
import Mathlib.MeasureTheory.Integral.IntervalIntegral.FundThmCalculus
import Mathlib.Tactic.Ring
import Mathlib.Analysis.SpecialFunctions.Trigonometric.Deriv
import Mathlib.Analysis.SpecialFunctions.Integrals.Basic

/-!
# C103: the symbolic linearisation is the derivative of the operator
-/

namespace Funpy.Props
namespace LinAux
end LinAux
open Linearize Set LinAux
open scoped ContDiff

/-! ### Specification -/

/-- All elementary functions in the expression are smooth. -/
def LocSmooth : Loc → Prop
  | .x => True
  | .const _ => True
  | .fn _ _ => True
  | .add a b => LocSmooth a ∧ LocSmooth b
  | .mul a b => LocSmooth a ∧ LocSmooth b
  | .pow a _ => LocSmooth a
  | .app g a => ContDiff ℝ ∞ g ∧ LocSmooth a
  | .der a => LocSmooth a

/-- All elementary functions in the expression are smooth. -/
def OpSmooth : Op → Prop
  | .loc a => LocSmooth a
  | .int a => LocSmooth a
  | .add a b => OpSmooth a ∧ OpSmooth b
  | .mul a b => OpSmooth a ∧ OpSmooth b
  | .app g a => ContDiff ℝ ∞ g ∧ OpSmooth a

/-- The functions `U` with `U j` replaced by `U j + ε p`. -/
def pert (U : ℕ → ℝ → ℝ) (j : ℕ) (p : ℝ → ℝ) (ε : ℝ) : ℕ → ℝ → ℝ :=
  fun i => if i = j then fun y => U j y + ε * p y else U i

/-- The action of a block `∑_k a_k p^{(k)} + ∑ c ∫ d p`. -/
noncomputable def blockAction (e : Ends) (U : ℕ → ℝ → ℝ) (p : ℝ → ℝ) (B : Block) (y : ℝ) : ℝ :=
  (B.dops.mapIdx fun k a => a.eval e U y * iteratedDeriv k p y).sum +
  (B.iops.map fun t => t.1.eval e U y * ∫ s in e.e0..e.e1, t.2.eval U s * p s).sum

/-- The value of `Σ c * diff(p, x, k)`. -/
noncomputable def dsum (U : ℕ → ℝ → ℝ) (p : ℝ → ℝ) (l : List (Loc × ℕ)) (y : ℝ) : ℝ :=
  (l.map fun t => t.1.eval U y * iteratedDeriv t.2 p y).sum

/-- The value of `diff(p, x, k)`, or of an integral `∫ Σ c * diff(p, x, k)`. -/
noncomputable def atomValue (e : Ends) (U : ℕ → ℝ → ℝ) (p : ℝ → ℝ) : Atom → ℝ → ℝ
  | .d k, y => iteratedDeriv k p y
  | .i l, _ => ∫ s in e.e0..e.e1, dsum U p l s

/-- The value of a sum of terms. -/
noncomputable def termSum (e : Ends) (U : ℕ → ℝ → ℝ) (p : ℝ → ℝ) (l : List (Op × Atom)) (y : ℝ) : ℝ :=
  (l.map fun t => t.1.eval e U y * atomValue e U p t.2 y).sum

/-- The expressions in the term are smooth. -/
def TermSmooth (t : Op × Atom) : Prop :=
  OpSmooth t.1 ∧ match t.2 with
    | .d _ => True
    | .i l => ∀ s ∈ l, LocSmooth s.1

/-- What is assumed of sympy's `expand`: the expression keeps its value, and no new derivatives of `p` appear. -/
structure IsExpand (expand : List (Op × Atom) → List (Op × Atom)) : Prop where
  /-- the value of the sum is unchanged -/
  value : ∀ (e : Ends) (U : ℕ → ℝ → ℝ) (p : ℝ → ℝ) (l : List (Op × Atom)), (∀ i, ContDiff ℝ ∞ (U i)) →
    ContDiff ℝ ∞ p → (∀ t ∈ l, TermSmooth t) → ∀ y, termSum e U p (expand l) y = termSum e U p l y
  /-- derivatives of `p` which occur outside integrals did so before -/
  atoms : ∀ (l : List (Op × Atom)) (c : Op) (k : ℕ), (c, Atom.d k) ∈ expand l → ∃ c', (c', Atom.d k) ∈ l

/-! ### Smoothness -/

variable {U : ℕ → ℝ → ℝ} {p : ℝ → ℝ} {j : ℕ}

lemma LinAux.contDiff_iter {f : ℝ → ℝ} (hf : ContDiff ℝ ∞ f) (k : ℕ) : ContDiff ℝ ∞ (iteratedDeriv k f) := by
  rw [iteratedDeriv_eq_iterate]
  exact hf.iterate_deriv k

lemma LinAux.iter_pert (hU : ∀ i, ContDiff ℝ ∞ (U i)) (hp : ContDiff ℝ ∞ p) (i k : ℕ) (ε y : ℝ) :
    iteratedDeriv k (pert U j p ε i) y
      = iteratedDeriv k (U i) y + (if i = j then ε * iteratedDeriv k p y else 0) := by
  unfold pert
  split_ifs with h
  · subst h
    have h1 : ContDiffAt ℝ k (U i) y := ((hU i).of_le (by exact_mod_cast le_top)).contDiffAt
    have h2 : ContDiffAt ℝ k (fun y => ε * p y) y :=
      (contDiff_const.mul (hp.of_le (by exact_mod_cast le_top))).contDiffAt
    rw [show (fun y => U i y + ε * p y) = U i + fun y => ε * p y from rfl, iteratedDeriv_add h1 h2,
      iteratedDeriv_const_mul_field]
  · simp

lemma LinAux.smoothL (hU : ∀ i, ContDiff ℝ ∞ (U i)) (hp : ContDiff ℝ ∞ p) (a : Loc) (ha : LocSmooth a) :
    ContDiff ℝ ∞ (fun q : ℝ × ℝ => a.eval (pert U j p q.1) q.2) := by
  induction a with
  | x => exact contDiff_snd
  | const c => exact contDiff_const
  | fn i k =>
    simp only [Loc.eval, iter_pert hU hp]
    refine ((contDiff_iter (hU i) k).comp contDiff_snd).add ?_
    split_ifs
    · exact contDiff_fst.mul ((contDiff_iter hp k).comp contDiff_snd)
    · exact contDiff_const
  | add a b iha ihb => exact (iha ha.1).add (ihb ha.2)
  | mul a b iha ihb => exact (iha ha.1).mul (ihb ha.2)
  | pow a n iha => exact (iha ha).pow n
  | app g a iha => exact ha.1.comp (iha ha.2)
  | der a iha =>
    have hG := iha ha
    have : (fun q : ℝ × ℝ => (Loc.der a).eval (pert U j p q.1) q.2)
        = fun q => fderiv ℝ (fun q : ℝ × ℝ => a.eval (pert U j p q.1) q.2) q (0, 1) := by
      funext q
      have h1 : HasFDerivAt (fun q : ℝ × ℝ => a.eval (pert U j p q.1) q.2) _ (q.1, q.2) :=
        (hG.differentiable (by simp)).differentiableAt.hasFDerivAt
      have h2 : HasDerivAt (fun z : ℝ => (q.1, z)) (0, 1) q.2 := (hasDerivAt_const q.2 q.1).prodMk (hasDerivAt_id q.2)
      exact (h1.comp_hasDerivAt q.2 h2).deriv
    rw [this]
    exact (hG.fderiv_right (by simp)).clm_apply contDiff_const

lemma LinAux.pert_zero : pert U j p 0 = U := by
  funext i
  unfold pert
  split_ifs with h
  · subst h; simp
  · rfl

lemma LinAux.smooth1 (hU : ∀ i, ContDiff ℝ ∞ (U i)) (a : Loc) (ha : LocSmooth a) : ContDiff ℝ ∞ (a.eval U) := by
  have h := (smoothL (j := 0) (p := fun _ => 0) hU contDiff_const a ha).comp
    ((contDiff_const (c := (0:ℝ))).prodMk (contDiff_id (E := ℝ) (𝕜 := ℝ)))
  have h2 : (fun q : ℝ × ℝ => a.eval (pert U 0 (fun _ => 0) q.1) q.2) ∘ (fun x : ℝ => ((0:ℝ), id x)) = a.eval U := by
    funext y
    simp [pert_zero]
  rwa [h2] at h

lemma LinAux.pert_smooth (hU : ∀ i, ContDiff ℝ ∞ (U i)) (hp : ContDiff ℝ ∞ p) (ε : ℝ) (i : ℕ) :
    ContDiff ℝ ∞ (pert U j p ε i) := by
  unfold pert
  split_ifs
  · exact (hU j).add (contDiff_const.mul hp)
  · exact hU i

lemma LinAux.terms_smooth (a : Loc) (ha : LocSmooth a) : ∀ t ∈ a.terms j, LocSmooth t.1 := by
  induction a with
  | x => simp [Loc.terms]
  | const c => simp [Loc.terms]
  | fn i k =>
    intro t ht
    simp only [Loc.terms] at ht
    split_ifs at ht <;> simp at ht
    subst ht; trivial
  | add a b iha ihb =>
    intro t ht
    simp only [Loc.terms, List.mem_append] at ht
    exact ht.elim (iha ha.1 t) (ihb ha.2 t)
  | mul a b iha ihb =>
    intro t ht
    simp only [Loc.terms, List.mem_append, List.mem_map] at ht
    rcases ht with ⟨s, hs, rfl⟩ | ⟨s, hs, rfl⟩
    · exact ⟨iha ha.1 s hs, ha.2⟩
    · exact ⟨ha.1, ihb ha.2 s hs⟩
  | pow a n iha =>
    intro t ht
    simp only [Loc.terms, List.mem_map] at ht
    rcases ht with ⟨s, hs, rfl⟩
    exact ⟨⟨trivial, ha⟩, iha ha s hs⟩
  | app g a iha =>
    intro t ht
    simp only [Loc.terms, List.mem_map] at ht
    rcases ht with ⟨s, hs, rfl⟩
    exact ⟨⟨by have := contDiff_iter ha.1 1; rwa [iteratedDeriv_one] at this, ha.2⟩, iha ha.2 s hs⟩
  | der a iha =>
    intro t ht
    simp only [Loc.terms, List.mem_flatMap, List.mem_cons, List.not_mem_nil, or_false] at ht
    rcases ht with ⟨s, hs, rfl | rfl⟩
    · exact iha ha s hs
    · exact iha ha s hs

lemma LinAux.hasDerivAt_dsum (hU : ∀ i, ContDiff ℝ ∞ (U i)) (hp : ContDiff ℝ ∞ p) (l : List (Loc × ℕ))
    (hl : ∀ t ∈ l, LocSmooth t.1) (y : ℝ) :
    HasDerivAt (dsum U p l) (dsum U p (l.flatMap fun t => [(.der t.1, t.2), (t.1, t.2 + 1)]) y) y := by
  induction l with
  | nil => exact hasDerivAt_const y _
  | cons t l ih =>
    have h1 : HasDerivAt (t.1.eval U) (deriv (t.1.eval U) y) y :=
      ((smooth1 hU t.1 (hl t (by simp))).differentiable (by simp)).differentiableAt.hasDerivAt
    have h2 : HasDerivAt (iteratedDeriv t.2 p) (iteratedDeriv (t.2 + 1) p y) y := by
      rw [iteratedDeriv_succ]
      exact ((contDiff_iter hp t.2).differentiable (by simp)).differentiableAt.hasDerivAt
    have h3 := (h1.mul h2).add (ih fun s hs => hl s (List.mem_cons_of_mem _ hs))
    refine HasDerivAt.congr_deriv (f := dsum U p (t :: l)) (by exact h3) ?_
    simp only [dsum, List.flatMap_cons, List.cons_append, List.map_cons, List.sum_cons, List.nil_append, Loc.eval]
    ring

lemma LinAux.mixed {G : ℝ × ℝ → ℝ} (hG : ContDiff ℝ ∞ G) (ε y : ℝ) :
    HasDerivAt (fun ε => deriv (fun z => G (ε, z)) y) (deriv (fun z => deriv (fun ε => G (ε, z)) ε) y) ε := by
  have hd : Differentiable ℝ G := hG.differentiable (by simp)
  have hf : ContDiff ℝ ∞ (fderiv ℝ G) := hG.fderiv_right (by simp)
  have c1 : ∀ ε z : ℝ, HasDerivAt (fun z : ℝ => (ε, z)) ((0:ℝ), (1:ℝ)) z := fun ε z =>
    (hasDerivAt_const z ε).prodMk (hasDerivAt_id z)
  have c2 : ∀ ε z : ℝ, HasDerivAt (fun ε : ℝ => (ε, z)) ((1:ℝ), (0:ℝ)) ε := fun ε z =>
    (hasDerivAt_id ε).prodMk (hasDerivAt_const ε z)
  have e1 : ∀ ε z, deriv (fun z => G (ε, z)) z = fderiv ℝ G (ε, z) (0, 1) := fun ε z =>
    ((hd.differentiableAt (x := (ε, z))).hasFDerivAt.comp_hasDerivAt z (c1 ε z)).deriv
  have e2 : ∀ ε z, deriv (fun ε => G (ε, z)) ε = fderiv ℝ G (ε, z) (1, 0) := fun ε z =>
    ((hd.differentiableAt (x := (ε, z))).hasFDerivAt.comp_hasDerivAt ε (c2 ε z)).deriv
  have hF : HasFDerivAt (fderiv ℝ G) (fderiv ℝ (fderiv ℝ G) (ε, y)) (ε, y) :=
    (hf.differentiable (by simp)).differentiableAt.hasFDerivAt
  have h1 : HasDerivAt (fun ε => fderiv ℝ G (ε, y)) (fderiv ℝ (fderiv ℝ G) (ε, y) (1, 0)) ε :=
    hF.comp_hasDerivAt ε (c2 ε y)
  have h2 : HasDerivAt (fun z => fderiv ℝ G (ε, z)) (fderiv ℝ (fderiv ℝ G) (ε, y) (0, 1)) y :=
    hF.comp_hasDerivAt y (c1 ε y)
  have s : IsSymmSndFDerivAt ℝ G (ε, y) := by
    refine (hG.contDiffAt (x := (ε, y))).isSymmSndFDerivAt ?_
    rw [minSmoothness_of_isRCLikeNormedField]
    exact WithTop.coe_le_coe.2 (le_top (α := ℕ∞))
  simp only [e1, e2]
  have h3 : HasDerivAt (fun z => fderiv ℝ G (ε, z) (1, 0)) (fderiv ℝ (fderiv ℝ G) (ε, y) (0, 1) (1, 0)) y := by
    simpa using h2.clm_apply (hasDerivAt_const y ((1:ℝ), (0:ℝ)))
  rw [h3.deriv, s (0, 1) (1, 0)]
  simpa using h1.clm_apply (hasDerivAt_const ε ((0:ℝ), (1:ℝ)))

lemma LinAux.dsum_append (l m : List (Loc × ℕ)) (y : ℝ) : dsum U p (l ++ m) y = dsum U p l y + dsum U p m y := by
  simp [dsum]

lemma LinAux.dsum_map (l : List (Loc × ℕ)) (f : Loc → Loc) (y c : ℝ)
    (hf : ∀ s, (f s).eval U y = c * s.eval U y) : dsum U p (l.map fun t => (f t.1, t.2)) y = c * dsum U p l y := by
  induction l with
  | nil => simp [dsum]
  | cons t l ih =>
    simp only [dsum, List.map_cons, List.sum_cons] at ih ⊢
    rw [ih, hf]; ring

/-- The terms of the symbolic derivative sum to the derivative. -/
lemma LinAux.deriv_loc (hU : ∀ i, ContDiff ℝ ∞ (U i)) (hp : ContDiff ℝ ∞ p) (a : Loc) (ha : LocSmooth a) (ε y : ℝ) :
    HasDerivAt (fun ε => a.eval (pert U j p ε) y) (dsum (pert U j p ε) p (a.terms j) y) ε := by
  induction a generalizing y ε with
  | x => exact hasDerivAt_const ε _
  | const c => exact hasDerivAt_const ε _
  | fn i k =>
    simp only [Loc.eval, iter_pert hU hp, Loc.terms]
    split_ifs with h
    · have := ((hasDerivAt_id ε).mul_const (iteratedDeriv k p y)).const_add (iteratedDeriv k (U i) y)
      refine this.congr_deriv ?_
      simp [dsum, Loc.eval]
    · exact hasDerivAt_const ε _
  | add a b iha ihb =>
    simp only [Loc.terms, dsum_append]
    exact (iha ha.1 ε y).add (ihb ha.2 ε y)
  | mul a b iha ihb =>
    simp only [Loc.terms, dsum_append]
    rw [dsum_map _ (fun s => .mul s b) y (b.eval (pert U j p ε) y) (fun s => by simp only [Loc.eval]; ring),
      dsum_map _ (fun s => .mul a s) y (a.eval (pert U j p ε) y) (fun s => by simp only [Loc.eval])]
    refine ((iha ha.1 ε y).mul (ihb ha.2 ε y)).congr_deriv ?_
    ring
  | pow a n iha =>
    simp only [Loc.terms]
    rw [dsum_map _ (fun s => .mul (.mul (.const n) (.pow a (n - 1))) s) y
      (n * a.eval (pert U j p ε) y ^ (n - 1)) (fun s => by simp only [Loc.eval])]
    exact (iha ha ε y).pow n
  | app g a iha =>
    simp only [Loc.terms]
    rw [dsum_map _ (fun s => .mul (.app (deriv g) a) s) y
      (deriv g (a.eval (pert U j p ε) y)) (fun s => by simp only [Loc.eval])]
    exact ((ha.1.differentiable (by simp)).differentiableAt.hasDerivAt).comp ε (iha ha.2 ε y)
  | der a iha =>
    have h := mixed (smoothL (j := j) hU hp a ha) ε y
    simp only [(iha ha ε _).deriv] at h
    have h2 := (hasDerivAt_dsum (U := pert U j p ε) (pert_smooth hU hp ε) hp (a.terms j) (terms_smooth a ha) y).deriv
    rw [show (fun z => dsum (pert U j p ε) p (a.terms j) z) = dsum (pert U j p ε) p (a.terms j) from rfl, h2] at h
    exact h

/-! ### Expressions with integrals -/

lemma LinAux.optermsmooth (a : Op) (ha : OpSmooth a) : ∀ t ∈ a.terms j, TermSmooth t := by
  induction a with
  | loc a =>
    intro t ht
    simp only [Op.terms, List.mem_map] at ht
    rcases ht with ⟨s, hs, rfl⟩
    exact ⟨terms_smooth a ha s hs, trivial⟩
  | int a =>
    intro t ht
    simp only [Op.terms] at ht
    split_ifs at ht
    · simp at ht
    · simp only [List.mem_singleton] at ht
      subst ht
      exact ⟨trivial, terms_smooth a ha⟩
  | add a b iha ihb =>
    intro t ht
    simp only [Op.terms, List.mem_append] at ht
    exact ht.elim (iha ha.1 t) (ihb ha.2 t)
  | mul a b iha ihb =>
    intro t ht
    simp only [Op.terms, List.mem_append, List.mem_map] at ht
    rcases ht with ⟨s, hs, rfl⟩ | ⟨s, hs, rfl⟩
    · exact ⟨⟨(iha ha.1 s hs).1, ha.2⟩, (iha ha.1 s hs).2⟩
    · exact ⟨⟨ha.1, (ihb ha.2 s hs).1⟩, (ihb ha.2 s hs).2⟩
  | app g a iha =>
    intro t ht
    simp only [Op.terms, List.mem_map] at ht
    rcases ht with ⟨s, hs, rfl⟩
    exact ⟨⟨⟨by have := contDiff_iter ha.1 1; rwa [iteratedDeriv_one] at this, ha.2⟩, (iha ha.2 s hs).1⟩,
      (iha ha.2 s hs).2⟩

lemma LinAux.termSum_append (e : Ends) (l m : List (Op × Atom)) (y : ℝ) :
    termSum e U p (l ++ m) y = termSum e U p l y + termSum e U p m y := by
  simp [termSum]

lemma LinAux.termSum_map (e : Ends) (l : List (Op × Atom)) (f : Op → Op) (y c : ℝ)
    (hf : ∀ s, (f s).eval e U y = c * s.eval e U y) :
    termSum e U p (l.map fun t => (f t.1, t.2)) y = c * termSum e U p l y := by
  induction l with
  | nil => simp [termSum]
  | cons t l ih =>
    simp only [termSum, List.map_cons, List.sum_cons] at ih ⊢
    rw [ih, hf]; ring

lemma LinAux.deriv_int {G : ℝ × ℝ → ℝ} (hG : ContDiff ℝ ∞ G) (a b : ℝ) (ε : ℝ) :
    HasDerivAt (fun ε => ∫ t in a..b, G (ε, t)) (∫ t in a..b, deriv (fun ε => G (ε, t)) ε) ε := by
  have hd : Differentiable ℝ G := hG.differentiable (by simp)
  have hf : Continuous (fderiv ℝ G) := (hG.fderiv_right (m := ∞) (by simp)).continuous
  have c2 : ∀ ε z : ℝ, HasDerivAt (fun ε : ℝ => (ε, z)) ((1:ℝ), (0:ℝ)) ε := fun ε z =>
    (hasDerivAt_id ε).prodMk (hasDerivAt_const ε z)
  have e2 : ∀ ε z, HasDerivAt (fun ε => G (ε, z)) (fderiv ℝ G (ε, z) (1, 0)) ε := fun ε z =>
    (hd.differentiableAt (x := (ε, z))).hasFDerivAt.comp_hasDerivAt ε (c2 ε z)
  have hc : Continuous fun q : ℝ × ℝ => fderiv ℝ G q (1, 0) := hf.clm_apply continuous_const
  obtain ⟨C, hC⟩ := ((isCompact_Icc (a := ε - 1) (b := ε + 1)).prod (isCompact_uIcc (a := a) (b := b))).exists_bound_of_continuousOn
    hc.continuousOn
  simp only [(e2 _ _).deriv]
  refine (intervalIntegral.hasDerivAt_integral_of_dominated_loc_of_deriv_le (s := Icc (ε - 1) (ε + 1))
    (bound := fun _ => C) (F := fun ε t => G (ε, t)) (F' := fun ε t => fderiv ℝ G (ε, t) (1, 0))
    (Icc_mem_nhds (by linarith) (by linarith)) ?_ ?_ ?_ ?_ ?_ ?_).2
  · exact Filter.Eventually.of_forall fun x =>
      (hG.continuous.comp (Continuous.prodMk_right x)).aestronglyMeasurable
  · exact (hG.continuous.comp (Continuous.prodMk_right ε)).intervalIntegrable a b
  · exact (hc.comp (Continuous.prodMk_right ε)).aestronglyMeasurable
  · refine Filter.Eventually.of_forall fun t ht x hx => hC (x, t) ⟨hx, uIoc_subset_uIcc ht⟩
  · exact continuous_const.intervalIntegrable a b
  · exact Filter.Eventually.of_forall fun t _ x _ => e2 x t

lemma LinAux.deriv_op (e : Ends) (hU : ∀ i, ContDiff ℝ ∞ (U i)) (hp : ContDiff ℝ ∞ p) (a : Op) (ha : OpSmooth a)
    (ε y : ℝ) :
    HasDerivAt (fun ε => a.eval e (pert U j p ε) y) (termSum e (pert U j p ε) p (a.terms j) y) ε := by
  induction a with
  | loc a =>
    refine (deriv_loc hU hp a ha ε y).congr_deriv ?_
    simp only [termSum, Op.terms, dsum, List.map_map]
    rfl
  | int a =>
    have h := deriv_int (smoothL (j := j) hU hp a ha) e.e0 e.e1 ε
    simp only [(deriv_loc (j := j) hU hp a ha ε _).deriv] at h
    refine HasDerivAt.congr_deriv (f := fun ε => (Op.int a).eval e (pert U j p ε) y) h ?_
    simp only [Op.terms]
    split_ifs with h0
    · rw [List.isEmpty_iff] at h0
      simp [h0, dsum, termSum]
    · simp [termSum, Op.eval, Loc.eval, atomValue]
  | add a b iha ihb =>
    simp only [Op.terms, termSum_append]
    exact (iha ha.1).add (ihb ha.2)
  | mul a b iha ihb =>
    simp only [Op.terms, termSum_append]
    rw [termSum_map e _ (fun s => .mul s b) y (b.eval e (pert U j p ε) y) (fun s => by simp only [Op.eval]; ring),
      termSum_map e _ (fun s => .mul a s) y (a.eval e (pert U j p ε) y) (fun s => by simp only [Op.eval])]
    refine ((iha ha.1).mul (ihb ha.2)).congr_deriv ?_
    ring
  | app g a iha =>
    simp only [Op.terms]
    rw [termSum_map e _ (fun s => .mul (.app (deriv g) a) s) y
      (deriv g (a.eval e (pert U j p ε) y)) (fun s => by simp only [Op.eval])]
    exact ((ha.1.differentiable (by simp)).differentiableAt.hasDerivAt).comp ε (iha ha.2)

/-! ### Multiplying out -/

noncomputable def LinAux.lsum (U : ℕ → ℝ → ℝ) (l : List Loc) (y : ℝ) : ℝ := (l.map fun a => a.eval U y).sum

lemma LinAux.lsum_append (l m : List Loc) (y : ℝ) : lsum U (l ++ m) y = lsum U l y + lsum U m y := by
  simp [lsum]

lemma LinAux.lsum_map (l : List Loc) (f : Loc → Loc) (y c : ℝ) (hf : ∀ s, (f s).eval U y = c * s.eval U y) :
    lsum U (l.map f) y = c * lsum U l y := by
  induction l with
  | nil => simp [lsum]
  | cons t l ih =>
    simp only [lsum, List.map_cons, List.sum_cons] at ih ⊢
    rw [ih, hf]; ring

lemma LinAux.lsum_prodMon (l m : List Loc) (y : ℝ) : lsum U (prodMon l m) y = lsum U l y * lsum U m y := by
  unfold prodMon
  induction l with
  | nil => simp [lsum]
  | cons t l ih =>
    rw [List.flatMap_cons, lsum_append, ih, lsum_map m (fun s => .mul t s) y (t.eval U y) (fun s => rfl)]
    simp only [lsum, List.map_cons, List.sum_cons]
    ring

lemma LinAux.lsum_powMon (l : List Loc) (n : ℕ) (y : ℝ) : lsum U (powMon l n) y = lsum U l y ^ n := by
  induction n with
  | zero => simp [powMon, lsum, Loc.eval]
  | succ n ih => rw [powMon, lsum_prodMon, ih, pow_succ]

lemma LinAux.lsum_dmon (hU : ∀ i, ContDiff ℝ ∞ (U i)) (a : Loc) (ha : LocSmooth a) (y : ℝ) :
    lsum U a.dmon y = deriv (a.eval U) y := by
  have hd : ∀ b : Loc, LocSmooth b → DifferentiableAt ℝ (b.eval U) y := fun b hb =>
    ((smooth1 hU b hb).differentiable (by simp)).differentiableAt
  induction a with
  | x =>
    rw [show (Loc.x).eval U = id from rfl, deriv_id]
    simp [Loc.dmon, lsum, Loc.eval]
  | const c =>
    rw [show (Loc.const c).eval U = fun _ => c from rfl, deriv_const]
    simp [Loc.dmon, lsum]
  | fn i k =>
    rw [show (Loc.fn i k).eval U = iteratedDeriv k (U i) from rfl, ← iteratedDeriv_succ]
    simp [Loc.dmon, lsum, Loc.eval]
  | add a b iha ihb =>
    rw [Loc.dmon, lsum_append, iha ha.1, ihb ha.2]
    exact ((hd a ha.1).hasDerivAt.add (hd b ha.2).hasDerivAt).deriv.symm
  | mul a b iha ihb =>
    rw [Loc.dmon, lsum_append, lsum_map _ (fun s => .mul s b) y (b.eval U y) (fun s => by simp only [Loc.eval]; ring),
      lsum_map _ (fun s => .mul a s) y (a.eval U y) (fun s => rfl), iha ha.1, ihb ha.2]
    refine Eq.trans ?_ ((hd a ha.1).hasDerivAt.mul (hd b ha.2).hasDerivAt).deriv.symm
    ring
  | pow a n iha =>
    rw [Loc.dmon, lsum_map _ (fun s => .mul (.mul (.const n) (.pow a (n - 1))) s) y (n * a.eval U y ^ (n - 1))
      (fun s => rfl), iha ha]
    exact ((hd a ha).hasDerivAt.pow n).deriv.symm
  | app g a iha =>
    rw [Loc.dmon, lsum_map _ (fun s => .mul (.app (deriv g) a) s) y (deriv g (a.eval U y)) (fun s => rfl), iha ha.2]
    exact ((ha.1.differentiable (by simp)).differentiableAt.hasDerivAt.comp y (hd a ha.2).hasDerivAt).deriv.symm
  | der a iha =>
    simp only [Loc.dmon, lsum, List.map_cons, List.map_nil, List.sum_cons, List.sum_nil, add_zero]
    rfl

lemma LinAux.dmon_smooth (a : Loc) (ha : LocSmooth a) : ∀ m ∈ a.dmon, LocSmooth m := by
  induction a with
  | x => intro m hm; simp only [Loc.dmon, List.mem_singleton] at hm; subst hm; trivial
  | const c => intro m hm; simp [Loc.dmon] at hm
  | fn i k => intro m hm; simp only [Loc.dmon, List.mem_singleton] at hm; subst hm; trivial
  | add a b iha ihb =>
    intro m hm
    simp only [Loc.dmon, List.mem_append] at hm
    exact hm.elim (iha ha.1 m) (ihb ha.2 m)
  | mul a b iha ihb =>
    intro m hm
    simp only [Loc.dmon, List.mem_append, List.mem_map] at hm
    rcases hm with ⟨s, hs, rfl⟩ | ⟨s, hs, rfl⟩
    · exact ⟨iha ha.1 s hs, ha.2⟩
    · exact ⟨ha.1, ihb ha.2 s hs⟩
  | pow a n iha =>
    intro m hm
    simp only [Loc.dmon, List.mem_map] at hm
    rcases hm with ⟨s, hs, rfl⟩
    exact ⟨⟨trivial, ha⟩, iha ha s hs⟩
  | app g a iha =>
    intro m hm
    simp only [Loc.dmon, List.mem_map] at hm
    rcases hm with ⟨s, hs, rfl⟩
    exact ⟨⟨by have := contDiff_iter ha.1 1; rwa [iteratedDeriv_one] at this, ha.2⟩, iha ha.2 s hs⟩
  | der a iha => intro m hm; simp only [Loc.dmon, List.mem_singleton] at hm; subst hm; exact ha

lemma LinAux.prodMon_smooth (l m : List Loc) (hl : ∀ s ∈ l, LocSmooth s) (hm : ∀ s ∈ m, LocSmooth s) :
    ∀ s ∈ prodMon l m, LocSmooth s := by
  intro s hs
  simp only [prodMon, List.mem_flatMap, List.mem_map] at hs
  obtain ⟨a, ha, b, hb, rfl⟩ := hs
  exact ⟨hl a ha, hm b hb⟩

lemma LinAux.mon_smooth (a : Loc) (ha : LocSmooth a) : ∀ m ∈ a.monomials, LocSmooth m := by
  induction a with
  | x => intro m hm; simp only [Loc.monomials, List.mem_singleton] at hm; subst hm; trivial
  | const c => intro m hm; simp only [Loc.monomials, List.mem_singleton] at hm; subst hm; trivial
  | fn i k => intro m hm; simp only [Loc.monomials, List.mem_singleton] at hm; subst hm; trivial
  | app g a _ => intro m hm; simp only [Loc.monomials, List.mem_singleton] at hm; subst hm; exact ha
  | add a b iha ihb =>
    intro m hm
    simp only [Loc.monomials, List.mem_append] at hm
    exact hm.elim (iha ha.1 m) (ihb ha.2 m)
  | mul a b iha ihb => exact prodMon_smooth _ _ (iha ha.1) (ihb ha.2)
  | pow a n iha =>
    simp only [Loc.monomials]
    induction n with
    | zero => intro m hm; simp only [powMon, List.mem_singleton] at hm; subst hm; trivial
    | succ n ih => exact prodMon_smooth _ _ (ih ha) (iha ha)
  | der a iha =>
    intro m hm
    simp only [Loc.monomials, List.mem_flatMap] at hm
    obtain ⟨s, hs, hm⟩ := hm
    exact dmon_smooth s (iha ha s hs) m hm

lemma LinAux.lsum_mon (hU : ∀ i, ContDiff ℝ ∞ (U i)) (a : Loc) (ha : LocSmooth a) (y : ℝ) :
    lsum U a.monomials y = a.eval U y := by
  induction a generalizing y with
  | x => simp [Loc.monomials, lsum]
  | const c => simp [Loc.monomials, lsum]
  | fn i k => simp [Loc.monomials, lsum]
  | app g a _ => simp [Loc.monomials, lsum]
  | add a b iha ihb => rw [Loc.monomials, lsum_append, iha ha.1, ihb ha.2, Loc.eval]
  | mul a b iha ihb => rw [Loc.monomials, lsum_prodMon, iha ha.1, ihb ha.2, Loc.eval]
  | pow a n iha => rw [Loc.monomials, lsum_powMon, iha ha, Loc.eval]
  | der a iha =>
    have key : ∀ l : List Loc, (∀ s ∈ l, LocSmooth s) →
        HasDerivAt (lsum U l) (lsum U (l.flatMap Loc.dmon) y) y := by
      intro l hl
      induction l with
      | nil => exact hasDerivAt_const y _
      | cons t l ih =>
        rw [List.flatMap_cons, lsum_append, lsum_dmon hU t (hl t (by simp))]
        have h1 : HasDerivAt (t.eval U) (deriv (t.eval U) y) y :=
          ((smooth1 hU t (hl t (by simp))).differentiable (by simp)).differentiableAt.hasDerivAt
        exact h1.add (ih fun s hs => hl s (List.mem_cons_of_mem _ hs))
    rw [Loc.monomials, ← (key a.monomials (mon_smooth a ha)).deriv, Loc.eval]
    congr 1
    funext z
    exact iha ha z

noncomputable def LinAux.osum (e : Ends) (U : ℕ → ℝ → ℝ) (l : List Op) (y : ℝ) : ℝ := (l.map fun a => a.eval e U y).sum

lemma LinAux.osum_mon (e : Ends) (hU : ∀ i, ContDiff ℝ ∞ (U i)) (a : Op) (ha : OpSmooth a) (y : ℝ) :
    osum e U a.monomials y = a.eval e U y := by
  induction a with
  | loc a =>
    rw [Op.eval, ← lsum_mon hU a ha]
    simp only [Op.monomials, osum, List.map_map, lsum]
    rfl
  | int a => simp [Op.monomials, osum]
  | app g a _ => simp [Op.monomials, osum]
  | add a b iha ihb =>
    rw [Op.eval, ← iha ha.1, ← ihb ha.2]
    simp [Op.monomials, osum]
  | mul a b iha ihb =>
    rw [Op.eval, ← iha ha.1, ← ihb ha.2]
    simp only [Op.monomials]
    generalize a.monomials = l
    generalize b.monomials = m
    induction l with
    | nil => simp [osum]
    | cons t l ih =>
      have h2 : osum e U (m.map fun s => Op.mul t s) y = t.eval e U y * osum e U m y := by
        simp only [osum, List.map_map]
        rw [← List.sum_map_mul_left]
        rfl
      rw [List.flatMap_cons]
      simp only [osum, List.map_append, List.sum_append, List.map_cons, List.sum_cons] at ih h2 ⊢
      rw [ih, h2]; ring

lemma LinAux.cont_term (hU : ∀ i, ContDiff ℝ ∞ (U i)) (hp : ContDiff ℝ ∞ p) (t : Loc × ℕ) (ht : LocSmooth t.1) :
    Continuous fun y => t.1.eval U y * iteratedDeriv t.2 p y :=
  (smooth1 hU t.1 ht).continuous.mul (contDiff_iter hp t.2).continuous

lemma LinAux.cont_dsum (hU : ∀ i, ContDiff ℝ ∞ (U i)) (hp : ContDiff ℝ ∞ p) (l : List (Loc × ℕ))
    (hl : ∀ t ∈ l, LocSmooth t.1) : Continuous (dsum U p l) := by
  rw [continuous_iff_continuousAt]
  exact fun y => (hasDerivAt_dsum hU hp l hl y).continuousAt

lemma LinAux.split_sum (e : Ends) (hU : ∀ i, ContDiff ℝ ∞ (U i)) (hp : ContDiff ℝ ∞ p) (A : Atom)
    (hA : match A with
      | .d _ => True
      | .i l => ∀ s ∈ l, LocSmooth s.1) (y : ℝ) :
    (A.split.map fun B => atomValue e U p B y).sum = atomValue e U p A y := by
  cases A with
  | d k => simp [Atom.split]
  | i l =>
    simp only [Atom.split]
    induction l with
    | nil => simp [atomValue, dsum]
    | cons t l ih =>
      have ht : LocSmooth t.1 := hA t (by simp)
      have hl : ∀ s ∈ l, LocSmooth s.1 := fun s hs => hA s (List.mem_cons_of_mem _ hs)
      rw [List.flatMap_cons, List.map_append, List.sum_append, ih hl]
      have h1 : ((t.1.monomials.map fun m => Atom.i [(m, t.2)]).map fun B => atomValue e U p B y).sum
          = ∫ s in e.e0..e.e1, t.1.eval U s * iteratedDeriv t.2 p s := by
        simp only [← lsum_mon hU t.1 ht]
        have hm := mon_smooth t.1 ht
        generalize t.1.monomials = q at hm
        induction q with
        | nil => simp [lsum]
        | cons m q ihq =>
          have hq : ∀ s ∈ q, LocSmooth s := fun s hs => hm s (List.mem_cons_of_mem _ hs)
          simp only [List.map_cons, List.sum_cons] at ihq ⊢
          rw [ihq hq]
          have c1 : Continuous fun s => m.eval U s * iteratedDeriv t.2 p s := cont_term hU hp (m, t.2) (hm m (by simp))
          have c2 : Continuous fun s => lsum U q s * iteratedDeriv t.2 p s := by
            refine Continuous.mul ?_ (contDiff_iter hp t.2).continuous
            unfold lsum
            refine continuous_list_sum _ fun a ha => (smooth1 hU a (hq a ha)).continuous
          rw [show (fun s => lsum U (m :: q) s * iteratedDeriv t.2 p s)
            = fun s => m.eval U s * iteratedDeriv t.2 p s + lsum U q s * iteratedDeriv t.2 p s from by
              funext s; simp only [lsum, List.map_cons, List.sum_cons]; ring]
          rw [intervalIntegral.integral_add (c1.intervalIntegrable _ _) (c2.intervalIntegrable _ _)]
          congr 1
          simp [atomValue, dsum]
      rw [h1]
      simp only [atomValue]
      rw [← intervalIntegral.integral_add ((cont_term hU hp t ht).intervalIntegrable _ _)
        ((cont_dsum hU hp l hl).intervalIntegrable _ _)]
      rfl

/-- **C103.**  The expansion of the model is a possible `expand`. -/
theorem C103_expandTerms : IsExpand expandTerms where
  value := by
    intro e U p l hU hp hl y
    induction l with
    | nil => rfl
    | cons t l ih =>
      have h : termSum e U p (t.1.monomials.flatMap fun m => t.2.split.map fun A => (m, A)) y
          = t.1.eval e U y * atomValue e U p t.2 y := by
        rw [← osum_mon e hU t.1 (hl t (by simp)).1, ← split_sum e hU hp t.2 (hl t (by simp)).2]
        generalize t.1.monomials = q
        induction q with
        | nil => simp [termSum, osum]
        | cons m q ihq =>
          rw [List.flatMap_cons, termSum_append, ihq]
          simp only [osum, List.map_cons, List.sum_cons, termSum, List.map_map]
          rw [add_mul]
          congr 1
          rw [← List.sum_map_mul_left]
          rfl
      rw [expandTerms, List.flatMap_cons, termSum_append, h]
      have := ih fun s hs => hl s (List.mem_cons_of_mem _ hs)
      rw [expandTerms] at this
      rw [this]
      simp [termSum]
  atoms := by
    intro l c k h
    simp only [expandTerms, List.mem_flatMap, List.mem_map, Prod.mk.injEq] at h
    obtain ⟨t, ht, m, -, A, hA, -, rfl⟩ := h
    refine ⟨t.1, ?_⟩
    rcases h2 : t.2 with k' | q
    · rw [h2] at hA
      simp only [Atom.split, List.mem_singleton, Atom.d.injEq] at hA
      subst hA
      rw [← h2]; exact ht
    · rw [h2] at hA
      simp [Atom.split] at hA

/-! ### The order -/

lemma LinAux.terms_has (a : Loc) (h : a.has j = false) : a.terms j = [] := by
  induction a with
  | x => rfl
  | const c => rfl
  | fn i k =>
    simp only [Loc.has, beq_eq_false_iff_ne] at h
    simp [Loc.terms, h]
  | add a b iha ihb =>
    simp only [Loc.has, Bool.or_eq_false_iff] at h
    simp [Loc.terms, iha h.1, ihb h.2]
  | mul a b iha ihb =>
    simp only [Loc.has, Bool.or_eq_false_iff] at h
    simp [Loc.terms, iha h.1, ihb h.2]
  | pow a n iha => simp only [Loc.has] at h; simp [Loc.terms, iha h]
  | app g a iha => simp only [Loc.has] at h; simp [Loc.terms, iha h]
  | der a iha => simp only [Loc.has] at h; simp [Loc.terms, iha h]

lemma LinAux.terms_order (a : Loc) : ∀ t ∈ a.terms j, t.2 ≤ a.order j := by
  induction a with
  | x => simp [Loc.terms]
  | const c => simp [Loc.terms]
  | fn i k =>
    intro t ht
    simp only [Loc.terms] at ht
    split_ifs at ht with h <;> simp at ht
    subst ht; simp [Loc.order, h]
  | add a b iha ihb =>
    intro t ht
    simp only [Loc.terms, List.mem_append] at ht
    simp only [Loc.order]
    rcases ht with ht | ht
    · exact (iha t ht).trans (le_max_left _ _)
    · exact (ihb t ht).trans (le_max_right _ _)
  | mul a b iha ihb =>
    intro t ht
    simp only [Loc.terms, List.mem_append, List.mem_map] at ht
    simp only [Loc.order]
    rcases ht with ⟨s, hs, rfl⟩ | ⟨s, hs, rfl⟩
    · exact (iha s hs).trans (le_max_left _ _)
    · exact (ihb s hs).trans (le_max_right _ _)
  | pow a n iha =>
    intro t ht
    simp only [Loc.terms, List.mem_map] at ht
    rcases ht with ⟨s, hs, rfl⟩
    exact iha s hs
  | app g a iha =>
    intro t ht
    simp only [Loc.terms, List.mem_map] at ht
    rcases ht with ⟨s, hs, rfl⟩
    exact iha s hs
  | der a iha =>
    intro t ht
    simp only [Loc.terms, List.mem_flatMap, List.mem_cons, List.not_mem_nil, or_false] at ht
    rcases ht with ⟨s, hs, h⟩
    have hh : a.has j = true := by
      by_contra hc
      rw [Bool.not_eq_true] at hc
      rw [terms_has a hc] at hs
      simp at hs
    have := iha s hs
    simp only [Loc.order, hh, if_true]
    rcases h with rfl | rfl <;> simp only <;> omega

lemma LinAux.opterms_order (a : Op) (c : Op) (k : ℕ) (h : (c, Atom.d k) ∈ a.terms j) : k ≤ a.order j := by
  induction a generalizing c with
  | loc a =>
    simp only [Op.terms, List.mem_map, Prod.mk.injEq, Atom.d.injEq] at h
    obtain ⟨t, ht, -, rfl⟩ := h
    exact terms_order a t ht
  | int a =>
    simp only [Op.terms] at h
    split_ifs at h <;> simp at h
  | add a b iha ihb =>
    simp only [Op.terms, List.mem_append] at h
    rcases h with h | h
    · exact (iha c h).trans (le_max_left _ _)
    · exact (ihb c h).trans (le_max_right _ _)
  | mul a b iha ihb =>
    simp only [Op.terms, List.mem_append, List.mem_map, Prod.mk.injEq] at h
    rcases h with ⟨t, ht, -, h⟩ | ⟨t, ht, -, h⟩
    · exact (iha t.1 (by rw [← h]; exact ht)).trans (le_max_left _ _)
    · exact (ihb t.1 (by rw [← h]; exact ht)).trans (le_max_right _ _)
  | app g a iha =>
    simp only [Op.terms, List.mem_map, Prod.mk.injEq] at h
    rcases h with ⟨t, ht, -, h⟩
    exact iha t.1 (by rw [← h]; exact ht)

/-! ### Collecting -/

open Classical in
lemma LinAux.coeffOf_cons (e : Ends) (t : Op × Atom) (l : List (Op × Atom)) (A : Atom) (y : ℝ) :
    (coeffOf (t :: l) A).eval e U y = (if t.2 = A then t.1.eval e U y else 0) + (coeffOf l A).eval e U y := by
  unfold coeffOf
  by_cases h : t.2 = A
  · rw [List.filter_cons_of_pos (by simpa using h), List.map_cons, opSum, Op.eval, if_pos h]
  · rw [List.filter_cons_of_neg (by simpa using h), if_neg h, zero_add]

lemma LinAux.coeffOf_nil (e : Ends) (A : Atom) (y : ℝ) : (coeffOf [] A).eval e U y = 0 := by
  simp [coeffOf, opSum, Op.eval, Loc.eval]

open Classical in
lemma LinAux.collect (e : Ends) (l : List (Op × Atom)) (n : ℕ) (F : Finset (List (Loc × ℕ)))
    (v : List (Loc × ℕ) → ℝ) (y : ℝ)
    (hd : ∀ c k, (c, Atom.d k) ∈ l → k < n) (hi : ∀ c m, (c, Atom.i m) ∈ l → m ∈ F ∧ v m = ∫ s in e.e0..e.e1, dsum U p m s) :
    ∑ k ∈ Finset.range n, (coeffOf l (.d k)).eval e U y * iteratedDeriv k p y
      + ∑ m ∈ F, (coeffOf l (.i m)).eval e U y * v m = termSum e U p l y := by
  induction l with
  | nil => simp [coeffOf_nil, termSum]
  | cons t l ih =>
    have ih := ih (fun c k h => hd c k (List.mem_cons_of_mem _ h)) (fun c m h => hi c m (List.mem_cons_of_mem _ h))
    simp only [coeffOf_cons, add_mul, Finset.sum_add_distrib]
    have ht : termSum e U p (t :: l) y = t.1.eval e U y * atomValue e U p t.2 y + termSum e U p l y := by
      simp [termSum]
    rw [ht, ← ih]
    obtain ⟨c, A⟩ := t
    cases A with
    | d k =>
      have := hd c k (by simp)
      have h1 : ∑ x ∈ Finset.range n, (if Atom.d k = Atom.d x then c.eval e U y else 0) * iteratedDeriv x p y
          = c.eval e U y * iteratedDeriv k p y := by
        rw [Finset.sum_eq_single k]
        · simp
        · intro b _ hb
          rw [if_neg (by simpa using fun h => hb h.symm), zero_mul]
        · intro h; simp at h; omega
      have h2 : ∑ x ∈ F, (if Atom.d k = Atom.i x then c.eval e U y else 0) * v x = 0 := by simp
      simp only [h1, h2, atomValue]
      ring
    | i m =>
      obtain ⟨hm, hv⟩ := hi c m (by simp)
      have h1 : ∑ x ∈ Finset.range n, (if Atom.i m = Atom.d x then c.eval e U y else 0) * iteratedDeriv x p y = 0 := by
        simp
      have h2 : ∑ x ∈ F, (if Atom.i m = Atom.i x then c.eval e U y else 0) * v x = c.eval e U y * v m := by
        rw [Finset.sum_eq_single m]
        · simp
        · intro b _ hb
          rw [if_neg (by simpa using fun h => hb h.symm), zero_mul]
        · intro h; exact absurd hm h
      simp only [h1, h2, atomValue]
      rw [hv]; ring

lemma LinAux.integrand_eval (m : List (Loc × ℕ)) (hm : ∀ t ∈ m, t.2 = 0) (y : ℝ) :
    (integrandCoeff m).eval U y * p y = dsum U p m y := by
  unfold integrandCoeff
  rw [List.filter_eq_self.2 (by simpa using fun a b h => hm (a, b) h)]
  induction m with
  | nil => simp [locSum, Loc.eval, dsum]
  | cons t m ih =>
    have := ih fun s hs => hm s (List.mem_cons_of_mem _ hs)
    rw [List.map_cons, locSum, Loc.eval, add_mul, this]
    simp [dsum, hm t (by simp)]

lemma LinAux.mem_integrals (l : List (Op × Atom)) (m : List (Loc × ℕ)) :
    m ∈ integrals l ↔ ∃ c, (c, Atom.i m) ∈ l := by
  unfold integrals
  rw [List.mem_filterMap]
  constructor
  · rintro ⟨⟨c, A⟩, ht, h⟩
    cases A with
    | d k => simp at h
    | i q => simp only [Option.some.injEq] at h; subst h; exact ⟨c, ht⟩
  · rintro ⟨c, h⟩
    exact ⟨_, h, rfl⟩

lemma LinAux.mapIdx_range_sum (f : ℕ → Op) (g : ℕ → Op → ℝ) (n : ℕ) :
    (((List.range n).map f).mapIdx g).sum = ∑ k ∈ Finset.range n, g k (f k) := by
  induction n with
  | zero => simp
  | succ n ih =>
    rw [List.range_succ, List.map_append, List.map_cons, List.map_nil, List.mapIdx_concat, List.sum_append, ih,
      Finset.sum_range_succ]
    simp

/-- **C103.**  The block of the linearised operator is the derivative of the operator in the direction of the
perturbation `p` of the function `j`, whenever the order used is at least the order of `u_j` in the expression, no
integral occurs twice, and no integrand contains a derivative of the perturbation. -/
theorem C103_linearize_partial (expand : List (Op × Atom) → List (Op × Atom)) (hx : IsExpand expand) (e : Ends)
    (U : ℕ → ℝ → ℝ) (hU : ∀ i, ContDiff ℝ ∞ (U i)) (p : ℝ → ℝ) (hp : ContDiff ℝ ∞ p) (j : ℕ) (a : Op) (ha : OpSmooth a)
    (D : ℕ) (hD : a.order j ≤ D) (hnd : (integrals (expand (a.terms j))).Nodup)
    (h0 : ∀ m ∈ integrals (expand (a.terms j)), ∀ t ∈ m, t.2 = 0) (y : ℝ) :
    HasDerivAt (fun ε => a.eval e (pert U j p ε) y) (blockAction e U p (block expand D j a) y) 0 := by
  classical
  refine (deriv_op e hU hp a ha 0 y).congr_deriv ?_
  rw [pert_zero, ← hx.value e U p _ hU hp (optermsmooth a ha) y]
  generalize hl : expand (a.terms j) = l at *
  rw [← collect e l (D + 1) (integrals l).toFinset (fun m => ∫ s in e.e0..e.e1, (integrandCoeff m).eval U s * p s) y]
  · unfold blockAction block
    simp only [hl]
    congr 1
    · exact (mapIdx_range_sum _ (fun k a => a.eval e U y * iteratedDeriv k p y) _).symm
    · rw [List.map_map, ← List.sum_toFinset _ hnd]
      rfl
  · intro c k h
    obtain ⟨c', h'⟩ := hx.atoms _ c k (by rw [hl]; exact h)
    have := opterms_order a c' k h'
    omega
  · intro c m h
    have hm : m ∈ integrals l := (mem_integrals l m).2 ⟨c, h⟩
    refine ⟨by simpa using hm, ?_⟩
    congr 1
    funext s
    exact integrand_eval m (h0 m hm) s

/-- **C103.**  For a scalar equation `compile` determines the order itself, and it is large enough. -/
theorem C103_scalar_partial (expand : List (Op × Atom) → List (Op × Atom)) (hx : IsExpand expand) (e : Ends)
    (U : ℕ → ℝ → ℝ) (hU : ∀ i, ContDiff ℝ ∞ (U i)) (p : ℝ → ℝ) (hp : ContDiff ℝ ∞ p) (a : Op) (ha : OpSmooth a)
    (hnd : (integrals (expand (a.terms 0))).Nodup)
    (h0 : ∀ m ∈ integrals (expand (a.terms 0)), ∀ t ∈ m, t.2 = 0) :
    ∃ B, linearize expand [a] 1 = [[B]] ∧
      ∀ y, HasDerivAt (fun ε => a.eval e (pert U 0 p ε) y) (blockAction e U p B y) 0 := by
  refine ⟨block expand (diffOrder [a] 1) 0 a, rfl, fun y => ?_⟩
  exact C103_linearize_partial expand hx e U hU p hp 0 a ha _ (by simp [diffOrder]) hnd h0 y

/-- The expression contains no integral. -/
def IsLocal : Op → Prop
  | .loc _ => True
  | .int _ => False
  | .add a b => IsLocal a ∧ IsLocal b
  | .mul a b => IsLocal a ∧ IsLocal b
  | .app _ a => IsLocal a

lemma LinAux.local_terms (a : Op) (h : IsLocal a) (c : Op) (m : List (Loc × ℕ)) : (c, Atom.i m) ∉ a.terms j := by
  induction a generalizing c with
  | loc a => simp [Op.terms]
  | int a => exact h.elim
  | add a b iha ihb =>
    simp only [Op.terms, List.mem_append, not_or]
    exact ⟨iha h.1 c, ihb h.2 c⟩
  | mul a b iha ihb =>
    simp only [Op.terms, List.mem_append, List.mem_map, Prod.mk.injEq]
    rintro (⟨t, ht, -, hh⟩ | ⟨t, ht, -, hh⟩)
    · exact iha h.1 t.1 (by rw [← hh]; exact ht)
    · exact ihb h.2 t.1 (by rw [← hh]; exact ht)
  | app g a iha =>
    simp only [Op.terms, List.mem_map, Prod.mk.injEq]
    rintro ⟨t, ht, -, hh⟩
    exact iha h t.1 (by rw [← hh]; exact ht)

/-- **C103.**  Differential operators: with the expansion of the model, the linearisation of every scalar
differential equation is its derivative, with no further conditions. -/
theorem C103_differential (e : Ends) (U : ℕ → ℝ → ℝ) (hU : ∀ i, ContDiff ℝ ∞ (U i)) (p : ℝ → ℝ) (hp : ContDiff ℝ ∞ p)
    (a : Op) (ha : OpSmooth a) (hl : IsLocal a) :
    ∃ B, linearize expandTerms [a] 1 = [[B]] ∧ B.iops = [] ∧
      ∀ y, HasDerivAt (fun ε => a.eval e (pert U 0 p ε) y) (blockAction e U p B y) 0 := by
  have h : integrals (expandTerms (a.terms 0)) = [] := by
    rw [List.eq_nil_iff_forall_not_mem]
    intro m hm
    obtain ⟨c, hc⟩ := (mem_integrals _ m).1 hm
    simp only [expandTerms, List.mem_flatMap, List.mem_map, Prod.mk.injEq] at hc
    obtain ⟨t, ht, -, -, A, hA, -, rfl⟩ := hc
    rcases h2 : t.2 with k' | q
    · rw [h2] at hA; simp [Atom.split] at hA
    · exact local_terms a hl t.1 q (by rw [← h2]; exact ht)
  obtain ⟨B, hB, hd⟩ := C103_scalar_partial expandTerms C103_expandTerms e U hU p hp a ha (by rw [h]; exact List.nodup_nil)
    (by rw [h]; simp)
  refine ⟨B, hB, ?_, hd⟩
  simp only [linearize, List.map_cons, List.map_nil, List.range_one, List.cons.injEq, and_true] at hB
  subst hB
  simp [block, h]

/-! ### What goes wrong -/

lemma LinAux.isSmooth_zero : ∀ i : ℕ, ContDiff ℝ ∞ ((fun _ _ => 0 : ℕ → ℝ → ℝ) i) := fun _ => contDiff_const

/-- **C103 fails for systems.**  In the system `u + v'' = 0, v = 0` the highest order is that of an unknown in an
equation of another index: it is not seen, and the block of `v` in the first equation has no second-order
coefficient.  The linearisation is not the derivative. -/
theorem C103_system_fails : ∃ (eqns : List Op), (∀ a ∈ eqns, OpSmooth a ∧ IsLocal a) ∧ eqns.length = 2 ∧
    ∃ (a : Op) (B : Block), eqns[0]? = some a ∧ ((linearize expandTerms eqns 2).getD 0 [])[1]? = some B ∧ B.dops.length = 1 ∧
      ∃ (e : Ends) (U : ℕ → ℝ → ℝ) (p : ℝ → ℝ) (y : ℝ), (∀ i, ContDiff ℝ ∞ (U i)) ∧ ContDiff ℝ ∞ p ∧
        ¬ HasDerivAt (fun ε => a.eval e (pert U 1 p ε) y) (blockAction e U p B y) 0 := by
  set a : Op := .add (.loc (.fn 0 0)) (.loc (.fn 1 2)) with ha
  have hD : diffOrder [a, .loc (.fn 1 0)] 2 = 0 := by
    simp [diffOrder, ha, Op.order, Loc.order, List.range_succ]
  refine ⟨[a, .loc (.fn 1 0)], ?_, rfl, a, block expandTerms 0 1 a, rfl, ?_, by simp [block],
    ⟨-1, 1⟩, fun _ _ => 0, fun y => y ^ 2, 0, isSmooth_zero, contDiff_id.pow 2, ?_⟩
  · intro b hb
    simp only [List.mem_cons, List.not_mem_nil, or_false] at hb
    rcases hb with rfl | rfl <;> simp [ha, OpSmooth, LocSmooth, IsLocal]
  · simp only [linearize, hD]
    rfl
  · intro h
    have h2 := deriv_op ⟨-1, 1⟩ (U := fun _ _ => 0) (p := fun y => y ^ 2) (j := 1) isSmooth_zero (contDiff_id.pow 2) a
      (by simp [ha, OpSmooth, LocSmooth]) 0 0
    have h3 := h.unique h2
    rw [pert_zero] at h3
    have h4 : iteratedDeriv 2 (fun y : ℝ => y ^ 2) 0 = 2 := by
      have hq : deriv (fun y : ℝ => y ^ 2) = fun y => 2 * y := by
        funext y
        simp
      have hr : deriv (fun y : ℝ => 2 * y) 0 = 2 := by
        simpa using ((hasDerivAt_id (0:ℝ)).const_mul 2).deriv
      rw [iteratedDeriv_succ, iteratedDeriv_one, hq, hr]
    have : blockAction ⟨-1, 1⟩ (fun _ _ => 0) (fun y => y ^ 2) (block expandTerms 0 1 a) 0 = 0 := by
      simp [blockAction, block, ha, expandTerms, Op.terms, Loc.terms, Op.monomials, Loc.monomials, Atom.split,
        integrals, coeffOf, opSum]
    rw [this] at h3
    simp [termSum, ha, Op.terms, Loc.terms, Op.eval, Loc.eval, atomValue, h4] at h3

/-- **C103 fails for nonlocal products.**  In the linearisation of `(u + 1) ∫ u` the integral of the perturbation occurs twice
after expansion, and both occurrences get the collected coefficient: the nonlocal part is counted
twice. -/
theorem C103_repeated_fails : ∃ (a : Op) (B : Block), OpSmooth a ∧ linearize expandTerms [a] 1 = [[B]] ∧
    ∃ (e : Ends) (U : ℕ → ℝ → ℝ) (p : ℝ → ℝ) (y : ℝ), (∀ i, ContDiff ℝ ∞ (U i)) ∧ ContDiff ℝ ∞ p ∧
      HasDerivAt (fun ε => a.eval e (pert U 0 p ε) y) 2 0 ∧ blockAction e U p B y = 4 := by
  set a : Op := .mul (.loc (.add (.fn 0 0) (.const 1))) (.int (.fn 0 0)) with ha
  have hs : OpSmooth a := by simp [ha, OpSmooth, LocSmooth]
  refine ⟨a, _, hs, rfl, ⟨-1, 1⟩, fun _ _ => 0, fun _ => 1, 0, isSmooth_zero, contDiff_const, ?_, ?_⟩
  · refine (deriv_op ⟨-1, 1⟩ (U := fun _ _ => 0) (p := fun _ => 1) (j := 0) isSmooth_zero contDiff_const a hs 0 0).congr_deriv ?_
    rw [pert_zero]
    simp [termSum, ha, Op.terms, Loc.terms, Op.eval, Loc.eval, atomValue, dsum]
    norm_num
  · simp [blockAction, block, ha, expandTerms, Op.terms, Loc.terms, Op.monomials, Loc.monomials, Atom.split,
        integrals, coeffOf, opSum, diffOrder, Op.order, Loc.order, Op.eval, Loc.eval, integrandCoeff, locSum]
    norm_num

/-- **C103 fails for derivatives inside integrals.**  The integrand of `∫ x u'` loses the derivative of the perturbation: the
linearisation is zero. -/
theorem C103_integrand_fails : ∃ (a : Op) (B : Block), OpSmooth a ∧ linearize expandTerms [a] 1 = [[B]] ∧
    ∃ (e : Ends) (U : ℕ → ℝ → ℝ) (p : ℝ → ℝ) (y : ℝ), (∀ i, ContDiff ℝ ∞ (U i)) ∧ ContDiff ℝ ∞ p ∧
      HasDerivAt (fun ε => a.eval e (pert U 0 p ε) y) (1 / 2) 0 ∧ blockAction e U p B y = 0 := by
  set a : Op := .int (.mul .x (.fn 0 1)) with ha
  have hs : OpSmooth a := by simp [ha, OpSmooth, LocSmooth]
  refine ⟨a, _, hs, rfl, ⟨0, 1⟩, fun _ _ => 0, fun y => y, 0, isSmooth_zero, contDiff_id, ?_, ?_⟩
  · refine (deriv_op ⟨0, 1⟩ (U := fun _ _ => 0) (p := fun y => y) (j := 0) isSmooth_zero contDiff_id a hs 0 0).congr_deriv ?_
    rw [pert_zero]
    simp [termSum, ha, Op.terms, Loc.terms, Op.eval, Loc.eval, atomValue, dsum]
  · simp [blockAction, block, ha, expandTerms, Op.terms, Loc.terms, Op.monomials, Loc.monomials, Atom.split, prodMon,
        integrals, coeffOf, opSum, diffOrder, Op.order, Loc.order, Op.eval, Loc.eval, integrandCoeff, locSum,
        List.range_succ]

/-- The expression `u'' + x sin(u) + u ∫ u²`. -/
noncomputable def LinAux.exOp : Op :=
  .add (.loc (.add (.fn 0 2) (.mul .x (.app Real.sin (.fn 0 0))))) (.mul (.loc (.fn 0 0)) (.int (.pow (.fn 0 0) 2)))

/-- The hypotheses are met by `u'' + x sin(u) + u ∫ u² = 0`: the order found is two, there is one integral. -/
example : OpSmooth exOp ∧ diffOrder [exOp] 1 = 2 ∧ (integrals (expandTerms (exOp.terms 0))).length = 1 ∧
      ∀ m ∈ integrals (expandTerms (exOp.terms 0)), ∀ t ∈ m, t.2 = 0 := by
  refine ⟨?_, ?_, ?_, ?_⟩
  · simp [exOp, OpSmooth, LocSmooth, Real.contDiff_sin]
  · simp [exOp, diffOrder, Op.order, Loc.order]
  · simp [exOp, expandTerms, Op.terms, Loc.terms, Op.monomials, Loc.monomials, Atom.split, prodMon, integrals, powMon]
  · simp [exOp, expandTerms, Op.terms, Loc.terms, Op.monomials, Loc.monomials, Atom.split, prodMon, integrals, powMon]

end Funpy.Props
