import Verif.Model.SecondOrder
import Verif.Props.Linearize
import Verif.Lemmas.ListAux

/-!
# C110: second derivatives and parameter derivatives of operators
-/

namespace Funpy.Props
open Linearize Set LinAux
open scoped ContDiff

/-! ### Specification -/

/-- The values of all symbols: the functions `U`, their perturbations `P` and `Q`, and (from `3 * nf` on) the parameters. -/
def symbols (nf : ℕ) (U P Q : ℕ → ℝ → ℝ) : ℕ → ℝ → ℝ := fun i =>
  if i < nf then U i else if i < 2 * nf then P (i - nf) else if i < 3 * nf then Q (i - 2 * nf) else U i

/-- The functions `U + δ P + ε Q` (parameters unchanged). -/
def moved (nf : ℕ) (U P Q : ℕ → ℝ → ℝ) (δ ε : ℝ) : ℕ → ℝ → ℝ := fun i =>
  if i < nf then fun y => U i y + δ * P i y + ε * Q i y else U i

/-- The parameter `J` has the value `c`. -/
def setPar (U : ℕ → ℝ → ℝ) (J : ℕ) (c : ℝ) : ℕ → ℝ → ℝ := fun i => if i = J then fun _ => c else U i

/-- What is assumed of sympy's `expand` when its result is differentiated again. -/
structure IsExpandL (expand : List (Op × Atom) → List (Op × Atom)) : Prop extends IsExpand expand where
  /-- coefficients stay smooth -/
  smooth : ∀ l : List (Op × Atom), (∀ t ∈ l, OpSmooth t.1) → ∀ t ∈ expand l, OpSmooth t.1
  /-- no integrals appear -/
  locals : ∀ l : List (Op × Atom), (∀ t ∈ l, IsLocal t.1 ∧ ∃ k, t.2 = .d k) → ∀ t ∈ expand l, IsLocal t.1 ∧ ∃ k, t.2 = .d k
  /-- no higher derivatives of the functions appear -/
  order : ∀ (l : List (Op × Atom)) (k D : ℕ), (∀ t ∈ l, t.1.order k ≤ D) → ∀ t ∈ expand l, t.1.order k ≤ D
  /-- no new symbols appear -/
  has : ∀ (l : List (Op × Atom)) (j : ℕ), (∀ t ∈ l, t.1.has j = false) → ∀ t ∈ expand l, t.1.has j = false

namespace Snd

/-! ### All functions move -/

/-- The functions `U + ε V`. -/
def shift (U V : ℕ → ℝ → ℝ) (ε : ℝ) : ℕ → ℝ → ℝ := fun i y => U i y + ε * V i y

variable {U V : ℕ → ℝ → ℝ}

lemma shift_smooth (hU : ∀ i, ContDiff ℝ ∞ (U i)) (hV : ∀ i, ContDiff ℝ ∞ (V i)) (ε : ℝ) (i : ℕ) :
    ContDiff ℝ ∞ (shift U V ε i) := (hU i).add (contDiff_const.mul (hV i))

lemma iter_shift (hU : ∀ i, ContDiff ℝ ∞ (U i)) (hV : ∀ i, ContDiff ℝ ∞ (V i)) (i k : ℕ) (ε y : ℝ) :
    iteratedDeriv k (shift U V ε i) y = iteratedDeriv k (U i) y + ε * iteratedDeriv k (V i) y := by
  have h1 : ContDiffAt ℝ k (U i) y := ((hU i).of_le (by exact_mod_cast le_top)).contDiffAt
  have h2 : ContDiffAt ℝ k (fun y => ε * V i y) y :=
    (contDiff_const.mul ((hV i).of_le (by exact_mod_cast le_top))).contDiffAt
  rw [show shift U V ε i = U i + fun y => ε * V i y from rfl, iteratedDeriv_add h1 h2, iteratedDeriv_const_mul_field]

lemma shift_zero : shift U V 0 = U := by
  funext i y; simp [shift]

lemma smoothS (hU : ∀ i, ContDiff ℝ ∞ (U i)) (hV : ∀ i, ContDiff ℝ ∞ (V i)) (a : Loc) (ha : LocSmooth a) :
    ContDiff ℝ ∞ (fun q : ℝ × ℝ => a.eval (shift U V q.1) q.2) := by
  induction a with
  | x => exact contDiff_snd
  | const c => exact contDiff_const
  | fn i k =>
    simp only [Loc.eval, iter_shift hU hV]
    exact ((contDiff_iter (hU i) k).comp contDiff_snd).add (contDiff_fst.mul ((contDiff_iter (hV i) k).comp contDiff_snd))
  | add a b iha ihb => exact (iha ha.1).add (ihb ha.2)
  | mul a b iha ihb => exact (iha ha.1).mul (ihb ha.2)
  | pow a n iha => exact (iha ha).pow n
  | app g a iha => exact ha.1.comp (iha ha.2)
  | der a iha =>
    have hG := iha ha
    have : (fun q : ℝ × ℝ => (Loc.der a).eval (shift U V q.1) q.2)
        = fun q => fderiv ℝ (fun q : ℝ × ℝ => a.eval (shift U V q.1) q.2) q (0, 1) := by
      funext q
      have h1 : HasFDerivAt (fun q : ℝ × ℝ => a.eval (shift U V q.1) q.2) _ (q.1, q.2) :=
        (hG.differentiable (by simp)).differentiableAt.hasFDerivAt
      have h2 : HasDerivAt (fun z : ℝ => (q.1, z)) (0, 1) q.2 := (hasDerivAt_const q.2 q.1).prodMk (hasDerivAt_id q.2)
      exact (h1.comp_hasDerivAt q.2 h2).deriv
    rw [this]
    exact (hG.fderiv_right (by simp)).clm_apply contDiff_const

/-- The derivative when all functions move is the sum of the partial derivatives. -/
lemma deriv_loc_all (hU : ∀ i, ContDiff ℝ ∞ (U i)) (hV : ∀ i, ContDiff ℝ ∞ (V i)) (N : ℕ) (hN : ∀ i, N ≤ i → V i = fun _ => 0)
    (a : Loc) (ha : LocSmooth a) (ε y : ℝ) :
    HasDerivAt (fun ε => a.eval (shift U V ε) y)
      (∑ j ∈ Finset.range N, dsum (shift U V ε) (V j) (a.terms j) y) ε := by
  induction a generalizing y ε with
  | x => exact (hasDerivAt_const ε y).congr_deriv (by simp [Loc.terms, dsum])
  | const c => exact (hasDerivAt_const ε c).congr_deriv (by simp [Loc.terms, dsum])
  | fn i k =>
    simp only [Loc.eval, iter_shift hU hV, Loc.terms]
    have := ((hasDerivAt_id ε).mul_const (iteratedDeriv k (V i) y)).const_add (iteratedDeriv k (U i) y)
    refine this.congr_deriv ?_
    rw [Finset.sum_congr rfl (g := fun j => if i = j then iteratedDeriv k (V i) y else 0) (fun j _ => by
      split_ifs with h
      · subst h; simp [dsum, Loc.eval]
      · simp [dsum])]
    rw [Finset.sum_ite_eq, one_mul]
    split_ifs with h
    · rfl
    · rw [hN i (by simpa using h)]
      simp
  | add a b iha ihb =>
    simp only [Loc.terms, dsum_append, Finset.sum_add_distrib]
    exact (iha ha.1 ε y).add (ihb ha.2 ε y)
  | mul a b iha ihb =>
    have h := ((iha ha.1 ε y).mul (ihb ha.2 ε y))
    refine h.congr_deriv ?_
    rw [Finset.sum_mul, Finset.mul_sum, ← Finset.sum_add_distrib]
    refine Finset.sum_congr rfl fun j _ => ?_
    simp only [Loc.terms, dsum_append]
    rw [dsum_map _ (fun s => .mul s b) y (b.eval (shift U V ε) y) (fun s => by simp only [Loc.eval]; ring),
      dsum_map _ (fun s => .mul a s) y (a.eval (shift U V ε) y) (fun s => by simp only [Loc.eval])]
    ring
  | pow a n iha =>
    refine ((iha ha ε y).pow n).congr_deriv ?_
    rw [Finset.mul_sum]
    refine Finset.sum_congr rfl fun j _ => ?_
    simp only [Loc.terms]
    rw [dsum_map _ (fun s => .mul (.mul (.const n) (.pow a (n - 1))) s) y
      (n * a.eval (shift U V ε) y ^ (n - 1)) (fun s => by simp only [Loc.eval])]
  | app g a iha =>
    refine (((ha.1.differentiable (by simp)).differentiableAt.hasDerivAt).comp ε (iha ha.2 ε y)).congr_deriv ?_
    rw [Finset.mul_sum]
    refine Finset.sum_congr rfl fun j _ => ?_
    simp only [Loc.terms]
    rw [dsum_map _ (fun s => .mul (.app (deriv g) a) s) y
      (deriv g (a.eval (shift U V ε) y)) (fun s => by simp only [Loc.eval])]
  | der a iha =>
    have h := mixed (smoothS hU hV a ha) ε y
    simp only [(iha ha ε _).deriv] at h
    refine h.congr_deriv ?_
    rw [deriv_fun_sum (fun j _ => (hasDerivAt_dsum (shift_smooth hU hV ε) (hV j) (a.terms j) (terms_smooth a ha) y).differentiableAt)]
    refine Finset.sum_congr rfl fun j _ => ?_
    exact (hasDerivAt_dsum (shift_smooth hU hV ε) (hV j) (a.terms j) (terms_smooth a ha) y).deriv

lemma deriv_op_all (e : Ends) (hU : ∀ i, ContDiff ℝ ∞ (U i)) (hV : ∀ i, ContDiff ℝ ∞ (V i)) (N : ℕ)
    (hN : ∀ i, N ≤ i → V i = fun _ => 0) (a : Op) (ha : OpSmooth a) (hl : IsLocal a) (ε y : ℝ) :
    HasDerivAt (fun ε => a.eval e (shift U V ε) y)
      (∑ j ∈ Finset.range N, termSum e (shift U V ε) (V j) (a.terms j) y) ε := by
  induction a with
  | loc a =>
    refine (deriv_loc_all hU hV N hN a ha ε y).congr_deriv (Finset.sum_congr rfl fun j _ => ?_)
    simp only [termSum, Op.terms, dsum, List.map_map]
    rfl
  | int a => exact hl.elim
  | add a b iha ihb =>
    simp only [Op.terms, termSum_append, Finset.sum_add_distrib]
    exact (iha ha.1 hl.1).add (ihb ha.2 hl.2)
  | mul a b iha ihb =>
    refine ((iha ha.1 hl.1).mul (ihb ha.2 hl.2)).congr_deriv ?_
    rw [Finset.sum_mul, Finset.mul_sum, ← Finset.sum_add_distrib]
    refine Finset.sum_congr rfl fun j _ => ?_
    simp only [Op.terms, termSum_append]
    rw [termSum_map e _ (fun s => .mul s b) y (b.eval e (shift U V ε) y) (fun s => by simp only [Op.eval]; ring),
      termSum_map e _ (fun s => .mul a s) y (a.eval e (shift U V ε) y) (fun s => by simp only [Op.eval])]
    ring
  | app g a iha =>
    refine (((ha.1.differentiable (by simp)).differentiableAt.hasDerivAt).comp ε (iha ha.2 hl)).congr_deriv ?_
    rw [Finset.mul_sum]
    refine Finset.sum_congr rfl fun j _ => ?_
    simp only [Op.terms]
    rw [termSum_map e _ (fun s => .mul (.app (deriv g) a) s) y
      (deriv g (a.eval e (shift U V ε) y)) (fun s => by simp only [Op.eval])]

/-! ### Blocks without integrals -/

lemma opSum_eval (e : Ends) (U : ℕ → ℝ → ℝ) (l : List Op) (y : ℝ) :
    (opSum l).eval e U y = (l.map fun a => a.eval e U y).sum := by
  induction l with
  | nil => simp [opSum, Op.eval, Loc.eval]
  | cons a l ih => simp [opSum, Op.eval, ih]

lemma dopsExpr_eval (e : Ends) (W : ℕ → ℝ → ℝ) (P : ℕ) (dops : List Op) (y : ℝ) :
    (dopsExpr P dops).eval e W y = (dops.mapIdx fun k a => a.eval e W y * iteratedDeriv k (W P) y).sum := by
  rw [dopsExpr, opSum_eval]
  congr 1
  apply List.ext_getElem <;> simp [Op.eval, Loc.eval]

lemma terms_local (j : ℕ) (a : Op) (h : IsLocal a) : ∀ t ∈ a.terms j, IsLocal t.1 ∧ ∃ k, t.2 = .d k := by
  induction a with
  | loc a =>
    intro t ht
    simp only [Op.terms, List.mem_map] at ht
    obtain ⟨s, -, rfl⟩ := ht
    exact ⟨trivial, s.2, rfl⟩
  | int a => exact h.elim
  | add a b iha ihb =>
    intro t ht
    simp only [Op.terms, List.mem_append] at ht
    exact ht.elim (iha h.1 t) (ihb h.2 t)
  | mul a b iha ihb =>
    intro t ht
    simp only [Op.terms, List.mem_append, List.mem_map] at ht
    rcases ht with ⟨s, hs, rfl⟩ | ⟨s, hs, rfl⟩
    · exact ⟨⟨(iha h.1 s hs).1, h.2⟩, (iha h.1 s hs).2⟩
    · exact ⟨⟨h.1, (ihb h.2 s hs).1⟩, (ihb h.2 s hs).2⟩
  | app g a iha =>
    intro t ht
    simp only [Op.terms, List.mem_map] at ht
    rcases ht with ⟨s, hs, rfl⟩
    exact ⟨⟨h, (iha h s hs).1⟩, (iha h s hs).2⟩

variable {expand : List (Op × Atom) → List (Op × Atom)}

lemma no_integrals (hx : IsExpandL expand) (j : ℕ) (a : Op) (h : IsLocal a) : integrals (expand (a.terms j)) = [] := by
  rw [List.eq_nil_iff_forall_not_mem]
  intro m hm
  obtain ⟨c, hc⟩ := (mem_integrals _ m).1 hm
  obtain ⟨-, k, hk⟩ := hx.locals _ (terms_local j a h) _ hc
  simp at hk

lemma block_iops (hx : IsExpandL expand) (D j : ℕ) (a : Op) (h : IsLocal a) : (block expand D j a).iops = [] := by
  simp [block, no_integrals hx j a h]

/-- The expression of a block of a local operator is the derivative. -/
lemma block_value (hx : IsExpandL expand) (e : Ends) {W : ℕ → ℝ → ℝ} (hW : ∀ i, ContDiff ℝ ∞ (W i)) (D j m : ℕ) (a : Op)
    (ha : OpSmooth a) (hl : IsLocal a) (hD : a.order j ≤ D) (y : ℝ) :
    (dopsExpr m (block expand D j a).dops).eval e W y = termSum e W (W m) (a.terms j) y := by
  classical
  rw [dopsExpr_eval, ← hx.value e W (W m) _ hW (hW m) (optermsmooth a ha) y,
    ← collect e (expand (a.terms j)) (D + 1) ∅ (fun _ => 0) y]
  · rw [Finset.sum_empty, add_zero]
    exact mapIdx_range_sum _ (fun k a => a.eval e W y * iteratedDeriv k (W m) y) _
  · intro c k h
    obtain ⟨c', h'⟩ := hx.atoms _ c k h
    have := opterms_order a c' k h'
    omega
  · intro c q h
    obtain ⟨-, k, hk⟩ := hx.locals _ (terms_local j a hl) _ h
    simp at hk

/-! ### Symbols and orders of the terms -/

lemma loc_terms_has (i j : ℕ) (a : Loc) (h : a.has i = false) : ∀ t ∈ a.terms j, t.1.has i = false := by
  induction a with
  | x => simp [Loc.terms]
  | const c => simp [Loc.terms]
  | fn m k =>
    intro t ht
    simp only [Loc.terms] at ht
    split_ifs at ht <;> simp at ht
    subst ht; rfl
  | add a b iha ihb =>
    simp only [Loc.has, Bool.or_eq_false_iff] at h
    intro t ht
    simp only [Loc.terms, List.mem_append] at ht
    exact ht.elim (iha h.1 t) (ihb h.2 t)
  | mul a b iha ihb =>
    simp only [Loc.has, Bool.or_eq_false_iff] at h
    intro t ht
    simp only [Loc.terms, List.mem_append, List.mem_map] at ht
    rcases ht with ⟨s, hs, rfl⟩ | ⟨s, hs, rfl⟩
    · simp [Loc.has, iha h.1 s hs, h.2]
    · simp [Loc.has, ihb h.2 s hs, h.1]
  | pow a n iha =>
    intro t ht
    simp only [Loc.terms, List.mem_map] at ht
    rcases ht with ⟨s, hs, rfl⟩
    simp only [Loc.has] at h
    simp [Loc.has, iha h s hs, h]
  | app g a iha =>
    intro t ht
    simp only [Loc.terms, List.mem_map] at ht
    rcases ht with ⟨s, hs, rfl⟩
    simp only [Loc.has] at h
    simp [Loc.has, iha h s hs, h]
  | der a iha =>
    intro t ht
    simp only [Loc.terms, List.mem_flatMap, List.mem_cons, List.not_mem_nil, or_false] at ht
    simp only [Loc.has] at h
    rcases ht with ⟨s, hs, rfl | rfl⟩
    · simp [Loc.has, iha h s hs]
    · exact iha h s hs

lemma op_terms_has (i j : ℕ) (a : Op) (h : a.has i = false) : ∀ t ∈ a.terms j, t.1.has i = false := by
  induction a with
  | loc a =>
    intro t ht
    simp only [Op.terms, List.mem_map] at ht
    obtain ⟨s, hs, rfl⟩ := ht
    exact loc_terms_has i j a h s hs
  | int a =>
    intro t ht
    simp only [Op.terms] at ht
    split_ifs at ht
    · simp at ht
    · simp only [List.mem_singleton] at ht
      subst ht; rfl
  | add a b iha ihb =>
    simp only [Op.has, Bool.or_eq_false_iff] at h
    intro t ht
    simp only [Op.terms, List.mem_append] at ht
    exact ht.elim (iha h.1 t) (ihb h.2 t)
  | mul a b iha ihb =>
    simp only [Op.has, Bool.or_eq_false_iff] at h
    intro t ht
    simp only [Op.terms, List.mem_append, List.mem_map] at ht
    rcases ht with ⟨s, hs, rfl⟩ | ⟨s, hs, rfl⟩
    · simp [Op.has, iha h.1 s hs, h.2]
    · simp [Op.has, ihb h.2 s hs, h.1]
  | app g a iha =>
    intro t ht
    simp only [Op.terms, List.mem_map] at ht
    rcases ht with ⟨s, hs, rfl⟩
    simp only [Op.has] at h
    simp [Op.has, iha h s hs, h]

lemma has_order (i : ℕ) (b : Loc) : b.has i = false → b.order i = 0 := by
  induction b with
  | x => simp [Loc.order]
  | const c => simp [Loc.order]
  | fn m k => simp only [Loc.has, Loc.order, beq_eq_false_iff_ne]; intro h; simp [h]
  | add b c ihb ihc => simp only [Loc.has, Loc.order, Bool.or_eq_false_iff]; intro h; simp [ihb h.1, ihc h.2]
  | mul b c ihb ihc => simp only [Loc.has, Loc.order, Bool.or_eq_false_iff]; intro h; simp [ihb h.1, ihc h.2]
  | pow b n ih => simpa [Loc.has, Loc.order] using ih
  | app g b ih => simpa [Loc.has, Loc.order] using ih
  | der b ih => simp only [Loc.has, Loc.order]; intro h; simp [h]

lemma loc_terms_order (i j : ℕ) (a : Loc) : ∀ t ∈ a.terms j, t.1.order i ≤ a.order i := by
  induction a with
  | x => simp [Loc.terms]
  | const c => simp [Loc.terms]
  | fn m k =>
    intro t ht
    simp only [Loc.terms] at ht
    split_ifs at ht <;> simp at ht
    subst ht; simp [Loc.order]
  | add a b iha ihb =>
    intro t ht
    simp only [Loc.terms, List.mem_append] at ht
    simp only [Loc.order]
    rcases ht with ht | ht
    · exact (iha t ht).trans (le_max_left _ _)
    · exact (ihb t ht).trans (le_max_right _ _)
  | mul a b iha ihb =>
    intro t ht
    simp only [Loc.terms, List.mem_append, List.mem_map] at ht
    simp only [Loc.order]
    rcases ht with ⟨s, hs, rfl⟩ | ⟨s, hs, rfl⟩
    · exact max_le_max (iha s hs) le_rfl
    · exact max_le_max le_rfl (ihb s hs)
  | pow a n iha =>
    intro t ht
    simp only [Loc.terms, List.mem_map] at ht
    rcases ht with ⟨s, hs, rfl⟩
    have := iha s hs
    simp only [Loc.order]
    omega
  | app g a iha =>
    intro t ht
    simp only [Loc.terms, List.mem_map] at ht
    rcases ht with ⟨s, hs, rfl⟩
    have := iha s hs
    simp only [Loc.order]
    omega
  | der a iha =>
    intro t ht
    simp only [Loc.terms, List.mem_flatMap, List.mem_cons, List.not_mem_nil, or_false] at ht
    obtain ⟨s, hs, h⟩ := ht
    have h1 := iha s hs
    have h2 : s.1.has i = true → a.has i = true := by
      intro hh
      by_contra hc
      rw [Bool.not_eq_true] at hc
      rw [loc_terms_has i j a hc s hs] at hh
      simp at hh
    rcases h with rfl | rfl
    · simp only [Loc.order]
      split_ifs with ha hb hb
      · omega
      · rw [h2 ha] at hb; simp at hb
      · omega
      · exact le_rfl
    · simp only [Loc.order]
      split_ifs with hb
      · omega
      · rw [Bool.not_eq_true] at hb
        rw [has_order i a hb] at h1
        exact h1

lemma op_terms_order (i j : ℕ) (a : Op) : ∀ t ∈ a.terms j, t.1.order i ≤ a.order i := by
  induction a with
  | loc a =>
    intro t ht
    simp only [Op.terms, List.mem_map] at ht
    obtain ⟨s, hs, rfl⟩ := ht
    exact loc_terms_order i j a s hs
  | int a =>
    intro t ht
    simp only [Op.terms] at ht
    split_ifs at ht
    · simp at ht
    · simp only [List.mem_singleton] at ht
      subst ht; simp [Op.order, Loc.order]
  | add a b iha ihb =>
    intro t ht
    simp only [Op.terms, List.mem_append] at ht
    simp only [Op.order]
    rcases ht with ht | ht
    · exact (iha t ht).trans (le_max_left _ _)
    · exact (ihb t ht).trans (le_max_right _ _)
  | mul a b iha ihb =>
    intro t ht
    simp only [Op.terms, List.mem_append, List.mem_map] at ht
    simp only [Op.order]
    rcases ht with ⟨s, hs, rfl⟩ | ⟨s, hs, rfl⟩
    · exact max_le_max (iha s hs) le_rfl
    · exact max_le_max le_rfl (ihb s hs)
  | app g a iha =>
    intro t ht
    simp only [Op.terms, List.mem_map] at ht
    rcases ht with ⟨s, hs, rfl⟩
    have := iha s hs
    simp only [Op.order]
    omega

/-! ### The expansion of the model -/

lemma prodMon_all (p : Loc → Prop) (hp : ∀ a b, p a → p b → p (.mul a b)) (l m : List Loc) (hl : ∀ s ∈ l, p s)
    (hm : ∀ s ∈ m, p s) : ∀ s ∈ prodMon l m, p s := by
  intro s hs
  simp only [prodMon, List.mem_flatMap, List.mem_map] at hs
  obtain ⟨a, ha, b, hb, rfl⟩ := hs
  exact hp a b (hl a ha) (hm b hb)

lemma powMon_all (p : Loc → Prop) (hp : ∀ a b, p a → p b → p (.mul a b)) (h1 : p (.const 1)) (l : List Loc) (hl : ∀ s ∈ l, p s)
    (n : ℕ) : ∀ s ∈ powMon l n, p s := by
  induction n with
  | zero => intro s hs; simp only [powMon, List.mem_singleton] at hs; subst hs; exact h1
  | succ n ih => exact prodMon_all p hp _ _ ih hl

lemma dmon_has (i : ℕ) (a : Loc) (h : a.has i = false) : ∀ m ∈ a.dmon, m.has i = false := by
  induction a with
  | x => intro m hm; simp only [Loc.dmon, List.mem_singleton] at hm; subst hm; rfl
  | const c => intro m hm; simp [Loc.dmon] at hm
  | fn j k => intro m hm; simp only [Loc.dmon, List.mem_singleton] at hm; subst hm; exact h
  | add a b iha ihb =>
    simp only [Loc.has, Bool.or_eq_false_iff] at h
    intro m hm
    simp only [Loc.dmon, List.mem_append] at hm
    exact hm.elim (iha h.1 m) (ihb h.2 m)
  | mul a b iha ihb =>
    simp only [Loc.has, Bool.or_eq_false_iff] at h
    intro m hm
    simp only [Loc.dmon, List.mem_append, List.mem_map] at hm
    rcases hm with ⟨s, hs, rfl⟩ | ⟨s, hs, rfl⟩
    · simp [Loc.has, iha h.1 s hs, h.2]
    · simp [Loc.has, ihb h.2 s hs, h.1]
  | pow a n iha =>
    intro m hm
    simp only [Loc.dmon, List.mem_map] at hm
    rcases hm with ⟨s, hs, rfl⟩
    simp only [Loc.has] at h
    simp [Loc.has, iha h s hs, h]
  | app g a iha =>
    intro m hm
    simp only [Loc.dmon, List.mem_map] at hm
    rcases hm with ⟨s, hs, rfl⟩
    simp only [Loc.has] at h
    simp [Loc.has, iha h s hs, h]
  | der a iha => intro m hm; simp only [Loc.dmon, List.mem_singleton] at hm; subst hm; exact h

lemma dmon_order (i : ℕ) (a : Loc) : ∀ m ∈ a.dmon, m.order i ≤ a.order i + 1 := by
  induction a with
  | x => intro m hm; simp only [Loc.dmon, List.mem_singleton] at hm; subst hm; simp [Loc.order]
  | const c => intro m hm; simp [Loc.dmon] at hm
  | fn j k =>
    intro m hm
    simp only [Loc.dmon, List.mem_singleton] at hm
    subst hm
    simp only [Loc.order]
    split_ifs <;> omega
  | add a b iha ihb =>
    intro m hm
    simp only [Loc.dmon, List.mem_append] at hm
    simp only [Loc.order]
    rcases hm with hm | hm
    · have := iha m hm; omega
    · have := ihb m hm; omega
  | mul a b iha ihb =>
    intro m hm
    simp only [Loc.dmon, List.mem_append, List.mem_map] at hm
    rcases hm with ⟨s, hs, rfl⟩ | ⟨s, hs, rfl⟩
    · have := iha s hs; simp only [Loc.order]; omega
    · have := ihb s hs; simp only [Loc.order]; omega
  | pow a n iha =>
    intro m hm
    simp only [Loc.dmon, List.mem_map] at hm
    rcases hm with ⟨s, hs, rfl⟩
    have := iha s hs; simp only [Loc.order]; omega
  | app g a iha =>
    intro m hm
    simp only [Loc.dmon, List.mem_map] at hm
    rcases hm with ⟨s, hs, rfl⟩
    have := iha s hs; simp only [Loc.order]; omega
  | der a iha =>
    intro m hm
    simp only [Loc.dmon, List.mem_singleton] at hm
    subst hm
    simp only [Loc.order, Loc.has]
    split_ifs <;> omega

lemma mon_has (i : ℕ) (a : Loc) (h : a.has i = false) : ∀ m ∈ a.monomials, m.has i = false := by
  have hp : ∀ a b : Loc, a.has i = false → b.has i = false → (Loc.mul a b).has i = false := by
    intro a b h1 h2; simp [Loc.has, h1, h2]
  induction a with
  | x => intro m hm; simp only [Loc.monomials, List.mem_singleton] at hm; subst hm; exact h
  | const c => intro m hm; simp only [Loc.monomials, List.mem_singleton] at hm; subst hm; exact h
  | fn j k => intro m hm; simp only [Loc.monomials, List.mem_singleton] at hm; subst hm; exact h
  | app g a _ => intro m hm; simp only [Loc.monomials, List.mem_singleton] at hm; subst hm; exact h
  | add a b iha ihb =>
    simp only [Loc.has, Bool.or_eq_false_iff] at h
    intro m hm
    simp only [Loc.monomials, List.mem_append] at hm
    exact hm.elim (iha h.1 m) (ihb h.2 m)
  | mul a b iha ihb =>
    simp only [Loc.has, Bool.or_eq_false_iff] at h
    exact prodMon_all _ hp _ _ (iha h.1) (ihb h.2)
  | pow a n iha => exact powMon_all _ hp rfl _ (iha h) n
  | der a iha =>
    intro m hm
    simp only [Loc.monomials, List.mem_flatMap] at hm
    obtain ⟨s, hs, hm⟩ := hm
    exact dmon_has i s (iha h s hs) m hm

lemma mon_order (i : ℕ) (a : Loc) : ∀ m ∈ a.monomials, m.order i ≤ a.order i := by
  induction a with
  | x => intro m hm; simp only [Loc.monomials, List.mem_singleton] at hm; subst hm; exact le_rfl
  | const c => intro m hm; simp only [Loc.monomials, List.mem_singleton] at hm; subst hm; exact le_rfl
  | fn j k => intro m hm; simp only [Loc.monomials, List.mem_singleton] at hm; subst hm; exact le_rfl
  | app g a _ => intro m hm; simp only [Loc.monomials, List.mem_singleton] at hm; subst hm; exact le_rfl
  | add a b iha ihb =>
    intro m hm
    simp only [Loc.monomials, List.mem_append] at hm
    simp only [Loc.order]
    rcases hm with hm | hm
    · exact (iha m hm).trans (le_max_left _ _)
    · exact (ihb m hm).trans (le_max_right _ _)
  | mul a b iha ihb =>
    refine prodMon_all (fun m => m.order i ≤ max (a.order i) (b.order i)) (fun s t h1 h2 => max_le h1 h2) _ _ ?_ ?_
    · exact fun s hs => (iha s hs).trans (le_max_left _ _)
    · exact fun s hs => (ihb s hs).trans (le_max_right _ _)
  | pow a n iha =>
    exact powMon_all (fun m => m.order i ≤ a.order i) (fun s t h1 h2 => max_le h1 h2) (Nat.zero_le _) _ iha n
  | der a iha =>
    intro m hm
    simp only [Loc.monomials, List.mem_flatMap] at hm
    obtain ⟨s, hs, hm⟩ := hm
    simp only [Loc.order]
    split_ifs with h
    · have := dmon_order i s m hm
      have := iha s hs
      omega
    · rw [Bool.not_eq_true] at h
      rw [has_order i m (dmon_has i s (mon_has i a h s hs) m hm)]

lemma opmon_all (p : Op → Prop) (hm : ∀ a b, p (.mul a b) ↔ p a ∧ p b) (ha : ∀ a b, p (.add a b) ↔ p a ∧ p b)
    (hl : ∀ a, p (.loc a) → ∀ m ∈ a.monomials, p (.loc m)) (a : Op) (h : p a) : ∀ m ∈ a.monomials, p m := by
  induction a with
  | loc a =>
    intro m hm
    simp only [Op.monomials, List.mem_map] at hm
    obtain ⟨s, hs, rfl⟩ := hm
    exact hl a h s hs
  | int a => intro m hm; simp only [Op.monomials, List.mem_singleton] at hm; subst hm; exact h
  | app g a _ => intro m hm; simp only [Op.monomials, List.mem_singleton] at hm; subst hm; exact h
  | add a b iha ihb =>
    intro m hm
    simp only [Op.monomials, List.mem_append] at hm
    exact hm.elim (iha ((ha a b).1 h).1 m) (ihb ((ha a b).1 h).2 m)
  | mul a b iha ihb =>
    intro m hmm
    simp only [Op.monomials, List.mem_flatMap, List.mem_map] at hmm
    obtain ⟨s, hs, t, ht, rfl⟩ := hmm
    exact (hm s t).2 ⟨iha ((hm a b).1 h).1 s hs, ihb ((hm a b).1 h).2 t ht⟩

lemma expand_all (p : Op → Prop) (hm : ∀ a b, p (.mul a b) ↔ p a ∧ p b) (ha : ∀ a b, p (.add a b) ↔ p a ∧ p b)
    (hl : ∀ a, p (.loc a) → ∀ m ∈ a.monomials, p (.loc m)) (l : List (Op × Atom)) (h : ∀ t ∈ l, p t.1) :
    ∀ t ∈ expandTerms l, p t.1 := by
  intro t ht
  simp only [expandTerms, List.mem_flatMap, List.mem_map] at ht
  obtain ⟨s, hs, m, hm', A, -, rfl⟩ := ht
  exact opmon_all p hm ha hl s.1 (h s hs) m hm'

/-! ### Values depend on the symbols that occur -/

lemma loc_congr {U U' : ℕ → ℝ → ℝ} (a : Loc) (h : ∀ i, a.has i = true → U i = U' i) : a.eval U = a.eval U' := by
  induction a with
  | x => rfl
  | const c => rfl
  | fn j k => funext y; simp only [Loc.eval]; rw [h j (by simp [Loc.has])]
  | add a b iha ihb =>
    funext y
    simp only [Loc.eval, iha fun i hi => h i (by simp [Loc.has, hi]), ihb fun i hi => h i (by simp [Loc.has, hi])]
  | mul a b iha ihb =>
    funext y
    simp only [Loc.eval, iha fun i hi => h i (by simp [Loc.has, hi]), ihb fun i hi => h i (by simp [Loc.has, hi])]
  | pow a n iha => funext y; simp only [Loc.eval, iha h]
  | app g a iha => funext y; simp only [Loc.eval, iha h]
  | der a iha => funext y; simp only [Loc.eval, iha h]

lemma op_congr (e : Ends) {U U' : ℕ → ℝ → ℝ} (a : Op) (h : ∀ i, a.has i = true → U i = U' i) : a.eval e U = a.eval e U' := by
  induction a with
  | loc a => funext y; simp only [Op.eval]; rw [loc_congr a h]
  | int a => funext y; simp only [Op.eval]; rw [loc_congr a h]
  | add a b iha ihb =>
    funext y
    simp only [Op.eval, iha fun i hi => h i (by simp [Op.has, hi]), ihb fun i hi => h i (by simp [Op.has, hi])]
  | mul a b iha ihb =>
    funext y
    simp only [Op.eval, iha fun i hi => h i (by simp [Op.has, hi]), ihb fun i hi => h i (by simp [Op.has, hi])]
  | app g a iha => funext y; simp only [Op.eval, iha h]

/-! ### Sums -/

lemma opSum_all (p : Op → Prop) (h0 : p (.loc (.const 0))) (ha : ∀ a b, p a → p b → p (.add a b)) (l : List Op) (h : ∀ a ∈ l, p a) :
    p (opSum l) := by
  induction l with
  | nil => exact h0
  | cons a l ih => exact ha _ _ (h a (by simp)) (ih fun b hb => h b (by simp [hb]))

lemma coeffOf_all (p : Op → Prop) (h0 : p (.loc (.const 0))) (ha : ∀ a b, p a → p b → p (.add a b)) (l : List (Op × Atom))
    (h : ∀ t ∈ l, p t.1) (A : Atom) : p (coeffOf l A) := by
  refine opSum_all p h0 ha _ ?_
  intro a hm
  simp only [List.mem_map, List.mem_filter] at hm
  obtain ⟨t, ⟨ht, -⟩, rfl⟩ := hm
  exact h t ht

lemma dopsExpr_all (p : Op → Prop) (h0 : p (.loc (.const 0))) (ha : ∀ a b, p a → p b → p (.add a b)) (m : ℕ) (dops : List Op)
    (h : ∀ a ∈ dops, ∀ k, p (.mul a (.loc (.fn m k)))) : p (dopsExpr m dops) := by
  refine opSum_all p h0 ha _ ?_
  intro a hm
  rw [List.mem_mapIdx] at hm
  obtain ⟨k, hk, rfl⟩ := hm
  exact h _ (List.getElem_mem hk) k

lemma block_dops_all (p : Op → Prop) (h0 : p (.loc (.const 0))) (ha : ∀ a b, p a → p b → p (.add a b)) (D j : ℕ) (a : Op)
    (h : ∀ t ∈ expand (a.terms j), p t.1) : ∀ c ∈ (block expand D j a).dops, p c := by
  intro c hc
  simp only [block, List.mem_map] at hc
  obtain ⟨k, -, rfl⟩ := hc
  exact coeffOf_all p h0 ha _ h _

/-- The expression of one block. -/
noncomputable def ent (expand : List (Op × Atom) → List (Op × Atom)) (D nf : ℕ) (a : Op) (j : ℕ) : Op :=
  dopsExpr (nf + j) (block expand D j a).dops

lemma termSmooth_op (t : Op × Atom) (h : TermSmooth t) : OpSmooth t.1 := h.1

lemma ent_smooth (hx : IsExpandL expand) (D nf : ℕ) (a : Op) (ha : OpSmooth a) (j : ℕ) : OpSmooth (ent expand D nf a j) :=
  dopsExpr_all OpSmooth trivial (fun _ _ h1 h2 => ⟨h1, h2⟩) _ _ fun c hc _ =>
    ⟨block_dops_all OpSmooth trivial (fun _ _ h1 h2 => ⟨h1, h2⟩) D j a
      (hx.smooth _ fun t ht => termSmooth_op t (optermsmooth a ha t ht)) c hc, trivial⟩

lemma ent_local (hx : IsExpandL expand) (D nf : ℕ) (a : Op) (ha : IsLocal a) (j : ℕ) : IsLocal (ent expand D nf a j) :=
  dopsExpr_all IsLocal trivial (fun _ _ h1 h2 => ⟨h1, h2⟩) _ _ fun c hc _ =>
    ⟨block_dops_all IsLocal trivial (fun _ _ h1 h2 => ⟨h1, h2⟩) D j a
      (fun t ht => (hx.locals _ (terms_local j a ha) t ht).1) c hc, trivial⟩

lemma ent_order (hx : IsExpandL expand) (D nf : ℕ) (a : Op) (j k : ℕ) (hk : k < nf) : (ent expand D nf a j).order k ≤ a.order k :=
  dopsExpr_all (fun E => E.order k ≤ a.order k) (Nat.zero_le _) (fun _ _ h1 h2 => max_le h1 h2) _ _ fun c hc o =>
    max_le (block_dops_all (fun E => E.order k ≤ a.order k) (Nat.zero_le _) (fun _ _ h1 h2 => max_le h1 h2) D j a
      (hx.order _ k _ (op_terms_order k j a)) c hc) (by simp only [Op.order, Loc.order]; rw [if_neg (by omega)]; omega)

lemma coeff_has (hx : IsExpandL expand) (D : ℕ) (a : Op) (i j : ℕ) (h : a.has i = false) :
    ∀ c ∈ (block expand D j a).dops, c.has i = false :=
  block_dops_all (fun E => E.has i = false) rfl (fun _ _ h1 h2 => by simp [Op.has, h1, h2]) D j a
    (hx.has _ i (op_terms_has i j a h))

/-! ### The matrix of the expressions -/

lemma optAll_map {α β : Type} (l : List α) (f : α → Option β) (g : α → β) (h : ∀ x ∈ l, f x = some (g x)) :
    optAll (l.map f) = some (l.map g) := by
  induction l with
  | nil => rfl
  | cons x l ih =>
    simp only [List.map_cons, optAll]
    rw [h x (by simp), ih fun z hz => h z (by simp [hz])]
    rfl

lemma mapIdx_range {α β : Type} (n : ℕ) (f : ℕ → α) (g : ℕ → α → β) :
    ((List.range n).map f).mapIdx g = (List.range n).map fun j => g j (f j) := by
  apply List.ext_getElem <;> simp

lemma exprMatrix_eq (hx : IsExpandL expand) (D nf : ℕ) (eqns : List Op) (hl : ∀ a ∈ eqns, IsLocal a) :
    exprMatrix nf (eqns.map fun a => (List.range nf).map fun j => block expand D j a)
      = some (eqns.map fun a => (List.range nf).map (ent expand D nf a)) := by
  rw [exprMatrix, List.map_map]
  refine optAll_map eqns _ _ fun a ha => ?_
  simp only [Function.comp_apply, mapIdx_range]
  refine optAll_map _ _ _ fun j _ => ?_
  simp only [Block.expr, block_iops hx D j a (hl a ha), List.isEmpty_nil, if_true]
  rfl

/-! ### Directions -/

/-- The direction of the functions. -/
def dir (nf : ℕ) (P : ℕ → ℝ → ℝ) : ℕ → ℝ → ℝ := fun i => if i < nf then P i else fun _ => 0

lemma dir_smooth {nf : ℕ} {P : ℕ → ℝ → ℝ} (hP : ∀ i, ContDiff ℝ ∞ (P i)) (i : ℕ) : ContDiff ℝ ∞ (dir nf P i) := by
  unfold dir; split_ifs
  · exact hP i
  · exact contDiff_const

lemma dir_zero {nf : ℕ} {P : ℕ → ℝ → ℝ} (i : ℕ) (h : nf ≤ i) : dir nf P i = fun _ => 0 := by
  unfold dir; rw [if_neg (by omega)]

lemma dir_lt {nf : ℕ} {P : ℕ → ℝ → ℝ} (i : ℕ) (h : i < nf) : dir nf P i = P i := by
  unfold dir; rw [if_pos h]

lemma symbols_smooth {nf : ℕ} {U P Q : ℕ → ℝ → ℝ} (hU : ∀ i, ContDiff ℝ ∞ (U i)) (hP : ∀ i, ContDiff ℝ ∞ (P i))
    (hQ : ∀ i, ContDiff ℝ ∞ (Q i)) (i : ℕ) : ContDiff ℝ ∞ (symbols nf U P Q i) := by
  unfold symbols; split_ifs
  · exact hU i
  · exact hP _
  · exact hQ _
  · exact hU i

lemma symbols_P {nf : ℕ} {U P Q : ℕ → ℝ → ℝ} (j : ℕ) (h : j < nf) : symbols nf U P Q (nf + j) = P j := by
  unfold symbols; rw [if_neg (by omega), if_pos (by omega)]; congr 1; omega

lemma symbols_Q {nf : ℕ} {U P Q : ℕ → ℝ → ℝ} (j : ℕ) (h : j < nf) : symbols nf U P Q (2 * nf + j) = Q j := by
  unfold symbols; rw [if_neg (by omega), if_neg (by omega), if_pos (by omega)]; congr 1; omega

lemma shift_P {nf : ℕ} {W V : ℕ → ℝ → ℝ} (ε : ℝ) (m : ℕ) (h : nf ≤ m) : shift W (dir nf V) ε m = W m := by
  funext y; simp [shift, dir_zero m h]

lemma moved_eval (e : Ends) {nf : ℕ} {U P Q : ℕ → ℝ → ℝ} (a : Op) (h : ∀ i, nf ≤ i → i < 3 * nf → a.has i = false) (δ ε : ℝ) :
    a.eval e (moved nf U P Q δ ε) = a.eval e (shift (shift (symbols nf U P Q) (dir nf Q) ε) (dir nf P) δ) := by
  refine op_congr e a fun i hi => ?_
  by_cases h1 : i < nf
  · funext y
    simp only [moved, shift, symbols, dir, h1, if_true]
    ring
  · by_cases h2 : i < 3 * nf
    · rw [h i (by omega) h2] at hi
      simp at hi
    · funext y
      simp only [moved, shift, symbols, dir, h1, h2, if_false, show ¬ i < 2 * nf by omega]
      ring

/-- The derivative in the direction `P` at `W`. -/
lemma first (hx : IsExpandL expand) (e : Ends) {W P : ℕ → ℝ → ℝ} (hW : ∀ i, ContDiff ℝ ∞ (W i)) (hP : ∀ i, ContDiff ℝ ∞ (P i))
    (D nf : ℕ) (hWP : ∀ j, j < nf → W (nf + j) = P j) (a : Op) (ha : OpSmooth a) (hl : IsLocal a) (hD : ∀ k, k < nf → a.order k ≤ D)
    (y : ℝ) :
    HasDerivAt (fun δ => a.eval e (shift W (dir nf P) δ) y)
      (∑ j ∈ Finset.range nf, (ent expand D nf a j).eval e W y) 0 := by
  refine (deriv_op_all e hW (dir_smooth (nf := nf) hP) nf (fun i hi => dir_zero i hi) a ha hl 0 y).congr_deriv ?_
  refine Finset.sum_congr rfl fun j hj => ?_
  have hj' : j < nf := by simpa using hj
  rw [shift_zero, dir_lt j hj', ent, block_value hx e hW D j (nf + j) a ha hl (hD j hj') y, hWP j hj']

/-- The second derivative. -/
lemma second (hx : IsExpandL expand) (e : Ends) {W Q : ℕ → ℝ → ℝ} (hW : ∀ i, ContDiff ℝ ∞ (W i)) (hQ : ∀ i, ContDiff ℝ ∞ (Q i))
    (D D' nf : ℕ) (hWQ : ∀ j, j < nf → W (2 * nf + j) = Q j) (a : Op) (ha : OpSmooth a) (hl : IsLocal a)
    (hD : ∀ k, k < nf → a.order k ≤ D') (y : ℝ) :
    HasDerivAt (fun ε => ∑ j ∈ Finset.range nf, (ent expand D nf a j).eval e (shift W (dir nf Q) ε) y)
      ((biRow expand D' nf ((List.range nf).map (ent expand D nf a))).eval e W y) 0 := by
  have h := HasDerivAt.fun_sum (u := Finset.range nf) fun j _ => deriv_op_all e hW (dir_smooth (nf := nf) hQ) nf (fun i hi => dir_zero i hi)
    (ent expand D nf a j) (ent_smooth hx D nf a ha j) (ent_local hx D nf a hl j) 0 y
  refine h.congr_deriv ?_
  rw [biRow, opSum_eval, List.map_flatMap, List.flatMap_def, List.sum_flatten, List.map_map, List.map_map]
  rw [← List.sum_toFinset _ List.nodup_range, List.toFinset_range]
  refine Finset.sum_congr rfl fun j hj => ?_
  simp only [Function.comp_apply, List.map_map]
  rw [← List.sum_toFinset _ List.nodup_range, List.toFinset_range]
  refine Finset.sum_congr rfl fun k hk => ?_
  have hk' : k < nf := by simpa using hk
  simp only [Function.comp_apply]
  rw [shift_zero, dir_lt k hk', block_value hx e hW D' k (2 * nf + k) _ (ent_smooth hx D nf a ha j) (ent_local hx D nf a hl j)
    ((ent_order hx D nf a j k hk').trans (hD k hk')) y, hWQ k hk']

lemma action_eval (e : Ends) (W : ℕ → ℝ → ℝ) (D nf : ℕ) (a : Op) (y : ℝ) :
    (opSum ((List.range nf).map (ent expand D nf a))).eval e W y = ∑ j ∈ Finset.range nf, (ent expand D nf a j).eval e W y := by
  rw [opSum_eval, List.map_map, ← List.sum_toFinset _ List.nodup_range, List.toFinset_range]
  rfl

end Snd
open Snd

/-- **C110.**  The expansion of the model is a possible `expand`. -/
theorem C110_expandTerms : IsExpandL expandTerms where
  toIsExpand := C103_expandTerms
  smooth := fun l h => expand_all OpSmooth (fun _ _ => Iff.rfl) (fun _ _ => Iff.rfl) (fun a ha => mon_smooth a ha) l h
  locals := by
    intro l h t ht
    refine ⟨expand_all IsLocal (fun _ _ => Iff.rfl) (fun _ _ => Iff.rfl) (fun _ _ _ _ => trivial) l (fun t ht => (h t ht).1) t ht, ?_⟩
    simp only [expandTerms, List.mem_flatMap, List.mem_map] at ht
    obtain ⟨s, hs, m, -, A, hA, rfl⟩ := ht
    obtain ⟨k, hk⟩ := (h s hs).2
    rw [hk] at hA
    simp only [Atom.split, List.mem_singleton] at hA
    exact ⟨k, hA⟩
  order := fun l k D h => expand_all (fun a => a.order k ≤ D) (fun _ _ => by simp [Op.order]) (fun _ _ => by simp [Op.order])
    (fun a ha m hm => (mon_order k a m hm).trans ha) l h
  has := fun l j h => expand_all (fun a => a.has j = false) (fun _ _ => by simp [Op.has]) (fun _ _ => by simp [Op.has])
    (fun a ha m hm => mon_has j a ha m hm) l h


/-- The equations the theorems are about: smooth, without integrals, in the functions and the parameters only. -/
def Admissible (nf : ℕ) (a : Op) : Prop := OpSmooth a ∧ IsLocal a ∧ ∀ i, nf ≤ i → i < 3 * nf → a.has i = false

/-- `G` is what the code computes for the second derivative of the expression `a`, `A` what it computes for the first. -/
structure IsDerivs (nf : ℕ) (a A G : Op) : Prop where
  /-- the first derivative in the direction of `P` -/
  first : ∀ (e : Ends) (U P Q : ℕ → ℝ → ℝ), (∀ i, ContDiff ℝ ∞ (U i)) → (∀ i, ContDiff ℝ ∞ (P i)) → (∀ i, ContDiff ℝ ∞ (Q i)) →
    ∀ y, HasDerivAt (fun δ => a.eval e (moved nf U P Q δ 0) y) (A.eval e (symbols nf U P Q) y) 0
  /-- the second derivative in the directions of `P` and `Q` -/
  second : ∀ (e : Ends) (U P Q : ℕ → ℝ → ℝ), (∀ i, ContDiff ℝ ∞ (U i)) → (∀ i, ContDiff ℝ ∞ (P i)) → (∀ i, ContDiff ℝ ∞ (Q i)) →
    ∀ y, HasDerivAt (fun ε => deriv (fun δ => a.eval e (moved nf U P Q δ ε) y) 0) (G.eval e (symbols nf U P Q) y) 0

namespace Snd

lemma derivs {expand : List (Op × Atom) → List (Op × Atom)} (hx : IsExpandL expand) (D D' nf : ℕ) (a : Op) (ha : Admissible nf a)
    (hD : ∀ k, k < nf → a.order k ≤ D) (hDD : D ≤ D') :
    IsDerivs nf a (opSum ((List.range nf).map (ent expand D nf a))) (biRow expand D' nf ((List.range nf).map (ent expand D nf a))) := by
  obtain ⟨hs, hl, hh⟩ := ha
  have key : ∀ (e : Ends) (U P Q : ℕ → ℝ → ℝ), (∀ i, ContDiff ℝ ∞ (U i)) → (∀ i, ContDiff ℝ ∞ (P i)) → (∀ i, ContDiff ℝ ∞ (Q i)) →
      ∀ ε y, HasDerivAt (fun δ => a.eval e (moved nf U P Q δ ε) y)
        (∑ j ∈ Finset.range nf, (ent expand D nf a j).eval e (shift (symbols nf U P Q) (dir nf Q) ε) y) 0 := by
    intro e U P Q hU hP hQ ε y
    simp only [moved_eval e a hh]
    refine first hx e (shift_smooth (symbols_smooth hU hP hQ) (dir_smooth hQ) ε) hP D nf (fun j hj => ?_) a hs hl hD y
    rw [shift_P ε _ (by omega), symbols_P j hj]
  constructor
  · intro e U P Q hU hP hQ y
    have := key e U P Q hU hP hQ 0 y
    rwa [shift_zero, ← action_eval] at this
  · intro e U P Q hU hP hQ y
    simp only [(key e U P Q hU hP hQ _ y).deriv]
    exact second hx e (symbols_smooth hU hP hQ) hQ D D' nf (fun j hj => symbols_Q j hj) a hs hl (fun k hk => (hD k hk).trans hDD) y

lemma forms_spec {expand : List (Op × Atom) → List (Op × Atom)} (hx : IsExpandL expand) (D D' nf : ℕ) (eqns : List Op)
    (ha : ∀ a ∈ eqns, Admissible nf a) (hD : ∀ a ∈ eqns, ∀ k, k < nf → a.order k ≤ D) (hDD : D ≤ D') (hn : eqns.length = nf) :
    ∃ r, forms expand D' nf (eqns.map fun a => (List.range nf).map fun j => block expand D j a) = some r ∧
      r.df.length = nf ∧ r.ddf.length = nf ∧
      ∀ i, i < nf → ∀ a A G, eqns[i]? = some a → r.df[i]? = some A → r.ddf[i]? = some G → IsDerivs nf a A G := by
  simp only [forms, exprMatrix_eq hx D nf eqns (fun a h => (ha a h).2.1), bilinear, bilinearAdj, List.length_map, hn,
    if_true, Option.bind_eq_bind, Option.bind_some]
  refine ⟨_, rfl, by simp [action, hn], by simp [hn], ?_⟩
  intro i hi a A G h1 h2 h3
  simp only [action, List.getElem?_map, h1, Option.map_some, Option.some.injEq] at h2 h3
  subst h2 h3
  have hm := List.mem_of_getElem? h1
  exact derivs hx D D' nf a (ha a hm) (hD a hm) hDD

end Snd

/-- **C110.**  Second derivatives: for local equations and constraints whose orders are seen by the compiler,
`compile(fold=True)` gives, for every component of the equations and of the constraints, the first derivative in the direction `u_p` and
the second derivative in the directions `u_p`, `u_pp`, whatever `expand` does. -/
theorem C110_second (expand : List (Op × Atom) → List (Op × Atom)) (hx : IsExpandL expand) (nf : ℕ) (eqns cts : List Op)
    (hE : ∀ a ∈ eqns, Admissible nf a) (hC : ∀ a ∈ cts, Admissible nf a) (hnE : eqns.length = nf) (hnC : cts.length = nf)
    (hoE : ∀ a ∈ eqns, ∀ k, k < nf → a.order k ≤ diffOrder eqns nf)
    (hoC : ∀ a ∈ cts, ∀ k, k < nf → a.order k ≤ max (diffOrder eqns nf) (diffOrder cts nf)) :
    ∃ r c, compileFold expand eqns cts nf = some (r, c) ∧
      (r.df.length = nf ∧ r.ddf.length = nf ∧ c.df.length = nf ∧ c.ddf.length = nf) ∧
      (∀ i, i < nf → ∀ a A G, eqns[i]? = some a → r.df[i]? = some A → r.ddf[i]? = some G → IsDerivs nf a A G) ∧
      ∀ i, i < nf → ∀ a A G, cts[i]? = some a → c.df[i]? = some A → c.ddf[i]? = some G → IsDerivs nf a A G := by
  obtain ⟨r, hr, h1, h2, h3⟩ := forms_spec hx _ (max (diffOrder eqns nf) (diffOrder cts nf)) nf eqns hE hoE (le_max_left _ _) hnE
  obtain ⟨c, hc, h4, h5, h6⟩ := forms_spec hx _ (max (diffOrder eqns nf) (diffOrder cts nf)) nf cts hC hoC le_rfl hnC
  refine ⟨r, c, ?_, ⟨h1, h2, h4, h5⟩, h3, h6⟩
  simp only [compileFold, linearize, hr, hc, Option.bind_eq_bind, Option.bind_some]

/-- **C110.**  One equation and one constraint: the compiler sees the order itself. -/
theorem C110_second_scalar (expand : List (Op × Atom) → List (Op × Atom)) (hx : IsExpandL expand) (a b : Op)
    (ha : Admissible 1 a) (hb : Admissible 1 b) :
    ∃ r c, compileFold expand [a] [b] 1 = some (r, c) ∧
      (∃ A G, r.df = [A] ∧ r.ddf = [G] ∧ IsDerivs 1 a A G) ∧ ∃ A G, c.df = [A] ∧ c.ddf = [G] ∧ IsDerivs 1 b A G := by
  have hd : ∀ a : Op, diffOrder [a] 1 = a.order 0 := fun a => by simp [diffOrder]
  obtain ⟨r, c, h, ⟨l1, l2, l3, l4⟩, h1, h2⟩ := C110_second expand hx 1 [a] [b] (by simpa using ha) (by simpa using hb) rfl rfl
    (by intro x hm k hk; simp only [List.mem_singleton] at hm; subst hm; rw [hd]; obtain rfl : k = 0 := by omega
        exact le_rfl)
    (by intro x hm k hk; simp only [List.mem_singleton] at hm; subst hm; rw [hd, hd]; obtain rfl : k = 0 := by omega
        exact le_max_right _ _)
  obtain ⟨A, hA⟩ := List.length_eq_one_iff.1 l1
  obtain ⟨G, hG⟩ := List.length_eq_one_iff.1 l2
  obtain ⟨A', hA'⟩ := List.length_eq_one_iff.1 l3
  obtain ⟨G', hG'⟩ := List.length_eq_one_iff.1 l4
  exact ⟨r, c, h, ⟨A, G, hA, hG, h1 0 (by omega) a A G rfl (by simp [hA]) (by simp [hG])⟩,
    A', G', hA', hG', h2 0 (by omega) b A' G' rfl (by simp [hA']) (by simp [hG'])⟩

/-- **C110 fails without constraints.**  If no constraints are given (the default), `compile(fold=True)` raises for every operator with
at least one function. -/
theorem C110_fold_fails (expand : List (Op × Atom) → List (Op × Atom)) (nf : ℕ) (hn : 0 < nf) (eqns : List Op) :
    compileFold expand eqns [] nf = none ∧ ∀ J, compileDxdp expand eqns [] nf J = none := by
  have h : compileFold expand eqns [] nf = none := by
    simp only [compileFold, List.map_nil, Option.bind_eq_bind]
    cases forms expand (max (diffOrder eqns nf) (diffOrder [] nf)) nf (linearize expand eqns nf) with
    | none => rfl
    | some r =>
      simp only [Option.bind_eq_bind, Option.bind_some, forms, exprMatrix, List.map_nil, optAll, bilinear, List.length_nil]
      rw [if_neg (by omega)]
      rfl
  exact ⟨h, fun J => by simp only [compileDxdp, h, Option.bind_eq_bind, Option.bind_none]⟩

/-- **C110 fails for integrals.**  For `u ∫ u²` (as for every operator whose derivative contains an integral) `compile(fold=True)` raises. -/
theorem C110_integral_fails (cts : List Op) :
    compileFold expandTerms [.mul (.loc (.fn 0 0)) (.int (.pow (.fn 0 0) 2))] cts 1 = none := by
  have : exprMatrix 1 (linearize expandTerms [.mul (.loc (.fn 0 0)) (.int (.pow (.fn 0 0) 2))] 1) = none := by
    simp [exprMatrix, linearize, block, expandTerms, Op.terms, Loc.terms, Op.monomials, Loc.monomials, Atom.split, prodMon, integrals,
      powMon, optAll, Block.expr]
  simp only [compileFold, forms, this, Option.bind_eq_bind, Option.bind_none]

/-! ### The adjoint -/

namespace Snd

/-- The expression is linear and homogeneous in the symbol `m`. -/
def Homog (m : ℕ) (G : Op) : Prop := ∀ (e : Ends) (W : ℕ → ℝ → ℝ) (y : ℝ), termSum e W (W m) (G.terms m) y = G.eval e W y

lemma op_terms_nil (m : ℕ) (a : Op) (h : a.has m = false) : a.terms m = [] := by
  induction a with
  | loc a => simp only [Op.terms, terms_has a h, List.map_nil]
  | int a => simp [Op.terms, terms_has a h]
  | add a b iha ihb =>
    simp only [Op.has, Bool.or_eq_false_iff] at h
    simp [Op.terms, iha h.1, ihb h.2]
  | mul a b iha ihb =>
    simp only [Op.has, Bool.or_eq_false_iff] at h
    simp [Op.terms, iha h.1, ihb h.2]
  | app g a iha => simp [Op.terms, iha h]

lemma homog_zero (m : ℕ) : Homog m (.loc (.const 0)) := by
  intro e W y; simp [Op.terms, Loc.terms, termSum, Op.eval, Loc.eval]

lemma homog_add {m : ℕ} {a b : Op} (ha : Homog m a) (hb : Homog m b) : Homog m (.add a b) := by
  intro e W y
  simp only [Op.terms, termSum_append, ha e W y, hb e W y, Op.eval]

lemma homog_mul_right {m : ℕ} {a b : Op} (ha : Homog m a) (hb : b.has m = false) : Homog m (.mul a b) := by
  intro e W y
  simp only [Op.terms, op_terms_nil m b hb, List.map_nil, List.append_nil]
  rw [termSum_map e _ (fun s => .mul s b) y (b.eval e W y) (fun s => by simp only [Op.eval]; ring), ha e W y]
  simp only [Op.eval]; ring

lemma homog_mul_left {m : ℕ} {a b : Op} (ha : a.has m = false) (hb : Homog m b) : Homog m (.mul a b) := by
  intro e W y
  simp only [Op.terms, op_terms_nil m a ha, List.map_nil, List.nil_append]
  rw [termSum_map e _ (fun s => .mul a s) y (a.eval e W y) (fun s => by simp only [Op.eval]), hb e W y]
  simp only [Op.eval]

lemma homog_fn (m k : ℕ) : Homog m (.loc (.fn m k)) := by
  intro e W y
  simp [Op.terms, Loc.terms, termSum, Op.eval, Loc.eval, atomValue]

lemma loc_subst_id (s t : ℕ) (a : Loc) (h : a.has s = false) : a.subst s t = a := by
  induction a with
  | x => rfl
  | const c => rfl
  | fn j k => simp only [Loc.has, beq_eq_false_iff_ne] at h; simp [Loc.subst, h]
  | add a b iha ihb => simp only [Loc.has, Bool.or_eq_false_iff] at h; simp [Loc.subst, iha h.1, ihb h.2]
  | mul a b iha ihb => simp only [Loc.has, Bool.or_eq_false_iff] at h; simp [Loc.subst, iha h.1, ihb h.2]
  | pow a n iha => simp [Loc.subst, iha h]
  | app g a iha => simp [Loc.subst, iha h]
  | der a iha => simp [Loc.subst, iha h]

lemma op_subst_id (s t : ℕ) (a : Op) (h : a.has s = false) : a.subst s t = a := by
  induction a with
  | loc a => simp [Op.subst, loc_subst_id s t a h]
  | int a => simp [Op.subst, loc_subst_id s t a h]
  | add a b iha ihb => simp only [Op.has, Bool.or_eq_false_iff] at h; simp [Op.subst, iha h.1, ihb h.2]
  | mul a b iha ihb => simp only [Op.has, Bool.or_eq_false_iff] at h; simp [Op.subst, iha h.1, ihb h.2]
  | app g a iha => simp [Op.subst, iha h]

lemma opSum_subst (s t : ℕ) (l : List Op) : (opSum l).subst s t = opSum (l.map (Op.subst s t)) := by
  induction l with
  | nil => rfl
  | cons a l ih => simp [opSum, Op.subst, ih]

lemma dopsExpr_subst (s t : ℕ) (dops : List Op) (h : ∀ c ∈ dops, c.has s = false) :
    (dopsExpr s dops).subst s t = dopsExpr t dops := by
  rw [dopsExpr, opSum_subst, dopsExpr]
  congr 1
  apply List.ext_getElem
  · simp
  · intro i h1 h2
    simp [Op.subst, Loc.subst, op_subst_id s t _ (h _ (List.getElem_mem (by simpa using h1)))]

lemma dirExpr_all (p : Op → Prop) (h0 : p (.loc (.const 0))) (ha : ∀ a b, p a → p b → p (.add a b)) (nf k : ℕ) (E : Op)
    (h : ∀ t ∈ E.terms k, ∀ o, p (.mul t.1 (.loc (.fn (nf + k) o)))) : p (dirExpr nf k E) := by
  refine opSum_all p h0 ha _ ?_
  intro a hm
  simp only [List.mem_map] at hm
  obtain ⟨t, ht, rfl⟩ := hm
  rcases h2 : t.2 with o | q
  · exact h t ht o
  · exact h0

lemma dirExpr_eval (e : Ends) (W : ℕ → ℝ → ℝ) (nf k : ℕ) (E : Op) (hl : IsLocal E) (y : ℝ) :
    (dirExpr nf k E).eval e W y = termSum e W (W (nf + k)) (E.terms k) y := by
  rw [dirExpr, opSum_eval, List.map_map, termSum]
  congr 1
  refine List.map_congr_left fun t ht => ?_
  obtain ⟨-, o, ho⟩ := terms_local k E hl t ht
  simp only [Function.comp_apply, ho, Op.eval, Loc.eval, atomValue]

/-- The terms of the derivative of a linear expression: products of a coefficient and a derivative of the symbol. -/
lemma dopsExpr_terms (m k : ℕ) (hk : k ≠ m) (dops : List Op) (i : ℕ) (h : ∀ c ∈ dops, c.has i = false) :
    ∀ t ∈ (dopsExpr m dops).terms k, ∃ c o, c.has i = false ∧ t.1 = .mul c (.loc (.fn m o)) ∧ o < dops.length := by
  have gen : ∀ (l : List Op) (hl : ∀ a ∈ l, ∃ c o, c.has i = false ∧ a = .mul c (.loc (.fn m o)) ∧ o < dops.length),
      ∀ t ∈ (opSum l).terms k, ∃ c o, c.has i = false ∧ t.1 = .mul c (.loc (.fn m o)) ∧ o < dops.length := by
    intro l
    induction l with
    | nil => intro _ t ht; simp [opSum, Op.terms, Loc.terms] at ht
    | cons a l ih =>
      intro hl t ht
      simp only [opSum, Op.terms, List.mem_append] at ht
      rcases ht with ht | ht
      · obtain ⟨c, o, hc, rfl, ho⟩ := hl a (by simp)
        simp only [Op.terms, Loc.terms, if_neg (Ne.symm hk), List.map_nil, List.append_nil, List.mem_map] at ht
        obtain ⟨s, hs, rfl⟩ := ht
        exact ⟨s.1, o, op_terms_has i k c hc s hs, rfl, ho⟩
      · exact ih (fun b hb => hl b (by simp [hb])) t ht
  refine gen _ fun a hm => ?_
  rw [List.mem_mapIdx] at hm
  obtain ⟨o, ho, rfl⟩ := hm
  exact ⟨_, o, h _ (List.getElem_mem ho), rfl, ho⟩

lemma signed_getD (K : List Op) (e : Ends) (W : ℕ → ℝ → ℝ) (y : ℝ) :
    ((signed K).mapIdx fun k a => a.eval e W y * iteratedDeriv k (W 2) y).sum
      = ∑ o ∈ Finset.range K.length, (-1) ^ o * (K.getD o (.loc (.const 0))).eval e W y * iteratedDeriv o (W 2) y := by
  have : ((signed K).mapIdx fun k a => a.eval e W y * iteratedDeriv k (W 2) y)
      = (List.range K.length).map fun o => (-1) ^ o * (K.getD o (.loc (.const 0))).eval e W y * iteratedDeriv o (W 2) y := by
    apply List.ext_getElem
    · simp [signed]
    · intro i h1 h2
      have hi : i < K.length := by simpa [signed] using h1
      simp [signed, Op.eval, Loc.eval, hi]
  rw [this, ← List.sum_toFinset _ List.nodup_range, List.toFinset_range]

lemma unsigned_getD (K : List Op) (e : Ends) (W : ℕ → ℝ → ℝ) (y : ℝ) :
    (K.mapIdx fun k a => a.eval e W y * iteratedDeriv k (W 2) y).sum
      = ∑ o ∈ Finset.range K.length, (K.getD o (.loc (.const 0))).eval e W y * iteratedDeriv o (W 2) y := by
  have : (K.mapIdx fun k a => a.eval e W y * iteratedDeriv k (W 2) y)
      = (List.range K.length).map fun o => (K.getD o (.loc (.const 0))).eval e W y * iteratedDeriv o (W 2) y := by
    apply List.ext_getElem
    · simp
    · intro i h1 h2
      have hi : i < K.length := by simpa using h1
      simp [hi]
  rw [this, ← List.sum_toFinset _ List.nodup_range, List.toFinset_range]

lemma moved_eval' (e : Ends) {nf : ℕ} {U P Q : ℕ → ℝ → ℝ} (a : Op) (h : ∀ i, nf ≤ i → i < 3 * nf → a.has i = false) (δ ε : ℝ) :
    a.eval e (moved nf U P Q δ ε) = a.eval e (shift (shift (symbols nf U P Q) (dir nf P) δ) (dir nf Q) ε) := by
  rw [moved_eval e a h]
  congr 1
  funext i y
  simp only [shift]
  ring

end Snd

/-- **C110.**  What the adjoint form is, for one equation: if `Σ_o C_o q^(o)` is the second derivative in the directions `p` and `q`, the
code computes `Σ_o (-1)^o C_o q^(o)`. -/
theorem C110_adjoint_formula (expand : List (Op × Atom) → List (Op × Atom)) (hx : IsExpandL expand) (a b : Op)
    (ha : Admissible 1 a) (hb : Admissible 1 b) :
    ∃ r c G N, compileFold expand [a] [b] 1 = some (r, c) ∧ r.ddAdj = [G] ∧
      ∀ (e : Ends) (U P : ℕ → ℝ → ℝ), (∀ i, ContDiff ℝ ∞ (U i)) → (∀ i, ContDiff ℝ ∞ (P i)) →
        ∃ C : ℕ → ℝ → ℝ, ∀ Q : ℕ → ℝ → ℝ, (∀ i, ContDiff ℝ ∞ (Q i)) → ∀ y,
          HasDerivAt (fun δ => deriv (fun ε => a.eval e (moved 1 U P Q δ ε) y) 0)
            (∑ o ∈ Finset.range N, C o y * iteratedDeriv o (Q 0) y) 0 ∧
          G.eval e (symbols 1 U P Q) y = ∑ o ∈ Finset.range N, (-1) ^ o * C o y * iteratedDeriv o (Q 0) y := by
  have hd : ∀ a : Op, diffOrder [a] 1 = a.order 0 := fun a => by simp [diffOrder]
  obtain ⟨r, c, hr, ⟨A, G0, hA, hG0, hder⟩, -⟩ := C110_second_scalar expand hx a b ha hb
  set D := diffOrder [a] 1 with hDdef
  set D' := max (diffOrder [a] 1) (diffOrder [b] 1) with hD'def
  have hDD : D ≤ D' := le_max_left _ _
  have hD0 : ∀ k, k < 1 → a.order k ≤ D := by
    intro k hk; obtain rfl : k = 0 := by omega
    exact (hd a).ge
  obtain ⟨hs, hl, hh⟩ := ha
  set dops := (block expand D 0 a).dops with hdops
  have hlen : dops.length = D + 1 := by simp [hdops, block]
  have hno : ∀ i, 1 ≤ i → i < 3 → ∀ c ∈ dops, c.has i = false := fun i h1 h2 => coeff_has hx D a i 0 (hh i h1 (by omega))
  set E := dopsExpr 2 dops with hE
  set K := (block expand D' 2 (dirExpr 1 0 E)).dops with hK
  have hES : OpSmooth E := dopsExpr_all OpSmooth trivial (fun _ _ h1 h2 => ⟨h1, h2⟩) _ _ fun c hc _ =>
    ⟨block_dops_all OpSmooth trivial (fun _ _ h1 h2 => ⟨h1, h2⟩) D 0 a
      (hx.smooth _ fun t ht => termSmooth_op t (optermsmooth a hs t ht)) c hc, trivial⟩
  have hEL : IsLocal E := dopsExpr_all IsLocal trivial (fun _ _ h1 h2 => ⟨h1, h2⟩) _ _ fun c hc _ =>
    ⟨block_dops_all IsLocal trivial (fun _ _ h1 h2 => ⟨h1, h2⟩) D 0 a
      (fun t ht => (hx.locals _ (terms_local 0 a hl) t ht).1) c hc, trivial⟩
  have hET := dopsExpr_terms 2 0 (by omega) dops 2 (hno 2 (by omega) (by omega))
  have hFS : OpSmooth (dirExpr 1 0 E) := dirExpr_all OpSmooth trivial (fun _ _ h1 h2 => ⟨h1, h2⟩) _ _ _ fun t ht _ =>
    ⟨(optermsmooth E hES t ht).1, trivial⟩
  have hFL : IsLocal (dirExpr 1 0 E) := dirExpr_all IsLocal trivial (fun _ _ h1 h2 => ⟨h1, h2⟩) _ _ _ fun t ht _ =>
    ⟨(terms_local 0 E hEL t ht).1, trivial⟩
  have hFO : (dirExpr 1 0 E).order 2 ≤ D' := by
    have hc0 : ∀ c : Op, c.has 2 = false → c.order 2 = 0 := by
      intro c
      induction c with
      | loc a => exact has_order 2 a
      | int a => exact has_order 2 a
      | add a b iha ihb => simp only [Op.has, Op.order, Bool.or_eq_false_iff]; intro h; simp [iha h.1, ihb h.2]
      | mul a b iha ihb => simp only [Op.has, Op.order, Bool.or_eq_false_iff]; intro h; simp [iha h.1, ihb h.2]
      | app g a iha => simpa [Op.has, Op.order] using iha
    refine dirExpr_all (fun F => F.order 2 ≤ D') (Nat.zero_le _) (fun _ _ h1 h2 => max_le h1 h2) _ _ _ fun t ht o => ?_
    obtain ⟨c, o', hc, h1, ho'⟩ := hET t ht
    simp only [h1, Op.order, Loc.order, hc0 c hc]
    simp
    omega
  have hFH : Homog 2 (dirExpr 1 0 E) := by
    refine dirExpr_all (Homog 2) (homog_zero 2) (fun _ _ h1 h2 => homog_add h1 h2) _ _ _ fun t ht o => ?_
    obtain ⟨c, o', hc, h1, -⟩ := hET t ht
    rw [h1]
    exact homog_mul_right (homog_mul_left hc (homog_fn 2 o')) rfl
  have hadj : r.ddAdj = [adjRow expand D' 1 [E]] := by
    simp only [compileFold, linearize, forms] at hr
    rw [exprMatrix_eq hx D 1 [a] (by simpa using hl), exprMatrix_eq hx D' 1 [b] (by simpa using hb.2.1)] at hr
    simp only [Option.bind_eq_bind, Option.bind_some, bilinear, bilinearAdj, List.length_map, List.length_cons, List.length_nil,
      zero_add, if_true, Option.some.injEq, Prod.mk.injEq] at hr
    rw [← hr.1]
    simp only [transposed, List.range_one, List.map_cons, List.map_nil, List.getD_cons_zero, if_true, ent, add_zero, mul_one]
    rw [dopsExpr_subst 1 2 dops (hno 1 (by omega) (by omega))]
  refine ⟨r, c, _, K.length, hr, hadj, ?_⟩
  intro e U P hU hP
  have z : ∀ i : ℕ, ContDiff ℝ ∞ ((fun _ _ => 0 : ℕ → ℝ → ℝ) i) := fun _ => contDiff_const
  refine ⟨fun o y => (K.getD o (.loc (.const 0))).eval e (symbols 1 U P fun _ _ => 0) y, ?_⟩
  intro Q hQ y
  have hW := symbols_smooth (nf := 1) hU hP hQ
  have hKno : ∀ o, (K.getD o (.loc (.const 0))).eval e (symbols 1 U P fun _ _ => 0) y
      = (K.getD o (.loc (.const 0))).eval e (symbols 1 U P Q) y := by
    intro o
    have hm : (K.getD o (.loc (.const 0))).has 2 = false := by
      by_cases ho : o < K.length
      · rw [getD_lt' K _ o ho]
        have h2 : ∀ t ∈ (dirExpr 1 0 E).terms 2, t.1.has 2 = false := by
          have : ∀ l : List Op, (∀ a ∈ l, ∃ c o o', c.has 2 = false ∧ a = .mul (.mul c (.loc (.fn 2 o))) (.loc (.fn 1 o')) ∨ a = .loc (.const 0)) →
              ∀ t ∈ (opSum l).terms 2, t.1.has 2 = false := by
            intro l
            induction l with
            | nil => intro _ t ht; simp [opSum, Op.terms, Loc.terms] at ht
            | cons x l ih =>
              intro hl t ht
              simp only [opSum, Op.terms, List.mem_append] at ht
              rcases ht with ht | ht
              · obtain ⟨c, o, o', ⟨hc, rfl⟩ | rfl⟩ := hl x (by simp)
                · simp [Op.terms, Loc.terms, op_terms_nil 2 c hc] at ht
                  subst ht
                  simp [Op.has, Loc.has, hc]
                · simp [Op.terms, Loc.terms] at ht
              · exact ih (fun b hb => hl b (by simp [hb])) t ht
          refine this _ fun x hm => ?_
          simp only [List.mem_map] at hm
          obtain ⟨t, ht, rfl⟩ := hm
          obtain ⟨c, o, hc, h1, -⟩ := hET t ht
          obtain ⟨-, o', ho'⟩ := terms_local 0 E hEL t ht
          refine ⟨c, o, o', Or.inl ⟨hc, ?_⟩⟩
          simp only [ho', h1, add_zero]
        exact block_dops_all (fun F => F.has 2 = false) rfl (fun _ _ h1 h2 => by simp [Op.has, h1, h2]) D' 2 _ (hx.has _ 2 h2) _
          (List.getElem_mem ho)
      · rw [getD_ge' K _ o (by omega)]; rfl
    refine congrFun (op_congr e _ fun i hi => ?_) y
    rcases Nat.lt_or_ge i 2 with h | h
    · unfold symbols
      by_cases h0 : i < 1
      · rw [if_pos h0, if_pos h0]
      · rw [if_neg h0, if_pos (by omega), if_neg h0, if_pos (by omega)]
    · by_cases h2 : i = 2
      · rw [h2, hm] at hi; simp at hi
      · unfold symbols
        rw [if_neg (by omega), if_neg (by omega), if_neg (by omega), if_neg (by omega), if_neg (by omega), if_neg (by omega)]
  simp only [hKno]
  have hW2 : symbols 1 U P Q 2 = Q 0 := symbols_Q 0 (by omega)
  have hbil := block_value hx e hW D' 2 2 (dirExpr 1 0 E) hFS hFL hFO y
  rw [hFH e _ y] at hbil
  constructor
  · have hin : ∀ δ, deriv (fun ε => a.eval e (moved 1 U P Q δ ε) y) 0 = E.eval e (shift (symbols 1 U P Q) (dir 1 P) δ) y := by
      intro δ
      simp only [moved_eval' e a hh]
      have hS := shift_smooth hW (dir_smooth (nf := 1) hP) δ
      rw [(deriv_op_all e hS (dir_smooth (nf := 1) hQ) 1 (fun i hi => dir_zero i hi) a hs hl 0 y).deriv]
      simp only [Finset.sum_range_one, shift_zero]
      rw [hE, block_value hx e hS D 0 2 a hs hl (hD0 0 (by omega)) y, shift_P δ 2 (by omega), hW2, dir_lt 0 (by omega)]
    simp only [hin]
    refine (deriv_op_all e hW (dir_smooth (nf := 1) hP) 1 (fun i hi => dir_zero i hi) E hES hEL 0 y).congr_deriv ?_
    simp only [Finset.sum_range_one, shift_zero]
    rw [← hW2, ← unsigned_getD, ← dopsExpr_eval, hbil, dirExpr_eval e _ 1 0 E hEL y, dir_lt 0 (by omega), symbols_P 0 (by omega)]
  · rw [adjRow]
    simp only [List.mapIdx_cons, List.mapIdx_nil, List.range_one, List.map_cons, List.map_nil, List.flatten_cons, List.flatten_nil,
      List.append_nil, mul_one, add_zero, opSum_eval, List.sum_cons, List.sum_nil]
    rw [dopsExpr_eval, signed_getD, hW2]

namespace Snd

lemma iter_test (o k : ℕ) (y : ℝ) : iteratedDeriv k (fun z : ℝ => (z - y) ^ o) y = if k = o then (o.factorial : ℝ) else 0 := by
  rw [iteratedDeriv_comp_sub_const k (fun z : ℝ => z ^ o) y]
  simp only [sub_self]
  rw [iteratedDeriv_eq_iterate, iter_deriv_pow]
  split_ifs with h
  · subst h
    rw [Nat.sub_self, pow_zero, mul_one, ← Nat.descFactorial_self, Nat.descFactorial_eq_prod_range, Nat.cast_prod]
    refine Finset.prod_congr rfl fun i hi => ?_
    rw [Nat.cast_sub (by simp at hi; omega)]
  · rcases Nat.lt_or_gt_of_ne h with h' | h'
    · rw [zero_pow (by omega), mul_zero]
    · rw [Finset.prod_eq_zero (i := o) (by simpa using h') (by simp), zero_mul]

end Snd

/-- **C110, in part.**  For one equation whose second derivative at a point depends on the value, and not on derivatives, of the second direction
there (for instance `L u + g(x, u)` with linear `L`) the adjoint form is the adjoint: `∫ w · G[p, q] = ∫ q · F''[p, w]`.  What is missing: equations in
which derivatives occur nonlinearly, see `C110_adjoint_fails`; systems. -/
theorem C110_adjoint_partial (expand : List (Op × Atom) → List (Op × Atom)) (hx : IsExpandL expand) (a b : Op)
    (ha : Admissible 1 a) (hb : Admissible 1 b)
    (hS : ∀ (e : Ends) (U P Q : ℕ → ℝ → ℝ), (∀ i, ContDiff ℝ ∞ (U i)) → (∀ i, ContDiff ℝ ∞ (P i)) → (∀ i, ContDiff ℝ ∞ (Q i)) →
      ∀ y, Q 0 y = 0 → deriv (fun δ => deriv (fun ε => a.eval e (moved 1 U P Q δ ε) y) 0) 0 = 0) :
    ∃ r c G, compileFold expand [a] [b] 1 = some (r, c) ∧ r.ddAdj = [G] ∧
      ∀ (e : Ends) (U P Q w : ℕ → ℝ → ℝ), (∀ i, ContDiff ℝ ∞ (U i)) → (∀ i, ContDiff ℝ ∞ (P i)) → (∀ i, ContDiff ℝ ∞ (Q i)) →
        (∀ i, ContDiff ℝ ∞ (w i)) →
        ∫ y in e.e0..e.e1, w 0 y * G.eval e (symbols 1 U P Q) y
          = ∫ y in e.e0..e.e1, Q 0 y * deriv (fun δ => deriv (fun ε => a.eval e (moved 1 U P w δ ε) y) 0) 0 := by
  obtain ⟨r, c, G, N, hr, hG, hf⟩ := C110_adjoint_formula expand hx a b ha hb
  refine ⟨r, c, G, hr, hG, ?_⟩
  intro e U P Q w hU hP hQ hw
  obtain ⟨C, hC⟩ := hf e U P hU hP
  have hC0 : ∀ y o, o < N → o ≠ 0 → C o y = 0 := by
    intro y o ho h0
    have hT : ∀ i : ℕ, ContDiff ℝ ∞ ((fun _ z => (z - y) ^ o : ℕ → ℝ → ℝ) i) := fun _ => (contDiff_id.sub contDiff_const).pow o
    have h1 := (hC _ hT y).1.deriv
    rw [hS e U P _ hU hP hT y (by simp [h0])] at h1
    simp only [iter_test, mul_ite, mul_zero] at h1
    rw [Finset.sum_ite_eq' , if_pos (by simpa using ho)] at h1
    have : (o.factorial : ℝ) ≠ 0 := by exact_mod_cast o.factorial_ne_zero
    exact (mul_eq_zero.1 h1.symm).resolve_right this
  congr 1
  funext y
  rw [(hC w hw y).1.deriv, (hC Q hQ y).2, Finset.mul_sum, Finset.mul_sum]
  refine Finset.sum_congr rfl fun o ho => ?_
  by_cases h0 : o = 0
  · subst h0; simp; ring
  · rw [hC0 y o (by simpa using ho) h0]; simp

namespace Snd

lemma burgers (e : Ends) (Q : ℕ → ℝ → ℝ) (hQ : ∀ i, ContDiff ℝ ∞ (Q i)) (y : ℝ) :
    deriv (fun δ => deriv (fun ε => (Op.loc (.mul (.fn 0 0) (.fn 0 1))).eval e (moved 1 (fun _ _ => 0) (fun _ z => z) Q δ ε) y) 0) 0
      = Q 0 y + y * deriv (Q 0) y := by
  have hd : DifferentiableAt ℝ (Q 0) y := ((hQ 0).differentiable (by simp)).differentiableAt
  have h1 : ∀ δ ε, (Op.loc (.mul (.fn 0 0) (.fn 0 1))).eval e (moved 1 (fun _ _ => 0) (fun _ z => z) Q δ ε) y
      = (δ * y + ε * Q 0 y) * (δ + ε * deriv (Q 0) y) := by
    intro δ ε
    simp only [Op.eval, Loc.eval, iteratedDeriv_zero, iteratedDeriv_one, moved, Nat.zero_lt_one, if_true, zero_add]
    congr 1
    have h := ((hasDerivAt_id y).const_mul δ).add (hd.hasDerivAt.const_mul ε)
    rw [mul_one] at h
    exact h.deriv
  simp only [h1]
  have h2 : ∀ δ : ℝ, deriv (fun ε : ℝ => (δ * y + ε * Q 0 y) * (δ + ε * deriv (Q 0) y)) 0 = δ * (Q 0 y + y * deriv (Q 0) y) := by
    intro δ
    have h := (((hasDerivAt_id (0:ℝ)).mul_const (Q 0 y)).const_add (δ * y)).mul
      (((hasDerivAt_id (0:ℝ)).mul_const (deriv (Q 0) y)).const_add δ)
    refine (h.congr_deriv ?_).deriv
    simp
    ring
  simp only [h2]
  simpa using ((hasDerivAt_id (0:ℝ)).mul_const (Q 0 y + y * deriv (Q 0) y)).deriv

end Snd

/-- **C110 fails for the adjoint.**  For `u u'` at `u = 0`, with `p = x`, `q = 1` and `w = x (1 - x)`, which vanishes at both ends of `[0, 1]`, the adjoint form
gives `∫ w · G[p, q] = 1/6`, but `∫ q · F''[p, w] = 0`: the coefficients are not differentiated. -/
theorem C110_adjoint_fails : ∃ (a b : Op) (r c : Forms) (G : Op), Admissible 1 a ∧ Admissible 1 b ∧
    compileFold expandTerms [a] [b] 1 = some (r, c) ∧ r.ddAdj = [G] ∧
    ∃ (U P Q w : ℕ → ℝ → ℝ), (∀ i, ContDiff ℝ ∞ (U i)) ∧ (∀ i, ContDiff ℝ ∞ (P i)) ∧ (∀ i, ContDiff ℝ ∞ (Q i)) ∧
      (∀ i, ContDiff ℝ ∞ (w i)) ∧ w 0 0 = 0 ∧ w 0 1 = 0 ∧
      ∫ y in (0:ℝ)..1, w 0 y * G.eval ⟨0, 1⟩ (symbols 1 U P Q) y = 1 / 6 ∧
      ∫ y in (0:ℝ)..1, Q 0 y * deriv (fun δ => deriv (fun ε => a.eval ⟨0, 1⟩ (moved 1 U P w δ ε) y) 0) 0 = 0 := by
  have ha : Admissible 1 (Op.loc (.mul (.fn 0 0) (.fn 0 1))) := by
    refine ⟨⟨trivial, trivial⟩, trivial, fun i h1 h2 => ?_⟩
    simp [Op.has, Loc.has]; omega
  have hb : Admissible 1 (Op.loc (.fn 0 0)) := by
    refine ⟨trivial, trivial, fun i h1 h2 => ?_⟩
    simp [Op.has, Loc.has]; omega
  obtain ⟨r, c, G, N, hr, hG, hf⟩ := C110_adjoint_formula expandTerms C110_expandTerms _ _ ha hb
  have hP : ∀ i : ℕ, ContDiff ℝ ∞ ((fun _ z => z : ℕ → ℝ → ℝ) i) := fun _ => contDiff_id
  have hQ : ∀ i : ℕ, ContDiff ℝ ∞ ((fun _ _ => 1 : ℕ → ℝ → ℝ) i) := fun _ => contDiff_const
  have hw : ∀ i : ℕ, ContDiff ℝ ∞ ((fun _ z => z * (1 - z) : ℕ → ℝ → ℝ) i) := fun _ =>
    contDiff_id.mul (contDiff_const.sub contDiff_id)
  obtain ⟨C, hC⟩ := hf ⟨0, 1⟩ (fun _ _ => 0) (fun _ z => z) isSmooth_zero hP
  refine ⟨_, _, r, c, G, ha, hb, hr, hG, fun _ _ => 0, fun _ z => z, fun _ _ => 1, fun _ z => z * (1 - z), isSmooth_zero, hP, hQ, hw,
    by simp, by simp, ?_, ?_⟩
  · have hone : ∀ y, G.eval ⟨0, 1⟩ (symbols 1 (fun _ _ => 0) (fun _ z => z) fun _ _ => 1) y = 1 := by
      intro y
      obtain ⟨h1, h2⟩ := hC _ hQ y
      have h3 := h1.deriv
      rw [burgers _ _ hQ y] at h3
      simp only [deriv_const, mul_zero, add_zero] at h3
      rw [h2]
      refine Eq.trans ?_ h3.symm
      refine Finset.sum_congr rfl fun o _ => ?_
      by_cases h0 : o = 0
      · subst h0; simp
      · rw [iteratedDeriv_const, if_neg h0]; simp
    simp only [hone, mul_one]
    have : (fun y : ℝ => y * (1 - y)) = fun y => y - y ^ 2 := by funext y; ring
    rw [this, intervalIntegral.integral_sub (by simp) (by simp)]
    simp
    norm_num
  · simp only [burgers _ _ hw, one_mul]
    have : (fun y : ℝ => y * (1 - y) + y * deriv (fun z : ℝ => z * (1 - z)) y) = fun y => 2 * y - 3 * y ^ 2 := by
      funext y
      have h := (hasDerivAt_id y).mul ((hasDerivAt_id y).const_sub 1)
      rw [show deriv (fun z : ℝ => z * (1 - z)) y = 1 * (1 - y) + y * (-1) from h.deriv]
      ring
    rw [this, intervalIntegral.integral_sub (by apply Continuous.intervalIntegrable; fun_prop) (by apply Continuous.intervalIntegrable; fun_prop),
      intervalIntegral.integral_const_mul]
    simp
    norm_num

/-! ### Parameters -/

namespace Snd

/-- The direction of a parameter. -/
def ind (J : ℕ) : ℕ → ℝ → ℝ := fun i _ => if i = J then 1 else 0

lemma ind_smooth (J i : ℕ) : ContDiff ℝ ∞ (ind J i) := contDiff_const

lemma setPar_smooth {U : ℕ → ℝ → ℝ} (hU : ∀ i, ContDiff ℝ ∞ (U i)) (J : ℕ) (c : ℝ) (i : ℕ) : ContDiff ℝ ∞ (setPar U J c i) := by
  unfold setPar; split_ifs
  · exact contDiff_const
  · exact hU i

lemma setPar_shift (U : ℕ → ℝ → ℝ) (J : ℕ) (c : ℝ) : setPar U J c = shift (setPar U J 0) (ind J) c := by
  funext i y
  simp only [setPar, shift, ind]
  split_ifs <;> simp

lemma deriv_par_loc {U : ℕ → ℝ → ℝ} (hU : ∀ i, ContDiff ℝ ∞ (U i)) (J : ℕ) (a : Loc) (ha : LocSmooth a) (c y : ℝ) :
    HasDerivAt (fun c => a.eval (setPar U J c) y) ((a.dpar J).eval (setPar U J c) y) c := by
  induction a generalizing y c with
  | x => exact hasDerivAt_const c y
  | const d => exact hasDerivAt_const c d
  | fn i k =>
    simp only [Loc.eval, Loc.dpar]
    by_cases hi : i = J
    · subst hi
      by_cases hk : k = 0
      · subst hk
        simp only [and_self, if_true, iteratedDeriv_zero, setPar, Loc.eval]
        exact hasDerivAt_id c
      · rw [if_neg (by tauto)]
        simp only [setPar, if_true, iteratedDeriv_const, if_neg hk, Loc.eval]
        exact hasDerivAt_const c 0
    · rw [if_neg (by tauto)]
      simp only [setPar, if_neg hi, Loc.eval]
      exact hasDerivAt_const c _
  | add a b iha ihb => exact (iha ha.1 c y).add (ihb ha.2 c y)
  | mul a b iha ihb => exact (iha ha.1 c y).mul (ihb ha.2 c y)
  | pow a n iha =>
    refine ((iha ha c y).pow n).congr_deriv ?_
    simp only [Loc.dpar, Loc.eval]
  | app g a iha =>
    exact ((ha.1.differentiable (by simp)).differentiableAt.hasDerivAt).comp c (iha ha.2 c y)
  | der a iha =>
    have h := mixed (smoothS (setPar_smooth hU J 0) (ind_smooth J) a ha) c y
    simp only [← setPar_shift] at h
    simp only [(iha ha c _).deriv] at h
    exact h

lemma deriv_par (e : Ends) {U : ℕ → ℝ → ℝ} (hU : ∀ i, ContDiff ℝ ∞ (U i)) (J : ℕ) (a : Op) (ha : OpSmooth a) (c y : ℝ) :
    HasDerivAt (fun c => a.eval e (setPar U J c) y) ((a.dpar J).eval e (setPar U J c) y) c := by
  induction a with
  | loc a => exact deriv_par_loc hU J a ha c y
  | int a =>
    have h := deriv_int (smoothS (setPar_smooth hU J 0) (ind_smooth J) a ha) e.e0 e.e1 c
    simp only [← setPar_shift] at h
    simp only [(deriv_par_loc hU J a ha c _).deriv] at h
    exact h
  | add a b iha ihb => exact (iha ha.1).add (ihb ha.2)
  | mul a b iha ihb => exact (iha ha.1).mul (ihb ha.2)
  | app g a iha => exact ((ha.1.differentiable (by simp)).differentiableAt.hasDerivAt).comp c (iha ha.2)

end Snd

/-- **C110, in part.**  If the parameter occurs in some equation, `dp` has one component for every equation, the derivative of the
equation (integrals included) with respect to the parameter.  What is missing: see `C110_dp_absent_fails`. -/
theorem C110_dp_partial (eqns cts : List Op) (J : ℕ) (hs : ∀ a ∈ eqns, OpSmooth a) (hJ : ∃ a ∈ eqns, a.has J = true) :
    ∃ l, callDp eqns cts J = some l ∧ l.length = eqns.length ∧
      ∀ (i : ℕ) (a d : Op), eqns[i]? = some a → l[i]? = some d → ∀ (e : Ends) (U : ℕ → ℝ → ℝ), (∀ i, ContDiff ℝ ∞ (U i)) → ∀ c y,
        HasDerivAt (fun c => a.eval e (setPar U J c) y) (d.eval e (setPar U J c) y) c := by
  have h1 : compileDp eqns cts J = eqns.map (Op.dpar J) := by
    rw [compileDp, if_pos]
    rw [List.any_eq_true]
    exact hJ
  obtain ⟨a0, ha0, -⟩ := hJ
  have h2 : callDp eqns cts J = some (eqns.map (Op.dpar J)) := by
    rw [callDp, h1]
    cases eqns with
    | nil => simp at ha0
    | cons a l => rfl
  refine ⟨_, h2, by simp, ?_⟩
  intro i a d hi hd e U hU c y
  simp only [List.getElem?_map, hi, Option.map_some, Option.some.injEq] at hd
  subst hd
  exact deriv_par e hU J a (hs a (List.mem_of_getElem? hi)) c y

/-- **C110 fails for a parameter that does not occur in the equations.**  Without constraints the call raises; with constraints, the derivatives of the
constraints are returned in place of those of the equations, which are zero. -/
theorem C110_dp_absent_fails (eqns : List Op) (J : ℕ) (hJ : ∀ a ∈ eqns, a.has J = false) :
    callDp eqns [] J = none ∧ ∀ cts l, callDp eqns cts J = some l → l = cts.map (Op.dpar J) := by
  have h1 : ∀ cts, compileDp eqns cts J = cts.map (Op.dpar J) := by
    intro cts
    rw [compileDp, if_neg]
    rw [List.any_eq_true]
    rintro ⟨a, ha, h⟩
    rw [hJ a ha] at h
    simp at h
  refine ⟨by rw [callDp, h1]; rfl, fun cts l h => ?_⟩
  rw [callDp, h1] at h
  cases cts with
  | nil => simp at h
  | cons b cts => simpa using h.symm

namespace Snd

lemma loc_dpar_has (J i : ℕ) (a : Loc) (h : a.has i = false) : (a.dpar J).has i = false := by
  induction a with
  | x => rfl
  | const c => rfl
  | fn m k => simp only [Loc.dpar]; split_ifs <;> rfl
  | add a b iha ihb => simp only [Loc.has, Bool.or_eq_false_iff] at h; simp [Loc.dpar, Loc.has, iha h.1, ihb h.2]
  | mul a b iha ihb => simp only [Loc.has, Bool.or_eq_false_iff] at h; simp [Loc.dpar, Loc.has, iha h.1, ihb h.2, h.1, h.2]
  | pow a n iha => simp only [Loc.has] at h; simp [Loc.dpar, Loc.has, iha h, h]
  | app g a iha => simp only [Loc.has] at h; simp [Loc.dpar, Loc.has, iha h, h]
  | der a iha => simp only [Loc.has] at h; simp [Loc.dpar, Loc.has, iha h]

lemma op_dpar_has (J i : ℕ) (a : Op) (h : a.has i = false) : (a.dpar J).has i = false := by
  induction a with
  | loc a => exact loc_dpar_has J i a h
  | int a => exact loc_dpar_has J i a h
  | add a b iha ihb => simp only [Op.has, Bool.or_eq_false_iff] at h; simp [Op.dpar, Op.has, iha h.1, ihb h.2]
  | mul a b iha ihb => simp only [Op.has, Bool.or_eq_false_iff] at h; simp [Op.dpar, Op.has, iha h.1, ihb h.2, h.1, h.2]
  | app g a iha => simp only [Op.has] at h; simp [Op.dpar, Op.has, iha h, h]

lemma loc_dpar_smooth (J : ℕ) (a : Loc) (h : LocSmooth a) : LocSmooth (a.dpar J) := by
  induction a with
  | x => trivial
  | const c => trivial
  | fn m k => simp only [Loc.dpar]; split_ifs <;> trivial
  | add a b iha ihb => exact ⟨iha h.1, ihb h.2⟩
  | mul a b iha ihb => exact ⟨⟨iha h.1, h.2⟩, ⟨h.1, ihb h.2⟩⟩
  | pow a n iha => exact ⟨⟨trivial, h⟩, iha h⟩
  | app g a iha => exact ⟨⟨(contDiff_infty_iff_deriv.1 h.1).2, h.2⟩, iha h.2⟩
  | der a iha => exact iha h

lemma op_dpar_smooth (J : ℕ) (a : Op) (h : OpSmooth a) : OpSmooth (a.dpar J) := by
  induction a with
  | loc a => exact loc_dpar_smooth J a h
  | int a => exact loc_dpar_smooth J a h
  | add a b iha ihb => exact ⟨iha h.1, ihb h.2⟩
  | mul a b iha ihb => exact ⟨⟨iha h.1, h.2⟩, ⟨h.1, ihb h.2⟩⟩
  | app g a iha => exact ⟨⟨(contDiff_infty_iff_deriv.1 h.1).2, h.2⟩, iha h.2⟩

lemma op_dpar_local (J : ℕ) (a : Op) (h : IsLocal a) : IsLocal (a.dpar J) := by
  induction a with
  | loc a => trivial
  | int a => exact h.elim
  | add a b iha ihb => exact ⟨iha h.1, ihb h.2⟩
  | mul a b iha ihb => exact ⟨⟨iha h.1, h.2⟩, ⟨h.1, ihb h.2⟩⟩
  | app g a iha => exact ⟨h, iha h⟩

lemma op_has_order (i : ℕ) (c : Op) : c.has i = false → c.order i = 0 := by
  induction c with
  | loc a => exact has_order i a
  | int a => exact has_order i a
  | add a b iha ihb => simp only [Op.has, Op.order, Bool.or_eq_false_iff]; intro h; simp [iha h.1, ihb h.2]
  | mul a b iha ihb => simp only [Op.has, Op.order, Bool.or_eq_false_iff]; intro h; simp [iha h.1, ihb h.2]
  | app g a iha => simpa [Op.has, Op.order] using iha

/-- The derivative of a linear expression with respect to a parameter. -/
lemma dpar_props (J m : ℕ) (hJm : m ≠ J) (dops : List Op) (h : ∀ c ∈ dops, c.has m = false) :
    Homog m ((dopsExpr m dops).dpar J) ∧ ((dopsExpr m dops).dpar J).order m ≤ dops.length - 1 := by
  have gen : ∀ (l : List Op), (∀ a ∈ l, ∃ c o, c.has m = false ∧ a = .mul c (.loc (.fn m o)) ∧ o < dops.length) →
      Homog m ((opSum l).dpar J) ∧ ((opSum l).dpar J).order m ≤ dops.length - 1 := by
    intro l
    induction l with
    | nil => intro _; exact ⟨homog_zero m, Nat.zero_le _⟩
    | cons a l ih =>
      intro hl
      obtain ⟨h1, h2⟩ := ih fun b hb => hl b (by simp [hb])
      obtain ⟨c, o, hc, rfl, ho⟩ := hl a (by simp)
      simp only [opSum, Op.dpar, Loc.dpar, if_neg (show ¬ (m = J ∧ o = 0) by tauto)]
      refine ⟨homog_add (homog_add (homog_mul_left (op_dpar_has J m c hc) (homog_fn m o)) (homog_mul_left hc (homog_zero m))) h1, ?_⟩
      simp only [Op.order, Loc.order, op_has_order m _ (op_dpar_has J m c hc), op_has_order m c hc, if_true]
      omega
  refine gen _ fun a hm => ?_
  rw [List.mem_mapIdx] at hm
  obtain ⟨o, ho, rfl⟩ := hm
  exact ⟨_, o, h _ (List.getElem_mem ho), rfl, ho⟩

lemma symbols_setPar (nf J : ℕ) (hJ : 3 * nf ≤ J) (U P Q : ℕ → ℝ → ℝ) (c : ℝ) :
    symbols nf (setPar U J c) P Q = setPar (symbols nf U P Q) J c := by
  funext i
  simp only [symbols, setPar]
  by_cases h : i = J
  · subst h
    rw [if_neg (by omega), if_neg (by omega), if_neg (by omega), if_pos rfl, if_pos rfl]
  · simp only [if_neg h]

end Snd

/-- **C110.**  Mixed derivatives: for local equations the derivative of the linearised operator with respect to a parameter, applied to `u_p`, is the
derivative with respect to the parameter of the derivative in the direction `u_p`. -/
theorem C110_dxdp (expand : List (Op × Atom) → List (Op × Atom)) (hx : IsExpandL expand) (nf J : ℕ) (hJ : 3 * nf ≤ J) (eqns cts : List Op)
    (hE : ∀ a ∈ eqns, Admissible nf a) (hC : ∀ a ∈ cts, Admissible nf a) (hnE : eqns.length = nf) (hnC : cts.length = nf)
    (hoE : ∀ a ∈ eqns, ∀ k, k < nf → a.order k ≤ diffOrder eqns nf)
    (hoC : ∀ a ∈ cts, ∀ k, k < nf → a.order k ≤ max (diffOrder eqns nf) (diffOrder cts nf)) :
    ∃ l, compileDxdp expand eqns cts nf J = some l ∧ l.length = nf ∧
      ∀ (i : ℕ) (a G : Op), eqns[i]? = some a → l[i]? = some G →
        ∀ (e : Ends) (U P Q : ℕ → ℝ → ℝ), (∀ i, ContDiff ℝ ∞ (U i)) → (∀ i, ContDiff ℝ ∞ (P i)) → (∀ i, ContDiff ℝ ∞ (Q i)) → ∀ c y,
          HasDerivAt (fun c => deriv (fun δ => a.eval e (moved nf (setPar U J c) P Q δ 0) y) 0)
            (G.eval e (symbols nf (setPar U J c) P Q) y) c := by
  obtain ⟨r, c, hr, -, -, -⟩ := C110_second expand hx nf eqns cts hE hC hnE hnC hoE hoC
  set D := diffOrder eqns nf with hD
  set D' := max (diffOrder eqns nf) (diffOrder cts nf) with hD'
  have hDD : D ≤ D' := le_max_left _ _
  have hM : exprMatrix nf (linearize expand eqns nf) = some (eqns.map fun a => (List.range nf).map (ent expand D nf a)) :=
    exprMatrix_eq hx D nf eqns (fun a h => (hE a h).2.1)
  refine ⟨(eqns.map fun a => (List.range nf).map (ent expand D nf a)).map (dxdpRow expand D' nf J), ?_, by simp [hnE], ?_⟩
  · simp only [compileDxdp, hr, hM, Option.bind_eq_bind, Option.bind_some, List.length_map, hnE, if_true]
    rfl
  intro i a G hi hG e U P Q hU hP hQ c y
  simp only [List.getElem?_map, hi, Option.map_some, Option.some.injEq] at hG
  subst hG
  have hm := List.mem_of_getElem? hi
  obtain ⟨hs, hl, hh⟩ := hE a hm
  have hW : ∀ c i, ContDiff ℝ ∞ (setPar (symbols nf U P Q) J c i) := fun c => setPar_smooth (symbols_smooth hU hP hQ) J c
  have hin : ∀ c, deriv (fun δ => a.eval e (moved nf (setPar U J c) P Q δ 0) y) 0
      = ∑ j ∈ Finset.range nf, (ent expand D nf a j).eval e (setPar (symbols nf U P Q) J c) y := by
    intro c
    rw [((derivs hx D D' nf a ⟨hs, hl, hh⟩ (hoE a hm) hDD).first e (setPar U J c) P Q (setPar_smooth hU J c) hP hQ y).deriv, action_eval,
      symbols_setPar nf J hJ]
  simp only [hin, symbols_setPar nf J hJ]
  refine (HasDerivAt.fun_sum (u := Finset.range nf) fun j _ => deriv_par e (symbols_smooth hU hP hQ) J (ent expand D nf a j)
    (ent_smooth hx D nf a hs j) c y).congr_deriv ?_
  rw [dxdpRow, mapIdx_range, opSum_eval, List.map_map, ← List.sum_toFinset _ List.nodup_range, List.toFinset_range]
  refine Finset.sum_congr rfl fun j hj => ?_
  have hj' : j < nf := by simpa using hj
  obtain ⟨h1, h2⟩ := dpar_props J (nf + j) (by omega) (block expand D j a).dops (coeff_has hx D a (nf + j) j (hh _ (by omega) (by omega)))
  have hlen : (block expand D j a).dops.length - 1 = D := by simp [block]
  rw [Function.comp_apply, block_value hx e (hW c) D' (nf + j) (nf + j) _ (op_dpar_smooth J _ (ent_smooth hx D nf a hs j))
    (op_dpar_local J _ (ent_local hx D nf a hl j)) (h2.trans (by omega)) y]
  exact (h1 e _ y).symm

/-- **C110 fails for a named parameter.**  `dxdp(u, up, pname)` returns the derivative with respect to the continuation parameter whatever
`pname` is; `dp(u, pname)` honours the name. -/
theorem C110_pname_fails : (∀ {α : Type} (fs : ℕ → Option α) (cpar p : ℕ), callDxdp fs cpar (some p) = callDxdp fs cpar none) ∧
    (∀ {α : Type} (fs : ℕ → Option α) (cpar p : ℕ), callPDer fs cpar (some p) = fs p) ∧
    ∃ (fs : ℕ → Option ℕ) (cpar p : ℕ), callDxdp fs cpar (some p) ≠ fs p :=
  ⟨fun _ _ _ => rfl, fun _ _ _ => rfl, fun n => some n, 0, 1, by simp [callDxdp]⟩

/-! ### Concrete cases -/

/-- `u'' + λ sin(u)` with the parameter `λ = fn 3 0`. -/
noncomputable def Snd.exPar : Op := .loc (.add (.fn 0 2) (.mul (.fn 3 0) (.app Real.sin (.fn 0 0))))

/-- The hypotheses of `C110_second_scalar`, `C110_dxdp`, `C110_dp_partial` and `C110_adjoint_partial` are met by
`u'' + λ sin(u) = 0`. -/
example : Admissible 1 exPar ∧ exPar.has 3 = true ∧ diffOrder [exPar] 1 = 2 ∧
    ∀ (e : Ends) (U P Q : ℕ → ℝ → ℝ), (∀ i, ContDiff ℝ ∞ (U i)) → (∀ i, ContDiff ℝ ∞ (P i)) → (∀ i, ContDiff ℝ ∞ (Q i)) →
      ∀ y, Q 0 y = 0 → deriv (fun δ => deriv (fun ε => exPar.eval e (moved 1 U P Q δ ε) y) 0) 0 = 0 := by
  have hA : Admissible 1 exPar := by
    refine ⟨⟨trivial, trivial, Real.contDiff_sin, trivial⟩, trivial, fun i h1 h2 => ?_⟩
    simp [exPar, Op.has, Loc.has]; omega
  refine ⟨hA, by simp [exPar, Op.has, Loc.has], by simp [diffOrder, exPar, Op.order, Loc.order], ?_⟩
  intro e U P Q hU hP hQ y h0
  have h1 : ∀ δ ε, exPar.eval e (moved 1 U P Q δ ε) y = iteratedDeriv 2 (shift U P δ 0) y + ε * iteratedDeriv 2 (Q 0) y
      + U 3 y * Real.sin (U 0 y + δ * P 0 y) := by
    intro δ ε
    have hm : moved 1 U P Q δ ε 0 = shift (shift U P δ) Q ε 0 := by
      funext z; simp [moved, shift]
    simp only [exPar, Op.eval, Loc.eval, hm, iter_shift (shift_smooth hU hP δ) hQ, iteratedDeriv_zero]
    simp [moved, shift, h0]
  simp only [h1]
  have h2 : ∀ δ : ℝ, deriv (fun ε : ℝ => iteratedDeriv 2 (shift U P δ 0) y + ε * iteratedDeriv 2 (Q 0) y
      + U 3 y * Real.sin (U 0 y + δ * P 0 y)) 0 = iteratedDeriv 2 (Q 0) y := by
    intro δ
    have := (((hasDerivAt_id (0:ℝ)).mul_const (iteratedDeriv 2 (Q 0) y)).const_add (iteratedDeriv 2 (shift U P δ 0) y)).add_const
      (U 3 y * Real.sin (U 0 y + δ * P 0 y))
    rw [one_mul] at this
    exact this.deriv
  simp only [h2, deriv_const]

/-- A system of two equations with a constraint each that meets the hypotheses of `C110_second`: `u'' + u v = 0`, `v'' + u^2 = 0` with `u v = 0`, `v = 0`. -/
example : ∃ eqns cts : List Op, (∀ a ∈ eqns, Admissible 2 a) ∧ (∀ a ∈ cts, Admissible 2 a) ∧ eqns.length = 2 ∧ cts.length = 2 ∧
    (∀ a ∈ eqns, ∀ k, k < 2 → a.order k ≤ diffOrder eqns 2) ∧
    ∀ a ∈ cts, ∀ k, k < 2 → a.order k ≤ max (diffOrder eqns 2) (diffOrder cts 2) := by
  refine ⟨[.loc (.add (.fn 0 2) (.mul (.fn 0 0) (.fn 1 0))), .loc (.add (.fn 1 2) (.pow (.fn 0 0) 2))],
    [.loc (.mul (.fn 0 0) (.fn 1 0)), .loc (.fn 1 0)], ?_, ?_, rfl, rfl, ?_, ?_⟩
  · intro a ha
    simp only [List.mem_cons, List.not_mem_nil, or_false] at ha
    rcases ha with rfl | rfl
    all_goals
      refine ⟨by simp [OpSmooth, LocSmooth], trivial, fun i h1 h2 => ?_⟩
      simp [Op.has, Loc.has]; omega
  · intro a ha
    simp only [List.mem_cons, List.not_mem_nil, or_false] at ha
    rcases ha with rfl | rfl
    all_goals
      refine ⟨by simp [OpSmooth, LocSmooth], trivial, fun i h1 h2 => ?_⟩
      simp [Op.has, Loc.has]; omega
  · intro a ha k hk
    simp only [List.mem_cons, List.not_mem_nil, or_false] at ha
    rcases ha with rfl | rfl <;> interval_cases k <;> simp [diffOrder, Op.order, Loc.order, List.range_succ]
  · intro a ha k hk
    simp only [List.mem_cons, List.not_mem_nil, or_false] at ha
    rcases ha with rfl | rfl <;> interval_cases k <;> simp [diffOrder, Op.order, Loc.order, List.range_succ]

end Funpy.Props
