import Verif.Model.ChebColloc
import Verif.Props.ChebPts
import Verif.Props.ChebCompose

/-!
# C96, C97: value collocation and boundary rows
-/

namespace Funpy.Props
open Spec Cheb Real Finset Polynomial Mapping

/-! ## Specification -/

/-- The meaning of a function-valued expression: the function and its derivatives. -/
noncomputable def FE.sem (u : ℝ → ℝ) : FE → ℝ → ℝ
  | .u => u
  | .diff k f => iteratedDeriv (k + 1) (FE.sem u f)

/-- The meaning of a boundary condition: the number obtained by evaluating the expression. -/
noncomputable def BC.sem (u : ℝ → ℝ) : BC → ℝ
  | .ev f y => FE.sem u f y
  | .const c => c
  | .add a b => BC.sem u a + BC.sem u b
  | .sub a b => BC.sem u a - BC.sem u b
  | .neg a => -BC.sem u a
  | .smul c a => c * BC.sem u a

/-- All evaluation points lie in the domain. -/
def BC.PointsIn (e : Ends) : BC → Prop
  | .ev _ y => e.e0 ≤ y ∧ y ≤ e.e1
  | .const _ => True
  | .add a b => BC.PointsIn e a ∧ BC.PointsIn e b
  | .sub a b => BC.PointsIn e a ∧ BC.PointsIn e b
  | .neg a => BC.PointsIn e a
  | .smul _ a => BC.PointsIn e a

/-- The condition mentions the unknown. -/
def BC.Mentions : BC → Prop
  | .ev _ _ => True
  | .const _ => False
  | .add a b => BC.Mentions a ∨ BC.Mentions b
  | .sub a b => BC.Mentions a ∨ BC.Mentions b
  | .neg a => BC.Mentions a
  | .smul _ a => BC.Mentions a

/-- The condition contains no derivative. -/
def BC.NoDiff : BC → Prop
  | .ev f _ => f = FE.u
  | .const _ => True
  | .add a b => BC.NoDiff a ∧ BC.NoDiff b
  | .sub a b => BC.NoDiff a ∧ BC.NoDiff b
  | .neg a => BC.NoDiff a
  | .smul _ a => BC.NoDiff a

/-! ## C96 -/

lemma colloc_x (n : ℕ) (hn : 2 ≤ n) (e : Ends) :
    (chebptsType2 n e).x = (chebpts2 n).map (fwd e) ∧ (chebptsType2 n e).v = baryWeights n := by
  constructor
  · simp only [chebptsType2, if_neg (by omega : ¬ n = 0), if_neg (by omega : ¬ n = 1), scaleNodes_eq]
    apply List.map_congr_left
    intro t _
    rw [fwd]; ring
  · simp only [chebptsType2, if_neg (by omega : ¬ n = 0), if_neg (by omega : ¬ n = 1)]

lemma colloc_x_getD (n : ℕ) (hn : 2 ≤ n) (e : Ends) (i : ℕ) (hi : i < n) :
    (chebptsType2 n e).x.getD i 0 = fwd e (nd n i) := by
  rw [(colloc_x n hn e).1, getD_lt' _ _ _ (by simp [chebpts2_length]; omega), List.getElem_map, nd,
    getD_lt' _ _ _ (by simp [chebpts2_length]; omega)]

private lemma fwd_sub (e : Ends) (s t : ℝ) : fwd e s - fwd e t = (e.e1 - e.e0) / 2 * (s - t) := by
  simp only [fwd]; ring

private lemma negSum_scale (N : ℕ) (s : ℝ) (D D' : ℕ → ℕ → ℝ)
    (h : ∀ i j, i < N → j < N → i ≠ j → D' i j = s * D i j) :
    ∀ i j, i < N → j < N → negSumTrick N D' i j = s * negSumTrick N D i j := by
  intro i j hi hj
  simp only [negSumTrick]
  split_ifs with hij
  · rw [mul_neg, mul_sum]
    congr 1
    apply sum_congr rfl
    intro l hl
    split_ifs with hil
    · rw [mul_zero]
    · exact h i l hi (mem_range.mp hl) hil
  · exact h i j hi hj hij

private lemma diffDx_scale (n : ℕ) (hn : 2 ≤ n) (e : Ends) (i j : ℕ) (hi : i < n) (hj : j < n) (hij : i ≠ j) :
    diffDx ((chebpts2 n).map (fwd e)) i j = (e.e1 - e.e0) / 2 * diffDx (chebpts2 n) i j := by
  have hx : ∀ i, i < n → ((chebpts2 n).map (fwd e)).getD i 0 = fwd e ((chebpts2 n).getD i 0) := by
    intro i hi
    rw [getD_lt' _ _ _ (by simp [chebpts2_length]; omega), List.getElem_map,
      getD_lt' _ _ _ (by simp [chebpts2_length]; omega)]
  simp only [diffDx, List.length_map, chebpts2_length, if_neg hij]
  rw [hx i hi, hx j hj, hx _ (by omega), hx _ (by omega), fwd_sub, fwd_sub]
  split_ifs <;> ring

private lemma diffLoop_scale (n : ℕ) (hn : 2 ≤ n) (e : Ends) (s : ℝ) (hs : s = ((e.e1 - e.e0) / 2)⁻¹) :
    ∀ (cnt q k : ℕ) (D D' : ℕ → ℕ → ℝ), (∀ i j, i < n → j < n → D' i j = s ^ q * D i j) →
    ∀ i j, i < n → j < n → diffLoop ((chebpts2 n).map (fwd e)) cnt k D' i j
      = s ^ (q + cnt) * diffLoop (chebpts2 n) cnt k D i j
  | 0, q, k, D, D', h, i, j, hi, hj => by simpa [diffLoop] using h i j hi hj
  | cnt + 1, q, k, D, D', h, i, j, hi, hj => by
    simp only [diffLoop, List.length_map, chebpts2_length]
    rw [show q + (cnt + 1) = (q + 1) + cnt by omega]
    apply diffLoop_scale n hn e s hs cnt (q + 1) (k + 1) _ _ _ i j hi hj
    apply negSum_scale
    intro i j hi hj hij
    rw [diffDx_scale n hn e i j hi hj hij, h i i hi hi, h i j hi hj, hs, one_div, one_div, mul_inv]
    ring

/-- `diffmat` on the points of the interval is `diffmat` on `[-1,1]` scaled by `(2 / length)^k`. -/
lemma diffmat_scale (n : ℕ) (hn : 2 ≤ n) (e : Ends) (k : ℕ) (i j : ℕ) (hi : i < n) (hj : j < n) :
    diffmat ((chebpts2 n).map (fwd e)) k i j
      = (((e.e1 - e.e0) / 2)⁻¹) ^ k * diffmat (chebpts2 n) k i j := by
  set s := ((e.e1 - e.e0) / 2)⁻¹ with hs
  have h1 : ∀ i j, i < n → j < n →
      negSumTrick n (fun i j => diffDw n i j * (1 / diffDx ((chebpts2 n).map (fwd e)) i j)) i j
        = s * negSumTrick n (fun i j => diffDw n i j * (1 / diffDx (chebpts2 n) i j)) i j := by
    apply negSum_scale
    intro i j hi hj hij
    rw [diffDx_scale n hn e i j hi hj hij, one_div, one_div, mul_inv]
    ring
  have h2 : ∀ i j, i < n → j < n →
      negSumTrick n (fun i j => 2 * negSumTrick n (fun i j => diffDw n i j * (1 / diffDx ((chebpts2 n).map (fwd e)) i j)) i j
        * (negSumTrick n (fun i j => diffDw n i j * (1 / diffDx ((chebpts2 n).map (fwd e)) i j)) i i
          - 1 / diffDx ((chebpts2 n).map (fwd e)) i j)) i j
      = s ^ 2 * negSumTrick n (fun i j => 2 * negSumTrick n (fun i j => diffDw n i j * (1 / diffDx (chebpts2 n) i j)) i j
        * (negSumTrick n (fun i j => diffDw n i j * (1 / diffDx (chebpts2 n) i j)) i i
          - 1 / diffDx (chebpts2 n) i j)) i j := by
    apply negSum_scale
    intro i j hi hj hij
    rw [h1 i j hi hj, h1 i i hi hi, diffDx_scale n hn e i j hi hj hij, one_div, one_div, mul_inv]
    ring
  simp only [diffmat, List.length_map, chebpts2_length]
  match k with
  | 0 => simp
  | 1 => simpa using h1 i j hi hj
  | 2 => simpa using h2 i j hi hj
  | k + 3 =>
    rw [if_neg (by omega), if_neg (by omega), if_neg (by omega), if_neg (by omega), if_neg (by omega), if_neg (by omega)]
    have := diffLoop_scale n hn e s hs (k + 1) 2 3 _ _ h2 i j hi hj
    rw [show k + 3 - 2 = k + 1 by omega, this]
    congr 2
    omega

/-- The polynomial `p ∘ fwd` on `[-1,1]`. -/
noncomputable def pull (e : Ends) (p : ℝ[X]) : ℝ[X] :=
  p.comp (C ((e.e1 - e.e0) / 2) * X + C ((e.e1 + e.e0) / 2))

lemma pull_eval (e : Ends) (p : ℝ[X]) (t : ℝ) : (pull e p).eval t = p.eval (fwd e t) := by
  simp only [pull, eval_comp, eval_add, eval_mul, eval_C, eval_X, fwd]
  congr 1; ring

lemma pull_degree (e : Ends) (p : ℝ[X]) (n : ℕ) (hp : p.degree < n) : (pull e p).degree < n := by
  by_cases hp0 : p = 0
  · rw [pull, hp0, zero_comp, degree_zero]; exact WithBot.bot_lt_coe n
  · have h1 : p.natDegree < n := (natDegree_lt_iff_degree_lt hp0).mpr hp
    have h2 : (pull e p).natDegree < n := by
      refine lt_of_le_of_lt natDegree_comp_le ?_
      calc p.natDegree * _ ≤ p.natDegree * 1 := Nat.mul_le_mul_left _ natDegree_linear_le
        _ < n := by omega
    exact lt_of_le_of_lt degree_le_natDegree (by exact_mod_cast h2)

lemma pull_derivative (e : Ends) (p : ℝ[X]) (k : ℕ) :
    derivative^[k] (pull e p) = C (((e.e1 - e.e0) / 2) ^ k) * pull e (derivative^[k] p) := by
  induction k with
  | zero => simp
  | succ k ih =>
    rw [Function.iterate_succ_apply', ih, derivative_C_mul, Function.iterate_succ_apply' derivative]
    simp only [pull, derivative_comp, derivative_add, derivative_mul, derivative_C, derivative_X, zero_mul,
      zero_add, mul_one, add_zero, pow_succ, C_mul]
    ring

/-- C96: `np.diff` of a collocation object of polynomials of degree less than the number of points is
the collocation object of the derivatives, on every domain and for every order. -/
theorem C96_diff (f : Colloc) (hn : 2 ≤ f.n) (hd : f.dom.e0 < f.dom.e1) (P : ℕ → ℝ[X])
    (hP : ∀ j, j < f.m → (P j).degree < f.n)
    (hv : ∀ i j, i < f.n → j < f.m → f.vals i j = (P j).eval ((chebptsType2 f.n f.dom).x.getD i 0)) (k : ℕ) :
    ∃ g, f.diff k = some g ∧ g.dom = f.dom ∧ g.n = f.n ∧ g.m = f.m ∧
      ∀ i j, i < f.n → j < f.m →
        g.vals i j = (derivative^[k] (P j)).eval ((chebptsType2 f.n f.dom).x.getD i 0) := by
  have hl : (f.dom.e1 - f.dom.e0) / 2 ≠ 0 := by
    have : 0 < f.dom.e1 - f.dom.e0 := by linarith
    positivity
  by_cases hk : k = 0
  · subst hk
    exact ⟨f, by simp [Colloc.diff], rfl, rfl, rfl, fun i j hi hj => by simpa using hv i j hi hj⟩
  refine ⟨{ f with vals := fun i j => ∑ l ∈ range f.n, diffmat f.pts.x k i l * f.vals l j },
    by rw [Colloc.diff, if_neg hk, if_neg (by omega)], rfl, rfl, rfl, ?_⟩
  intro i j hi hj
  simp only [Colloc.pts]
  have h58 := C58_diffmat f.n hn k (pull f.dom (P j)) (pull_degree _ _ _ (hP j hj)) i hi
  have h1 : ∀ l ∈ range f.n, diffmat (chebptsType2 f.n f.dom).x k i l * f.vals l j
      = (((f.dom.e1 - f.dom.e0) / 2)⁻¹) ^ k *
        (diffmat (chebpts2 f.n) k i l * (pull f.dom (P j)).eval ((chebpts2 f.n).getD l 0)) := by
    intro l hl
    have hl := mem_range.mp hl
    rw [(colloc_x f.n hn f.dom).1, diffmat_scale f.n hn f.dom k i l hi hl, hv l j hl hj,
      colloc_x_getD f.n hn f.dom l hl, pull_eval, nd, mul_assoc]
  rw [sum_congr rfl h1, ← mul_sum, h58, pull_derivative, eval_mul, eval_C, pull_eval,
    colloc_x_getD f.n hn f.dom i hi, ← mul_assoc, ← mul_pow, inv_mul_cancel₀ hl, one_pow, one_mul, nd]

private lemma finRow_map (r : List ℝ) : Colloc.finRow (r.map Ieee.fin) = some r := by
  induction r with
  | nil => rfl
  | cons a r ih => simp [Colloc.finRow, ih]

private lemma nodalWeight_scale (n : ℕ) (e : Ends) (j : ℕ) :
    Lagrange.nodalWeight (range n) (fun j => fwd e (nd n j)) j
      = (((e.e1 - e.e0) / 2)⁻¹) ^ ((range n).erase j).card * Lagrange.nodalWeight (range n) (nd n) j := by
  unfold Lagrange.nodalWeight
  rw [← prod_const, ← prod_mul_distrib]
  apply prod_congr rfl
  intro i _
  rw [fwd_sub, mul_inv]

lemma colloc_inj (n : ℕ) (hn : 2 ≤ n) (e : Ends) (he : e.e0 < e.e1) :
    Set.InjOn (fun j => (chebptsType2 n e).x.getD j 0) (range n : Finset ℕ) := by
  have hl : (e.e1 - e.e0) / 2 ≠ 0 := by
    have : 0 < e.e1 - e.e0 := by linarith
    positivity
  intro i hi j hj h
  simp only at h
  rw [colloc_x_getD n hn e i (by simpa using hi), colloc_x_getD n hn e j (by simpa using hj)] at h
  have h' : fwd e (nd n i) - fwd e (nd n j) = 0 := by linarith
  rw [fwd_sub] at h'
  exact nd_inj n hi hj (by linarith [(mul_eq_zero.mp h').resolve_left hl])

/-- the row of `barymat` on the points of the interval -/
lemma colloc_row (n : ℕ) (hn : 2 ≤ n) (e : Ends) (he : e.e0 < e.e1) (y : ℝ) :
    ∃ r : List ℝ, r.length = n ∧
      barymatRow (chebptsType2 n e).x (chebptsType2 n e).v y = r.map Ieee.fin ∧
      ∀ p : ℝ[X], p.degree < n →
        ∑ l ∈ range n, r.getD l 0 * p.eval ((chebptsType2 n e).x.getD l 0) = p.eval y := by
  have hl : (e.e1 - e.e0) / 2 ≠ 0 := by
    have : 0 < e.e1 - e.e0 := by linarith
    positivity
  obtain ⟨a, ha, hwa⟩ := bary_nodal n (by omega)
  have hxl : (chebptsType2 n e).x.length = n := by rw [(colloc_x n hn e).1]; simp [chebpts2_length]
  have hwl : (chebptsType2 n e).v.length = n := by
    rw [(colloc_x n hn e).2]; exact baryWeights_length n (by omega)
  have hx : ∀ i ∈ range n, (chebptsType2 n e).x.getD i 0 = fwd e (nd n i) :=
    fun i hi => colloc_x_getD n hn e i (mem_range.mp hi)
  have hinj := colloc_inj n hn e he
  have hnw : ∀ j, j < n → Lagrange.nodalWeight (range n) (fun j => (chebptsType2 n e).x.getD j 0) j
      = (((e.e1 - e.e0) / 2)⁻¹) ^ (n - 1) * Lagrange.nodalWeight (range n) (nd n) j := by
    intro j hj
    have := nodalWeight_scale n e j
    rw [card_erase_of_mem (mem_range.mpr hj), card_range] at this
    rw [← this]
    unfold Lagrange.nodalWeight
    apply prod_congr rfl
    intro i hi
    simp only
    rw [hx j (mem_range.mpr hj), hx i (mem_of_mem_erase hi)]
  obtain ⟨r, h1, h2, -, h4⟩ := barymatRow_spec n (by omega) _ _ hxl hwl hinj
    (a * ((e.e1 - e.e0) / 2) ^ (n - 1)) (mul_ne_zero ha (pow_ne_zero _ hl)) (by
      intro j hj
      rw [hnw j hj, (colloc_x n hn e).2, hwa j hj]
      have : ((e.e1 - e.e0) / 2) ^ (n - 1) * (((e.e1 - e.e0) / 2)⁻¹) ^ (n - 1) = 1 := by
        rw [← mul_pow, mul_inv_cancel₀ hl, one_pow]
      rw [mul_assoc, ← mul_assoc (((e.e1 - e.e0) / 2) ^ (n - 1)), this, one_mul]) y
  refine ⟨r, h1, h2, ?_⟩
  intro p hp
  have := h4 p hp
  rwa [zip_quad' _ _ n h1 hxl] at this

/-- C96: calling a collocation object of polynomials of degree less than the number of points returns
the values of the polynomials at every point of the domain, nodes included. -/
theorem C96_call (f : Colloc) (hn : 2 ≤ f.n) (hd : f.dom.e0 < f.dom.e1) (P : ℕ → ℝ[X])
    (hP : ∀ j, j < f.m → (P j).degree < f.n)
    (hv : ∀ i j, i < f.n → j < f.m → f.vals i j = (P j).eval ((chebptsType2 f.n f.dom).x.getD i 0))
    (y : ℝ) (hy : f.dom.e0 ≤ y ∧ y ≤ f.dom.e1) :
    f.call y = some ((List.range f.m).map fun j => (P j).eval y) := by
  obtain ⟨r, h1, h2, h4⟩ := colloc_row f.n hn f.dom hd y
  rw [Colloc.call, if_pos hy]
  simp only [Colloc.pts]
  rw [h2, finRow_map, Option.map_some]
  congr 1
  apply List.map_congr_left
  intro j hj
  have hj := List.mem_range.mp hj
  rw [← h4 (P j) (hP j hj)]
  apply sum_congr rfl
  intro l hl
  rw [hv l j (mem_range.mp hl) hj]

/-- C96: points outside the domain are rejected. -/
theorem C96_outside (f : Colloc) (y : ℝ) (hy : y < f.dom.e0 ∨ f.dom.e1 < y) : f.call y = none := by
  rw [Colloc.call, if_neg]
  rintro ⟨h1, h2⟩
  rcases hy with h | h <;> linarith

/-- C96: with a single point the code ignores the interval: on `[1,3]` the node is `0`, so a
derivative raises. -/
theorem C96_single_fails (e : Ends) (m : ℕ) (v : ℕ → ℕ → ℝ) :
    (chebptsType2 1 e).x = [0] ∧ (⟨e, 1, m, v⟩ : Colloc).diff 1 = none := by
  constructor
  · simp [chebptsType2]
  · simp [Colloc.diff]

/-- non-vacuity of the hypotheses of C96: the values of `x²` at three points of `[1,3]`. -/
example : let f : Colloc := ⟨⟨1, 3⟩, 3, 1, fun i _ => (X ^ 2 : ℝ[X]).eval ((chebptsType2 3 ⟨1, 3⟩).x.getD i 0)⟩
    2 ≤ f.n ∧ f.dom.e0 < f.dom.e1 ∧ (∀ j, j < f.m → ((fun _ => X ^ 2 : ℕ → ℝ[X]) j).degree < f.n) ∧
    ∀ i j, i < f.n → j < f.m → f.vals i j = ((fun _ => X ^ 2 : ℕ → ℝ[X]) j).eval ((chebptsType2 f.n f.dom).x.getD i 0) := by
  refine ⟨by norm_num, by norm_num, fun j _ => ?_, fun _ _ _ _ => rfl⟩
  rw [Polynomial.degree_X_pow]
  norm_num

/-! ## C97 -/

/-- The polynomial of a function-valued expression. -/
private noncomputable def fpoly (p : ℝ[X]) : FE → ℝ[X]
  | .u => p
  | .diff k f => derivative^[k + 1] (fpoly p f)

private lemma iteratedDeriv_poly (p : ℝ[X]) (k : ℕ) :
    iteratedDeriv k (fun x => p.eval x) = fun x => (derivative^[k] p).eval x := by
  funext x
  have := iteratedDeriv_poly_affine p 1 0 k x
  simpa using this

private lemma fe_sem_poly (p : ℝ[X]) (f : FE) :
    FE.sem (fun x => p.eval x) f = fun x => (fpoly p f).eval x := by
  induction f with
  | u => rfl
  | diff k f ih => rw [FE.sem, ih, iteratedDeriv_poly]; rfl

private lemma fpoly_degree (p : ℝ[X]) (n : ℕ) (hp : p.degree < n) (f : FE) : (fpoly p f).degree < n := by
  induction f with
  | u => exact hp
  | diff k f ih =>
    refine lt_of_le_of_lt ?_ ih
    rw [fpoly]
    generalize fpoly p f = q
    generalize k + 1 = j
    clear ih
    induction j with
    | zero => simp
    | succ j ih =>
      rw [Function.iterate_succ_apply']
      exact degree_derivative_le.trans ih

private lemma fe_onColloc (u : Colloc) (hn : 2 ≤ u.n) (hd : u.dom.e0 < u.dom.e1) (P : ℕ → ℝ[X])
    (hP : ∀ j, j < u.m → (P j).degree < u.n)
    (hv : ∀ i j, i < u.n → j < u.m → u.vals i j = (P j).eval ((chebptsType2 u.n u.dom).x.getD i 0)) (f : FE) :
    ∃ g, f.onColloc u = some g ∧ g.dom = u.dom ∧ g.n = u.n ∧ g.m = u.m ∧
      ∀ i j, i < u.n → j < u.m → g.vals i j = (fpoly (P j) f).eval ((chebptsType2 u.n u.dom).x.getD i 0) := by
  induction f with
  | u => exact ⟨u, rfl, rfl, rfl, rfl, hv⟩
  | diff k f ih =>
    obtain ⟨g, h1, h2, h3, h4, h5⟩ := ih
    obtain ⟨q, q1, q2, q3, q4, q5⟩ := C96_diff g (by omega) (by rw [h2]; exact hd) (fun j => fpoly (P j) f)
      (fun j hj => by rw [h3]; exact fpoly_degree _ _ (hP j (by omega)) f)
      (fun i j hi hj => by rw [h5 i j (by omega) (by omega), h3, h2]) (k + 1)
    refine ⟨q, ?_, by rw [q2, h2], by rw [q3, h3], by rw [q4, h4], ?_⟩
    · rw [FE.onColloc, h1, Option.bind_some, q1]
    · intro i j hi hj
      rw [q5 i j (by omega) (by omega), h3, h2]
      rfl

/-- The value of a boundary condition for a family of functions: a number when the unknown is not
mentioned, else one entry per function. -/
private def Good (m : ℕ) (U : ℕ → ℝ → ℝ) (b : BC) (v : BVal) : Prop :=
  (BC.Mentions b ∧ v = BVal.row ((List.range m).map fun j => BC.sem (U j) b)) ∨
  (¬ BC.Mentions b ∧ ∃ c, v = BVal.num c ∧ ∀ u, BC.sem u b = c)

private lemma good_bin (m : ℕ) (U : ℕ → ℝ → ℝ) (op : ℝ → ℝ → ℝ) (a b c : BC)
    (hm : BC.Mentions c ↔ BC.Mentions a ∨ BC.Mentions b)
    (hs : ∀ u, BC.sem u c = op (BC.sem u a) (BC.sem u b)) (x y : BVal)
    (hx : Good m U a x) (hy : Good m U b y) : ∃ v, BVal.bin op x y = some v ∧ Good m U c v := by
  rcases hx with ⟨ha, rfl⟩ | ⟨ha, s, rfl, hs1⟩ <;> rcases hy with ⟨hb, rfl⟩ | ⟨hb, t, rfl, ht1⟩
  · refine ⟨_, by rw [BVal.bin, if_pos (by simp)], Or.inl ⟨hm.mpr (Or.inl ha), ?_⟩⟩
    rw [List.zipWith_map, List.zipWith_self]
    congr 1
    apply List.map_congr_left
    intro j _
    exact (hs _).symm
  · refine ⟨_, rfl, Or.inl ⟨hm.mpr (Or.inl ha), ?_⟩⟩
    rw [List.map_map]
    congr 1
    apply List.map_congr_left
    intro j _
    rw [hs, ht1]; rfl
  · refine ⟨_, rfl, Or.inl ⟨hm.mpr (Or.inr hb), ?_⟩⟩
    rw [List.map_map]
    congr 1
    apply List.map_congr_left
    intro j _
    rw [hs, hs1]; rfl
  · exact ⟨_, rfl, Or.inr ⟨fun h => (hm.mp h).elim ha hb, _, rfl, fun u => by rw [hs, hs1, ht1]⟩⟩

private lemma good_un (m : ℕ) (U : ℕ → ℝ → ℝ) (op : ℝ → ℝ) (a c : BC)
    (hm : BC.Mentions c ↔ BC.Mentions a) (hs : ∀ u, BC.sem u c = op (BC.sem u a)) (x : BVal)
    (hx : Good m U a x) : Good m U c (BVal.un op x) := by
  rcases hx with ⟨ha, rfl⟩ | ⟨ha, s, rfl, hs1⟩
  · refine Or.inl ⟨hm.mpr ha, ?_⟩
    rw [BVal.un, List.map_map]
    congr 1
    apply List.map_congr_left
    intro j _
    rw [hs]; rfl
  · exact Or.inr ⟨fun h => ha (hm.mp h), _, rfl, fun u => by rw [hs, hs1]⟩

private lemma run_good (e : Ends) (m : ℕ) (U : ℕ → ℝ → ℝ) (ev : FE → ℝ → Option (List ℝ))
    (hev : ∀ f y, e.e0 ≤ y → y ≤ e.e1 → ev f y = some ((List.range m).map fun j => FE.sem (U j) f y))
    (b : BC) (hb : BC.PointsIn e b) : ∃ v, b.run ev = some v ∧ Good m U b v := by
  induction b with
  | ev f y =>
    refine ⟨BVal.row ((List.range m).map fun j => FE.sem (U j) f y),
      by rw [BC.run, hev f y hb.1 hb.2, Option.map_some], Or.inl ⟨trivial, rfl⟩⟩
  | const c => exact ⟨_, rfl, Or.inr ⟨fun h => h, c, rfl, fun _ => rfl⟩⟩
  | add a b iha ihb =>
    obtain ⟨x, h1, h2⟩ := iha hb.1
    obtain ⟨y, h3, h4⟩ := ihb hb.2
    rw [BC.run, h1, h3]
    exact good_bin m U (· + ·) a b _ Iff.rfl (fun _ => rfl) x y h2 h4
  | sub a b iha ihb =>
    obtain ⟨x, h1, h2⟩ := iha hb.1
    obtain ⟨y, h3, h4⟩ := ihb hb.2
    rw [BC.run, h1, h3]
    exact good_bin m U (· - ·) a b _ Iff.rfl (fun _ => rfl) x y h2 h4
  | neg a iha =>
    obtain ⟨x, h1, h2⟩ := iha hb
    rw [BC.run, h1]
    exact ⟨_, rfl, good_un m U (- ·) a (.neg a) Iff.rfl (fun _ => rfl) x h2⟩
  | smul c a iha =>
    obtain ⟨x, h1, h2⟩ := iha hb
    rw [BC.run, h1]
    exact ⟨_, rfl, good_un m U (c * ·) a (.smul c a) Iff.rfl (fun _ => rfl) x h2⟩

/-! ### The zero function -/

private lemma entries_zero (c : List ℝ) (hc : c ≠ []) (h : ∀ x, chebEval c x = 0) : ∀ a ∈ c, a = 0 := by
  have h1 := polyfit_polyval_col c hc
  have h2 := polyfit_polyval_col (List.replicate c.length 0)
    (List.ne_nil_of_length_pos (by simpa using List.length_pos_iff.mpr hc))
  rw [polyvalCol_eq _ hc] at h1
  rw [polyvalCol_eq _ (List.ne_nil_of_length_pos (by simpa using List.length_pos_iff.mpr hc)), List.length_replicate] at h2
  have h3 : chebEval c = chebEval (List.replicate c.length (0 : ℝ)) := by
    funext x
    rw [h, chebEval_eq_eval, chebPoly_replicate_zero, eval_zero]
  rw [h3, h2] at h1
  intro a ha
  rw [← h1] at ha
  exact List.eq_of_mem_replicate ha

/-- A function represented by zero coefficients, with one column. -/
private structure ZF (e : Ends) (f : ChebFun) : Prop where
  dom : f.dom = e
  wf : f.onefun.coeffs.WF
  npos : 0 < f.onefun.coeffs.n
  m1 : f.onefun.coeffs.m = 1
  zero : ∀ c ∈ f.onefun.coeffs.cols, ∀ a ∈ c, a = 0

private lemma chebEval_zeros (c : List ℝ) (h : ∀ a ∈ c, a = 0) (x : ℝ) : chebEval c x = 0 := by
  unfold chebEval
  apply sum_eq_zero
  intro k hk
  rw [getD_lt' _ _ _ (mem_range.mp hk), h _ (List.getElem_mem _), zero_mul]

private lemma zf_prolong (a : Arr ℝ) (k : ℤ) (h : ∀ c ∈ a.cols, ∀ b ∈ c, b = 0) :
    ∀ c ∈ (prolong a k).cols, ∀ b ∈ c, b = 0 := by
  intro c hc b hb
  obtain ⟨d, hd, rfl⟩ := List.mem_map.mp hc
  simp only [prolongCol] at hb
  split_ifs at hb with h1 h2
  · exact h d hd b hb
  · rcases List.mem_append.mp hb with hb | hb
    · exact h d hd b hb
    · exact List.eq_of_mem_replicate hb
  · exact h d hd b (List.mem_of_mem_take hb)

private lemma zf_diff (e : Ends) (he : e.e0 < e.e1) (f : ChebFun) (hf : ZF e f) (k : ℕ) :
    ∃ g, f.diff (k + 1) = some g ∧ ZF e g := by
  obtain ⟨g, h1, h2, r, h3, h4, h5, h6, h7⟩ := C08_fun f (by rw [hf.dom]; exact he) hf.wf
    (by rw [hf.m1, mul_one]; exact hf.npos.ne') (k + 1) (by omega)
  have hs0 : ∀ c ∈ (simplifyCoeffs f.onefun.coeffs f.onefun.eps).cols, ∀ b ∈ c, b = 0 := by
    rw [simplify_eq_prolong]; exact zf_prolong _ _ hf.zero
  have hr : ∀ c ∈ r.cols, ∀ a ∈ c, a = 0 := by
    intro c hc
    apply entries_zero c
    · intro h0
      have := h3 c hc
      rw [h0] at this; simp at this; omega
    intro x
    have := h7 (fwd f.dom x)
    rw [(C01_inverse f.dom (by rw [hf.dom]; exact he)).1] at this
    have hmem : chebEval c x ∈ r.cols.map (fun c => chebEval c x) := List.mem_map.mpr ⟨c, hc, rfl⟩
    rw [this] at hmem
    obtain ⟨d, hd, hd'⟩ := List.mem_map.mp hmem
    rw [← hd']
    have : (fun y => chebEval d (bwd f.dom y)) = fun _ => (0 : ℝ) := by
      funext y; exact chebEval_zeros d (hs0 d hd) _
    rw [this, iteratedDeriv_const]
    simp
  refine ⟨g, h1, by rw [h2, hf.dom], ?_, ?_, ?_, ?_⟩
  · rcases h6 with h | h <;> rw [h]
    · exact h3
    · exact simplify_wf _ _
  · rcases h6 with h | h <;> rw [h]
    · exact h4
    · exact simplify_n_pos _ _
  · rcases h6 with h | h <;> rw [h]
    · rw [h5, hf.m1]
    · rw [simplify_m, h5, hf.m1]
  · rcases h6 with h | h <;> rw [h]
    · exact hr
    · rw [simplify_eq_prolong]; exact zf_prolong _ _ hr

private lemma zf_onFun (e : Ends) (he : e.e0 < e.e1) (u : ChebFun) (hu : ZF e u) (f : FE) :
    ∃ g, f.onFun u = some g ∧ ZF e g := by
  induction f with
  | u => exact ⟨u, rfl, hu⟩
  | diff k f ih =>
    obtain ⟨g, h1, h2⟩ := ih
    obtain ⟨q, q1, q2⟩ := zf_diff e he g h2 k
    exact ⟨q, by rw [FE.onFun, h1, Option.bind_some, q1], q2⟩

private lemma funEval_eq (g : ChebFun) (hw : g.onefun.coeffs.WF) (hn : 0 < g.onefun.coeffs.n)
    (h : g.dom.e0 < g.dom.e1) (y : ℝ) (hy : g.dom.e0 ≤ y ∧ y ≤ g.dom.e1) :
    funEval g y = some (vals g y) := by
  rw [funEval, C02_fun_call g hw hn h [y] (by simp) (by simpa using hy)]
  simp

private lemma fe_sem_zero (f : FE) : FE.sem (fun _ => 0) f = fun _ => 0 := by
  induction f with
  | u => rfl
  | diff k f ih => rw [FE.sem, ih]; funext x; rw [iteratedDeriv_const]; simp

private lemma zero_residual (e : Ends) (he : e.e0 < e.e1) (u : ChebFun) (hu : ZF e u) (b : BC)
    (hb : BC.PointsIn e b) : b.residual u = some (BVal.row [BC.sem (fun _ => 0) b]) := by
  obtain ⟨v, h1, h2⟩ := run_good e 1 (fun _ _ => 0) (fun f y => (f.onFun u).bind fun g => funEval g y) (by
    intro f y h0 h1
    obtain ⟨g, hg1, hg2⟩ := zf_onFun e he u hu f
    rw [hg1, Option.bind_some, funEval_eq g hg2.wf hg2.npos (by rw [hg2.dom]; exact he) y (by rw [hg2.dom]; exact ⟨h0, h1⟩),
      fe_sem_zero]
    obtain ⟨c, hc⟩ := List.length_eq_one_iff.mp hg2.m1
    simp only [vals, hc, List.map_cons, List.map_nil, List.range_one]
    rw [chebEval_zeros c (hg2.zero c (by rw [hc]; simp))]) b hb
  rw [BC.residual, BC.onFun, h1, Option.bind_some]
  rcases h2 with ⟨-, rfl⟩ | ⟨-, c, rfl, hc⟩
  · simp [BVal.bin]
  · simp [BVal.bin, hc]

private lemma zeroFun_zf (e : Ends) (eps : ℝ) : ∃ zf, zeroFun e eps = some zf ∧ ZF e zf := by
  obtain ⟨t, h1, -, -, -, -, h2⟩ := mk'_false ⟨1, [[0]]⟩ (by simp [Arr.m]) eps false 1 (1 + 2 ^ 14)
  refine ⟨⟨e, t⟩, by rw [zeroFun, h1]; rfl, rfl, ?_, ?_, ?_, ?_⟩ <;> simp [h2, Arr.WF, Arr.m]

/-- the row does not exist when the unknown is not mentioned -/
private lemma no_row (b : BC) (e : Ends) (he : e.e0 < e.e1) (eps : ℝ) (n : ℕ) (hn : 2 ≤ n)
    (hb : BC.PointsIn e b) (hm : ¬ BC.Mentions b) (row : List ℝ) : ¬ b.row e eps n = some row := by
  obtain ⟨zf, hz1, hz2⟩ := zeroFun_zf e eps
  have key : ∀ (ev : FE → ℝ → Option (List ℝ)), ∃ c, b.run ev = some (BVal.num c) := by
    intro ev
    clear hb
    induction b with
    | ev f y => exact absurd trivial hm
    | const c => exact ⟨c, rfl⟩
    | add a b iha ihb =>
      obtain ⟨x, h1⟩ := iha fun h => hm (Or.inl h)
      obtain ⟨y, h2⟩ := ihb fun h => hm (Or.inr h)
      exact ⟨x + y, by rw [BC.run, h1, h2]; rfl⟩
    | sub a b iha ihb =>
      obtain ⟨x, h1⟩ := iha fun h => hm (Or.inl h)
      obtain ⟨y, h2⟩ := ihb fun h => hm (Or.inr h)
      exact ⟨x - y, by rw [BC.run, h1, h2]; rfl⟩
    | neg a iha =>
      obtain ⟨x, h1⟩ := iha hm
      exact ⟨-x, by rw [BC.run, h1]; rfl⟩
    | smul c a iha =>
      obtain ⟨x, h1⟩ := iha hm
      exact ⟨c * x, by rw [BC.run, h1]; rfl⟩
  obtain ⟨c, hc⟩ := key fun f y => (f.onColloc (Colloc.eye e n)).bind fun g => g.call y
  intro h
  rw [BC.row, BC.functional, hz1, Option.bind_some, zero_residual e he zf hz2 b hb, Option.bind_some, BC.onColloc,
    hc, Option.bind_some] at h
  simp only [BVal.un, BVal.bin, List.map_cons, List.map_nil, Option.bind_some, convertRow, List.length_cons,
    List.length_nil] at h
  rw [if_neg (by omega)] at h
  exact absurd h (by simp)

/-! ### Linearity -/

private noncomputable def flin : FE → (ℝ[X] →ₗ[ℝ] ℝ[X])
  | .u => LinearMap.id
  | .diff k f => (derivative ^ (k + 1)) ∘ₗ flin f

private lemma flin_apply (p : ℝ[X]) (f : FE) : flin f p = fpoly p f := by
  induction f with
  | u => rfl
  | diff k f ih => rw [flin, LinearMap.comp_apply, ih, Module.End.pow_apply]; rfl

private noncomputable def blin : BC → (ℝ[X] →ₗ[ℝ] ℝ)
  | .ev f y => leval y ∘ₗ flin f
  | .const _ => 0
  | .add a b => blin a + blin b
  | .sub a b => blin a - blin b
  | .neg a => -blin a
  | .smul c a => c • blin a

private lemma sem_eq_blin (p : ℝ[X]) (b : BC) :
    BC.sem (fun x => p.eval x) b = BC.sem (fun _ => 0) b + blin b p := by
  induction b with
  | ev f y => rw [BC.sem, BC.sem, fe_sem_poly, fe_sem_zero, blin, LinearMap.comp_apply, flin_apply]; simp [leval]
  | const c => simp [BC.sem, blin]
  | add a b iha ihb => rw [BC.sem, BC.sem, iha, ihb, blin, LinearMap.add_apply]; ring
  | sub a b iha ihb => rw [BC.sem, BC.sem, iha, ihb, blin, LinearMap.sub_apply]; ring
  | neg a iha => rw [BC.sem, BC.sem, iha, blin, LinearMap.neg_apply]; ring
  | smul c a iha => rw [BC.sem, BC.sem, iha, blin, LinearMap.smul_apply, smul_eq_mul]; ring

/-- The polynomial `p ∘ bwd` on the domain. -/
private noncomputable def push (e : Ends) (p : ℝ[X]) : ℝ[X] :=
  p.comp (C (2 / (e.e1 - e.e0)) * X + C (-(e.e0 + e.e1) / (e.e1 - e.e0)))

private lemma push_eval (e : Ends) (p : ℝ[X]) (x : ℝ) : (push e p).eval x = p.eval (bwd e x) := by
  simp only [push, eval_comp, eval_add, eval_mul, eval_C, eval_X, bwd, Mapping.diff]
  congr 1; ring

private lemma push_degree (e : Ends) (p : ℝ[X]) (n : ℕ) (hp : p.degree < n) : (push e p).degree < n := by
  by_cases hp0 : p = 0
  · rw [push, hp0, zero_comp, degree_zero]; exact WithBot.bot_lt_coe n
  · have h1 : p.natDegree < n := (natDegree_lt_iff_degree_lt hp0).mpr hp
    have h2 : (push e p).natDegree < n := by
      refine lt_of_le_of_lt natDegree_comp_le ?_
      calc p.natDegree * _ ≤ p.natDegree * 1 := Nat.mul_le_mul_left _ natDegree_linear_le
        _ < n := by omega
    exact lt_of_le_of_lt degree_le_natDegree (by exact_mod_cast h2)

private lemma T_sym (n : ℕ) (hn : 2 ≤ n) (j k : ℕ) (hj : j < n) (hk : k < n) :
    (Chebyshev.T ℝ ((n - 1 - j : ℕ) : ℤ)).eval (nd n (n - 1 - k)) = (Chebyshev.T ℝ (k : ℤ)).eval (nd n j) := by
  obtain ⟨M, rfl⟩ : ∃ M, n = M + 1 := ⟨n - 1, by omega⟩
  rw [nd, nd, node_eq M (by omega) _ (by omega), node_eq M (by omega) _ (by omega), Chebyshev.T_real_cos,
    Chebyshev.T_real_cos, ang, ang]
  congr 1
  rw [show M - (M + 1 - 1 - k) = k by omega, show M + 1 - 1 - j = M - j by omega]
  push_cast
  ring

/-- C97: on every domain and for every number `n ≥ 2` of coefficients, the row computed for a boundary
condition (any affine combination of values and derivatives of the unknown at points of the domain)
exists, has `n` entries, and its product with the coefficients of any function is the value of the
linear part of the condition on that function. -/
theorem C97_row (b : BC) (e : Ends) (he : e.e0 < e.e1) (eps : ℝ) (n : ℕ) (hn : 2 ≤ n)
    (hb : BC.PointsIn e b) (hm : BC.Mentions b) :
    ∃ row, b.row e eps n = some row ∧ row.length = n ∧
      ∀ c : List ℝ, c.length = n →
        (List.zipWith (· * ·) row c).sum
          = BC.sem (fun x => chebEval c (bwd e x)) b - BC.sem (fun _ => 0) b := by
  obtain ⟨zf, hz1, hz2⟩ := zeroFun_zf e eps
  have hres := zero_residual e he zf hz2 b hb
  set x : ℕ → ℝ := fun j => (chebptsType2 n e).x.getD j 0 with hx
  have hinj : Set.InjOn x (range n : Finset ℕ) := colloc_inj n hn e he
  set P : ℕ → ℝ[X] := fun j => Lagrange.basis (range n) x j with hP
  have hPd : ∀ j, j < n → (P j).degree < n := by
    intro j hj
    rw [hP]
    simp only
    rw [Lagrange.degree_basis hinj (mem_range.mpr hj), card_range]
    exact_mod_cast (by omega : n - 1 < n)
  have hPv : ∀ i j, i < n → j < n → (Colloc.eye e n).vals i j = (P j).eval (x i) := by
    intro i j hi hj
    simp only [Colloc.eye, hP]
    split_ifs with h
    · subst h; rw [Lagrange.eval_basis_self hinj (mem_range.mpr hi)]
    · rw [Lagrange.eval_basis_of_ne (fun h' => h h'.symm) (mem_range.mpr hi)]
  obtain ⟨v, hv1, hv2⟩ := run_good e n (fun j t => (P j).eval t)
    (fun f y => (f.onColloc (Colloc.eye e n)).bind fun g => g.call y) (by
    intro f y h0 h1
    obtain ⟨g, g1, g2, g3, g4, g5⟩ := fe_onColloc (Colloc.eye e n) hn he P hPd hPv f
    rw [g1, Option.bind_some, C96_call g (by rw [g3]; exact hn) (by rw [g2]; exact he) (fun j => fpoly (P j) f)
      (fun j hj => by rw [g3]; exact fpoly_degree _ _ (hPd j (by rw [g4] at hj; exact hj)) f)
      (fun i j hi hj => by rw [g5 i j (by rw [g3] at hi; exact hi) (by rw [g4] at hj; exact hj), g3, g2]) y
      (by rw [g2]; exact ⟨h0, h1⟩), g4]
    congr 1
    apply List.map_congr_left
    intro j _
    rw [fe_sem_poly]) b hb
  obtain ⟨-, rfl⟩ := hv2.resolve_right fun h => h.1 hm
  set lam : List ℝ := (List.range n).map fun j => blin b (P j) with hlam
  have hfun : b.functional e eps n = some (BVal.row lam) := by
    rw [BC.functional, hz1, Option.bind_some, hres, Option.bind_some, BC.onColloc, hv1, Option.bind_some]
    simp only [BVal.un, BVal.bin, List.map_cons, List.map_nil, List.length_map, List.length_range, List.length_cons,
      List.length_nil]
    rw [if_neg (by omega), if_neg (by omega)]
    simp only [zero_add, if_true]
    rw [List.map_map, hlam]
    congr 2
    apply List.map_congr_left
    intro j _
    simp only [Function.comp, List.getD_cons_zero]
    rw [sem_eq_blin]; ring
  have hlamn : lam.reverse.length = n := by simp [hlam]
  have hlam0 : lam.reverse ≠ [] := List.ne_nil_of_length_pos (by omega)
  have hrow : b.row e eps n = some (polyvalCol lam.reverse).reverse := by
    rw [BC.row, hfun, Option.bind_some, convertRow, if_pos (by simp [hlam])]
  have hpl : (polyvalCol lam.reverse).length = n := by rw [polyvalCol_eq _ hlam0]; simp [chebpts2_length, hlamn]
  refine ⟨_, hrow, by rw [List.length_reverse, hpl], ?_⟩
  intro c hc
  have hc0 : c ≠ [] := List.ne_nil_of_length_pos (by omega)
  have hrk : ∀ k, k < n → (polyvalCol lam.reverse).reverse.getD k 0
      = ∑ j ∈ range n, blin b (P j) * (Chebyshev.T ℝ (k : ℤ)).eval (nd n j) := by
    intro k hk
    rw [getD_lt' _ _ _ (by rw [List.length_reverse, hpl]; exact hk), List.getElem_reverse, ← getD_lt' _ (0 : ℝ)]
    rw [hpl, polyvalCol_eq _ hlam0, hlamn, getD_lt' _ _ _ (by simp [chebpts2_length]; omega), List.getElem_map,
      ← getD_lt' _ (0 : ℝ), chebEval, hlamn, ← sum_range_reflect]
    apply sum_congr rfl
    intro j hj
    have hj := mem_range.mp hj
    have e1 : lam.reverse.getD (n - 1 - j) 0 = blin b (P j) := by
      rw [getD_lt' _ _ _ (by omega), List.getElem_reverse]
      simp only [hlam, List.getElem_map, List.getElem_range, List.length_map, List.length_range]
      rw [show n - 1 - (n - 1 - j) = j by omega]
    rw [e1]
    congr 1
    exact T_sym n hn j k hj hk
  have hu : (fun t => chebEval c (bwd e t)) = fun t => (push e (chebPoly c)).eval t := by
    funext t; rw [push_eval, chebEval_eq_eval]
  rw [hu, sem_eq_blin, add_sub_cancel_left]
  have hqd : (push e (chebPoly c)).degree < n := push_degree _ _ _ (by
    have h := natDegree_chebPoly_lt c hc0
    exact lt_of_le_of_lt degree_le_natDegree (by rw [hc] at h; exact_mod_cast h))
  have hint := Lagrange.eq_interpolate hinj (by rwa [card_range] : (push e (chebPoly c)).degree < #(range n))
  rw [hint, Lagrange.interpolate_apply, map_sum]
  have hz : (List.zipWith (· * ·) (polyvalCol lam.reverse).reverse c).sum
      = ∑ k ∈ range n, (polyvalCol lam.reverse).reverse.getD k 0 * c.getD k 0 := by
    have := zip_quad' (polyvalCol lam.reverse).reverse c n (by rw [List.length_reverse, hpl]) hc id
    simpa using this
  rw [hz]
  have h1 : ∀ k ∈ range n, (polyvalCol lam.reverse).reverse.getD k 0 * c.getD k 0
      = ∑ j ∈ range n, c.getD k 0 * (Chebyshev.T ℝ (k : ℤ)).eval (nd n j) * blin b (P j) := by
    intro k hk
    rw [hrk k (mem_range.mp hk), sum_mul]
    apply sum_congr rfl
    intro j _
    ring
  rw [sum_congr rfl h1, sum_comm]
  apply sum_congr rfl
  intro j hj
  have hjn := mem_range.mp hj
  rw [← smul_eq_C_mul, map_smul, smul_eq_mul, push_eval, hx]
  simp only
  rw [colloc_x_getD n hn e j hjn, (C01_inverse e he).1, ← chebEval_eq_eval, chebEval, hc, sum_mul]

/-- C97: hence a Newton correction `d` with `row · d = -b(u)` produces an iterate which satisfies the
boundary condition exactly. -/
theorem C97_correction (b : BC) (e : Ends) (he : e.e0 < e.e1) (eps : ℝ) (n : ℕ) (hn : 2 ≤ n)
    (hb : BC.PointsIn e b) (row : List ℝ) (hr : b.row e eps n = some row)
    (c d : List ℝ) (hc : c.length = n) (hdl : d.length = n)
    (h : (List.zipWith (· * ·) row d).sum = -BC.sem (fun x => chebEval c (bwd e x)) b) :
    BC.sem (fun x => chebEval c (bwd e x) + chebEval d (bwd e x)) b = 0 := by
  have hm : BC.Mentions b := by
    by_contra hm
    exact no_row b e he eps n hn hb hm row hr
  obtain ⟨row', h1, -, h2⟩ := C97_row b e he eps n hn hb hm
  obtain rfl : row' = row := Option.some.inj (h1.symm.trans hr)
  rw [h2 d hdl] at h
  have hu : ∀ c : List ℝ, (fun t => chebEval c (bwd e t)) = fun t => (push e (chebPoly c)).eval t := by
    intro c; funext t; rw [push_eval, chebEval_eq_eval]
  have hs : (fun x => chebEval c (bwd e x) + chebEval d (bwd e x))
      = fun t => (push e (chebPoly c) + push e (chebPoly d)).eval t := by
    funext t; rw [eval_add, push_eval, push_eval, chebEval_eq_eval, chebEval_eq_eval]
  rw [hu, hu, sem_eq_blin, sem_eq_blin] at h
  rw [hs, sem_eq_blin, map_add]
  linarith

/-- C97: a condition that does not mention the unknown cannot be discretised: the constructor of the
linear system raises. -/
theorem C97_constant_raises (b : BC) (e : Ends) (he : e.e0 < e.e1) (eps : ℝ) (n : ℕ) (hn : 2 ≤ n)
    (hb : BC.PointsIn e b) (hm : ¬ BC.Mentions b) : b.row e eps n = none := by
  rcases h : b.row e eps n with _ | row
  · rfl
  · exact absurd h (no_row b e he eps n hn hb hm row)

/-- C97: a condition that evaluates the unknown outside the domain raises. -/
theorem C97_outside (f : FE) (y : ℝ) (e : Ends) (he : e.e0 < e.e1) (eps : ℝ) (n : ℕ)
    (hy : y < e.e0 ∨ e.e1 < y) : (BC.ev f y).row e eps n = none := by
  obtain ⟨zf, hz1, hz2⟩ := zeroFun_zf e eps
  obtain ⟨g, hg1, hg2⟩ := zf_onFun e he zf hz2 f
  have hnone : funEval g y = none := by
    rw [funEval]
    rcases hc : funCall g.dom (fun z => clenshaw z g.onefun.coeffs) [y] with _ | v
    · rfl
    · have := ((C01_call g.dom (by rw [hg2.dom]; exact he) (fun z => clenshaw z g.onefun.coeffs) [y]).mp ⟨v, hc⟩).2 y (by simp)
      rw [hg2.dom] at this
      rcases hy with h | h <;> linarith [this.1, this.2]
  rw [BC.row, BC.functional, hz1, Option.bind_some, BC.residual, BC.onFun, BC.run, hg1, Option.bind_some, hnone]
  rfl

/-- C97: for conditions without derivatives the residual of a function is the value of the condition
at that function. -/
theorem C97_residual (b : BC) (u : ChebFun) (c : List ℝ) (hc : c ≠ []) (hu : u.onefun.coeffs = ⟨c.length, [c]⟩)
    (hd : u.dom.e0 < u.dom.e1) (hb : BC.PointsIn u.dom b) (h0 : BC.NoDiff b) :
    b.residual u = some (BVal.row [BC.sem (fun x => chebEval c (bwd u.dom x)) b]) := by
  have key : ∀ b, BC.PointsIn u.dom b → BC.NoDiff b → ∃ v, b.onFun u = some v ∧
      Good 1 (fun _ x => chebEval c (bwd u.dom x)) b v := by
    intro b hb h0
    unfold BC.onFun
    induction b with
    | ev f y =>
      obtain rfl : f = FE.u := h0
      refine ⟨BVal.row [chebEval c (bwd u.dom y)], ?_, Or.inl ⟨trivial, rfl⟩⟩
      rw [BC.run, FE.onFun, Option.bind_some, funEval_eq u (by rw [hu]; simp [Arr.WF])
        (by rw [hu]; exact List.length_pos_iff.mpr hc) hd y hb]
      simp [vals, hu]
    | const c => exact ⟨_, rfl, Or.inr ⟨fun h => h, c, rfl, fun _ => rfl⟩⟩
    | add a b iha ihb =>
      obtain ⟨x, h1, h2⟩ := iha hb.1 h0.1
      obtain ⟨y, h3, h4⟩ := ihb hb.2 h0.2
      rw [BC.run, h1, h3]
      exact good_bin 1 _ (· + ·) a b _ Iff.rfl (fun _ => rfl) x y h2 h4
    | sub a b iha ihb =>
      obtain ⟨x, h1, h2⟩ := iha hb.1 h0.1
      obtain ⟨y, h3, h4⟩ := ihb hb.2 h0.2
      rw [BC.run, h1, h3]
      exact good_bin 1 _ (· - ·) a b _ Iff.rfl (fun _ => rfl) x y h2 h4
    | neg a iha =>
      obtain ⟨x, h1, h2⟩ := iha hb h0
      rw [BC.run, h1]
      exact ⟨_, rfl, good_un 1 _ (- ·) a (.neg a) Iff.rfl (fun _ => rfl) x h2⟩
    | smul s a iha =>
      obtain ⟨x, h1, h2⟩ := iha hb h0
      rw [BC.run, h1]
      exact ⟨_, rfl, good_un 1 _ (s * ·) a (.smul s a) Iff.rfl (fun _ => rfl) x h2⟩
  obtain ⟨v, h1, h2⟩ := key b hb h0
  rw [BC.residual, h1, Option.bind_some]
  rcases h2 with ⟨-, rfl⟩ | ⟨-, c, rfl, hc⟩
  · simp [BVal.bin]
  · simp [BVal.bin, hc]

/-- non-vacuity: the Robin condition `2 u(1) - u'(1) = 3` on `[0, 1]` -/
example : let b : BC := .sub (.sub (.smul 2 (.ev .u 1)) (.ev (.diff 0 .u) 1)) (.const 3)
    BC.PointsIn ⟨0, 1⟩ b ∧ BC.Mentions b ∧ BC.sem (fun _ => 0) b = -3 := by
  refine ⟨by simp [BC.PointsIn], by simp [BC.Mentions], ?_⟩
  simp [BC.sem, FE.sem]

end Funpy.Props
