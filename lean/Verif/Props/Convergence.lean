import Verif.Lemmas.SpectralStab
import Verif.Props.UltraSection
import Verif.Props.WellPosed
import Verif.Props.ChebCompose
import Mathlib.Data.List.Indexes

/-!
# C126: the discretisation of a well-posed linear boundary value problem is regular and converges
-/

namespace Funpy.Props
namespace Cvg
end Cvg
open Spec Cheb UltraS OpDisc Matrix Finset Sect WPos CoefNorm Cvg
open scoped ContDiff

variable {n : ℕ}

/-! ### Specification -/

/-- A differential operator `∑_{j ≤ r} a_j u^{(j)}` of order `r ≥ 1` whose leading coefficient is a constant `c ≠ 0`. -/
def Cvg.IsODE (s : Source) (r : ℕ) (c : ℝ) : Prop :=
  1 ≤ r ∧ c ≠ 0 ∧ s.integral = [] ∧ s.coeff.length = r + 1 ∧ s.coeff.getD r (false, []) = (true, [c])

/-- The conditions without their constant parts hold for `u`. -/
def Cvg.HomBC (bcs : List BC) (u : ℝ → ℝ) : Prop := ∀ b ∈ bcs, BC.sem u b - BC.sem (fun _ => 0) b = 0

/-- The boundary value problem is well-posed: on smooth functions which satisfy the homogeneous conditions, `max |w| ≤ S max |L w|`. -/
def Cvg.WellPosed (e : Ends) (s : Source) (bcs : List BC) (S : ℝ) : Prop :=
  ∀ w : ℝ → ℝ, ContDiff ℝ ∞ w → HomBC bcs w → ∀ M, (∀ y ∈ Set.Icc e.e0 e.e1, |applyLin e s w y| ≤ M) →
    ∀ y ∈ Set.Icc e.e0 e.e1, |w y| ≤ S * M

/-! ### Proofs -/

lemma Cvg.sem_smooth (u : ℝ → ℝ) (hu : ContDiff ℝ ∞ u) (f : FE) : ContDiff ℝ ∞ (FE.sem u f) := by
  induction f with
  | u => exact hu
  | diff k f ih =>
    rw [FE.sem, iteratedDeriv_eq_iterate]
    exact ih.iterate_deriv (k + 1)

lemma Cvg.sem_sub (u v : ℝ → ℝ) (hu : ContDiff ℝ ∞ u) (hv : ContDiff ℝ ∞ v) (f : FE) :
    FE.sem (fun y => u y - v y) f = fun y => FE.sem u f y - FE.sem v f y := by
  induction f with
  | u => rfl
  | diff k f ih =>
    rw [FE.sem, ih]
    funext y
    have h1 := (sem_smooth u hu f).of_le (m := ((k + 1 : ℕ) : WithTop ℕ∞)) (by exact_mod_cast le_top)
    have h2 := (sem_smooth v hv f).of_le (m := ((k + 1 : ℕ) : WithTop ℕ∞)) (by exact_mod_cast le_top)
    exact iteratedDeriv_fun_sub h1.contDiffAt h2.contDiffAt

lemma Cvg.bc_sub (u v : ℝ → ℝ) (hu : ContDiff ℝ ∞ u) (hv : ContDiff ℝ ∞ v) (b : BC) :
    BC.sem (fun y => u y - v y) b - BC.sem (fun _ => 0) b
      = (BC.sem u b - BC.sem (fun _ => 0) b) - (BC.sem v b - BC.sem (fun _ => 0) b) := by
  have hz : ∀ f : FE, FE.sem (fun _ => (0:ℝ)) f = fun _ => 0 := by
    intro f
    induction f with
    | u => rfl
    | diff k f ih =>
      rw [FE.sem, ih]
      funext x
      rw [iteratedDeriv_const]
      simp
  induction b with
  | ev f y => simp only [BC.sem, sem_sub u v hu hv, hz]; ring
  | const c => simp only [BC.sem]; ring
  | add a b iha ihb => simp only [BC.sem]; linarith
  | sub a b iha ihb => simp only [BC.sem]; linarith
  | neg a iha => simp only [BC.sem]; linarith
  | smul c a iha => simp only [BC.sem]; linear_combination c * iha

lemma Cvg.mapIdx_sum {α β : Type*} [AddCommMonoid β] (l : List α) (f : ℕ → α → β) (d : α) :
    (l.mapIdx f).sum = ∑ j ∈ range l.length, f j (l.getD j d) := by
  rw [List.mapIdx_eq_ofFn, List.sum_ofFn, Finset.sum_range]
  apply Finset.sum_congr rfl
  intro i _
  simp

/-- the operator on coefficients -/
noncomputable def Cvg.op (e : Ends) (s : Source) (r : ℕ) (c : ℝ) : Op where
  r := r
  al := c * (2 / Mapping.diff e) ^ r
  q j := if (s.coeff.getD j (false, [])).1 then
    Polynomial.C ((2 / Mapping.diff e) ^ j) * chebPoly (s.coeff.getD j (false, [])).2 else 0

/-- the function on the interval with the coefficients `F` -/
noncomputable def Cvg.fn (e : Ends) (F : Co) (y : ℝ) : ℝ := ser 0 F (Mapping.bwd e y)

lemma Cvg.fn_toCo (e : Ends) (x : Fin n → ℝ) : fn e (toCo x) = funOf e x := by
  funext y
  rw [fn, ser_toCo, ultraSeries_zero_eq]
  rfl

lemma Cvg.ser_contDiff (F : Co) : ContDiff ℝ ∞ (ser 0 F) := by
  obtain ⟨m, -, hm⟩ := exists_bound F
  rw [contDiff_infty]
  intro k
  have := ultraSeries_contDiff (fun i : Fin m => F i) k
  have h : ultraSeries 0 (fun i : Fin m => F i) = ser 0 F := by
    funext x
    rw [← ser_toCo, toCo_surj F m hm]
  rwa [h] at this

lemma Cvg.fn_contDiff (e : Ends) (F : Co) : ContDiff ℝ ∞ (fn e F) := by
  have : fn e F = fun y => ser 0 F (2 / Mapping.diff e * y + -(e.e0 + e.e1) / Mapping.diff e) := by
    funext y
    rw [fn, bwd_affine]
  rw [this]
  exact (ser_contDiff F).comp (by fun_prop)

lemma Cvg.fn_deriv (e : Ends) (F : Co) (j : ℕ) (y : ℝ) :
    iteratedDeriv j (fn e F) y = (2 / Mapping.diff e) ^ j * iteratedDeriv j (ser 0 F) (Mapping.bwd e y) := by
  have : fn e F = fun y => ser 0 F (2 / Mapping.diff e * y + -(e.e0 + e.e1) / Mapping.diff e) := by
    funext y
    rw [fn, bwd_affine]
  rw [this, iteratedDeriv_affine _ j ((ser_contDiff F).of_le (by exact_mod_cast le_top)), bwd_affine]

lemma Cvg.applyLin_sum (e : Ends) (s : Source) (r : ℕ) (c : ℝ) (hs : IsODE s r c) (u : ℝ → ℝ) (y : ℝ) :
    applyLin e s u y = c * iteratedDeriv r u y + ∑ j ∈ range r, (if (s.coeff.getD j (false, [])).1 then
      chebEval (s.coeff.getD j (false, [])).2 (Mapping.bwd e y) * iteratedDeriv j u y else 0) := by
  unfold applyLin
  rw [hs.2.2.1, mapIdx_sum _ _ (false, []), hs.2.2.2.1, sum_range_succ, hs.2.2.2.2]
  simp [chebEval]
  ring

/-- the coefficients of `L u` -/
lemma Cvg.applyLin_fn (e : Ends) (s : Source) (r : ℕ) (c : ℝ) (hs : IsODE s r c) (F : Co) (y : ℝ) :
    applyLin e s (fn e F) y = ser r ((op e s r c).Lam F) (Mapping.bwd e y) := by
  have h := Op.ser_Lam (op e s r c) F (Mapping.bwd e y)
  rw [show (op e s r c).r = r from rfl] at h
  rw [h, applyLin_sum e s r c hs, fn_deriv]
  congr 1
  · show _ = c * (2 / Mapping.diff e) ^ r * _
    ring
  · apply Finset.sum_congr rfl
    intro j _
    show _ = Polynomial.eval _ (if _ then _ else _) * _
    split_ifs
    · rw [fn_deriv, Polynomial.eval_mul, Polynomial.eval_C, chebEval_eq_eval]
      ring
    · simp

lemma Cvg.lo_toCo (n m : ℕ) (v : Fin n → ℝ) (t : Fin m → ℝ) (ht : ∀ i : Fin m, (i : ℕ) < n → t i = 0) : lo n (toCo v + toCo t) = toCo v := by
  ext k
  rw [lo_apply, Finsupp.add_apply, toCo_apply, toCo_apply]
  by_cases h : k < n
  · rw [if_pos h, dif_pos h]
    by_cases h2 : k < m
    · rw [dif_pos h2, ht ⟨k, h2⟩ h, add_zero]
    · rw [dif_neg h2, add_zero]
  · rw [if_neg h, dif_neg h]

lemma Cvg.sum_mulVec {ι : Type*} (S : Finset ι) (A : ι → Matrix (Fin n) (Fin n) ℝ) (x : Fin n → ℝ) :
    (∑ j ∈ S, A j) *ᵥ x = ∑ j ∈ S, A j *ᵥ x := by
  classical
  induction S using Finset.induction_on with
  | empty => simp
  | insert a S h ih => rw [sum_insert h, sum_insert h, add_mulVec, ih]

lemma Cvg.toCo_zero : toCo (0 : Fin n → ℝ) = 0 := by
  ext k
  rw [toCo_apply]
  split_ifs <;> simp

lemma Cvg.toCo_sum {ι : Type*} (S : Finset ι) (v : ι → Fin n → ℝ) : toCo (∑ j ∈ S, v j) = ∑ j ∈ S, toCo (v j) := by
  classical
  induction S using Finset.induction_on with
  | empty => simp [toCo_zero]
  | insert a S h ih => rw [sum_insert h, sum_insert h, toCo_add, ih]

/-- the assembled matrix is the truncated operator -/
lemma Cvg.matrix_co (hn : 2 ≤ n) (e : Ends) (s : Source) (r : ℕ) (c : ℝ) (hs : IsODE s r c) (hfit : SecFits n n s) (x : Fin n → ℝ) :
    toCo (quasi2diffmat n (Mapping.diff e) r s *ᵥ x) = (op e s r c).LamN n (toCo x) := by
  obtain ⟨hr1, hc0, hint, hlen, hlast⟩ := hs
  set L := op e s r c with hL
  -- the terms of the matrix
  have hdd : ∀ j, ∀ X, ultraSeries j (discDiff n j (Mapping.diff e) *ᵥ x) X
      = (2 / Mapping.diff e) ^ j * iteratedDeriv j (ser 0 (toCo x)) X := by
    intro j X
    rw [discDiff_series]
    congr 2
    funext z
    rw [ser_toCo]
  have hconv : ∀ j, j ≤ r → ∀ v : Fin n → ℝ, toCo (discConvert n j r *ᵥ v) = conv j (r - j) (toCo v) := by
    intro j hj v
    apply ser_inj r
    intro X
    rw [ser_toCo, discConvert, convertmat_series n j r hj (Or.inl hn)]
    have := ser_conv j (r - j) (toCo v) X
    rw [show j + (r - j) = r by omega] at this
    rw [this, ser_toCo]
  have hterm : ∀ j < r, toCo ((if (s.coeff.getD j (false, [])).1 then
      discConvert n j r * multmat n (s.coeff.getD j (false, [])).2 j * discDiff n j (Mapping.diff e) else 0) *ᵥ x)
      = conv j (r - j) (lo n (L.prod j (toCo x))) := by
    intro j hj
    by_cases hf : (s.coeff.getD j (false, [])).1 = true
    · rw [if_pos hf, Matrix.mul_assoc, ← mulVec_mulVec, ← mulVec_mulVec, hconv j hj.le]
      congr 1
      have hjl : j < s.coeff.length := by omega
      have hgd : s.coeff.getD j (false, []) = s.coeff[j] := by simp [hjl]
      rw [hgd] at hf
      obtain ⟨hex, hle⟩ := hfit.1 j hjl hf
      obtain ⟨t, ht, hE⟩ := C41_section_partial n s.coeff[j].2 j hn hex hle (discDiff n j (Mapping.diff e) *ᵥ x)
      rw [hgd]
      have hp : L.prod j (toCo x) = toCo (multmat n s.coeff[j].2 j *ᵥ (discDiff n j (Mapping.diff e) *ᵥ x)) + toCo t := by
        apply ser_inj j
        intro X
        rw [Op.ser_prod, map_add, Pi.add_apply, ser_toCo j, ser_toCo j, ← hE X, hdd]
        show Polynomial.eval _ (if (s.coeff.getD j (false, [])).1 then _ else _) * _ = _
        rw [hgd, if_pos hf, Polynomial.eval_mul, Polynomial.eval_C, chebEval_eq_eval]
        ring
      rw [hp, lo_toCo n _ _ _ ht]
    · rw [if_neg hf, zero_mulVec, toCo_zero]
      have hp : L.prod j (toCo x) = 0 := by
        apply ser_inj j
        intro X
        rw [Op.ser_prod]
        show Polynomial.eval _ (if (s.coeff.getD j (false, [])).1 then _ else _) * _ = _
        rw [if_neg hf]
        simp
      rw [hp]
      have : lo n (0 : Co) = 0 := by ext k; rw [lo_apply]; simp
      rw [this, map_zero]
  have hlead : toCo ((if (s.coeff.getD r (false, [])).1 then
      discConvert n r r * multmat n (s.coeff.getD r (false, [])).2 r * discDiff n r (Mapping.diff e) else 0) *ᵥ x) = L.al • dm r (toCo x) := by
    rw [hlast, if_pos rfl, Matrix.mul_assoc, ← mulVec_mulVec, ← mulVec_mulVec, hconv r le_rfl, Nat.sub_self]
    show toCo _ = _
    apply ser_inj r
    intro X
    rw [ser_toCo, multmat_scalar n [c] rfl r, hdd, map_smul, Pi.smul_apply, smul_eq_mul, ser_iteratedDeriv]
    show _ = c * (2 / Mapping.diff e) ^ r * _
    simp [chebEval]
    ring
  have hsum : quasi2diffmat n (Mapping.diff e) r s *ᵥ x = ∑ j ∈ range (r + 1), (if (s.coeff.getD j (false, [])).1 then
      discConvert n j r * multmat n (s.coeff.getD j (false, [])).2 j * discDiff n j (Mapping.diff e) else 0) *ᵥ x := by
    unfold quasi2diffmat
    simp only [hint, List.map_nil, List.sum_nil, add_zero, Bool.false_and, Bool.false_eq_true, if_false]
    rw [mapIdx_sum _ _ (false, []), hlen, sum_mulVec]
  rw [hsum, toCo_sum, sum_range_succ, hlead, Finset.sum_congr rfl fun j hj => hterm j (mem_range.mp hj)]
  unfold Op.LamN
  rw [Op.Lam_apply, Op.low_apply, Op.drop]
  show _ = L.al • dm r (toCo x) + ∑ j ∈ range r, conv j (r - j) (L.prod j (toCo x)) - ∑ j ∈ range r, conv j (r - j) (hi n (L.prod j (toCo x)))
  rw [add_sub_assoc, ← sum_sub_distrib, add_comm]
  congr 1
  apply Finset.sum_congr rfl
  intro j _
  rw [← map_sub]
  congr 1
  rw [eq_sub_iff_add_eq, lo_add_hi]

lemma Cvg.fwd_mem (e : Ends) (he : e.e0 < e.e1) (x : ℝ) (hx : |x| ≤ 1) : Mapping.fwd e x ∈ Set.Icc e.e0 e.e1 := by
  obtain ⟨h1, h2⟩ := abs_le.mp hx
  unfold Mapping.fwd
  constructor <;> nlinarith

lemma Cvg.bwd_abs (e : Ends) (he : e.e0 < e.e1) (y : ℝ) (hy : y ∈ Set.Icc e.e0 e.e1) : |Mapping.bwd e y| ≤ 1 :=
  (bwd_mem e he y hy).1

/-- coefficients whose function satisfies the homogeneous conditions -/
def Cvg.homCo (e : Ends) (bcs : List BC) : Set Co := {F | HomBC bcs (fn e F)}

lemma Cvg.stable (e : Ends) (he : e.e0 < e.e1) (s : Source) (r : ℕ) (c : ℝ) (hs : IsODE s r c) (bcs : List BC) (S : ℝ)
    (hwp : WellPosed e s bcs S) : (op e s r c).Stable (homCo e bcs) S := by
  intro F hF M hM x hx
  have h := hwp (fn e F) (fn_contDiff e F) hF M (fun y hy => by
    rw [applyLin_fn e s r c hs]
    exact hM _ (bwd_abs e he y hy)) (Mapping.fwd e x) (fwd_mem e he x hx)
  rwa [fn, (C01_inverse e he).1] at h

lemma Cvg.toCo_ge (x : Fin n → ℝ) (k : ℕ) (hk : n ≤ k) : toCo x k = 0 := by
  rw [toCo_apply, dif_neg (by omega)]

/-- a square system with trivial kernel has exactly one solution for every right-hand side -/
lemma Cvg.unique_of_inj (M : List (Fin n → ℝ)) (hlen : M.length = n) (hreg : ∀ x : Fin n → ℝ, M.map (· ⬝ᵥ x) = List.replicate n 0 → x = 0)
    (v : List ℝ) (hv : v.length = n) : ∃! x : Fin n → ℝ, M.map (· ⬝ᵥ x) = v := by
  set A : (Fin n → ℝ) →ₗ[ℝ] (Fin n → ℝ) := Matrix.mulVecLin (Matrix.of fun i j => M.getD i 0 j) with hA
  have hAx : ∀ x i, A x i = M.getD i 0 ⬝ᵥ x := fun x i => rfl
  have hrow : ∀ (x : Fin n → ℝ) (L : List ℝ), L.length = n → (M.map (· ⬝ᵥ x) = L ↔ A x = fun i : Fin n => L.getD i 0) := by
    intro x L hL
    constructor
    · rintro rfl
      funext i
      rw [hAx, getD_lt' _ _ _ (by rw [hlen]; exact i.2), getD_lt' _ _ _ (by simpa [hlen] using i.2), List.getElem_map]
    · intro h
      apply List.ext_getElem (by rw [List.length_map, hlen, hL])
      intro i h1 h2
      have hin : i < n := by omega
      have := congrFun h ⟨i, hin⟩
      rw [hAx, getD_lt' _ _ _ (by rw [hlen]; exact hin)] at this
      simp only at this
      rw [getD_lt' _ _ _ h2] at this
      rw [List.getElem_map]
      exact this
  have hinj : Function.Injective A := by
    rw [← LinearMap.ker_eq_bot, LinearMap.ker_eq_bot']
    intro x hx
    apply hreg
    rw [hrow x _ (by simp), hx]
    funext i
    rw [getD_replicate']
    rfl
  have hsurj : Function.Surjective A := LinearMap.injective_iff_surjective.1 hinj
  obtain ⟨x, hx⟩ := hsurj fun i => v.getD i 0
  refine ⟨x, (hrow x _ hv).2 hx, fun y hy => hinj ?_⟩
  rw [hx]
  exact (hrow y _ hv).1 hy

/-- the solutions of the discretised problem solve the truncated problem -/
lemma Cvg.solves (d : Disc n) (hn : 2 ≤ n) (he : d.e.e0 < d.e.e1) (hb : ∀ b ∈ d.bcs, BC.PointsIn d.e b ∧ BC.Mentions b)
    (c : ℝ) (hs : IsODE d.src d.r c) (hfit : SecFits n n d.src) (M : List (Fin n → ℝ)) (hM : OpDisc.matrix d = some M) (g : List ℝ)
    (hg : g.length = d.bcs.length) (f x : Fin n → ℝ) (hsol : M.map (· ⬝ᵥ x) = projectVector d g f) :
    lo (n - d.r) ((op d.e d.src d.r c).LamN n (toCo x)) = lo (n - d.r) (conv 0 d.r (toCo f)) := by
  obtain ⟨-, ρ, hρ, hE⟩ := C98_rows d hn he hb M hM g hg f x hsol
  rw [← matrix_co hn d.e d.src d.r c hs hfit x]
  have h : toCo (quasi2diffmat n (Mapping.diff d.e) d.r d.src *ᵥ x) = conv 0 d.r (toCo f) + toCo ρ := by
    apply ser_inj d.r
    intro X
    have h1 := hE (Mapping.fwd d.e X)
    have h2 := ser_conv 0 d.r (toCo f) X
    rw [zero_add] at h2
    rw [(C01_inverse d.e he).1, funOf, (C01_inverse d.e he).1, ← ultraSeries_zero_eq] at h1
    rw [map_add, Pi.add_apply, h2, ser_toCo, ser_toCo, ser_toCo]
    linarith
  rw [h]
  ext k
  rw [lo_apply, lo_apply, Finsupp.add_apply, toCo_apply]
  split_ifs with h1 h2
  · rw [hρ _ h1, add_zero]
  · rw [add_zero]
  · rfl

/-- **C126, regularity.**  For a well-posed boundary value problem with as many conditions as the order there is an `N` such that for every
number `n ≥ N` of coefficients the discretised problem has exactly one solution, for all boundary values and right-hand sides. -/
theorem C126_regular (e : Ends) (he : e.e0 < e.e1) (s : Source) (r : ℕ) (c eps : ℝ) (hs : IsODE s r c) (bcs : List BC) (hsq : bcs.length = r)
    (hb : ∀ b ∈ bcs, BC.PointsIn e b ∧ BC.Mentions b) (S : ℝ) (hS : 0 ≤ S) (hwp : WellPosed e s bcs S) :
    ∃ N, ∀ n, N ≤ n → SecFits n n s → ∃ M, OpDisc.matrix (⟨e, r, eps, s, bcs⟩ : Disc n) = some M ∧ M.length = n ∧
      ∀ (g : List ℝ) (f : Fin n → ℝ), g.length = r → ∃! x : Fin n → ℝ, M.map (· ⬝ᵥ x) = projectVector (⟨e, r, eps, s, bcs⟩ : Disc n) g f := by
  obtain ⟨C, N, hC, hds⟩ := Op.discrete_stability (op e s r c) (homCo e bcs) S hS (stable e he s r c hs bcs S hwp) hs.1
    (mul_ne_zero hs.2.1 (pow_ne_zero _ (div_ne_zero (by norm_num) (by simp only [Mapping.diff]; linarith)))) (2 * r) le_rfl
  refine ⟨N + r + 2, fun n hn hfit => ?_⟩
  set d : Disc n := ⟨e, r, eps, s, bcs⟩ with hd
  obtain ⟨M, hM, -, hl⟩ := C98_shape d (by omega) he (by show r ≤ n; omega) hb
  have hlen := hl.2 hsq
  have hz : ∀ k, (List.replicate d.bcs.length (0:ℝ)).getD k 0 = 0 := fun k => by rw [getD_replicate']
  refine ⟨M, hM, hlen, fun g f hg => unique_of_inj M hlen (fun x hx => ?_) _ (by
    simp only [projectVector, keepRows, List.length_append, List.length_map, List.length_take, List.length_finRange, hd]
    omega)⟩
  rw [← project_zero d hsq (by show r ≤ n; omega)] at hx
  have h1 := solves d (by omega) he hb c hs hfit M hM _ (by simp) 0 x hx
  have h2 := (C98_rows d (by omega) he hb M hM _ (by simp) 0 x hx).1
  have h3 := hds n (by omega) (toCo x) (by
    intro b hbm
    rw [fn_toCo]
    obtain ⟨k, hk, rfl⟩ := List.getElem_of_mem hbm
    rw [h2 k hk, hz]) (fun k hk => toCo_ge x k hk)
  have h4 : lo (n - r) ((op e s r c).LamN n (toCo x)) = 0 := by
    rw [show lo (n - r) ((op e s r c).LamN n (toCo x)) = _ from h1, toCo_zero, map_zero]
    ext k
    rw [lo_apply]
    simp
  rw [show (op e s r c).r = r from rfl, h4, W_zero, mul_zero] at h3
  funext i
  have h5 : W (2 * r + 1) (toCo x) = 0 := le_antisymm h3 (W_nonneg _ _)
  rw [W_eq _ _ (insert (i : ℕ) (toCo x).support) (subset_insert _ _), sum_eq_zero_iff_of_nonneg (fun k _ => by positivity)] at h5
  have h6 := h5 i (mem_insert_self _ _)
  rw [mul_eq_zero] at h6
  rcases h6 with h6 | h6
  · exact absurd h6 (by positivity)
  · rw [abs_eq_zero, toCo_apply, dif_pos i.2] at h6
    exact h6

/-- **C126, residuals.**  For a well-posed problem and a right-hand side with finitely many Chebyshev coefficients the solutions of the discretised problems
satisfy the boundary conditions exactly and the equation up to a residual which tends to zero uniformly on the interval, faster than every power of `1 / n`. -/
theorem C126_residual (e : Ends) (he : e.e0 < e.e1) (s : Source) (r : ℕ) (c eps : ℝ) (hs : IsODE s r c) (bcs : List BC)
    (hb : ∀ b ∈ bcs, BC.PointsIn e b ∧ BC.Mentions b) (S : ℝ) (hS : 0 ≤ S) (hwp : WellPosed e s bcs S)
    (f g : List ℝ) (hg : g.length = bcs.length) (t : ℕ) :
    ∃ C N, 0 ≤ C ∧ ∀ n, N ≤ n → SecFits n n s → ∀ M, OpDisc.matrix (⟨e, r, eps, s, bcs⟩ : Disc n) = some M →
      ∀ x : Fin n → ℝ, M.map (· ⬝ᵥ x) = projectVector (⟨e, r, eps, s, bcs⟩ : Disc n) g (fun i => f.getD i 0) →
        (∀ k (hk : k < bcs.length), BC.sem (funOf e x) bcs[k] - BC.sem (fun _ => 0) bcs[k] = g.getD k 0) ∧
        ∀ y ∈ Set.Icc e.e0 e.e1, |applyLin e s (funOf e x) y - chebEval f (Mapping.bwd e y)| ≤ C / (n : ℝ) ^ t := by
  have hal : (op e s r c).al ≠ 0 :=
    mul_ne_zero hs.2.1 (pow_ne_zero _ (div_ne_zero (by norm_num) (by simp only [Mapping.diff]; linarith)))
  -- some polynomial with the right boundary values
  by_cases hF0 : ∃ F0 : Co, ∀ k (hk : k < bcs.length), BC.sem (fn e F0) bcs[k] - BC.sem (fun _ => 0) bcs[k] = g.getD k 0
  swap
  · refine ⟨0, 2, le_rfl, fun n hn _ M hM x hx => absurd ⟨toCo x, fun k hk => ?_⟩ hF0⟩
    rw [fn_toCo]
    exact (C98_rows (⟨e, r, eps, s, bcs⟩ : Disc n) hn he hb M hM g hg _ x hx).1 k hk
  obtain ⟨F0, hF0⟩ := hF0
  have hco : ∀ n, f.length ≤ n → toCo (fun i : Fin n => f.getD i 0) = toCo (fun i : Fin f.length => f.getD i 0) := by
    intro n hn
    ext k
    rw [toCo_apply, toCo_apply]
    by_cases h : k < f.length
    · rw [dif_pos h, dif_pos (by omega)]
    · rw [dif_neg h]
      split_ifs
      · exact getD_ge' _ _ _ (by simpa using h)
      · rfl
  set φ := conv 0 r (toCo (fun i : Fin f.length => f.getD i 0)) with hφ
  obtain ⟨C, N, hC, hdec⟩ := Op.residual_decay (op e s r c) (homCo e bcs) S hS (stable e he s r c hs bcs S hwp) hs.1 hal φ F0 t
  refine ⟨C * 2 ^ t, N + f.length + 2 * r + 2, by positivity, fun n hn hfit M hM x hx => ?_⟩
  set d : Disc n := ⟨e, r, eps, s, bcs⟩ with hd
  have h1 := solves d (by omega) he hb c hs hfit M hM g hg _ x hx
  rw [hco n (by omega)] at h1
  have h2 := (C98_rows d (by omega) he hb M hM g hg _ x hx).1
  refine ⟨h2, fun z hz => ?_⟩
  have h3 := hdec n (by omega) (toCo x) (by
    intro b hbm
    obtain ⟨k, hk, rfl⟩ := List.getElem_of_mem hbm
    have h4 : fn e (toCo x - F0) = fun y => fn e (toCo x) y - fn e F0 y := by
      funext y
      rw [fn, map_sub]
      rfl
    rw [h4, bc_sub _ _ (fn_contDiff e _) (fn_contDiff e _), hF0 k hk, fn_toCo, h2 k hk, sub_self]) (fun k hk => toCo_ge x k hk) h1
  rw [show (op e s r c).r = r from rfl] at h3
  have hnr : (0 : ℝ) < (((n - r : ℕ) : ℝ) + 1) ^ t := by positivity
  have h7 := h3 (Mapping.bwd e z) (bwd_abs e he z hz)
  rw [← applyLin_fn e s r c hs, fn_toCo] at h7
  have h8 : ser r φ (Mapping.bwd e z) = chebEval f (Mapping.bwd e z) := by
    have := ser_conv 0 r (toCo (fun i : Fin f.length => f.getD i 0)) (Mapping.bwd e z)
    rw [zero_add] at this
    rw [hφ, this, ser_toCo, pad_eval 0 _ f le_rfl]
    rfl
  have hn0 : (0 : ℝ) < n := by exact_mod_cast (by omega : 0 < n)
  have h10 : (n : ℝ) ^ t ≤ 2 ^ t * (((n - r : ℕ) : ℝ) + 1) ^ t := by
    rw [← mul_pow]
    gcongr
    have : n ≤ 2 * ((n - r) + 1) := by omega
    exact_mod_cast this
  rw [h8] at h7
  rw [le_div_iff₀ (by positivity)]
  have h11 := abs_nonneg (applyLin e s (funOf e x) z - chebEval f (Mapping.bwd e z))
  calc |applyLin e s (funOf e x) z - chebEval f (Mapping.bwd e z)| * (n : ℝ) ^ t
      ≤ |applyLin e s (funOf e x) z - chebEval f (Mapping.bwd e z)| * (2 ^ t * (((n - r : ℕ) : ℝ) + 1) ^ t) := by gcongr
    _ = 2 ^ t * ((((n - r : ℕ) : ℝ) + 1) ^ t * |applyLin e s (funOf e x) z - chebEval f (Mapping.bwd e z)|) := by ring
    _ ≤ 2 ^ t * C := by gcongr
    _ = _ := by ring

lemma Cvg.funOf_contDiff (e : Ends) (x : Fin n → ℝ) : ContDiff ℝ ∞ (funOf e x) := by rw [← fn_toCo]; exact fn_contDiff e _

/-- **C126, spectral convergence.**  Let `u` be a smooth solution of the well-posed problem `L u = f` with boundary values `g`, where `f` has
finitely many Chebyshev coefficients.  Then the solutions of the discretised problems converge to `u` uniformly on the interval, faster than
every power of `1 / n`. -/
theorem C126_converges (e : Ends) (he : e.e0 < e.e1) (s : Source) (r : ℕ) (c eps : ℝ) (hs : IsODE s r c) (bcs : List BC)
    (hb : ∀ b ∈ bcs, BC.PointsIn e b ∧ BC.Mentions b) (S : ℝ) (hS : 0 ≤ S) (hwp : WellPosed e s bcs S)
    (f g : List ℝ) (hg : g.length = bcs.length) (u : ℝ → ℝ) (hu : ContDiff ℝ ∞ u)
    (heq : ∀ y ∈ Set.Icc e.e0 e.e1, applyLin e s u y = chebEval f (Mapping.bwd e y))
    (hbc : ∀ k (hk : k < bcs.length), BC.sem u bcs[k] - BC.sem (fun _ => 0) bcs[k] = g.getD k 0) (t : ℕ) :
    ∃ C N, ∀ n, N ≤ n → SecFits n n s → ∀ M, OpDisc.matrix (⟨e, r, eps, s, bcs⟩ : Disc n) = some M →
      ∀ x : Fin n → ℝ, M.map (· ⬝ᵥ x) = projectVector (⟨e, r, eps, s, bcs⟩ : Disc n) g (fun i => f.getD i 0) →
        ∀ y ∈ Set.Icc e.e0 e.e1, |funOf e x y - u y| ≤ C / (n : ℝ) ^ t := by
  obtain ⟨C, N, hC, h⟩ := C126_residual e he s r c eps hs bcs hb S hS hwp f g hg t
  refine ⟨S * C, N, fun n hn hfit M hM x hx y hy => ?_⟩
  obtain ⟨h2, h3⟩ := h n hn hfit M hM x hx
  have hxs := funOf_contDiff e x
  have h9 := hwp (fun y => funOf e x y - u y) (hxs.sub hu) (by
    intro b hbm
    obtain ⟨k, hk, rfl⟩ := List.getElem_of_mem hbm
    rw [bc_sub _ _ hxs hu, hbc k hk, h2 k hk, sub_self]) (C / (n : ℝ) ^ t) (by
    intro z hz
    have h6 : applyLin e s (fun y => funOf e x y - u y) z = applyLin e s (funOf e x) z - applyLin e s u z := by
      have hd1 : ∀ j : ℕ, iteratedDeriv j (fun y => funOf e x y - u y) z = iteratedDeriv j (funOf e x) z - iteratedDeriv j u z := by
        intro j
        exact iteratedDeriv_fun_sub (hxs.of_le (by exact_mod_cast le_top)).contDiffAt (hu.of_le (by exact_mod_cast le_top)).contDiffAt
      rw [applyLin_sum e s r c hs, applyLin_sum e s r c hs, applyLin_sum e s r c hs, hd1]
      have : ∀ a b p q : ℝ, a + p - (b + q) = (a - b) + (p - q) := fun a b p q => by ring
      rw [this, ← sum_sub_distrib]
      congr 1
      · ring
      · apply Finset.sum_congr rfl
        intro j _
        rw [hd1]
        split_ifs <;> ring
    rw [h6, heq z hz]
    exact h3 z hz) y hy
  rw [mul_div_assoc]
  exact h9

end Funpy.Props
