import Verif.Lemmas.FourierSys
import Verif.Props.FourierEven
import Verif.Props.SysDisc

/-!
# C141: uniquely solvable periodic systems are solved by the Fourier discretisation
-/

namespace Funpy.Props
namespace FSs
end FSs
open Spec Trig TrigSpec Matrix Finset Complex FourierStab FCv FUn FSy FEv FSs Filter Topology Newton Adaptive E2E E2P SysDisc
open scoped ContDiff

/-! ### Specification -/

/-- One block `∑_{j ≤ r} a_j u^{(j)} + c ∫ u + ∑_{j < r} b_j (A u)^{(j)}` of order at most `r`, whose coefficient of `u^{(r)}` is the constant `c`, possibly zero; the coefficient
functions are trigonometric polynomials. -/
structure FSs.IsBlock (e : Ends) (s : Source) (r : ℕ) (c : ℂ) : Prop where
  len : s.coeff.length ≤ r + 1
  lead : ∀ x, coefFun e (s.coeff.getD r (false, [])) x = c
  coeff : ∀ p ∈ s.coeff, p.2.length ≠ 0
  nl : s.nl.length ≤ r
  nlcoeff : ∀ p ∈ s.nl, p.2.length ≠ 0
  integral : s.integral = [] ∨ ∃ c d, s.integral = [(c, d)] ∧ c.length ≠ 0 ∧ ∀ x, trigEval d x = 1

/-- A system of `d` equations of order `r ≥ 1` for `d` unknowns whose leading coefficients form a constant invertible matrix `A`. -/
structure FSs.IsSys {d : ℕ} (e : Ends) (s : Fin d → Fin d → Source) (r : ℕ) (A : Matrix (Fin d) (Fin d) ℂ) : Prop where
  pos : 1 ≤ r
  block : ∀ i j, IsBlock e (s i j) r (A i j)
  inv : IsUnit A.det

/-- The `i`-th equation applied to the functions `u`. -/
noncomputable def FSs.applySys {d : ℕ} (e : Ends) (s : Fin d → Fin d → Source) (u : Fin d → ℝ → ℂ) (i : Fin d) (x : ℝ) : ℂ := ∑ j, applyOp e (s i j) (u j) x

/-- The homogeneous periodic system has only the zero solution. -/
def FSs.UniqueSys {d : ℕ} (e : Ends) (s : Fin d → Fin d → Source) (r : ℕ) : Prop :=
  ∀ w : Fin d → ℝ → ℂ, (∀ i, ContDiff ℝ r (w i)) → (∀ i, Function.Periodic (w i) (Mapping.diff e)) → (∀ i x, applySys e s w i x = 0) → w = 0

/-! ### Proofs: one block -/

/-- one block on coefficients -/
noncomputable def FSs.bop (e : Ends) (s : Source) (r : ℕ) (c : ℂ) : Co →ₗ[ℂ] Co := c • FourierStab.diag (fun k => dmul e k ^ r) + low e s r

lemma FSs.coef_default (e : Ends) (x : ℝ) : coefFun e (false, []) x = 0 := by simp [coefFun]

lemma FSs.sum_len {M : Type*} [AddCommMonoid M] (l : List (Bool × List ℂ)) (r : ℕ) (h : l.length ≤ r + 1) (F : Bool × List ℂ → ℕ → M) (hF : ∀ j, F (false, []) j = 0) :
    ∑ j ∈ range l.length, F (l.getD j (false, [])) j = ∑ j ∈ range (r + 1), F (l.getD j (false, [])) j := by
  apply sum_subset (fun j hj => by rw [Finset.mem_range] at *; omega)
  intro j _ hj
  rw [Finset.mem_range] at hj
  rw [getD_ge' _ _ _ (by omega), hF]

/-- the coefficients of `L u` -/
lemma FSs.applyOp_fn {e : Ends} (he : e.e0 < e.e1) {s : Source} {r : ℕ} {c : ℂ} (hs : IsBlock e s r c) (a : Co) (x : ℝ) :
    applyOp e s (fn e a) x = ev (bop e s r c a) (Mapping.bwd e x) := by
  unfold bop
  rw [LinearMap.add_apply, map_add, Pi.add_apply]
  unfold low applyOp
  rw [sum_len s.coeff r hs.len (fun p j => coefFun e p x * iteratedDeriv j (fn e a) x) (fun j => by rw [coef_default, zero_mul])]
  rw [LinearMap.add_apply, LinearMap.add_apply, map_add, map_add, Pi.add_apply, Pi.add_apply, sum_range_succ, hs.lead, fn_agg e he]
  have h1 : ∀ p : Bool × List ℂ, ∀ b : Co, ∀ j, coefFun e p x * iteratedDeriv j (fn e b) x
      = ev ((FourierStab.mul (qc p)).comp (FourierStab.diag fun k => dmul e k ^ j) b) (Mapping.bwd e x) := by
    intro p b j
    rw [LinearMap.comp_apply, ev_mul, ev_qc, fn_iter]
    rfl
  have h2 : c * iteratedDeriv r (fn e a) x = ev ((c • FourierStab.diag (fun k => dmul e k ^ r)) a) (Mapping.bwd e x) := by
    rw [fn_iter, LinearMap.smul_apply, map_smul]
    rfl
  have h3 : (s.integral.map fun p => trigEval p.1 (Mapping.bwd e x) * ∫ y in e.e0..e.e1, trigEval p.2 (Mapping.bwd e y) * fn e a y).sum
      = ev (intTerm e s a) (Mapping.bwd e x) := by
    unfold intTerm
    rcases hs.integral with h | ⟨q, d, h, -, hd⟩
    · rw [h]
      simp
    · rw [h]
      simp only [List.map_cons, List.map_nil, List.sum_cons, List.sum_nil, add_zero, hd, one_mul]
      rw [LinearMap.comp_apply, ev_mul, ev_coOf, fn_int e he]
      congr 1
      have : FourierStab.diag (fun k => if k = 0 then (Mapping.diff e : ℂ) else 0) a = Finsupp.single 0 ((Mapping.diff e : ℂ) * a 0) := by
        ext k
        rw [FourierStab.diag_apply, Finsupp.single_apply]
        by_cases hk : k = 0
        · subst hk; simp
        · rw [if_neg hk, if_neg (Ne.symm hk), zero_mul]
      rw [this, ev_single]
      simp
  rw [h2, h3]
  simp only [h1]
  rw [LinearMap.sum_apply, LinearMap.sum_apply, map_sum, map_sum, Finset.sum_apply, Finset.sum_apply]
  have h4 : ∀ j, ev ((FourierStab.mul (qc (s.nl.getD j (false, [])))).comp (FourierStab.diag fun k => dmul e k ^ j) (FourierStab.diag (amul e) a)) (Mapping.bwd e x)
      = ev ((FourierStab.mul (qc (s.nl.getD j (false, [])))).comp (FourierStab.diag fun k => dmul e k ^ j * amul e k) a) (Mapping.bwd e x) := by
    intro j
    rw [LinearMap.comp_apply, LinearMap.comp_apply, diag_diag]
  simp only [h4]
  ring

/-- what the matrix for an even number of modes drops -/
noncomputable def FSs.drop (e : Ends) (s : Source) (r n : ℕ) (a : Co) : Co := if n % 2 = 1 then 0 else low e (oddPart s r) r (cut (n / 2) a)

lemma FSs.mul_zero' (b : Co) : FourierStab.mul 0 b = 0 := by simp [FourierStab.mul]

/-- the matrix of one block -/
lemma FSs.matrix_co {e : Ends} (he : e.e0 < e.e1) {s : Source} {r : ℕ} {c : ℂ} (hs : IsBlock e s r c) {n : ℕ} (h2 : 2 ≤ n) (hp : n % 2 = 1 ∨ r % 2 = 0)
    (u : Fin n → ℂ) (i : Fin n) :
    (assemble n (Mapping.diff e) s *ᵥ u) i = (bop e s r c (toCo u) - drop e s r n (toCo u)) (wave n i) := by
  unfold drop
  rcases Nat.mod_two_eq_zero_or_one n with hn | hn
  swap
  · rw [if_pos hn, sub_zero, C94_assemble_partial n hn e he s hs.coeff hs.nlcoeff hs.integral u i, ← fourier_ev]
    congr 1
    funext y
    rw [← fn_toCo hn, FSs.applyOp_fn he hs, bwd_fwd e he]
  rw [if_neg (by omega)]
  have hr : r % 2 = 0 := by omega
  have hget : ∀ (l : List (Bool × List ℂ)), (∀ p ∈ l, p.2.length ≠ 0) → ∀ j, (l.getD j (false, [])).1 = true → (l.getD j (false, [])).2.length ≠ 0 := by
    intro l hl j hj
    by_cases h : j < l.length
    · rw [getD_lt' _ _ _ h]; exact hl _ (List.getElem_mem h)
    · rw [getD_ge' _ _ _ (by omega)] at hj; cases hj
  have hm0 : FourierStab.mul 0 = 0 := by simp [FourierStab.mul]
  have hq0 : qc (false, []) = 0 := by simp [qc]
  have hterm : ∀ (p : Bool × List ℂ), (p.1 = true → p.2.length ≠ 0) → ∀ v : Fin n → ℂ,
      (if p.1 then multmat n p.2 *ᵥ v else 0) i = FourierStab.mul (qc p) (toCo v) (wave n i) := by
    intro p hp v
    unfold qc
    by_cases h : p.1
    · rw [if_pos h, if_pos h, mult_co _ (hp h)]
    · rw [if_neg h, if_neg h, hm0]
      rfl
  set a := toCo u with ha
  have hlead : FourierStab.mul (qc (s.coeff.getD r (false, []))) (FourierStab.diag (fun k => dmul e k ^ r) a) = c • FourierStab.diag (fun k => dmul e k ^ r) a := by
    apply ev_inj
    intro y
    have h3 := ev_qc e (s.coeff.getD r (false, [])) (Mapping.fwd e y)
    rw [bwd_fwd e he, hs.lead] at h3
    rw [ev_mul, h3, map_smul]
    rfl
  have hint : ((match s.integral with
      | [] => (0 : Matrix (Fin n) (Fin n) ℂ)
      | p :: _ => multmat n p.1 * discInt n (Mapping.diff e)) *ᵥ u) i = intTerm e s a (wave n i) := by
    unfold intTerm
    rcases hs.integral with h | ⟨q, d, h, hq, -⟩
    · rw [h]
      simp
    · rw [h]
      show ((multmat n q * discInt n (Mapping.diff e)) *ᵥ u) i = _
      rw [← mulVec_mulVec, mult_co _ hq, toCo_int hn h2]
      rfl
  unfold assemble
  simp only []
  rw [add_mulVec, add_mulVec, Pi.add_apply, Pi.add_apply]
  erw [hint]
  rw [mapIdx_sum _ (false, []), mapIdx_sum _ (false, [])]
  simp only [sum_mulVec, Finset.sum_apply]
  have hc : ∀ j ∈ range s.coeff.length, ((if (s.coeff.getD j (false, [])).1 then multmat n (s.coeff.getD j (false, [])).2 * discDiff n j (Mapping.diff e) else 0) *ᵥ u) i
      = FourierStab.mul (qc (s.coeff.getD j (false, []))) (FourierStab.diag (fun k => dmul e k ^ j) a) (wave n i)
        - (if j % 2 = 1 then FourierStab.mul (qc (s.coeff.getD j (false, []))) (FourierStab.diag (fun k => dmul e k ^ j) (cut (n / 2) a)) else 0) (wave n i) := by
    intro j _
    have h1 := hterm (s.coeff.getD j (false, [])) (hget _ hs.coeff j) (discDiff n j (Mapping.diff e) *ᵥ u)
    rw [toCo_diff hn, diag_part', map_sub, Finsupp.sub_apply, ← ha] at h1
    rw [show (if (s.coeff.getD j (false, [])).1 then multmat n (s.coeff.getD j (false, [])).2 * discDiff n j (Mapping.diff e) else 0) *ᵥ u
      = (if (s.coeff.getD j (false, [])).1 then multmat n (s.coeff.getD j (false, [])).2 *ᵥ (discDiff n j (Mapping.diff e) *ᵥ u) else 0) by
        split_ifs
        · rw [mulVec_mulVec]
        · rw [zero_mulVec], h1]
    split_ifs
    · rfl
    · rw [map_zero]
  have hb : ∀ j ∈ range s.nl.length, ((if (s.nl.getD j (false, [])).1 then multmat n (s.nl.getD j (false, [])).2 * discDiff n j (Mapping.diff e) * (discAgg n 0 (Mapping.diff e)).getD 0 else 0) *ᵥ u) i
      = FourierStab.mul (qc (s.nl.getD j (false, []))) (FourierStab.diag (fun k => dmul e k ^ j * amul e k) a) (wave n i)
        - (if j % 2 = 1 then FourierStab.mul (qc (s.nl.getD j (false, []))) (FourierStab.diag (fun k => dmul e k ^ j * amul e k) (cut (n / 2) a)) else 0) (wave n i) := by
    intro j _
    have h1 := hterm (s.nl.getD j (false, [])) (hget _ hs.nlcoeff j) (discDiff n j (Mapping.diff e) *ᵥ ((discAgg n 0 (Mapping.diff e)).getD 0 *ᵥ u))
    rw [toCo_diff hn, toCo_agg hn, diag_part, map_sub, Finsupp.sub_apply, ← ha] at h1
    rw [show (if (s.nl.getD j (false, [])).1 then multmat n (s.nl.getD j (false, [])).2 * discDiff n j (Mapping.diff e) * (discAgg n 0 (Mapping.diff e)).getD 0 else 0) *ᵥ u
      = (if (s.nl.getD j (false, [])).1 then multmat n (s.nl.getD j (false, [])).2 *ᵥ (discDiff n j (Mapping.diff e) *ᵥ ((discAgg n 0 (Mapping.diff e)).getD 0 *ᵥ u)) else 0) by
        split_ifs
        · rw [mulVec_mulVec, mulVec_mulVec]
        · rw [zero_mulVec], h1]
    split_ifs
    · rfl
    · rw [map_zero]
  rw [sum_congr rfl hc, sum_congr rfl hb,
    sum_len s.coeff r hs.len (fun p j => FourierStab.mul (qc p) (FourierStab.diag (fun k => dmul e k ^ j) a) (wave n i)
        - (if j % 2 = 1 then FourierStab.mul (qc p) (FourierStab.diag (fun k => dmul e k ^ j) (cut (n / 2) a)) else 0) (wave n i))
      (fun j => by rw [hq0, hm0]; simp),
    sum_range_succ, if_neg (by omega : ¬ r % 2 = 1), hlead, sum_sub_distrib, sum_sub_distrib,
    Finsupp.sub_apply, low_odd, Finsupp.add_apply, bop, LinearMap.add_apply, Finsupp.add_apply]
  unfold low
  rw [LinearMap.add_apply, LinearMap.add_apply, LinearMap.sum_apply, LinearMap.sum_apply, Finsupp.add_apply, Finsupp.add_apply]
  simp only [Finsupp.finsetSum_apply, LinearMap.comp_apply, Finsupp.zero_apply, LinearMap.smul_apply]
  ring

/-- one block is continuous -/
lemma FSs.applyOp_tendsto {e : Ends} {s : Source} {r : ℕ} {c : ℂ} (hs : IsBlock e s r c) (f : ℕ → ℝ → ℂ) (u : ℝ → ℂ) (hf : ∀ m, ContDiff ℝ r (f m))
    (hu : ContDiff ℝ r u) (h : ∀ j ≤ r, TendstoUniformly (fun m => iteratedDeriv j (f m)) (iteratedDeriv j u) atTop) (x : ℝ) :
    Tendsto (fun m => applyOp e s (f m) x) atTop (𝓝 (applyOp e s u x)) := by
  have hcf : ∀ m, ∀ j ≤ r, Continuous (iteratedDeriv j (f m)) := fun m j hj => (hf m).continuous_iteratedDeriv j (by exact_mod_cast hj)
  have hcu : ∀ j ≤ r, Continuous (iteratedDeriv j u) := fun j hj => hu.continuous_iteratedDeriv j (by exact_mod_cast hj)
  have hl := hs.len
  have hnl := hs.nl
  unfold applyOp
  refine Tendsto.add (Tendsto.add ?_ ?_) ?_
  · refine tendsto_finsetSum _ fun j hj => ?_
    rw [Finset.mem_range] at hj
    exact ((h j (by omega)).tendsto_at x).const_mul _
  · rcases hs.integral with h0 | ⟨q, d, h0, -, hd⟩
    · simp only [h0, List.map_nil, List.sum_nil]
      exact tendsto_const_nhds
    · simp only [h0, List.map_cons, List.map_nil, List.sum_cons, List.sum_nil, add_zero, hd, one_mul]
      have h1 := h 0 (Nat.zero_le _)
      simp only [iteratedDeriv_zero] at h1
      exact (int_tendsto e f u (fun m => (hf m).continuous) hu.continuous h1).const_mul _
  · refine tendsto_finsetSum _ fun j hj => ?_
    rw [Finset.mem_range] at hj
    have hjr : j ≤ r := by omega
    simp only [agg_iter r u hu j hjr, fun m => agg_iter r (f m) (hf m) j hjr]
    exact (agg_tendsto _ _ (fun m => hcf m j hjr) (hcu j hjr) (h j hjr) x).const_mul _

lemma FSs.applyOp_sub {e : Ends} {s : Source} {r : ℕ} {c : ℂ} (hs : IsBlock e s r c) (w u : ℝ → ℂ) (hw : ContDiff ℝ r w) (hu : ContDiff ℝ r u) (x : ℝ) :
    applyOp e s (w - u) x = applyOp e s w x - applyOp e s u x := by
  have hi : ∀ j ≤ r, iteratedDeriv j (w - u) = iteratedDeriv j w - iteratedDeriv j u := by
    intro j hj
    funext x
    exact iteratedDeriv_sub (hw.contDiffAt.of_le (by exact_mod_cast hj)) (hu.contDiffAt.of_le (by exact_mod_cast hj))
  have hl := hs.len
  have hnl := hs.nl
  have h1 : ∑ j ∈ range s.coeff.length, coefFun e (s.coeff.getD j (false, [])) x * iteratedDeriv j (w - u) x
      = (∑ j ∈ range s.coeff.length, coefFun e (s.coeff.getD j (false, [])) x * iteratedDeriv j w x)
        - ∑ j ∈ range s.coeff.length, coefFun e (s.coeff.getD j (false, [])) x * iteratedDeriv j u x := by
    rw [← sum_sub_distrib]
    apply sum_congr rfl
    intro j hj
    rw [Finset.mem_range] at hj
    rw [hi j (by omega), Pi.sub_apply]
    ring
  have h2 : ∑ j ∈ range s.nl.length, coefFun e (s.nl.getD j (false, [])) x * iteratedDeriv j (aggregate (w - u)) x
      = (∑ j ∈ range s.nl.length, coefFun e (s.nl.getD j (false, [])) x * iteratedDeriv j (aggregate w) x)
        - ∑ j ∈ range s.nl.length, coefFun e (s.nl.getD j (false, [])) x * iteratedDeriv j (aggregate u) x := by
    rw [← sum_sub_distrib]
    apply sum_congr rfl
    intro j hj
    rw [Finset.mem_range] at hj
    have hjr : j ≤ r := by omega
    rw [agg_iter r (w - u) (hw.sub hu) j hjr, agg_iter r _ hw j hjr, agg_iter r _ hu j hjr, hi j hjr,
      agg_sub _ _ (hu.continuous_iteratedDeriv j (by exact_mod_cast hjr)) (hw.continuous_iteratedDeriv j (by exact_mod_cast hjr)), Pi.sub_apply]
    ring
  have h3 : (s.integral.map fun p => trigEval p.1 (Mapping.bwd e x) * ∫ y in e.e0..e.e1, trigEval p.2 (Mapping.bwd e y) * (w - u) y).sum
      = (s.integral.map fun p => trigEval p.1 (Mapping.bwd e x) * ∫ y in e.e0..e.e1, trigEval p.2 (Mapping.bwd e y) * w y).sum
        - (s.integral.map fun p => trigEval p.1 (Mapping.bwd e x) * ∫ y in e.e0..e.e1, trigEval p.2 (Mapping.bwd e y) * u y).sum := by
    rcases hs.integral with h0 | ⟨q, d, h0, -, hd⟩
    · simp [h0]
    · simp only [h0, List.map_cons, List.map_nil, List.sum_cons, List.sum_nil, add_zero, hd, one_mul, Pi.sub_apply]
      rw [intervalIntegral.integral_sub (hw.continuous.intervalIntegrable _ _) (hu.continuous.intervalIntegrable _ _)]
      ring
  unfold applyOp
  rw [h1, h2, h3]
  ring

/-! ### Proofs: systems -/

variable {d : ℕ}

/-- the system on coefficients -/
noncomputable def FSs.sop (e : Ends) (he : e.e0 < e.e1) (s : Fin d → Fin d → Source) (r : ℕ) (A : Matrix (Fin d) (Fin d) ℂ) (hs : IsSys e s r A) : SOp d where
  p := r - 1
  mu k := dmul e k ^ r
  γ := (Real.pi / Mapping.diff e) ^ r
  hγ := by
    have hd : 0 < Mapping.diff e := by unfold Mapping.diff; linarith
    positivity
  hmu k hk := by
    have hd : 0 < Mapping.diff e := by unfold Mapping.diff; linarith
    have hr := hs.pos
    rw [show r - 1 + 1 = r by omega, norm_pow, dmul_norm e he, ← mul_pow]
    have h1 : (1 : ℝ) ≤ k.natAbs := by exact_mod_cast (by omega : 1 ≤ k.natAbs)
    have := (wt_pos k).le
    have h2 : Real.pi / Mapping.diff e * wt k ≤ 2 * Real.pi / Mapping.diff e * k.natAbs := by
      unfold wt
      have : 0 < Real.pi / Mapping.diff e := by positivity
      rw [show 2 * Real.pi / Mapping.diff e = 2 * (Real.pi / Mapping.diff e) by ring]
      nlinarith
    gcongr
  A := A
  B := A⁻¹
  hBA := Matrix.nonsing_inv_mul A hs.inv
  K := LinearMap.pi fun i => ∑ j, (low e (s i j) r).comp (LinearMap.proj j)
  hK t := by
    choose C hC hb using fun i j => low_bound e he (s i j) r hs.pos (hs.block i j).nl t
    refine ⟨∑ i, ∑ j, C i j, sum_nonneg fun i _ => sum_nonneg fun j _ => hC i j, fun a => ?_⟩
    rw [show V t (LinearMap.pi (fun i => ∑ j, (low e (s i j) r).comp (LinearMap.proj j)) a)
      = ∑ i, W t (∑ j, low e (s i j) r (a j)) by
        unfold V
        apply sum_congr rfl
        intro i _
        rw [LinearMap.pi_apply, LinearMap.sum_apply]
        rfl, sum_mul]
    apply sum_le_sum
    intro i _
    rw [sum_mul]
    refine (W_sum _ _ _).trans (sum_le_sum fun j _ => (hb i j (a j)).trans ?_)
    exact mul_le_mul_of_nonneg_left (W_le_V _ _ _) (hC i j)

variable {e : Ends} (he : e.e0 < e.e1) {s : Fin d → Fin d → Source} {r : ℕ} {A : Matrix (Fin d) (Fin d) ℂ} (hs : IsSys e s r A)

lemma FSs.Lam_eq (a : Vec d) (i : Fin d) : (sop e he s r A hs).Lam a i = ∑ j, bop e (s i j) r (A i j) (a j) := by
  rw [SOp.Lam_apply, Pi.add_apply, SOp.lead_apply]
  show _ + (LinearMap.pi (fun i => ∑ j, (low e (s i j) r).comp (LinearMap.proj j)) a) i = _
  rw [LinearMap.pi_apply, LinearMap.sum_apply, ← sum_add_distrib]
  rfl

/-- what the matrices for an even number of modes drop -/
noncomputable def FSs.sdrop (e : Ends) (s : Fin d → Fin d → Source) (r n : ℕ) (a : Vec d) : Vec d := fun i => ∑ j, FSs.drop e (s i j) r n (a j)

lemma FSs.drop_sub (e : Ends) (s : Source) (r n : ℕ) (a b : Co) : FSs.drop e s r n (a - b) = FSs.drop e s r n a - FSs.drop e s r n b := by
  unfold FSs.drop
  split_ifs
  · rw [sub_zero]
  · rw [← map_sub]
    congr 1
    unfold cut
    rw [Finsupp.sub_apply, Finsupp.single_sub]

include he hs in
lemma FSs.small : SOp.Small (sdrop e s r) (fun _ => True) (r - 1) := by
  intro p t
  choose C hC hb using fun i j => low_bound e he (oddPart (s i j) r) r hs.pos (by simpa [oddPart] using (hs.block i j).nl) p
  refine ⟨∑ i, ∑ j, C i j, sum_nonneg fun i _ => sum_nonneg fun j _ => hC i j, fun n _ a => ?_⟩
  have h0 : (0 : ℝ) ≤ (((n / 2 : ℕ) : ℝ) + 1) ^ t := by positivity
  unfold V
  rw [mul_sum, sum_mul]
  apply sum_le_sum
  intro i _
  rw [sum_mul]
  refine (mul_le_mul_of_nonneg_left (W_sum _ _ _) h0).trans ?_
  rw [mul_sum]
  apply sum_le_sum
  intro j _
  have h3 : (0 : ℝ) ≤ C i j * V (p + t + (r - 1)) a := mul_nonneg (hC i j) (V_nonneg _ _)
  unfold FSs.drop
  split_ifs
  · rw [W_zero, mul_zero]
    exact h3
  · have h1 := hb i j (cut (n / 2) (a j))
    have h2 := W_cut (p + (r - 1)) t (n / 2) (a j)
    rw [show p + (r - 1) + t = p + t + (r - 1) by ring] at h2
    calc _ ≤ (((n / 2 : ℕ) : ℝ) + 1) ^ t * (C i j * W (p + (r - 1)) (cut (n / 2) (a j))) := by gcongr
      _ = C i j * ((((n / 2 : ℕ) : ℝ) + 1) ^ t * W (p + (r - 1)) (cut (n / 2) (a j))) := by ring
      _ ≤ C i j * V (p + t + (r - 1)) a := mul_le_mul_of_nonneg_left (h2.trans (W_le_V _ a j)) (hC i j)

lemma FSs.applySys_fn (a : Vec d) (i : Fin d) (x : ℝ) :
    applySys e s (fun j => fn e (a j)) i x = ev ((sop e he s r A hs).Lam a i) (Mapping.bwd e x) := by
  rw [Lam_eq, map_sum, Finset.sum_apply]
  unfold applySys
  exact sum_congr rfl fun j _ => FSs.applyOp_fn he (hs.block i j) (a j) x

lemma FSs.kept_toCo {n : ℕ} (v : Fin d → Fin n → ℂ) : Kept n (fun j => toCo (v j)) := by
  intro i k hk
  show toCo (v i) k = 0
  unfold toCo
  rw [Finsupp.finsetSum_apply]
  apply sum_eq_zero
  intro l _
  rw [Finsupp.single_apply, if_neg]
  unfold wave
  have := l.2
  omega

lemma FSs.exists_wave {n : ℕ} (k : ℤ) (h : -((n / 2 : ℕ) : ℤ) ≤ k ∧ k < ((n - n / 2 : ℕ) : ℤ)) : ∃ i : Fin n, wave n i = k := by
  refine ⟨⟨(k + (n / 2 : ℕ)).toNat, by omega⟩, ?_⟩
  unfold wave
  simp only
  omega

lemma FSs.sys_co {n : ℕ} (h2 : 2 ≤ n) (hp : n % 2 = 1 ∨ r % 2 = 0) (v : Fin d → Fin n → ℂ) (i : Fin d) (k : Fin n) :
    (∑ j, assemble n (Mapping.diff e) (s i j) *ᵥ v j) k
      = ((sop e he s r A hs).Lam (fun j => toCo (v j)) - sdrop e s r n (fun j => toCo (v j))) i (wave n k) := by
  rw [Finset.sum_apply, Pi.sub_apply, Lam_eq, sdrop, ← sum_sub_distrib, Finsupp.finsetSum_apply]
  exact sum_congr rfl fun j _ => FSs.matrix_co he (hs.block i j) h2 hp (v j) k

lemma FSs.sys_tr {n : ℕ} (h2 : 2 ≤ n) (hp : n % 2 = 1 ∨ r % 2 = 0) (v : Fin d → Fin n → ℂ) (φ : Vec d)
    (h : ∀ i (k : Fin n), (∑ j, assemble n (Mapping.diff e) (s i j) *ᵥ v j) k = φ i (wave n k)) :
    tr n ((sop e he s r A hs).Lam (fun j => toCo (v j)) - sdrop e s r n (fun j => toCo (v j))) = tr n φ := by
  funext i
  ext k
  rw [tr_apply, tr_apply]
  split_ifs with hk
  · obtain ⟨l, rfl⟩ := FSs.exists_wave k hk
    rw [← FSs.sys_co he hs h2 hp, h]
  · rfl

/-- the matrix-vector product -/
lemma FSs.matvec_eq {n : ℕ} (h2 : 2 ≤ n) (eps : ℝ) (hnd : ∀ i j, NoDrop n (Mapping.diff e) eps (s i j)) (v : Fin d → Fin n → ℂ) :
    matvec (trigMatrix n (Mapping.diff e) eps s) (flat v) = flat fun i k => (∑ j, assemble n (Mapping.diff e) (s i j) *ᵥ v j) k := by
  rw [trigMatrix, if_neg (by omega)]
  refine (bmat_matvec _ v).trans ?_
  congr 1
  funext i k
  rw [Finset.sum_apply]
  apply sum_congr rfl
  intro j _
  rw [← nodrop (hnd i j)]
  rfl

/-- **uniqueness implies stability** -/
lemma FSs.cstable (hu : UniqueSys e s r) : ∃ S, 0 ≤ S ∧ (sop e he s r A hs).CStable S := by
  refine (sop e he s r A hs).stable_of_unique fun a hc hres => ?_
  have hr : (sop e he s r A hs).p + 1 = r := by
    show r - 1 + 1 = r
    have := hs.pos
    omega
  rw [hr] at hc
  have hci : ∀ i, ∀ ε > 0, ∃ N, ∀ m ≥ N, ∀ l ≥ N, W r (a m i - a l i) ≤ ε := fun i ε hε => by
    obtain ⟨N, hN⟩ := hc ε hε
    exact ⟨N, fun m hm l hl => (W_le_V r (a m - a l) i).trans (hN m hm l hl)⟩
  choose u hlim hper using fun i => exists_limit e he (fun m => a m i) (fun ε hε => by
    obtain ⟨N, hN⟩ := hci i ε hε
    exact ⟨N, fun m hm l hl => (W_mono _ _ (Nat.zero_le r) _).trans (hN m hm l hl)⟩)
  have hlf := fun i => limit_fn e he (fun m => a m i) (u i) (hlim i) r (hci i)
  have hz := hu u (fun i => (hlf i).1) hper fun i x => by
    have h1 : Tendsto (fun m => applySys e s (fun j => fn e (a m j)) i x) atTop (𝓝 (applySys e s u i x)) := by
      unfold applySys
      exact tendsto_finsetSum _ fun j _ => FSs.applyOp_tendsto (hs.block i j) (fun m => fn e (a m j)) (u j)
        (fun m => (fn_contDiff e _).of_le (by exact_mod_cast le_top)) (hlf j).1 (hlf j).2 x
    have h2 : Tendsto (fun m => applySys e s (fun j => fn e (a m j)) i x) atTop (𝓝 0) := by
      refine squeeze_zero_norm (fun m => ?_) hres
      rw [FSs.applySys_fn he hs]
      exact (ev_bound _ _).trans (W_le_V 0 _ i)
    exact tendsto_nhds_unique h1 h2
  intro ε hε
  have h3 : ∀ i, ∃ N, ∀ m ≥ N, ∀ k, ‖a m i k‖ ≤ ε := by
    intro i
    have h3 := (hlf i).2 0 (Nat.zero_le _)
    rw [Metric.tendstoUniformly_iff] at h3
    obtain ⟨N, hN⟩ := eventually_atTop.mp (h3 ε hε)
    refine ⟨N, fun m hm k => coeff_bound (a m i) ε (fun y => ?_) k⟩
    have h4 := hN m hm (Mapping.fwd e y)
    simp only [iteratedDeriv_zero] at h4
    rw [hz, Pi.zero_apply, Pi.zero_apply, dist_zero_left] at h4
    unfold fn at h4
    rw [bwd_fwd e he] at h4
    exact h4.le
  choose N hN using h3
  exact ⟨∑ i, N i, fun m hm i k => hN i m ((single_le_sum (f := N) (fun i _ => Nat.zero_le _) (mem_univ i)).trans hm) k⟩

/-- discrete problems are uniquely solvable -/
lemma FSs.regular (S : ℝ) (hS : 0 ≤ S) (hst : (sop e he s r A hs).CStable S) :
    ∃ N, 2 ≤ N ∧ ∀ n, N ≤ n → (n % 2 = 1 ∨ r % 2 = 0) → ∀ g : Fin d → Fin n → ℂ,
      ∃! v : Fin d → Fin n → ℂ, (fun i k => (∑ j, assemble n (Mapping.diff e) (s i j) *ᵥ v j) k) = g := by
  obtain ⟨C, N, hC, hds⟩ := (sop e he s r A hs).discrete_stability (sdrop e s r) (fun _ => True) (FSs.small he hs) S hS hst 0
  refine ⟨N + 2, by omega, fun n hn hp g => ?_⟩
  let T : (Fin d → Fin n → ℂ) →ₗ[ℂ] (Fin d → Fin n → ℂ) :=
    LinearMap.pi fun i => ∑ j, (assemble n (Mapping.diff e) (s i j)).mulVecLin.comp (LinearMap.proj j)
  have hT : ∀ v, T v = fun i k => (∑ j, assemble n (Mapping.diff e) (s i j) *ᵥ v j) k := by
    intro v
    funext i
    show (∑ j, (assemble n (Mapping.diff e) (s i j)).mulVecLin.comp (LinearMap.proj j)) v = _
    rw [LinearMap.sum_apply]
    rfl
  have hinj : Function.Injective T := by
    rw [← LinearMap.ker_eq_bot, LinearMap.ker_eq_bot']
    intro x hx
    rw [hT] at hx
    have h1 := hds n (by omega) trivial (fun j => toCo (x j)) (kept_toCo x)
    rw [FSs.sys_tr he hs (by omega) hp x 0 (fun i k => congrFun (congrFun hx i) k)] at h1
    have h0 : tr n (0 : Vec d) = 0 := by
      funext i
      ext k
      rw [tr_apply]
      simp
    rw [h0, V_zero, mul_zero] at h1
    funext i k
    have h3 : W 0 (toCo (x i)) ≤ 0 := ((W_mono 0 _ (Nat.zero_le _) _).trans (W_le_V _ (fun j => toCo (x j)) i)).trans h1
    have h4 := (coeff_le_W (toCo (x i)) (wave n k)).trans h3
    rw [toCo_wave] at h4
    exact norm_le_zero_iff.mp h4
  obtain ⟨x, hx⟩ := LinearMap.injective_iff_surjective.1 hinj g
  refine ⟨x, by rw [← hx, hT], fun y hy => hinj ?_⟩
  rw [hx, ← hy, hT]

/-- the function with the given coefficients -/
lemma FSs.fun_near (j : ℕ) {n : ℕ} (h2 : 2 ≤ n) (v : Fin n → ℂ) :
    ∃ b : Co, fourierFun e v = fn e (toCo v - b) ∧ ∀ t, (((n / 2 : ℕ) : ℝ) + 1) ^ t * W j b ≤ W (j + t) (toCo v) := by
  have hfun : fourierFun e v = fn e (coOf (List.ofFn v)) := by
    funext y
    exact (ev_coOf _ _).symm
  rcases Nat.mod_two_eq_zero_or_one n with hn | hn
  · refine ⟨_, by rw [hfun, coOf_even hn h2], fun t => ?_⟩
    set a := toCo v
    have hWd : W j ((1 / 2 : ℂ) • cut (n / 2) a - Finsupp.single ((n / 2 : ℕ) : ℤ) (1 / 2 * a (-((n / 2 : ℕ) : ℤ)))) ≤ W j (cut (n / 2) a) := by
      refine (W_sub _ _ _).trans ?_
      rw [W_smul, W_single, cut, W_single, wt_neg, norm_mul]
      have : wt ((n / 2 : ℕ) : ℤ) = ((n / 2 : ℕ) : ℝ) + 1 := by unfold wt; rw [Int.natAbs_natCast]
      rw [this, show ‖(1 / 2 : ℂ)‖ = 1 / 2 by norm_num]
      linarith
    exact (mul_le_mul_of_nonneg_left hWd (by positivity)).trans (W_cut j t (n / 2) a)
  · refine ⟨0, by rw [sub_zero, fn_toCo hn], fun t => ?_⟩
    rw [W_zero, mul_zero]
    exact W_nonneg _ _

/-- **C141.**  Consider a system of `d` linear periodic equations of order `r` for `d` unknowns whose leading coefficients form a constant invertible matrix.  If the homogeneous
system has only the zero solution then for all right-hand sides `f` with finitely many Fourier coefficients the system has exactly one periodic solution `u`, it is smooth,
and for all sufficiently large numbers `n` of modes (odd numbers, or any if `r` is even) the discretised system has exactly one solution for every
right-hand side, and that for the coefficients of `f` converges to `u` with all derivatives, uniformly and faster than every power of `1 / n`. -/
theorem C141_solves (e : Ends) (he : e.e0 < e.e1) (s : Fin d → Fin d → Source) (r : ℕ) (A : Matrix (Fin d) (Fin d) ℂ) (eps : ℝ) (hs : IsSys e s r A)
    (huni : UniqueSys e s r) (f : Fin d → List ℂ) :
    ∃ u : Fin d → ℝ → ℂ, (∀ i, ContDiff ℝ ∞ (u i)) ∧ (∀ i, Function.Periodic (u i) (Mapping.diff e)) ∧
      (∀ i x, applySys e s u i x = trigEval (f i) (Mapping.bwd e x)) ∧
      (∀ w : Fin d → ℝ → ℂ, (∀ i, ContDiff ℝ r (w i)) → (∀ i, Function.Periodic (w i) (Mapping.diff e)) →
        (∀ i x, applySys e s w i x = trigEval (f i) (Mapping.bwd e x)) → w = u) ∧
      ∀ t q : ℕ, ∃ C N, ∀ n, N ≤ n → (n % 2 = 1 ∨ r % 2 = 0) → (∀ i j, NoDrop n (Mapping.diff e) eps (s i j)) →
        (∀ g : Fin d → Fin n → ℂ, ∃! v : Fin d → Fin n → ℂ, matvec (trigMatrix n (Mapping.diff e) eps s) (flat v) = flat g) ∧
        ∀ v : Fin d → Fin n → ℂ, matvec (trigMatrix n (Mapping.diff e) eps s) (flat v) = flat (fun i => E2P.rhsAt (f i) n) →
          ∀ i x, ‖iteratedDeriv q (fourierFun e (v i)) x - iteratedDeriv q (u i) x‖ ≤ C / (n : ℝ) ^ t := by
  obtain ⟨S, hS, hst⟩ := FSs.cstable he hs huni
  obtain ⟨N0, hN0, hreg⟩ := FSs.regular he hs S hS hst
  set L := sop e he s r A hs with hL
  set φ : Vec d := fun i => coOf (f i) with hφ
  have hE := FSs.small he hs
  have hEs : ∀ n (a b : Vec d), sdrop e s r n (a - b) = sdrop e s r n a - sdrop e s r n b := by
    intro n a b
    funext i
    rw [Pi.sub_apply]
    unfold sdrop
    rw [← sum_sub_distrib]
    exact sum_congr rfl fun j _ => FSs.drop_sub e (s i j) r n (a j) (b j)
  have hf : ∀ i, trigEval (f i) = ev (φ i) := fun i => funext fun y => (ev_coOf (f i) y).symm
  have hrhs : ∀ n i (k : Fin n), E2P.rhsAt (f i) n k = φ i (wave n k) := by
    intro n i k
    unfold E2P.rhsAt
    rw [hf, fourier_ev]
  -- a solution of the discrete problem satisfies the equations on coefficients
  have htr : ∀ n, 2 ≤ n → (n % 2 = 1 ∨ r % 2 = 0) → ∀ v : Fin d → Fin n → ℂ,
      ((fun i k => (∑ j, assemble n (Mapping.diff e) (s i j) *ᵥ v j) k) = fun i => E2P.rhsAt (f i) n) →
      tr n (L.Lam (fun j => toCo (v j)) - sdrop e s r n (fun j => toCo (v j))) = tr n φ := by
    intro n h2 hp v hv
    exact FSs.sys_tr he hs h2 hp v φ fun i k => (congrFun (congrFun hv i) k).trans (hrhs n i k)
  have hsol : ∀ m, ∃ a : Vec d, Kept (2 * (m + N0) + 1) a ∧
      tr (2 * (m + N0) + 1) (L.Lam a - sdrop e s r (2 * (m + N0) + 1) a) = tr (2 * (m + N0) + 1) φ := by
    intro m
    have hp : (2 * (m + N0) + 1) % 2 = 1 ∨ r % 2 = 0 := Or.inl (by omega)
    obtain ⟨v, hv, -⟩ := hreg (2 * (m + N0) + 1) (by omega) hp (fun i => E2P.rhsAt (f i) _)
    exact ⟨_, kept_toCo v, htr _ (by omega) hp v hv⟩
  choose a ha1 ha2 using hsol
  have hdiv : ∀ m, (2 * (m + N0) + 1) / 2 = m + N0 := fun m => by omega
  have hcau : ∀ q, ∀ ε > 0, ∃ N, ∀ m ≥ N, ∀ l ≥ N, V q (a m - a l) ≤ ε := by
    intro q ε hε
    obtain ⟨C, N, hC, h⟩ := L.section_cauchy (sdrop e s r) (fun _ => True) hE hEs S hS hst φ q 1
    obtain ⟨N1, hN1⟩ := exists_nat_ge (C / ε)
    have key : ∀ m ≥ N + N1, ∀ l ≥ m, V q (a m - a l) ≤ ε := by
      intro m hm l hl
      have h1 := h (2 * (m + N0) + 1) (by omega) trivial (2 * (l + N0) + 1) (by omega) trivial (a m) (a l) (ha1 m) (ha1 l) (ha2 m) (ha2 l)
      rw [pow_one, hdiv] at h1
      rw [div_le_iff₀ hε] at hN1
      have h2 : (N1 : ℝ) ≤ ((m + N0 : ℕ) : ℝ) := by exact_mod_cast (by omega : N1 ≤ m + N0)
      have h3 : (((m + N0 : ℕ) : ℝ) + 1) * V q (a m - a l) ≤ (((m + N0 : ℕ) : ℝ) + 1) * ε := by nlinarith
      exact le_of_mul_le_mul_left h3 (by positivity)
    refine ⟨N + N1, fun m hm l hl => ?_⟩
    rcases le_total m l with h1 | h1
    · exact key m hm l h1
    · have := key l hl m h1
      rwa [← V_neg, neg_sub] at this
  have hcaui : ∀ i q, ∀ ε > 0, ∃ N, ∀ m ≥ N, ∀ l ≥ N, W q (a m i - a l i) ≤ ε := fun i q ε hε => by
    obtain ⟨N, hN⟩ := hcau q ε hε
    exact ⟨N, fun m hm l hl => (W_le_V q (a m - a l) i).trans (hN m hm l hl)⟩
  choose u hlim hper using fun i => exists_limit e he (fun m => a m i) (hcaui i 0)
  have hlimit := fun i q => limit_fn e he (fun m => a m i) (u i) (hlim i) q (hcaui i q)
  have hcd : ∀ i, ContDiff ℝ ∞ (u i) := fun i => contDiff_infty.mpr fun q => (hlimit i q).1
  have hcr := fun i => (hlimit i r).1
  have hequ : ∀ i x, applySys e s u i x = trigEval (f i) (Mapping.bwd e x) := by
    intro i x
    have h1 : Tendsto (fun m => applySys e s (fun j => fn e (a m j)) i x) atTop (𝓝 (applySys e s u i x)) := by
      unfold applySys
      exact tendsto_finsetSum _ fun j _ => FSs.applyOp_tendsto (hs.block i j) (fun m => fn e (a m j)) (u j)
        (fun m => (fn_contDiff e _).of_le (by exact_mod_cast le_top)) (hcr j) (hlimit j r).2 x
    have h2 : Tendsto (fun m => applySys e s (fun j => fn e (a m j)) i x) atTop (𝓝 (trigEval (f i) (Mapping.bwd e x))) := by
      obtain ⟨C, N, hC, h⟩ := L.residual_decay (sdrop e s r) (fun _ => True) hE S hS hst φ 0 1
      rw [tendsto_iff_norm_sub_tendsto_zero]
      refine squeeze_zero' (Eventually.of_forall fun m => norm_nonneg _) (g := fun m : ℕ => C * (1 / ((m : ℝ) + 1))) ?_ ?_
      · filter_upwards [eventually_ge_atTop N] with m hm
        rw [FSs.applySys_fn he hs, hf, ← Pi.sub_apply, ← map_sub]
        refine (ev_bound _ _).trans ?_
        have h3 := h (2 * (m + N0) + 1) (by omega) trivial (a m) (ha1 m) (ha2 m)
        rw [pow_one, hdiv] at h3
        rw [mul_one_div, le_div_iff₀ (by positivity)]
        have h4 := W_nonneg 0 (L.Lam (a m) i - φ i)
        have h6 : W 0 (L.Lam (a m) i - φ i) ≤ V 0 (L.Lam (a m) - φ) := W_le_V 0 (L.Lam (a m) - φ) i
        push_cast at h3
        have h5 := Nat.cast_nonneg (α := ℝ) N0
        have h7 := Nat.cast_nonneg (α := ℝ) m
        calc W 0 (L.Lam (a m) i - φ i) * ((m : ℝ) + 1) ≤ V 0 (L.Lam (a m) - φ) * ((m : ℝ) + N0 + 1) :=
              mul_le_mul h6 (by linarith) (by positivity) (V_nonneg _ _)
          _ = ((m : ℝ) + N0 + 1) * V 0 (L.Lam (a m) - φ) := mul_comm _ _
          _ ≤ C := h3
      · have := tendsto_one_div_add_atTop_nhds_zero_nat (𝕜 := ℝ)
        simpa using this.const_mul C
    exact tendsto_nhds_unique h1 h2
  refine ⟨u, hcd, hper, hequ, fun w hw hwp hweq => ?_, fun t q => ?_⟩
  · have h1 := huni (fun i => w i - u i) (fun i => (hw i).sub (hcr i)) (fun i => (hwp i).sub (hper i)) fun i x => by
      have : applySys e s (fun i => w i - u i) i x = applySys e s w i x - applySys e s u i x := by
        unfold applySys
        rw [← sum_sub_distrib]
        exact sum_congr rfl fun j _ => FSs.applyOp_sub (hs.block i j) (w j) (u j) (hw j) (hcr j) x
      rw [this, hweq, hequ, sub_self]
    funext i x
    have := congrFun (congrFun h1 i) x
    rw [Pi.sub_apply, Pi.zero_apply, Pi.zero_apply, sub_eq_zero] at this
    exact this
  · obtain ⟨C, N, hC, h⟩ := L.section_cauchy (sdrop e s r) (fun _ => True) hE hEs S hS hst φ q t
    obtain ⟨D, N1, hD, hbd⟩ := L.section_bound (sdrop e s r) (fun _ => True) hE S hS hst φ (q + t)
    have hω := om_pos e he
    refine ⟨om e ^ q * ((C + D) * 2 ^ t), N0 + N + N1, fun n hn hp hnd => ?_⟩
    have hmv := FSs.matvec_eq (s := s) (e := e) (by omega : 2 ≤ n) eps hnd
    refine ⟨fun g => ?_, fun v hv i x => ?_⟩
    · obtain ⟨v, hv, hu⟩ := hreg n (by omega) hp g
      refine ⟨v, (hmv v).trans (by rw [← hv]), fun w hw => hu w ?_⟩
      exact flat_inj _ _ ((hmv w).symm.trans hw)
    · rw [hmv] at hv
      have hv' := flat_inj _ _ hv
      have hn0 : (0 : ℝ) < (n : ℝ) ^ t := by
        have : 0 < n := by omega
        positivity
      have h2 : (n : ℝ) ^ t ≤ 2 ^ t * (((n / 2 : ℕ) : ℝ) + 1) ^ t := by
        rw [← mul_pow]
        gcongr
        exact_mod_cast (by omega : n ≤ 2 * (n / 2 + 1))
      obtain ⟨b, hb1, hb2⟩ := FSs.fun_near (e := e) q (by omega : 2 ≤ n) (v i)
      rw [hb1]
      have hconv : Tendsto (fun l => ‖iteratedDeriv q (fn e (toCo (v i) - b)) x - iteratedDeriv q (fn e (a l i)) x‖) atTop
          (𝓝 ‖iteratedDeriv q (fn e (toCo (v i) - b)) x - iteratedDeriv q (u i) x‖) :=
        (tendsto_const_nhds.sub (((hlimit i q).2 q le_rfl).tendsto_at x)).norm
      refine le_of_tendsto hconv ?_
      filter_upwards [eventually_ge_atTop n] with l hl
      have htv := htr n (by omega) hp v hv'
      have h3 := h n (by omega) trivial (2 * (l + N0) + 1) (by omega) trivial (fun j => toCo (v j)) (a l) (kept_toCo v) (ha1 l) htv (ha2 l)
      have h4 := hbd n (by omega) trivial (fun j => toCo (v j)) (kept_toCo v) htv
      have h5 : (((n / 2 : ℕ) : ℝ) + 1) ^ t * W q b ≤ D := (hb2 t).trans ((W_le_V (q + t) (fun j => toCo (v j)) i).trans h4)
      have h6 : (((n / 2 : ℕ) : ℝ) + 1) ^ t * W q (toCo (v i) - a l i) ≤ C :=
        (mul_le_mul_of_nonneg_left (W_le_V q ((fun j => toCo (v j)) - a l) i) (by positivity)).trans h3
      rw [← fn_sub, le_div_iff₀ hn0]
      have k3 := iter_bound e he q (toCo (v i) - b - a l i) x
      have k4 : W q (toCo (v i) - b - a l i) ≤ W q (toCo (v i) - a l i) + W q b := by
        rw [show toCo (v i) - b - a l i = (toCo (v i) - a l i) - b by abel]
        exact W_sub _ _ _
      have k5 := W_nonneg q (toCo (v i) - a l i)
      have k6 := W_nonneg q b
      calc _ ≤ (om e ^ q * (W q (toCo (v i) - a l i) + W q b)) * (2 ^ t * (((n / 2 : ℕ) : ℝ) + 1) ^ t) := by
            refine mul_le_mul (k3.trans ?_) h2 hn0.le (by positivity)
            gcongr
        _ = om e ^ q * (((((n / 2 : ℕ) : ℝ) + 1) ^ t * W q (toCo (v i) - a l i) + (((n / 2 : ℕ) : ℝ) + 1) ^ t * W q b) * 2 ^ t) := by ring
        _ ≤ _ := by gcongr

end Funpy.Props
