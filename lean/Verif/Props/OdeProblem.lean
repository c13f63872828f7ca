import Verif.Lemmas.OdeStab
import Verif.Props.Convergence

/-!
# C127: uniquely solvable problems are well-posed; initial value problems and Dirichlet problems
-/

namespace Funpy.Props
namespace OdeP
end OdeP
open Spec Cheb UltraS OpDisc Matrix Finset Sect WPos CoefNorm Cvg OdeP
open scoped ContDiff

/-! ### Specification -/

/-- The order of the highest derivative in a subexpression of a boundary condition. -/
def OdeP.feOrd : FE → ℕ
  | .u => 0
  | .diff k f => feOrd f + (k + 1)

/-- All derivatives in a boundary condition have order less than `r`. -/
def OdeP.OrdLt (r : ℕ) : BC → Prop
  | .ev f _ => feOrd f < r
  | .const _ => True
  | .add a b => OrdLt r a ∧ OrdLt r b
  | .sub a b => OrdLt r a ∧ OrdLt r b
  | .neg a => OrdLt r a
  | .smul _ a => OrdLt r a

/-- The homogeneous problem has only the zero solution. -/
def OdeP.UniqueSol (e : Ends) (s : Source) (r : ℕ) (bcs : List BC) : Prop :=
  ∀ w : ℝ → ℝ, ContDiff ℝ r w → HomBC bcs w → (∀ y ∈ Set.Icc e.e0 e.e1, applyLin e s w y = 0) → ∀ y ∈ Set.Icc e.e0 e.e1, w y = 0

/-- The `j`-th derivative of the unknown. -/
def OdeP.dpow : ℕ → FE
  | 0 => .u
  | j + 1 => .diff j .u

/-- The initial conditions `u^{(j)}(e0) - α_j = 0`, `j < r`. -/
def OdeP.initial (e : Ends) (r : ℕ) (α : ℕ → ℝ) : List BC :=
  (List.range r).map fun j => .sub (.ev (dpow j) e.e0) (.const (α j))

/-- The conditions `u(e0) - α = 0`, `u(e1) - β = 0`. -/
def OdeP.dirichlet (e : Ends) (α β : ℝ) : List BC := [.sub (.ev .u e.e0) (.const α), .sub (.ev .u e.e1) (.const β)]

/-! ### Proofs -/

lemma OdeP.fe_sem (w : ℝ → ℝ) (f : FE) : FE.sem w f = iteratedDeriv (feOrd f) w := by
  induction f with
  | u => rw [FE.sem, feOrd, iteratedDeriv_zero]
  | diff k f ih =>
    rw [FE.sem, ih, feOrd, iteratedDeriv_eq_iterate, iteratedDeriv_eq_iterate, iteratedDeriv_eq_iterate,
      ← Function.iterate_add_apply, add_comm]

/-- the homogeneous part of a condition as a functional of the derivatives -/
def OdeP.jetF (J : ℕ → ℝ → ℝ) : BC → ℝ
  | .ev f y => J (feOrd f) y
  | .const _ => 0
  | .add a b => jetF J a + jetF J b
  | .sub a b => jetF J a - jetF J b
  | .neg a => -jetF J a
  | .smul c a => c * jetF J a

lemma OdeP.bc_sem (w : ℝ → ℝ) (b : BC) : BC.sem w b - BC.sem (fun _ => 0) b = jetF (fun j => iteratedDeriv j w) b := by
  induction b with
  | ev f y =>
    simp only [BC.sem, jetF, fe_sem]
    rw [iteratedDeriv_const]
    simp
  | const c => simp only [BC.sem, jetF]; ring
  | add a b iha ihb => simp only [BC.sem, jetF]; linarith
  | sub a b iha ihb => simp only [BC.sem, jetF]; linarith
  | neg a iha => simp only [BC.sem, jetF]; linarith
  | smul c a iha => simp only [BC.sem, jetF]; linear_combination c * iha

lemma OdeP.jetF_functional (e : Ends) (r : ℕ) (b : BC) (hp : BC.PointsIn e b) (ho : OrdLt r b) :
    OdeStab.IsFunctional r e.e0 e.e1 fun J => jetF J b := by
  induction b with
  | ev f y => exact ⟨fun J t => rfl, fun J J' h => h _ ho _ hp⟩
  | const c => exact ⟨fun J t => by simp [jetF], fun J J' h => tendsto_const_nhds⟩
  | add a b iha ihb =>
    have ha := iha hp.1 ho.1
    have hb := ihb hp.2 ho.2
    exact ⟨fun J t => by have := ha.smul J t; have := hb.smul J t; simp only [jetF] at *; linarith,
      fun J J' h => (ha.tendsto J J' h).add (hb.tendsto J J' h)⟩
  | sub a b iha ihb =>
    have ha := iha hp.1 ho.1
    have hb := ihb hp.2 ho.2
    exact ⟨fun J t => by have := ha.smul J t; have := hb.smul J t; simp only [jetF] at *; linarith,
      fun J J' h => (ha.tendsto J J' h).sub (hb.tendsto J J' h)⟩
  | neg a iha =>
    have ha := iha hp ho
    exact ⟨fun J t => by have := ha.smul J t; simp only [jetF] at *; linarith, fun J J' h => (ha.tendsto J J' h).neg⟩
  | smul c a iha =>
    have ha := iha hp ho
    exact ⟨fun J t => by have := ha.smul J t; simp only [jetF] at *; rw [this]; ring, fun J J' h => (ha.tendsto J J' h).const_mul c⟩

/-- the coefficient functions -/
noncomputable def OdeP.cf (e : Ends) (s : Source) (j : ℕ) (y : ℝ) : ℝ :=
  if (s.coeff.getD j (false, [])).1 then chebEval (s.coeff.getD j (false, [])).2 (Mapping.bwd e y) else 0

lemma OdeP.cf_cont (e : Ends) (s : Source) (j : ℕ) : Continuous (cf e s j) := by
  unfold cf
  split_ifs
  · have : (fun y => chebEval (s.coeff.getD j (false, [])).2 (Mapping.bwd e y))
        = fun y => (chebPoly (s.coeff.getD j (false, [])).2).eval (2 / Mapping.diff e * y + -(e.e0 + e.e1) / Mapping.diff e) := by
      funext y
      rw [chebEval_eq_eval, bwd_affine]
    rw [this]
    exact (Polynomial.continuous _).comp (by fun_prop)
  · exact continuous_const

lemma OdeP.applyLin_eq (e : Ends) (s : Source) (r : ℕ) (c : ℝ) (hs : IsODE s r c) (w : ℝ → ℝ) (y : ℝ) :
    applyLin e s w y = OdeStab.Lin r c (cf e s) w y := by
  rw [applyLin_sum e s r c hs, OdeStab.Lin]
  congr 1
  apply Finset.sum_congr rfl
  intro j _
  unfold cf
  split_ifs <;> simp

lemma OdeP.strong (e : Ends) (he : e.e0 < e.e1) (s : Source) (r : ℕ) (c : ℝ) (hs : IsODE s r c) (bcs : List BC)
    (hb : ∀ b ∈ bcs, BC.PointsIn e b ∧ OrdLt r b) (hu : UniqueSol e s r bcs) : ∃ S, 0 ≤ S ∧ ∀ w : ℝ → ℝ, ContDiff ℝ r w → HomBC bcs w →
      ∀ M, (∀ y ∈ Set.Icc e.e0 e.e1, |applyLin e s w y| ≤ M) → ∀ j ≤ r, ∀ y ∈ Set.Icc e.e0 e.e1, |iteratedDeriv j w y| ≤ S * M := by
  obtain ⟨S, hS, h⟩ := OdeStab.stable_of_unique (a := e.e0) (b := e.e1) (ι := {b // b ∈ bcs}) (al := cf e s) hs.1 hs.2.1 he
    (fun j _ => (cf_cont e s j).continuousOn) (fun i J => jetF J i.1) (fun i => jetF_functional e r i.1 (hb _ i.2).1 (hb _ i.2).2)
    (fun w hw hbw hL => hu w hw (fun b hbm => by rw [bc_sem]; exact hbw ⟨b, hbm⟩) fun y hy => by rw [applyLin_eq e s r c hs]; exact hL y hy)
  refine ⟨S, hS, fun w hw hbw M hM => h w hw (fun i => by rw [← bc_sem]; exact hbw _ i.2) M fun y hy => ?_⟩
  rw [← applyLin_eq e s r c hs]
  exact hM y hy

/-- **C127, uniqueness implies stability.**  If the homogeneous problem has only the zero solution and the conditions contain only derivatives of order
less than `r`, then the problem is well-posed; hence C126 applies. -/
theorem C127_stable (e : Ends) (he : e.e0 < e.e1) (s : Source) (r : ℕ) (c : ℝ) (hs : IsODE s r c) (bcs : List BC)
    (hb : ∀ b ∈ bcs, BC.PointsIn e b ∧ OrdLt r b) (hu : UniqueSol e s r bcs) : ∃ S, 0 ≤ S ∧ WellPosed e s bcs S := by
  obtain ⟨S, hS, h⟩ := strong e he s r c hs bcs hb hu
  refine ⟨S, hS, fun w hw hbw M hM y hy => ?_⟩
  have := h w (hw.of_le (by exact_mod_cast le_top)) hbw M hM 0 (Nat.zero_le r) y hy
  rwa [iteratedDeriv_zero] at this

lemma OdeP.jetF_sub (r : ℕ) (w z : ℝ → ℝ) (hw : ContDiff ℝ r w) (hz : ContDiff ℝ r z) (b : BC) (ho : OrdLt r b) :
    jetF (fun j => iteratedDeriv j (fun y => w y - z y)) b = jetF (fun j => iteratedDeriv j w) b - jetF (fun j => iteratedDeriv j z) b := by
  induction b with
  | ev f y => exact OdeStab.iter_sub w z hw hz _ (le_of_lt ho) y
  | const c => simp only [jetF]; ring
  | add a b iha ihb => simp only [jetF]; rw [iha ho.1, ihb ho.2]; ring
  | sub a b iha ihb => simp only [jetF]; rw [iha ho.1, ihb ho.2]; ring
  | neg a iha => simp only [jetF]; rw [iha ho]; ring
  | smul c a iha => simp only [jetF]; rw [iha ho]; ring

lemma OdeP.hom_sub (r : ℕ) (w z : ℝ → ℝ) (hw : ContDiff ℝ r w) (hz : ContDiff ℝ r z) (bcs : List BC) (ho : ∀ b ∈ bcs, OrdLt r b) (g : List ℝ)
    (h1 : ∀ k (hk : k < bcs.length), BC.sem w bcs[k] - BC.sem (fun _ => 0) bcs[k] = g.getD k 0)
    (h2 : ∀ k (hk : k < bcs.length), BC.sem z bcs[k] - BC.sem (fun _ => 0) bcs[k] = g.getD k 0) : HomBC bcs fun y => w y - z y := by
  intro b hbm
  obtain ⟨k, hk, rfl⟩ := List.getElem_of_mem hbm
  rw [bc_sem, jetF_sub r w z hw hz _ (ho _ hbm), ← bc_sem, ← bc_sem, h1 k hk, h2 k hk, sub_self]

lemma OdeP.applyLin_sub (e : Ends) (s : Source) (r : ℕ) (c : ℝ) (hs : IsODE s r c) (w z : ℝ → ℝ) (hw : ContDiff ℝ r w) (hz : ContDiff ℝ r z) (y : ℝ) :
    applyLin e s (fun y => w y - z y) y = applyLin e s w y - applyLin e s z y := by
  rw [applyLin_eq e s r c hs, applyLin_eq e s r c hs, applyLin_eq e s r c hs, OdeStab.Lin_sub w z hw hz]

/-- **C127, the discretisation solves uniquely solvable problems.**  Let `L` be an operator of order `r` whose leading coefficient is a constant, with
`r` conditions on derivatives of order less than `r` such that the homogeneous problem has only the zero solution, and assume that the coefficient
functions are multiplied exactly by all large discretisations.  Then for every right-hand side with finitely many Chebyshev coefficients and all boundary
values the boundary value problem has a solution `u`, all sufficiently large discretisations have exactly one solution, and these converge to `u`
with all derivatives up to the order `r`, uniformly on the interval and faster than every power of `1 / n`. -/
theorem C127_solves (e : Ends) (he : e.e0 < e.e1) (s : Source) (r : ℕ) (c eps : ℝ) (hs : IsODE s r c) (bcs : List BC) (hsq : bcs.length = r)
    (hb : ∀ b ∈ bcs, BC.PointsIn e b ∧ BC.Mentions b ∧ OrdLt r b) (hu : UniqueSol e s r bcs) (N0 : ℕ) (hfit : ∀ n, N0 ≤ n → SecFits n n s)
    (f g : List ℝ) (hg : g.length = r) :
    ∃ u : ℝ → ℝ, ContDiff ℝ r u ∧ (∀ y ∈ Set.Icc e.e0 e.e1, applyLin e s u y = chebEval f (Mapping.bwd e y)) ∧
      (∀ k (hk : k < bcs.length), BC.sem u bcs[k] - BC.sem (fun _ => 0) bcs[k] = g.getD k 0) ∧
      ∀ t : ℕ, ∃ C N, ∀ n, N ≤ n → ∃ M, OpDisc.matrix (⟨e, r, eps, s, bcs⟩ : Disc n) = some M ∧ M.length = n ∧
        (∃! x : Fin n → ℝ, M.map (· ⬝ᵥ x) = projectVector (⟨e, r, eps, s, bcs⟩ : Disc n) g (fun i => f.getD i 0)) ∧
        ∀ x : Fin n → ℝ, M.map (· ⬝ᵥ x) = projectVector (⟨e, r, eps, s, bcs⟩ : Disc n) g (fun i => f.getD i 0) →
          ∀ j ≤ r, ∀ y ∈ Set.Icc e.e0 e.e1, |iteratedDeriv j (funOf e x) y - iteratedDeriv j u y| ≤ C / (n : ℝ) ^ t := by
  have hb1 : ∀ b ∈ bcs, BC.PointsIn e b ∧ BC.Mentions b := fun b h => ⟨(hb b h).1, (hb b h).2.1⟩
  have ho : ∀ b ∈ bcs, OrdLt r b := fun b h => (hb b h).2.2
  obtain ⟨S, hS, hst⟩ := strong e he s r c hs bcs (fun b h => ⟨(hb b h).1, ho b h⟩) hu
  have hwp : WellPosed e s bcs S := fun w hw hbw M hM y hy => by
    have := hst w (hw.of_le (by exact_mod_cast le_top)) hbw M hM 0 (Nat.zero_le r) y hy
    rwa [iteratedDeriv_zero] at this
  obtain ⟨N1, hreg⟩ := C126_regular e he s r c eps hs bcs hsq hb1 S hS hwp
  obtain ⟨C1, N2, hC1, hres⟩ := C126_residual e he s r c eps hs bcs hb1 S hS hwp f g (by rw [hg, hsq]) 1
  have hsm : ∀ {n : ℕ} (x : Fin n → ℝ), ContDiff ℝ r (funOf e x) := fun x => (funOf_contDiff e x).of_le (by exact_mod_cast le_top)
  -- the sequence of discrete solutions
  have hseq : ∀ k : ℕ, ∃ v : ℝ → ℝ, ContDiff ℝ r v ∧ (∀ i (hi : i < bcs.length), BC.sem v bcs[i] - BC.sem (fun _ => 0) bcs[i] = g.getD i 0) ∧
      ∀ y ∈ Set.Icc e.e0 e.e1, |applyLin e s v y - chebEval f (Mapping.bwd e y)| ≤ C1 * (1 / ((k : ℝ) + 1)) := by
    intro k
    set n := k + 1 + N0 + N1 + N2 with hn
    have hf := hfit n (by omega)
    obtain ⟨M, hM, -, hx⟩ := hreg n (by omega) hf
    obtain ⟨x, hx, -⟩ := hx g (fun i => f.getD i 0) hg
    obtain ⟨h1, h2⟩ := hres n (by omega) hf M hM x hx
    refine ⟨funOf e x, hsm x, h1, fun y hy => (h2 y hy).trans ?_⟩
    rw [pow_one, div_eq_mul_one_div]
    gcongr
    rw [hn]
    push_cast
    have : (0:ℝ) ≤ (N0 : ℝ) + N1 + N2 := by positivity
    linarith
  choose v hv hvb hvr using hseq
  obtain ⟨u, hus, hut⟩ := OdeStab.exists_limit (r := r) he.le v hv (fun k => S * (C1 * (1 / ((k : ℝ) + 1)))) (by
    have := ((tendsto_one_div_add_atTop_nhds_zero_nat (𝕜 := ℝ)).const_mul C1).const_mul S
    rwa [mul_zero, mul_zero] at this) (by
    intro j hj k l y hy
    rw [← OdeStab.iter_sub _ _ (hv k) (hv l) j hj, ← _root_.mul_add]
    refine hst _ ((hv k).sub (hv l)) (hom_sub r _ _ (hv k) (hv l) bcs ho g (hvb k) (hvb l)) _ (fun z hz => ?_) j hj y hy
    rw [applyLin_sub e s r c hs _ _ (hv k) (hv l)]
    have h1 := hvr k z hz
    have h2 := hvr l z hz
    rw [show applyLin e s (v k) z - applyLin e s (v l) z = (applyLin e s (v k) z - chebEval f (Mapping.bwd e z))
      - (applyLin e s (v l) z - chebEval f (Mapping.bwd e z)) by ring]
    exact (abs_sub _ _).trans (add_le_add h1 h2))
  have hLu : ∀ y ∈ Set.Icc e.e0 e.e1, applyLin e s u y = chebEval f (Mapping.bwd e y) := by
    intro y hy
    have h1 : Filter.Tendsto (fun k => applyLin e s (v k) y) Filter.atTop (nhds (applyLin e s u y)) := by
      simp only [applyLin_eq e s r c hs]
      unfold OdeStab.Lin
      exact ((hut r le_rfl y hy).const_mul c).add (tendsto_finsetSum _ fun j hj => (hut j (Finset.mem_range.mp hj).le y hy).const_mul _)
    have h2 : Filter.Tendsto (fun k => applyLin e s (v k) y) Filter.atTop (nhds (chebEval f (Mapping.bwd e y))) := by
      rw [tendsto_iff_norm_sub_tendsto_zero]
      have := (tendsto_one_div_add_atTop_nhds_zero_nat (𝕜 := ℝ)).const_mul C1
      rw [mul_zero] at this
      exact squeeze_zero (fun _ => norm_nonneg _) (fun k => hvr k y hy) this
    exact tendsto_nhds_unique h1 h2
  have hbu : ∀ k (hk : k < bcs.length), BC.sem u bcs[k] - BC.sem (fun _ => 0) bcs[k] = g.getD k 0 := by
    intro k hk
    have hm := List.getElem_mem hk
    have h1 := (jetF_functional e r bcs[k] (hb _ hm).1 (ho _ hm)).tendsto (fun i j => iteratedDeriv j (v i)) (fun j => iteratedDeriv j u)
      fun j hj y hy => hut j hj.le y hy
    rw [bc_sem]
    refine tendsto_nhds_unique h1 ?_
    have : (fun i => jetF (fun j => iteratedDeriv j (v i)) bcs[k]) = fun _ => g.getD k 0 := by
      funext i
      rw [← bc_sem, hvb i k hk]
    rw [this]
    exact tendsto_const_nhds
  refine ⟨u, hus, hLu, hbu, fun t => ?_⟩
  obtain ⟨C, N, hC, hr2⟩ := C126_residual e he s r c eps hs bcs hb1 S hS hwp f g (by rw [hg, hsq]) t
  refine ⟨S * C, N + N0 + N1, fun n hn => ?_⟩
  have hf := hfit n (by omega)
  obtain ⟨M, hM, hl, hx⟩ := hreg n (by omega) hf
  refine ⟨M, hM, hl, hx g _ hg, fun x hx j hj y hy => ?_⟩
  obtain ⟨h1, h2⟩ := hr2 n (by omega) hf M hM x hx
  rw [← OdeStab.iter_sub _ _ (hsm x) hus j hj, mul_div_assoc]
  refine hst _ ((hsm x).sub hus) (hom_sub r _ _ (hsm x) hus bcs ho g h1 hbu) _ (fun z hz => ?_) j hj y hy
  rw [applyLin_sub e s r c hs _ _ (hsm x) hus, hLu z hz]
  exact h2 z hz

lemma OdeP.dpow_ord (j : ℕ) : feOrd (dpow j) = j := by
  cases j with
  | zero => rfl
  | succ j => simp [dpow, feOrd]

lemma OdeP.initial_ok (e : Ends) (he : e.e0 < e.e1) (r : ℕ) (α : ℕ → ℝ) :
    ∀ b ∈ initial e r α, BC.PointsIn e b ∧ BC.Mentions b ∧ OrdLt r b := by
  intro b hb
  simp only [initial, List.mem_map, List.mem_range] at hb
  obtain ⟨j, hj, rfl⟩ := hb
  exact ⟨⟨⟨le_rfl, he.le⟩, trivial⟩, Or.inl trivial, by show feOrd _ < r; rwa [dpow_ord], trivial⟩

/-- **C127, initial value problems** of any order are well-posed. -/
theorem C127_initial (e : Ends) (he : e.e0 < e.e1) (s : Source) (r : ℕ) (c : ℝ) (hs : IsODE s r c) (α : ℕ → ℝ) :
    UniqueSol e s r (initial e r α) ∧ ∃ S, 0 ≤ S ∧ WellPosed e s (initial e r α) S := by
  have hu : UniqueSol e s r (initial e r α) := by
    intro w hw hbw hL y hy
    have hj : OdeStab.jet r w e.e0 = 0 := by
      funext j
      have h1 := hbw (.sub (.ev (dpow j) e.e0) (.const (α j))) (by
        simp only [initial, List.mem_map, List.mem_range]
        exact ⟨j, j.2, rfl⟩)
      rw [bc_sem] at h1
      simpa [jetF, dpow_ord, OdeStab.jet] using h1
    have hbd : ∀ j, ∃ A, ∀ y ∈ Set.Icc e.e0 e.e1, |cf e s j y| ≤ A := fun j => by
      obtain ⟨A, hA⟩ := isCompact_Icc.exists_bound_of_continuousOn (cf_cont e s j).continuousOn
      exact ⟨A, hA⟩
    choose A hA using hbd
    obtain ⟨C, hC, h⟩ := OdeStab.gronwall (r := r) (al := cf e s) hs.2.1 (∑ j ∈ range r, |A j|) (by positivity) e.e0 e.e1
    have h2 := h w hw (fun j hj y hy => ((hA j y hy).trans (le_abs_self _)).trans
      (single_le_sum (f := fun j => |A j|) (fun _ _ => abs_nonneg _) (Finset.mem_range.mpr hj))) 0
      (fun y hy => by rw [← applyLin_eq e s r c hs, hL y hy, abs_zero]) y hy
    rw [hj, norm_zero, add_zero, mul_zero] at h2
    have h3 := (OdeStab.jet_le r w y 0 hs.1).trans h2
    rw [iteratedDeriv_zero] at h3
    exact abs_eq_zero.mp (le_antisymm h3 (abs_nonneg _))
  exact ⟨hu, C127_stable e he s r c hs _ (fun b hb => ⟨(initial_ok e he r α b hb).1, (initial_ok e he r α b hb).2.2⟩) hu⟩

/-- the energy argument -/
lemma OdeP.energy (a b c : ℝ) (hab : a < b) (hc : c ≠ 0) (p q w : ℝ → ℝ) (hp : Continuous p) (hw : ContDiff ℝ 2 w)
    (hq : ∀ y ∈ Set.Icc a b, c * q y ≤ 0) (hL : ∀ y ∈ Set.Icc a b, c * iteratedDeriv 2 w y + (q y * w y + p y * deriv w y) = 0)
    (ha : w a = 0) (hb : w b = 0) : ∀ y ∈ Set.Icc a b, w y = 0 := by
  have hd1 : ∀ y, HasDerivAt w (deriv w y) y := fun y => (hw.differentiable (by norm_num) y).hasDerivAt
  have hd2 : ∀ y, HasDerivAt (deriv w) (iteratedDeriv 2 w y) y := by
    intro y
    have := OdeStab.deriv_iter (r := 2) w hw 1 (by norm_num) y
    rwa [iteratedDeriv_one] at this
  set B : ℝ → ℝ := fun y => ∫ t in a..y, p t / c with hB
  have hBd : ∀ y, HasDerivAt B (p y / c) y := fun y =>
    have hpc : Continuous fun t => p t / c := hp.div_const c
    intervalIntegral.integral_hasDerivAt_right (hpc.intervalIntegrable _ _) hpc.aestronglyMeasurable.stronglyMeasurableAtFilter
      hpc.continuousAt
  set E : ℝ → ℝ := fun y => Real.exp (B y) * (w y * deriv w y) with hE
  have hEd : ∀ y, HasDerivAt E (Real.exp (B y) * (p y / c) * (w y * deriv w y)
      + Real.exp (B y) * (deriv w y * deriv w y + w y * iteratedDeriv 2 w y)) y := fun y =>
    ((hBd y).exp).mul ((hd1 y).mul (hd2 y))
  have hEd' : ∀ y ∈ Set.Icc a b, HasDerivAt E (Real.exp (B y) * (deriv w y ^ 2 + (-(c * q y)) * (w y / c) ^ 2)) y := by
    intro y hy
    have h := hL y hy
    have h2 : iteratedDeriv 2 w y = -(q y * w y + p y * deriv w y) / c := by
      field_simp
      linarith
    have := hEd y
    rw [h2] at this
    convert this using 1
    field_simp
    ring
  have hmono : MonotoneOn E (Set.Icc a b) := by
    apply monotoneOn_of_deriv_nonneg (convex_Icc a b)
    · exact fun y _ => (hEd y).continuousAt.continuousWithinAt
    · exact fun y _ => (hEd y).differentiableAt.differentiableWithinAt
    · intro y hy
      rw [interior_Icc] at hy
      have hy' := Set.Ioo_subset_Icc_self hy
      rw [(hEd' y hy').deriv]
      have := hq y hy'
      have : 0 ≤ -(c * q y) := by linarith
      positivity
  have hE0 : ∀ y ∈ Set.Icc a b, E y = 0 := by
    intro y hy
    have h1 := hmono (Set.left_mem_Icc.mpr hab.le) hy hy.1
    have h2 := hmono hy (Set.right_mem_Icc.mpr hab.le) hy.2
    have h3 : E a = 0 := by simp only [hE, ha]; ring
    have h4 : E b = 0 := by simp only [hE, hb]; ring
    linarith
  have hw0 : ∀ y ∈ Set.Icc a b, deriv w y = 0 := by
    intro y hy
    have h1 := (hEd' y hy).hasDerivWithinAt (s := Set.Icc a b)
    have h2 : HasDerivWithinAt E 0 (Set.Icc a b) y := (hasDerivWithinAt_const y (Set.Icc a b) (0 : ℝ)).congr hE0 (hE0 y hy)
    have h3 := (uniqueDiffOn_Icc hab y hy).eq_deriv _ h1 h2
    have h4 := hq y hy
    have h5 : 0 ≤ (-(c * q y)) * (w y / c) ^ 2 := mul_nonneg (by linarith) (sq_nonneg _)
    rcases mul_eq_zero.mp h3 with h | h
    · exact absurd h (Real.exp_pos _).ne'
    · have : deriv w y ^ 2 = 0 := by nlinarith [sq_nonneg (deriv w y)]
      exact pow_eq_zero_iff (two_ne_zero) |>.mp this
  intro y hy
  have h1 : MonotoneOn w (Set.Icc a b) := by
    apply monotoneOn_of_deriv_nonneg (convex_Icc a b) hw.continuous.continuousOn
      (fun y _ => (hd1 y).differentiableAt.differentiableWithinAt)
    intro y hy
    rw [interior_Icc] at hy
    rw [hw0 y (Set.Ioo_subset_Icc_self hy)]
  have h2 := h1 (Set.left_mem_Icc.mpr hab.le) hy hy.1
  have h3 := h1 hy (Set.right_mem_Icc.mpr hab.le) hy.2
  linarith

/-- **C127, Dirichlet problems** `c u'' + p u' + q u = f` with `c q ≤ 0` on the interval (for example `-u'' + u' = f` or `u'' - u = f`) are well-posed. -/
theorem C127_dirichlet (e : Ends) (he : e.e0 < e.e1) (s : Source) (c : ℝ) (hs : IsODE s 2 c)
    (hq : ∀ y ∈ Set.Icc e.e0 e.e1, (s.coeff.getD 0 (false, [])).1 = true → c * chebEval (s.coeff.getD 0 (false, [])).2 (Mapping.bwd e y) ≤ 0)
    (α β : ℝ) : UniqueSol e s 2 (dirichlet e α β) ∧ ∃ S, 0 ≤ S ∧ WellPosed e s (dirichlet e α β) S := by
  have hu : UniqueSol e s 2 (dirichlet e α β) := by
    intro w hw hbw hL
    have h0 := hbw _ (List.mem_cons_self ..)
    have h1 := hbw (.sub (.ev .u e.e1) (.const β)) (by simp [dirichlet])
    simp only [BC.sem, FE.sem] at h0 h1
    refine energy e.e0 e.e1 c he hs.2.1 (cf e s 1) (cf e s 0) w (cf_cont e s 1) hw (fun y hy => ?_) (fun y hy => ?_) (by linarith) (by linarith)
    · unfold cf
      split_ifs with h
      · exact hq y hy h
      · simp
    · have := hL y hy
      rw [applyLin_eq e s 2 c hs, OdeStab.Lin, sum_range_succ, sum_range_one, iteratedDeriv_zero, iteratedDeriv_one] at this
      exact this
  refine ⟨hu, C127_stable e he s 2 c hs _ (fun b hb => ?_) hu⟩
  simp only [dirichlet, List.mem_cons, List.not_mem_nil, or_false] at hb
  rcases hb with rfl | rfl <;> simp [BC.PointsIn, OrdLt, feOrd, he.le]

/-! ### Instances -/

/-- `u'' + y u = f` on `[0, 1]` (in Chebyshev coefficients `y = 1/2 + 1/2 T_1`). -/
noncomputable def OdeP.airy (c0 : ℝ) : Source := ⟨[(true, [c0 / 2, c0 / 2]), (false, []), (true, [1])], []⟩

lemma OdeP.airy_ode (c0 : ℝ) : IsODE (airy c0) 2 1 := ⟨by norm_num, one_ne_zero, rfl, rfl, rfl⟩

lemma OdeP.airy_fits (c0 : ℝ) (hc : c0 ≠ 0) (n : ℕ) (hn : 2 ≤ n) : SecFits n n (airy c0) := by
  refine ⟨fun j hj hf => ?_, by simp [airy]⟩
  simp only [airy, List.length_cons, List.length_nil] at hj
  interval_cases j
  · exact ⟨Or.inr (Or.inl ⟨by simp [airy], by simp, Or.inr (by simp [airy, hc]), by omega⟩), by simpa [airy] using hn⟩
  · simp [airy] at hf
  · exact ⟨Or.inl (by simp [airy]), by simp [airy]; omega⟩

/-- The hypotheses of `C127_solves` hold for the initial value problem `u'' + y u = f`, `u(0) = α_0`, `u'(0) = α_1` on `[0, 1]`. -/
example (α : ℕ → ℝ) (f g : List ℝ) (hg : g.length = 2) : ∃ u : ℝ → ℝ, ContDiff ℝ 2 u ∧
    (∀ y ∈ Set.Icc (0:ℝ) 1, applyLin ⟨0, 1⟩ (airy 1) u y = chebEval f (Mapping.bwd ⟨0, 1⟩ y)) ∧
    ∀ t : ℕ, ∃ C N, ∀ (n : ℕ), N ≤ n → ∃ M, OpDisc.matrix (⟨⟨0, 1⟩, 2, 0, airy 1, initial ⟨0, 1⟩ 2 α⟩ : Disc n) = some M ∧
      ∃! x : Fin n → ℝ, M.map (· ⬝ᵥ x) = projectVector (⟨⟨0, 1⟩, 2, 0, airy 1, initial ⟨0, 1⟩ 2 α⟩ : Disc n) g (fun i => f.getD i 0) ∧
        ∀ y ∈ Set.Icc (0:ℝ) 1, |deriv (funOf ⟨0, 1⟩ x) y - deriv u y| ≤ C / (n : ℝ) ^ t := by
  have he : (⟨0, 1⟩ : Ends).e0 < (⟨0, 1⟩ : Ends).e1 := by norm_num
  obtain ⟨u, h1, h2, h3, h4⟩ := C127_solves ⟨0, 1⟩ he (airy 1) 2 1 0 (airy_ode 1) (initial ⟨0, 1⟩ 2 α) (by simp [initial]) (initial_ok ⟨0, 1⟩ he 2 α)
    (C127_initial ⟨0, 1⟩ he (airy 1) 2 1 (airy_ode 1) α).1 2 (airy_fits 1 one_ne_zero) f g hg
  refine ⟨u, by exact_mod_cast h1, h2, fun t => ?_⟩
  obtain ⟨C, N, h⟩ := h4 t
  refine ⟨C, N, fun n hn => ?_⟩
  obtain ⟨M, hM, -, ⟨x, hx, hx2⟩, hcv⟩ := h n hn
  refine ⟨M, hM, x, ⟨hx, fun y hy => ?_⟩, fun z hz => hx2 z hz.1⟩
  have := hcv x hx 1 (by norm_num) y hy
  rwa [iteratedDeriv_one, iteratedDeriv_one] at this

/-- The hypotheses of `C127_dirichlet` hold for `u'' - y u` on `[0, 1]`. -/
example (α β : ℝ) : ∃ S, 0 ≤ S ∧ WellPosed ⟨0, 1⟩ (airy (-1)) (dirichlet ⟨0, 1⟩ α β) S := by
  have he : (⟨0, 1⟩ : Ends).e0 < (⟨0, 1⟩ : Ends).e1 := by norm_num
  refine (C127_dirichlet ⟨0, 1⟩ he (airy (-1)) 1 (airy_ode _) (fun y hy _ => ?_) α β).2
  have h0 : (0:ℝ) ≤ y := hy.1
  simp only [airy, List.getD_cons_zero, chebEval, Mapping.bwd, Mapping.diff]
  simp [sum_range_succ]
  linarith

/-- **C127, small discretisations** can be singular: for the initial value problem `u' - u = f`, `u(-1) = 0` the matrix for `n = 2` annihilates
the coefficients of `1 + y`. -/
theorem C127_small : let d : Disc 2 := ⟨⟨-1, 1⟩, 1, 0, ⟨[(true, [-1]), (true, [1])], []⟩, initial ⟨-1, 1⟩ 1 0⟩
    IsODE d.src 1 1 ∧ SecFits 2 2 d.src ∧ UniqueSol d.e d.src 1 d.bcs ∧
    ∃ M, OpDisc.matrix d = some M ∧ M.map (· ⬝ᵥ ![1, 1]) = [0, 0] := by
  intro d
  have he : d.e.e0 < d.e.e1 := by norm_num [d]
  have hs : IsODE d.src 1 1 := ⟨le_rfl, one_ne_zero, rfl, rfl, rfl⟩
  have hf : SecFits 2 2 d.src := by
    refine ⟨fun j hj hf => ?_, by simp [d]⟩
    simp only [d, List.length_cons, List.length_nil] at hj
    interval_cases j
    · exact ⟨Or.inl (by simp [d]), by simp [d]⟩
    · exact ⟨Or.inl (by simp [d]), by simp [d]⟩
  have hb : ∀ y, Mapping.bwd d.e y = y := fun y => by
    simp only [d, Mapping.bwd, Mapping.diff]; norm_num
  have hfun : funOf d.e ![1, 1] = fun y => 1 + y := by
    funext y
    rw [funOf, hb]
    simp [chebEval, sum_range_succ]
  refine ⟨hs, hf, (C127_initial d.e he d.src 1 1 hs 0).1, ?_⟩
  obtain ⟨M, hM, hsol⟩ := C98_consistent_partial d le_rfl he (fun b h => ⟨(initial_ok d.e he 1 0 b h).1, (initial_ok d.e he 1 0 b h).2.1⟩)
    (by simp [d]) [0] (by simp [d, initial]) ![0, -1] ![1, 1] 2 (fun i hi => by omega) ⟨fun j hj hf => by
      simp only [d, List.length_cons, List.length_nil] at hj
      interval_cases j
      · exact ⟨Or.inl (by simp [d]), by simp [d]⟩
      · exact ⟨Or.inl (by simp [d]), by simp [d]⟩, by simp [d]⟩ (fun k hk => by
      simp only [d, initial, List.length_map, List.length_range] at hk
      interval_cases k
      rw [hfun]
      simp [d, initial, BC.sem, dpow, FE.sem]) (fun y => by
      rw [applyLin_sum d.e d.src 1 1 hs, hfun, funOf, hb]
      simp [d, chebEval, sum_range_succ, iteratedDeriv_one])
  refine ⟨M, hM, hsol.trans ?_⟩
  simp [projectVector, keepRows, d, basisConv, discConvert, convertmat, convertLoop, spconvert, spdiag, Matrix.mulVec, dotProduct,
    List.finRange_succ]

end Funpy.Props
