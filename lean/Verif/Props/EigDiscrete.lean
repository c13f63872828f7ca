import Verif.Props.EigLaplace
import Mathlib.Analysis.Normed.Module.RieszLemma
import Mathlib.Topology.ContinuousMap.Compact
import Mathlib.Analysis.Calculus.MeanValue

/-!
# C131: the eigenvalues of a boundary value problem are isolated
-/

namespace Funpy.Props
open Spec Cheb UltraS OpDisc Matrix Finset Sect WPos CoefNorm Cvg OdeP Eigs EigC
open scoped ContDiff

variable {n : ℕ}

/-! ### eigenfunctions of distinct eigenvalues are independent -/

/-- a sequence of eigenfunctions -/
structure EigC.EigSeq (e : Ends) (s : Source) (r : ℕ) (c : ℝ) (bcs : List BC) (l : ℕ → ℂ) (W : ℕ → ℝ → ℂ) : Prop where
  inj : Function.Injective l
  smooth : ∀ i, ContDiff ℝ r (W i)
  bc : ∀ i, ∀ b ∈ bcs, bcv (W i) b = 0
  eqn : ∀ i, ∀ y ∈ Set.Icc e.e0 e.e1, lin e s r c (l i) (W i) y = 0
  ne : ∀ i, ∃ y ∈ Set.Icc e.e0 e.e1, W i y ≠ 0

lemma EigC.lin_zero (e : Ends) (he : e.e0 < e.e1) (s : Source) (r : ℕ) (c : ℝ) (l : ℂ) (w : ℝ → ℂ) (hw : ContDiff ℝ r w)
    (h : ∀ y ∈ Set.Icc e.e0 e.e1, w y = 0) (y : ℝ) (hy : y ∈ Set.Icc e.e0 e.e1) : lin e s r c l w y = 0 := by
  have h1 := OdeStabC.iter_zero he w hw h
  unfold lin OdeStabC.Lin
  rw [h1 r le_rfl y hy, sum_eq_zero fun j hj => by rw [h1 j (Finset.mem_range.mp hj).le y hy, mul_zero]]
  simp

lemma EigC.EigSeq.comb {e : Ends} {s : Source} {r : ℕ} {c : ℝ} {bcs : List BC} {l : ℕ → ℂ} {W : ℕ → ℝ → ℂ} (h : EigSeq e s r c bcs l W)
    (hr : 1 ≤ r) (l0 : ℂ) (m : ℕ) (a : Fin m → ℂ) (y : ℝ) (hy : y ∈ Set.Icc e.e0 e.e1) :
    lin e s r c l0 (fun y => ∑ i : Fin m, a i * W i y) y = ∑ i : Fin m, a i * ((l i - l0) * W i y) := by
  rw [lin_lin e s c l0 (fun i : Fin m => W i) (fun i => h.smooth i) a y]
  refine sum_congr rfl fun i _ => ?_
  rw [lin_shift e s r c hr l0 (l i) (W i) y, h.eqn i y hy, zero_add]

lemma EigC.EigSeq.indep {e : Ends} (he : e.e0 < e.e1) {s : Source} {r : ℕ} (hr : 1 ≤ r) {c : ℝ} {bcs : List BC} {l : ℕ → ℂ} {W : ℕ → ℝ → ℂ}
    (h : EigSeq e s r c bcs l W) : ∀ (m : ℕ) (a : Fin m → ℂ), (∀ y ∈ Set.Icc e.e0 e.e1, ∑ i : Fin m, a i * W i y = 0) → ∀ i, a i = 0 := by
  intro m
  induction m with
  | zero => intro a _ i; exact i.elim0
  | succ m ih =>
    intro a ha
    have h1 : ∀ i : Fin m, a i.castSucc * (l i - l m) = 0 := by
      apply ih
      intro y hy
      have h2 := lin_zero e he s r c (l m) (fun y => ∑ i : Fin (m + 1), a i * W i y)
        (ContDiff.sum fun i _ => contDiff_const.mul (h.smooth i)) ha y hy
      rw [h.comb hr (l m) (m + 1) a y hy, Fin.sum_univ_castSucc] at h2
      simp only [Fin.val_castSucc, Fin.val_last, sub_self, zero_mul, mul_zero, add_zero] at h2
      rw [← h2]
      exact sum_congr rfl fun i _ => by ring
    have h2 : ∀ i : Fin m, a i.castSucc = 0 := fun i => by
      rcases mul_eq_zero.mp (h1 i) with h3 | h3
      · exact h3
      · exact absurd (h.inj (sub_eq_zero.mp h3)) i.2.ne
    have h3 : a (Fin.last m) = 0 := by
      obtain ⟨y, hy, hne⟩ := h.ne m
      have h4 := ha y hy
      rw [Fin.sum_univ_castSucc, sum_eq_zero fun i _ => by rw [h2 i, zero_mul], zero_add] at h4
      rcases mul_eq_zero.mp h4 with h5 | h5
      · exact h5
      · exact absurd h5 hne
    intro i
    refine Fin.lastCases h3 h2 i

/-! ### no infinite separated family with bounded derivatives -/

lemma EigC.close_pair (a b : ℝ) (z : ℕ → ℝ → ℂ) (B : ℝ) (hz : ∀ k, Differentiable ℝ (z k)) (hB : ∀ k, ∀ y ∈ Set.Icc a b, ‖z k y‖ ≤ B)
    (hB' : ∀ k, ∀ y ∈ Set.Icc a b, ‖deriv (z k) y‖ ≤ B) (ε : ℝ) (hε : 0 < ε) :
    ∃ j k, j < k ∧ ∀ y ∈ Set.Icc a b, ‖z k y - z j y‖ < ε := by
  set δ : ℝ := ε / (4 * (|B| + 1)) with hδ
  have hδ0 : 0 < δ := by positivity
  obtain ⟨t, htI, htf, ht⟩ := (isCompact_Icc (a := a) (b := b)).finite_cover_balls hδ0
  haveI := htf.fintype
  have hbd : ∀ k, (fun p : t => z k p) ∈ Metric.closedBall (0 : t → ℂ) |B| := by
    intro k
    rw [mem_closedBall_zero_iff, pi_norm_le_iff_of_nonneg (abs_nonneg _)]
    exact fun p => (hB k p (htI p.2)).trans (le_abs_self _)
  obtain ⟨lim, -, φ, hφ, hlim⟩ := (isCompact_closedBall (0 : t → ℂ) |B|).tendsto_subseq hbd
  obtain ⟨N, hN⟩ := Metric.cauchySeq_iff'.1 hlim.cauchySeq (ε / 4) (by positivity)
  have h1 := hN (N + 1) (Nat.le_succ _)
  refine ⟨φ N, φ (N + 1), hφ (Nat.lt_succ_self _), fun y hy => ?_⟩
  obtain ⟨p, hp, hyp⟩ := Set.mem_iUnion₂.1 (ht hy)
  rw [Metric.mem_ball, dist_eq_norm] at hyp
  have hlip : ∀ k, ‖z k y - z k p‖ ≤ |B| * ‖y - p‖ := fun k =>
    (convex_Icc a b).norm_image_sub_le_of_norm_deriv_le (fun x _ => (hz k) x) (fun x hx => (hB' k x hx).trans (le_abs_self _)) (htI hp) hy
  have h2 : |B| * ‖y - p‖ ≤ ε / 4 := by
    have hB0 := abs_nonneg B
    calc |B| * ‖y - p‖ ≤ (|B| + 1) * δ := by gcongr; linarith
      _ = ε / 4 := by rw [hδ]; field_simp
  have h3 : ‖z (φ (N + 1)) p - z (φ N) p‖ < ε / 4 := by
    rw [dist_pi_lt_iff (by positivity)] at h1
    have := h1 ⟨p, hp⟩
    rwa [dist_eq_norm] at this
  have h4 : z (φ (N + 1)) y - z (φ N) y = (z (φ (N + 1)) y - z (φ (N + 1)) p) + (z (φ (N + 1)) p - z (φ N) p) - (z (φ N) y - z (φ N) p) := by ring
  rw [h4]
  have h5 := norm_sub_le ((z (φ (N + 1)) y - z (φ (N + 1)) p) + (z (φ (N + 1)) p - z (φ N) p)) (z (φ N) y - z (φ N) p)
  have h6 := norm_add_le (z (φ (N + 1)) y - z (φ (N + 1)) p) (z (φ (N + 1)) p - z (φ N) p)
  have h7 := hlip (φ (N + 1))
  have h8 := hlip (φ N)
  linarith

/-! ### the theorem of Riesz for boundary value problems -/

lemma EigC.riesz_in {X : Type*} [NormedAddCommGroup X] [NormedSpace ℂ X] (A B : Submodule ℂ X) [FiniteDimensional ℂ A] (hAB : A ≤ B) (g : X)
    (hgB : g ∈ B) (hgA : g ∉ A) : ∃ x ∈ B, ‖x‖ = 1 ∧ ∀ y ∈ A, 1 / 2 ≤ ‖x - y‖ := by
  have hFc : IsClosed ((A.comap B.subtype : Submodule ℂ B) : Set B) :=
    (Submodule.closed_of_finiteDimensional A).preimage continuous_subtype_val
  obtain ⟨x, -, hx1, hx⟩ := riesz_lemma_of_lt_one (𝕜 := ℂ) hFc ⟨⟨g, hgB⟩, hgA⟩ (r := 1 / 2) (by norm_num)
  exact ⟨x, x.2, hx1, fun y hy => hx ⟨y, hAB hy⟩ hy⟩

/-- the function on the interval -/
noncomputable def EigC.resC (e : Ends) (w : ℝ → ℂ) (hw : Continuous w) : C(Set.Icc e.e0 e.e1, ℂ) := ⟨fun y => w y, by fun_prop⟩

lemma EigC.no_seq (e : Ends) (he : e.e0 < e.e1) (s : Source) (r : ℕ) (c : ℝ) (hs : IsODE s r c) (bcs : List BC)
    (hb : ∀ b ∈ bcs, BC.PointsIn e b ∧ OrdLt r b) (l1 : ℂ) (hl1 : ¬ IsEig e s r bcs l1) (l : ℕ → ℂ) (W : ℕ → ℝ → ℂ)
    (h : EigSeq e s r c bcs l W) (hne : ∀ i, l i ≠ l1) (R : ℝ) (hR : ∀ i, ‖l i‖ ≤ R) : False := by
  have hr : 1 ≤ r := hs.1
  obtain ⟨S, hS, hst⟩ := jet_of_not_eig e he s r c hs bcs hb l1 hl1
  have hcW : ∀ i, Continuous (W i) := fun i => (h.smooth i).continuous
  let G : ℕ → C(Set.Icc e.e0 e.e1, ℂ) := fun i => resC e (W i) (hcW i)
  let V : ℕ → Submodule ℂ C(Set.Icc e.e0 e.e1, ℂ) := fun k => Submodule.span ℂ (Set.range fun i : Fin k => G i)
  have hGv : ∀ (m : ℕ) (a : Fin m → ℂ) (y : Set.Icc e.e0 e.e1), (∑ i : Fin m, a i • G i) y = ∑ i : Fin m, a i * W i y := by
    intro m a y
    rw [ContinuousMap.sum_apply]
    rfl
  have hVmem : ∀ (m : ℕ) (x : C(Set.Icc e.e0 e.e1, ℂ)), x ∈ V m ↔ ∃ a : Fin m → ℂ, ∑ i : Fin m, a i • G i = x := fun m x =>
    Submodule.mem_span_range_iff_exists_fun ℂ
  have hVmono : ∀ m m', m ≤ m' → V m ≤ V m' := fun m m' hm => by
    apply Submodule.span_mono
    rintro _ ⟨i, rfl⟩
    exact ⟨⟨i, i.2.trans_le hm⟩, rfl⟩
  have hVk : ∀ k, G k ∉ V k := by
    intro k hk
    obtain ⟨a, ha⟩ := (hVmem k _).1 hk
    have h1 := h.indep he hr (k + 1) (Fin.snoc a (-1)) (fun y hy => by
      rw [Fin.sum_univ_castSucc]
      simp only [Fin.snoc_castSucc, Fin.snoc_last, Fin.val_castSucc, Fin.val_last]
      have h2 := hGv k a ⟨y, hy⟩
      rw [ha] at h2
      rw [← h2]
      change W k y + -1 * W k y = 0
      ring) (Fin.last k)
    rw [Fin.snoc_last] at h1
    norm_num at h1
  have hseq : ∀ k, ∃ a : Fin (k + 1) → ℂ, ‖∑ i, a i • G i‖ = 1 ∧ ∀ y ∈ V k, 1 / 2 ≤ ‖∑ i, a i • G i - y‖ := by
    intro k
    haveI : FiniteDimensional ℂ (V k) := FiniteDimensional.span_of_finite ℂ (Set.finite_range _)
    obtain ⟨x, hxV, hx1, hx⟩ := riesz_in (V k) (V (k + 1)) (hVmono k (k + 1) (Nat.le_succ k)) (G k) (Submodule.subset_span ⟨Fin.last k, rfl⟩) (hVk k)
    obtain ⟨a, ha⟩ := (hVmem (k + 1) _).1 hxV
    refine ⟨a, by rw [ha]; exact hx1, fun y hy => ?_⟩
    rw [ha]
    exact hx y hy
  choose a ha1 ha using hseq
  have hd : ∀ i, l i - l1 ≠ 0 := fun i => sub_ne_zero.mpr (hne i)
  -- the solutions of `(L - l1) z_k = (l_k - l1) x_k`
  let d : (k : ℕ) → Fin (k + 1) → ℂ := fun k i => a k i * ((l k - l1) / (l i - l1))
  let z : ℕ → ℝ → ℂ := fun k y => ∑ i : Fin (k + 1), d k i * W i y
  have hzc : ∀ k, ContDiff ℝ r (z k) := fun k => ContDiff.sum fun i _ => contDiff_const.mul (h.smooth i)
  have hzb : ∀ k, ∀ b ∈ bcs, bcv (z k) b = 0 := by
    intro k b hbm
    unfold bcv
    rw [(jetC_functional e r b (hb b hbm).1 (hb b hbm).2).congr _ (fun j y => ∑ i : Fin (k + 1), d k i * iteratedDeriv j (W i) y)
      (fun j hj y _ => iter_lin (fun i : Fin (k + 1) => W i) (fun i => h.smooth i) (d k) j hj.le y), jetC_sum]
    exact sum_eq_zero fun i _ => by rw [show jetC (fun j => iteratedDeriv j (W i)) b = 0 from h.bc i b hbm, mul_zero]
  have hzL : ∀ k, ∀ y ∈ Set.Icc e.e0 e.e1, ‖lin e s r c l1 (z k) y‖ ≤ R + ‖l1‖ := by
    intro k y hy
    have h1 : lin e s r c l1 (z k) y = (l k - l1) * (∑ i, a k i • G i) ⟨y, hy⟩ := by
      rw [hGv, h.comb hr l1 (k + 1) (d k) y hy, mul_sum]
      refine sum_congr rfl fun i _ => ?_
      have := hd i
      simp only [d]
      field_simp
    rw [h1, norm_mul]
    have h2 := (∑ i, a k i • G i).norm_coe_le_norm ⟨y, hy⟩
    rw [ha1 k] at h2
    have h3 := (norm_sub_le (l k) l1).trans (add_le_add (hR k) le_rfl)
    calc ‖l k - l1‖ * ‖(∑ i, a k i • G i) ⟨y, hy⟩‖ ≤ (R + ‖l1‖) * 1 := by
          apply mul_le_mul h3 h2 (norm_nonneg _) ((norm_nonneg _).trans h3)
      _ = _ := mul_one _
  obtain ⟨j, k, hjk, hclose⟩ := close_pair e.e0 e.e1 z (S * (R + ‖l1‖)) (fun k => (hzc k).differentiable (by exact_mod_cast (show r ≠ 0 by omega)))
    (fun k y hy => by simpa using hst (z k) (hzc k) (hzb k) _ (hzL k) 0 (by omega) y hy)
    (fun k y hy => by simpa using hst (z k) (hzc k) (hzb k) _ (hzL k) 1 hr y hy) (1 / 4) (by norm_num)
  let Z : ℕ → C(Set.Icc e.e0 e.e1, ℂ) := fun k => ∑ i : Fin (k + 1), d k i • G i
  have hZv : ∀ k (y : Set.Icc e.e0 e.e1), Z k y = z k y := fun k y => hGv (k + 1) (d k) y
  -- the difference of `z_k` and `x_k` lies in the space before
  have h1 : Z k - ∑ i, a k i • G i ∈ V k := by
    simp only [Z]
    rw [← sum_sub_distrib, Fin.sum_univ_castSucc]
    have h2 : d k (Fin.last k) = a k (Fin.last k) := by
      simp only [d, Fin.val_last]
      rw [div_self (hd k), mul_one]
    rw [h2, sub_self, add_zero]
    refine Submodule.sum_mem _ fun i _ => ?_
    have h3 : G (i.castSucc : Fin (k + 1)) ∈ V k := Submodule.subset_span ⟨i, rfl⟩
    exact Submodule.sub_mem _ (Submodule.smul_mem _ _ h3) (Submodule.smul_mem _ _ h3)
  have h2 : Z j ∈ V k := hVmono (j + 1) k hjk ((hVmem _ _).2 ⟨d j, rfl⟩)
  have h3 := ha k (Z j - (Z k - ∑ i, a k i • G i)) (Submodule.sub_mem _ h2 h1)
  have h4 : (∑ i, a k i • G i) - (Z j - (Z k - ∑ i, a k i • G i)) = Z k - Z j := by abel
  rw [h4] at h3
  have h5 : ‖Z k - Z j‖ ≤ 1 / 4 := by
    rw [ContinuousMap.norm_le _ (by norm_num)]
    intro y
    rw [ContinuousMap.sub_apply, hZv, hZv]
    exact (hclose y y.2).le
  linarith

lemma EigC.eig_fun (e : Ends) (s : Source) (r : ℕ) (c : ℝ) (hs : IsODE s r c) (bcs : List BC)
    (hb : ∀ b ∈ bcs, BC.PointsIn e b ∧ OrdLt r b) (l : ℂ) (hl : IsEig e s r bcs l) :
    ∃ w : ℝ → ℂ, ContDiff ℝ r w ∧ (∀ b ∈ bcs, bcv w b = 0) ∧ (∀ y ∈ Set.Icc e.e0 e.e1, lin e s r c l w y = 0) ∧ ∃ y ∈ Set.Icc e.e0 e.e1, w y ≠ 0 := by
  obtain ⟨u, v, hu, hv, hbu, hbv, ⟨y, hy, hne⟩, hL⟩ := hl
  refine ⟨cw u v, cw_contDiff u v hu hv, fun b hbm => ?_, fun t ht => ?_, y, hy, fun h0 => ?_⟩
  · rw [bcv_cw e b (hb b hbm).1 (hb b hbm).2 u v hu hv, hbu b hbm, hbv b hbm]
    simp
  · rw [lin_cw e s r c hs l u v hu hv t, (hL t ht).1, (hL t ht).2]
    simp
  · rw [cw_zero] at h0
    rcases hne with h | h
    · exact h h0.1
    · exact h h0.2

/-- **C131, the spectrum is discrete.**  If one number is not an eigenvalue of the boundary value problem then every disc contains only finitely many
eigenvalues. -/
theorem C131_discrete (e : Ends) (he : e.e0 < e.e1) (s : Source) (r : ℕ) (c : ℝ) (hs : IsODE s r c) (bcs : List BC)
    (hb : ∀ b ∈ bcs, BC.PointsIn e b) (ho : ∀ b ∈ bcs, OrdLt r b) (hreg : ∃ l1, ¬ IsEig e s r bcs l1) (R : ℝ) :
    {l : ℂ | IsEig e s r bcs l ∧ ‖l‖ ≤ R}.Finite := by
  obtain ⟨l1, hl1⟩ := hreg
  have hb' : ∀ b ∈ bcs, BC.PointsIn e b ∧ OrdLt r b := fun b hbm => ⟨hb b hbm, ho b hbm⟩
  by_contra hinf
  have hinf' : {l : ℂ | IsEig e s r bcs l ∧ ‖l‖ ≤ R}.Infinite := hinf
  let f := hinf'.natEmbedding
  have hf : ∀ i, IsEig e s r bcs (f i : ℂ) ∧ ‖(f i : ℂ)‖ ≤ R := fun i => (f i).2
  choose W h1 h2 h3 h4 using fun i => eig_fun e s r c hs bcs hb' (f i : ℂ) (hf i).1
  exact no_seq e he s r c hs bcs hb' l1 hl1 (fun i => (f i : ℂ)) W ⟨fun i j hij => f.injective (Subtype.ext hij), h1, h2, h3, h4⟩
    (fun i h => hl1 (h ▸ (hf i).1)) R fun i => (hf i).2

/-- around every point there are arbitrarily small circles without eigenvalues -/
lemma EigC.exists_circle (e : Ends) (he : e.e0 < e.e1) (s : Source) (r : ℕ) (c : ℝ) (hs : IsODE s r c) (bcs : List BC)
    (hb : ∀ b ∈ bcs, BC.PointsIn e b) (ho : ∀ b ∈ bcs, OrdLt r b) (hreg : ∃ l1, ¬ IsEig e s r bcs l1) (l0 : ℂ) (ε : ℝ) (hε : 0 < ε) :
    ∃ ρ, 0 < ρ ∧ ρ < ε ∧ ∀ l ∈ Metric.sphere l0 ρ, ¬ IsEig e s r bcs l := by
  have hfin := C131_discrete e he s r c hs bcs hb ho hreg (‖l0‖ + ε)
  have hfin' : ((fun l => ‖l - l0‖) '' {l : ℂ | IsEig e s r bcs l ∧ ‖l‖ ≤ ‖l0‖ + ε}).Finite := hfin.image _
  obtain ⟨ρ, hρ, hne⟩ := ((Set.Ioo_infinite hε).sdiff hfin').nonempty
  refine ⟨ρ, hρ.1, hρ.2, fun l hl hE => hne ⟨l, ⟨hE, ?_⟩, ?_⟩⟩
  · rw [mem_sphere_iff_norm] at hl
    have h1 : l = (l - l0) + l0 := by ring
    rw [h1]
    refine (norm_add_le _ _).trans ?_
    rw [hl]
    linarith [hρ.2]
  · rw [mem_sphere_iff_norm] at hl
    exact hl

/-- for many coefficients the pencil is regular -/
lemma EigC.regular_pencil (e : Ends) (he : e.e0 < e.e1) (s : Source) (r : ℕ) (c eps : ℝ) (hs : IsODE s r c) (bcs : List BC)
    (hsq : bcs.length = r) (hb : ∀ b ∈ bcs, BC.PointsIn e b ∧ BC.Mentions b) (ho : ∀ b ∈ bcs, OrdLt r b) (l1 : ℂ) (hl1 : ¬ IsEig e s r bcs l1) :
    ∃ N, ∀ n, N ≤ n → SecFits n n s → ∀ M, OpDisc.matrix (⟨e, r, eps, s, bcs⟩ : Disc n) = some M →
      (dense M - l1 • rhsDense (⟨e, r, eps, s, bcs⟩ : Disc n)).det ≠ 0 := by
  obtain ⟨N1, hker⟩ := no_kernel e he s r c eps hs bcs hsq hb ho {l1} isCompact_singleton (fun l hl => by rw [Set.mem_singleton_iff.1 hl]; exact hl1)
  refine ⟨N1 + r + 2, fun n hn hfit M hM hdet => ?_⟩
  obtain ⟨M', hM', -, hlen⟩ := C98_shape (⟨e, r, eps, s, bcs⟩ : Disc n) (by omega) he (by show r ≤ n; omega) hb
  obtain rfl : M = M' := Option.some.inj (hM.symm.trans hM')
  have hMn := hlen.2 hsq
  obtain ⟨v, hv, hv0⟩ := exists_mulVec_eq_zero_iff.mpr hdet
  rw [sub_mulVec, smul_mulVec, sub_eq_zero] at hv0
  have hrows := rows_of_eq (⟨e, r, eps, s, bcs⟩ : Disc n) (by show r ≤ n; omega) M hMn (List.replicate r 0) (by simp) l1 v (by
    rw [hv0]
    funext i
    rw [Pi.add_apply, getD_replicate']
    simp)
  obtain ⟨h1, h2⟩ := hker n (by omega) hfit M hM l1 rfl _ _ hrows
  exact hv (funext fun k => Complex.ext (congrFun h1 k) (congrFun h2 k))

/-- **C131, every eigenvalue is approximated.**  Let one number not be an eigenvalue of the boundary value problem and let `l0` be an eigenvalue.
For every `ε > 0` there is an `N` such that for every number `n ≥ N` of coefficients a successful `eigs` returns a value within
the distance `ε` of `l0`, unless a nonzero diagonal entry `β` of the QZ decomposition belonging to such a value is at most the tolerance. -/
theorem C131_every_eigenvalue_partial (e : Ends) (he : e.e0 < e.e1) (s : Source) (r : ℕ) (c eps : ℝ) (hs : IsODE s r c) (bcs : List BC)
    (hsq : bcs.length = r) (hb : ∀ b ∈ bcs, BC.PointsIn e b ∧ BC.Mentions b) (ho : ∀ b ∈ bcs, OrdLt r b) (hreg : ∃ l1, ¬ IsEig e s r bcs l1)
    (l0 : ℂ) (hl0 : IsEig e s r bcs l0) (ε : ℝ) (hε : 0 < ε) :
    ∃ N, ∀ n, N ≤ n → SecFits n n s → ∀ ordqz, QZ (n := n) ordqz → ∀ tol, 0 ≤ tol → ∀ ls,
      eigs ordqz (⟨e, r, eps, s, bcs⟩ : Disc n) tol = some (true, ls) →
      (∃ l ∈ ls, ‖l - l0‖ < ε) ∨ ∃ M α β, OpDisc.matrix (⟨e, r, eps, s, bcs⟩ : Disc n) = some M ∧
        ordqz (dense M) (rhsDense (⟨e, r, eps, s, bcs⟩ : Disc n)) = some (α, β) ∧
        ∃ i l, ‖l - l0‖ < ε ∧ α i = l * β i ∧ β i ≠ 0 ∧ ‖β i‖ ≤ tol := by
  obtain ⟨ρ, hρ, hρε, hne⟩ := exists_circle e he s r c hs bcs (fun b hbm => (hb b hbm).1) ho hreg l0 ε hε
  obtain ⟨l1, hl1⟩ := hreg
  obtain ⟨N, hN⟩ := C131_found_partial e he s r c eps hs bcs hsq hb ho l0 hl0 ρ hρ hne
  obtain ⟨N', hN'⟩ := regular_pencil e he s r c eps hs bcs hsq hb ho l1 hl1
  refine ⟨N + N', fun n hn hfit ordqz hqz tol ht ls hls => ?_⟩
  rcases hN n (by omega) hfit ordqz hqz tol ht ls hls with ⟨l, hl, hd⟩ | ⟨M, α, β, hM, hq, i, l, hd, hα, hβ⟩
  · exact Or.inl ⟨l, hl, hd.trans hρε⟩
  · refine Or.inr ⟨M, α, β, hM, hq, i, l, hd.trans hρε, hα, fun h0 => ?_, hβ⟩
    obtain ⟨v, hv, hv0⟩ := (eigs_pencil_det (hqz _ _ _ _ hq) l1).2 ⟨i, by rw [hα, h0, mul_zero, mul_zero]⟩
    refine hN' n (by omega) hfit M hM (exists_mulVec_eq_zero_iff.mp ⟨v, hv, ?_⟩)
    rw [sub_mulVec, smul_mulVec, sub_eq_zero]
    exact hv0

/-- **C131, every eigenvalue is approximated, tolerance zero.**  If only values with `β = 0` are masked, then every eigenvalue is approximated. -/
theorem C131_every_eigenvalue (e : Ends) (he : e.e0 < e.e1) (s : Source) (r : ℕ) (c eps : ℝ) (hs : IsODE s r c) (bcs : List BC)
    (hsq : bcs.length = r) (hb : ∀ b ∈ bcs, BC.PointsIn e b ∧ BC.Mentions b) (ho : ∀ b ∈ bcs, OrdLt r b) (hreg : ∃ l1, ¬ IsEig e s r bcs l1)
    (l0 : ℂ) (hl0 : IsEig e s r bcs l0) (ε : ℝ) (hε : 0 < ε) :
    ∃ N, ∀ n, N ≤ n → SecFits n n s → ∀ ordqz, QZ (n := n) ordqz → ∀ ls,
      eigs ordqz (⟨e, r, eps, s, bcs⟩ : Disc n) 0 = some (true, ls) → ∃ l ∈ ls, ‖l - l0‖ < ε := by
  obtain ⟨N, hN⟩ := C131_every_eigenvalue_partial e he s r c eps hs bcs hsq hb ho hreg l0 hl0 ε hε
  refine ⟨N, fun n hn hfit ordqz hqz ls hls => ?_⟩
  rcases hN n hn hfit ordqz hqz 0 le_rfl ls hls with h | ⟨M, α, β, -, -, i, l, -, -, h0, hβ⟩
  · exact h
  · exact absurd (norm_le_zero_iff.1 hβ) h0

/-- The hypotheses are met by the Dirichlet problem of the second derivative: `1` is not an eigenvalue, and `-(π / (b - a))²` is one. -/
example (e : Ends) (he : e.e0 < e.e1) : (∃ l1, ¬ IsEig e lap 2 (dirichlet e 0 0) l1) ∧
    IsEig e lap 2 (dirichlet e 0 0) ((-(((1 : ℕ) : ℝ) * Real.pi / (e.e1 - e.e0)) ^ 2 : ℝ) : ℂ) := by
  refine ⟨⟨1, fun h => ?_⟩, (C131_laplace e he _).2 ⟨1, le_rfl, rfl⟩⟩
  obtain ⟨k, -, hk⟩ := (C131_laplace e he 1).1 h
  have h1 : (1 : ℝ) = -(k * Real.pi / (e.e1 - e.e0)) ^ 2 := by exact_mod_cast hk
  nlinarith [sq_nonneg (k * Real.pi / (e.e1 - e.e0))]

/-! ### conditions for which every number is an eigenvalue -/

/-- `u(a) = u(b)` and `u'(a) = -u'(b)` -/
def EigC.skew (e : Ends) : List BC :=
  [.sub (.ev .u e.e0) (.ev .u e.e1), .add (.ev (.diff 0 .u) e.e0) (.ev (.diff 0 .u) e.e1)]

/-- **C131, the hypothesis is needed.**  For the second derivative with the conditions `u(a) = u(b)` and `u'(a) = -u'(b)` every complex number is an
eigenvalue. -/
theorem C131_all_eigenvalues (e : Ends) (he : e.e0 < e.e1) (l : ℂ) : IsEig e lap 2 (skew e) l := by
  by_contra hl
  have hb : ∀ b ∈ skew e, BC.PointsIn e b ∧ OrdLt 2 b := by
    intro b hb
    simp only [skew, List.mem_cons, List.not_mem_nil, or_false] at hb
    rcases hb with rfl | rfl <;> simp [BC.PointsIn, OrdLt, feOrd, he.le]
  obtain ⟨S, hS, hst⟩ := stab_of_not_eig e he lap 2 1 lap_ode (skew e) hb l hl
  obtain ⟨μ, hμ⟩ : ∃ μ : ℂ, μ * μ = l := ⟨l ^ (1 / 2 : ℂ), by
    rw [← pow_two, ← Complex.cpow_nat_mul]
    simp⟩
  set m : ℝ := (e.e0 + e.e1) / 2 with hm
  have hc : ContDiff ℝ 2 (fun y : ℝ => Complex.cosh (μ * (y - m))) := by
    have h : ContDiff ℝ 2 (fun y : ℝ => μ * ((y : ℂ) - m)) := contDiff_const.mul (Complex.ofRealCLM.contDiff.sub contDiff_const)
    exact ((Complex.contDiff_cosh (n := 2)).restrict_scalars ℝ).comp h
  have h1 : iteratedDeriv 1 (fun y : ℝ => Complex.cosh (μ * (y - m))) = fun y : ℝ => μ * Complex.sinh (μ * (y - m)) := by
    rw [iteratedDeriv_one]
    funext y
    exact (cosh_deriv μ m y).deriv
  have h2 : iteratedDeriv 2 (fun y : ℝ => Complex.cosh (μ * (y - m))) = fun y : ℝ => μ * (μ * Complex.cosh (μ * (y - m))) := by
    rw [iteratedDeriv_succ, h1]
    funext y
    exact ((sinh_deriv μ m y).const_mul μ).deriv
  have h0 : μ * ((e.e0 : ℂ) - m) = -(μ * ((e.e1 : ℂ) - m)) := by
    rw [hm]; push_cast; ring
  have h := hst (fun y : ℝ => Complex.cosh (μ * (y - m))) hc (fun b hb => by
    simp only [skew, List.mem_cons, List.not_mem_nil, or_false] at hb
    rcases hb with rfl | rfl
    · simp only [bcv, jetC, feOrd, iteratedDeriv_zero]
      rw [h0, Complex.cosh_neg, sub_self]
    · simp only [bcv, jetC, feOrd]
      rw [show 0 + (0 + 1) = 1 from rfl, h1]
      simp only
      rw [h0, Complex.sinh_neg]
      ring) 0 (fun y _ => by
      rw [lap_lin, h2, ← hμ]
      simp only
      rw [show μ * (μ * Complex.cosh (μ * (y - m))) - μ * μ * Complex.cosh (μ * (y - m)) = 0 by ring, norm_zero]) m
    ⟨by rw [hm]; linarith, by rw [hm]; linarith⟩
  simp only [sub_self, mul_zero, Complex.cosh_zero, norm_one] at h
  linarith

end Funpy.Props
