import Verif.Lemmas.SpectralInt
import Verif.Lemmas.IdeStab
import Verif.Props.OdeProblem

/-!
# C142: boundary value problems with integral terms
-/

namespace Funpy.Props
namespace Ide
end Ide
open Spec Cheb UltraS OpDisc Matrix Finset Sect WPos CoefNorm Cvg OdeP Ide
open scoped ContDiff

variable {n : ℕ}

/-! ### Specification -/

/-- An operator `∑_{j ≤ r} a_j u^{(j)} + ∑_i c_i ∫ d_i u` of order `r ≥ 1` whose leading coefficient is a constant `c ≠ 0`; any number of integral terms. -/
def Ide.IsIDE (s : Source) (r : ℕ) (c : ℝ) : Prop :=
  1 ≤ r ∧ c ≠ 0 ∧ s.coeff.length = r + 1 ∧ s.coeff.getD r (false, []) = (true, [c])

/-- The multiplication matrices of all coefficient functions, including those of the integral terms, are exact (C41) and their coefficients fit. -/
def Ide.Fits (n : ℕ) (s : Source) : Prop :=
  (∀ j (hj : j < s.coeff.length), s.coeff[j].1 = true → MultExact n s.coeff[j].2 j ∧ s.coeff[j].2.length ≤ n) ∧
  ∀ p ∈ s.integral, MultExact n p.1 0 ∧ p.1.length ≤ n ∧ MultExact n p.2 0 ∧ p.2.length ≤ n

/-- The operator without its integral terms. -/
def Ide.ode (s : Source) : Source := ⟨s.coeff, []⟩

/-! ### The matrix -/

lemma Ide.IsIDE.ode {s : Source} {r : ℕ} {c : ℝ} (hs : IsIDE s r c) : IsODE (ode s) r c := ⟨hs.1, hs.2.1, rfl, hs.2.2.1, hs.2.2.2⟩

lemma Ide.applyLin_split (e : Ends) (s : Source) (u : ℝ → ℝ) (y : ℝ) : applyLin e s u y = applyLin e (ode s) u y +
    (s.integral.map fun p => chebEval p.1 (Mapping.bwd e y) * ∫ t in e.e0..e.e1, chebEval p.2 (Mapping.bwd e t) * u t).sum := by
  simp [applyLin, ode]

/-- the coefficients of `c_i` in the output basis, and `d_i` -/
noncomputable def Ide.pair (e : Ends) (r : ℕ) (p : List ℝ × List ℝ) : Co × Polynomial ℝ :=
  ((Mapping.diff e / 2) • conv 0 r (toCo fun i : Fin p.1.length => p.1.getD i 0), chebPoly p.2)

/-- the operator on coefficients -/
noncomputable def Ide.aop (e : Ends) (s : Source) (r : ℕ) (c : ℝ) : AOp := (op e s r c).toA.addInts (s.integral.map (pair e r))

lemma Ide.aop_r (e : Ends) (s : Source) (r : ℕ) (c : ℝ) : (aop e s r c).r = r := by
  rw [aop, AOp.addInts_r]
  rfl

lemma Ide.aop_al (e : Ends) (he : e.e0 < e.e1) (s : Source) (r : ℕ) (c : ℝ) (hc : c ≠ 0) : (aop e s r c).al ≠ 0 := by
  rw [aop, AOp.addInts_al]
  exact mul_ne_zero hc (pow_ne_zero _ (div_ne_zero (by norm_num) (by simp only [Mapping.diff]; linarith)))

lemma Ide.integral_bwd (e : Ends) (he : e.e0 ≠ e.e1) (h : ℝ → ℝ) :
    ∫ y in e.e0..e.e1, h (Mapping.bwd e y) = Mapping.diff e / 2 * ∫ t in (-1 : ℝ)..1, h t := by
  have hd : Mapping.diff e ≠ 0 := by unfold Mapping.diff; exact sub_ne_zero.mpr (Ne.symm he)
  simp only [Cheb.bwd_eq]
  rw [intervalIntegral.integral_comp_mul_add h (by positivity : (2 / Mapping.diff e) ≠ 0), smul_eq_mul]
  have hd' : e.e1 - e.e0 ≠ 0 := hd
  congr 1
  · field_simp
  · congr 1
    · unfold Mapping.diff; field_simp; ring
    · unfold Mapping.diff; field_simp; ring

lemma Ide.ser_pair (e : Ends) (r : ℕ) (p : List ℝ × List ℝ) (X : ℝ) : ser r (pair e r p).1 X = Mapping.diff e / 2 * chebEval p.1 X := by
  unfold pair
  have := ser_conv 0 r (toCo fun i : Fin p.1.length => p.1.getD i 0) X
  rw [zero_add] at this
  rw [map_smul, Pi.smul_apply, smul_eq_mul, this, ser_toCo, pad_eval 0 _ p.1 le_rfl]
  rfl

/-- the coefficients of `L u` -/
lemma Ide.applyLin_fn' (e : Ends) (he : e.e0 < e.e1) (s : Source) (r : ℕ) (c : ℝ) (hs : IsIDE s r c) (F : Co) (y : ℝ) :
    applyLin e s (fn e F) y = ser r ((aop e s r c).Lam F) (Mapping.bwd e y) := by
  rw [applyLin_split, aop, AOp.addInts_Lam, Op.toA_Lam, map_add, Pi.add_apply, applyLin_fn e (ode s) r c hs.ode]
  congr 1
  induction s.integral with
  | nil => simp
  | cons p l ih =>
    simp only [List.map_cons, List.sum_cons, map_add, Pi.add_apply]
    rw [ih]
    congr 1
    rw [map_smul, Pi.smul_apply, smul_eq_mul, ser_pair, intI_apply]
    have h1 := integral_bwd e he.ne (fun t => chebEval p.2 t * ser 0 F t)
    have h2 : (∫ t in e.e0..e.e1, chebEval p.2 (Mapping.bwd e t) * fn e F t) = Mapping.diff e / 2 * ∫ t in (-1 : ℝ)..1, chebEval p.2 t * ser 0 F t := h1
    have h3 : (∫ t in (-1 : ℝ)..1, ser 0 (mul 0 (pair e r p).2 F) t) = ∫ t in (-1 : ℝ)..1, chebEval p.2 t * ser 0 F t := by
      congr 1
      funext t
      rw [ser_mul, pair, chebEval_eq_eval]
    rw [h2, h3]
    ring

lemma Ide.discInt_supp (len : ℝ) (w : Fin n → ℝ) (i : Fin n) (hi : 1 ≤ (i : ℕ)) : (discInt n len *ᵥ w) i = 0 := by
  unfold discInt
  simp only [smul_mulVec, Pi.smul_apply]
  have : (intmat n *ᵥ w) i = 0 := by
    simp only [mulVec, dotProduct, intmat]
    apply Finset.sum_eq_zero
    intro j _
    rw [if_neg (by omega), zero_mul]
  rw [this]
  simp

/-- the matrix of an integral term -/
lemma Ide.iterm_co (hn : 2 ≤ n) (e : Ends) (he : e.e0 < e.e1) (r : ℕ) (p : List ℝ × List ℝ)
    (hp : MultExact n p.1 0 ∧ p.1.length ≤ n ∧ MultExact n p.2 0 ∧ p.2.length ≤ n) (x : Fin n → ℝ) :
    toCo ((discConvert n 0 r * multmat n p.1 0 * discInt n (Mapping.diff e) * multmat n p.2 0) *ᵥ x)
      = intI (lo n (mul 0 (pair e r p).2 (toCo x))) • (pair e r p).1 := by
  obtain ⟨h1, h1l, h2, h2l⟩ := hp
  obtain ⟨t, ht, hE⟩ := C41_section_partial n p.2 0 hn h2 h2l x
  set w := multmat n p.2 0 *ᵥ x with hw
  have hm : mul 0 (pair e r p).2 (toCo x) = toCo w + toCo t := by
    apply ser_inj 0
    intro X
    rw [ser_mul, map_add, Pi.add_apply, ser_toCo, ser_toCo, ser_toCo, ← hE X, pair, chebEval_eq_eval]
  rw [hm, lo_toCo n _ _ _ ht]
  apply ser_inj r
  intro X
  rw [ser_toCo, Matrix.mul_assoc, Matrix.mul_assoc, ← mulVec_mulVec, ← mulVec_mulVec, ← mulVec_mulVec, discConvert,
    convertmat_series n 0 r (by omega) (Or.inl hn), C41_product_partial n _ 0 hn h1 _ 1 (fun i hi => discInt_supp _ _ i hi) (by omega),
    discInt_series n hn e he.ne, integral_bwd e he.ne, map_smul, Pi.smul_apply, smul_eq_mul, ser_pair, intI_apply]
  have : (∫ t in (-1 : ℝ)..1, ser 0 (toCo w) t) = ∫ t in (-1 : ℝ)..1, ultraSeries 0 w t := by
    congr 1
    funext t
    rw [ser_toCo]
  rw [this]
  ring

lemma Ide.listSum_mulVec (l : List (Matrix (Fin n) (Fin n) ℝ)) (x : Fin n → ℝ) : l.sum *ᵥ x = (l.map (· *ᵥ x)).sum := by
  induction l with
  | nil => simp
  | cons A l ih => rw [List.sum_cons, add_mulVec, ih, List.map_cons, List.sum_cons]

/-- the assembled matrix is the truncated operator -/
lemma Ide.matrix_co' (hn : 2 ≤ n) (e : Ends) (he : e.e0 < e.e1) (s : Source) (r : ℕ) (c : ℝ) (hs : IsIDE s r c) (hfit : Ide.Fits n s) (x : Fin n → ℝ) :
    toCo (quasi2diffmat n (Mapping.diff e) r s *ᵥ x) = (aop e s r c).LamN n (toCo x) := by
  have h0 := Cvg.matrix_co hn e (ode s) r c hs.ode ⟨hfit.1, by simp [ode]⟩ x
  have h1 : quasi2diffmat n (Mapping.diff e) r s = quasi2diffmat n (Mapping.diff e) r (ode s) +
      (s.integral.map fun p => discConvert n 0 r * multmat n p.1 0 * discInt n (Mapping.diff e) * multmat n p.2 0).sum := by
    simp [quasi2diffmat, ode]
  rw [h1, add_mulVec, toCo_add, h0, aop, AOp.addInts_LamN, Op.toA_LamN]
  congr 1
  have h2 := hfit.2
  rw [listSum_mulVec]
  clear h1 h0
  generalize s.integral = l at h2 ⊢
  induction l with
  | nil => simp [Cvg.toCo_zero]
  | cons p l ih =>
    simp only [List.map_cons, List.sum_cons]
    rw [toCo_add, ih fun q hq => h2 q (List.mem_cons_of_mem _ hq), iterm_co hn e he r p (h2 p (List.mem_cons_self ..))]

/-! ### Discrete stability and convergence -/

lemma Ide.stable' (e : Ends) (he : e.e0 < e.e1) (s : Source) (r : ℕ) (c : ℝ) (hs : IsIDE s r c) (bcs : List BC) (S : ℝ)
    (hwp : WellPosed e s bcs S) : (aop e s r c).Stable (homCo e bcs) S := by
  intro F hF M hM x hx
  have h := hwp (fn e F) (fn_contDiff e F) hF M (fun y hy => by
    rw [applyLin_fn' e he s r c hs]
    have := hM _ (bwd_abs e he y hy)
    rwa [aop_r] at this) (Mapping.fwd e x) (fwd_mem e he x hx)
  rwa [fn, (C01_inverse e he).1] at h

lemma Ide.solves' (d : Disc n) (hn : 2 ≤ n) (he : d.e.e0 < d.e.e1) (hb : ∀ b ∈ d.bcs, BC.PointsIn d.e b ∧ BC.Mentions b)
    (c : ℝ) (hs : IsIDE d.src d.r c) (hfit : Ide.Fits n d.src) (M : List (Fin n → ℝ)) (hM : OpDisc.matrix d = some M) (g : List ℝ)
    (hg : g.length = d.bcs.length) (f x : Fin n → ℝ) (hsol : M.map (· ⬝ᵥ x) = projectVector d g f) :
    lo (n - d.r) ((aop d.e d.src d.r c).LamN n (toCo x)) = lo (n - d.r) (conv 0 d.r (toCo f)) := by
  obtain ⟨-, ρ, hρ, hE⟩ := C98_rows d hn he hb M hM g hg f x hsol
  rw [← matrix_co' hn d.e he d.src d.r c hs hfit x]
  have h : toCo (quasi2diffmat n (Mapping.diff d.e) d.r d.src *ᵥ x) = conv 0 d.r (toCo f) + toCo ρ := by
    apply ser_inj d.r
    intro X
    have h1 := hE (Mapping.fwd d.e X)
    have h2 := ser_conv 0 d.r (toCo f) X
    rw [zero_add] at h2
    rw [(C01_inverse d.e he).1, funOf, (C01_inverse d.e he).1, ← ultraSeries_zero_eq] at h1
    rw [map_add, Pi.add_apply, h2, ser_toCo, ser_toCo, ser_toCo]
    linarith
  rw [h]
  ext k
  rw [lo_apply, lo_apply, Finsupp.add_apply, toCo_apply]
  split_ifs with h1 h2
  · rw [hρ _ h1, add_zero]
  · rw [add_zero]
  · rfl

/-- **C142, regularity.**  For a well-posed boundary value problem with integral terms and as many conditions as the order there is an `N` such that for every
number `n ≥ N` of coefficients the discretised problem has exactly one solution, for all boundary values and right-hand sides. -/
theorem C142_regular (e : Ends) (he : e.e0 < e.e1) (s : Source) (r : ℕ) (c eps : ℝ) (hs : IsIDE s r c) (bcs : List BC) (hsq : bcs.length = r)
    (hb : ∀ b ∈ bcs, BC.PointsIn e b ∧ BC.Mentions b) (S : ℝ) (hS : 0 ≤ S) (hwp : WellPosed e s bcs S) :
    ∃ N, ∀ n, N ≤ n → Ide.Fits n s → ∃ M, OpDisc.matrix (⟨e, r, eps, s, bcs⟩ : Disc n) = some M ∧ M.length = n ∧
      ∀ (g : List ℝ) (f : Fin n → ℝ), g.length = r → ∃! x : Fin n → ℝ, M.map (· ⬝ᵥ x) = projectVector (⟨e, r, eps, s, bcs⟩ : Disc n) g f := by
  obtain ⟨C, N, hC, hds⟩ := AOp.discrete_stability (aop e s r c) (homCo e bcs) S hS (stable' e he s r c hs bcs S hwp) (by rw [aop_r]; exact hs.1)
    (aop_al e he s r c hs.2.1) (2 * r) (by rw [aop_r])
  refine ⟨N + r + 2, fun n hn hfit => ?_⟩
  set d : Disc n := ⟨e, r, eps, s, bcs⟩ with hd
  obtain ⟨M, hM, -, hl⟩ := C98_shape d (by omega) he (by show r ≤ n; omega) hb
  have hlen := hl.2 hsq
  have hz : ∀ k, (List.replicate d.bcs.length (0:ℝ)).getD k 0 = 0 := fun k => by rw [getD_replicate']
  refine ⟨M, hM, hlen, fun g f hg => unique_of_inj M hlen (fun x hx => ?_) _ (by
    simp only [projectVector, keepRows, List.length_append, List.length_map, List.length_take, List.length_finRange, hd]
    omega)⟩
  rw [← project_zero d hsq (by show r ≤ n; omega)] at hx
  have h1 := solves' d (by omega) he hb c hs hfit M hM _ (by simp) 0 x hx
  have h2 := (C98_rows d (by omega) he hb M hM _ (by simp) 0 x hx).1
  have h3 := hds n (by omega) (toCo x) (by
    intro b hbm
    rw [fn_toCo]
    obtain ⟨k, hk, rfl⟩ := List.getElem_of_mem hbm
    rw [h2 k hk, hz]) (fun k hk => toCo_ge x k hk)
  have h4 : lo (n - r) ((aop e s r c).LamN n (toCo x)) = 0 := by
    rw [show lo (n - r) ((aop e s r c).LamN n (toCo x)) = _ from h1, toCo_zero, map_zero]
    ext k
    rw [lo_apply]
    simp
  rw [aop_r, h4, W_zero, mul_zero] at h3
  funext i
  have h5 : W (2 * r + 1) (toCo x) = 0 := le_antisymm h3 (W_nonneg _ _)
  rw [W_eq _ _ (insert (i : ℕ) (toCo x).support) (subset_insert _ _), sum_eq_zero_iff_of_nonneg (fun k _ => by positivity)] at h5
  have h6 := h5 i (mem_insert_self _ _)
  rw [mul_eq_zero] at h6
  rcases h6 with h6 | h6
  · exact absurd h6 (by positivity)
  · rw [abs_eq_zero, toCo_apply, dif_pos i.2] at h6
    exact h6

/-- **C142, residuals.**  For a well-posed problem with integral terms and a right-hand side with finitely many Chebyshev coefficients the solutions of the discretised problems
satisfy the boundary conditions exactly and the equation up to a residual which tends to zero uniformly on the interval, faster than every power of `1 / n`. -/
theorem C142_residual (e : Ends) (he : e.e0 < e.e1) (s : Source) (r : ℕ) (c eps : ℝ) (hs : IsIDE s r c) (bcs : List BC)
    (hb : ∀ b ∈ bcs, BC.PointsIn e b ∧ BC.Mentions b) (S : ℝ) (hS : 0 ≤ S) (hwp : WellPosed e s bcs S)
    (f g : List ℝ) (hg : g.length = bcs.length) (t : ℕ) :
    ∃ C N, 0 ≤ C ∧ ∀ n, N ≤ n → Ide.Fits n s → ∀ M, OpDisc.matrix (⟨e, r, eps, s, bcs⟩ : Disc n) = some M →
      ∀ x : Fin n → ℝ, M.map (· ⬝ᵥ x) = projectVector (⟨e, r, eps, s, bcs⟩ : Disc n) g (fun i => f.getD i 0) →
        (∀ k (hk : k < bcs.length), BC.sem (funOf e x) bcs[k] - BC.sem (fun _ => 0) bcs[k] = g.getD k 0) ∧
        ∀ y ∈ Set.Icc e.e0 e.e1, |applyLin e s (funOf e x) y - chebEval f (Mapping.bwd e y)| ≤ C / (n : ℝ) ^ t := by
  have hal := aop_al e he s r c hs.2.1
  -- some polynomial with the right boundary values
  by_cases hF0 : ∃ F0 : Co, ∀ k (hk : k < bcs.length), BC.sem (fn e F0) bcs[k] - BC.sem (fun _ => 0) bcs[k] = g.getD k 0
  swap
  · refine ⟨0, 2, le_rfl, fun n hn _ M hM x hx => absurd ⟨toCo x, fun k hk => ?_⟩ hF0⟩
    rw [fn_toCo]
    exact (C98_rows (⟨e, r, eps, s, bcs⟩ : Disc n) hn he hb M hM g hg _ x hx).1 k hk
  obtain ⟨F0, hF0⟩ := hF0
  have hco : ∀ n, f.length ≤ n → toCo (fun i : Fin n => f.getD i 0) = toCo (fun i : Fin f.length => f.getD i 0) := by
    intro n hn
    ext k
    rw [toCo_apply, toCo_apply]
    by_cases h : k < f.length
    · rw [dif_pos h, dif_pos (by omega)]
    · rw [dif_neg h]
      split_ifs
      · exact getD_ge' _ _ _ (by simpa using h)
      · rfl
  set φ := conv 0 r (toCo (fun i : Fin f.length => f.getD i 0)) with hφ
  obtain ⟨C, N, hC, hdec⟩ := AOp.residual_decay (aop e s r c) (homCo e bcs) S hS (stable' e he s r c hs bcs S hwp) (by rw [aop_r]; exact hs.1) hal φ F0 t
  refine ⟨C * 2 ^ t, N + f.length + 2 * r + 2, by positivity, fun n hn hfit M hM x hx => ?_⟩
  set d : Disc n := ⟨e, r, eps, s, bcs⟩ with hd
  have h1 := solves' d (by omega) he hb c hs hfit M hM g hg _ x hx
  rw [hco n (by omega)] at h1
  have h2 := (C98_rows d (by omega) he hb M hM g hg _ x hx).1
  refine ⟨h2, fun z hz => ?_⟩
  have h3 := hdec n (by omega) (toCo x) (by
    intro b hbm
    obtain ⟨k, hk, rfl⟩ := List.getElem_of_mem hbm
    have h4 : fn e (toCo x - F0) = fun y => fn e (toCo x) y - fn e F0 y := by
      funext y
      rw [fn, map_sub]
      rfl
    rw [h4, bc_sub _ _ (fn_contDiff e _) (fn_contDiff e _), hF0 k hk, fn_toCo, h2 k hk, sub_self]) (fun k hk => toCo_ge x k hk) (by rw [aop_r]; exact h1)
  rw [aop_r] at h3
  have hnr : (0 : ℝ) < (((n - r : ℕ) : ℝ) + 1) ^ t := by positivity
  have h7 := h3 (Mapping.bwd e z) (bwd_abs e he z hz)
  rw [← applyLin_fn' e he s r c hs, fn_toCo] at h7
  have h8 : ser r φ (Mapping.bwd e z) = chebEval f (Mapping.bwd e z) := by
    have := ser_conv 0 r (toCo (fun i : Fin f.length => f.getD i 0)) (Mapping.bwd e z)
    rw [zero_add] at this
    rw [hφ, this, ser_toCo, pad_eval 0 _ f le_rfl]
    rfl
  have hn0 : (0 : ℝ) < n := by exact_mod_cast (by omega : 0 < n)
  have h10 : (n : ℝ) ^ t ≤ 2 ^ t * (((n - r : ℕ) : ℝ) + 1) ^ t := by
    rw [← mul_pow]
    gcongr
    have : n ≤ 2 * ((n - r) + 1) := by omega
    exact_mod_cast this
  rw [h8] at h7
  rw [le_div_iff₀ (by positivity)]
  have h11 := abs_nonneg (applyLin e s (funOf e x) z - chebEval f (Mapping.bwd e z))
  calc |applyLin e s (funOf e x) z - chebEval f (Mapping.bwd e z)| * (n : ℝ) ^ t
      ≤ |applyLin e s (funOf e x) z - chebEval f (Mapping.bwd e z)| * (2 ^ t * (((n - r : ℕ) : ℝ) + 1) ^ t) := by gcongr
    _ = 2 ^ t * ((((n - r : ℕ) : ℝ) + 1) ^ t * |applyLin e s (funOf e x) z - chebEval f (Mapping.bwd e z)|) := by ring
    _ ≤ 2 ^ t * C := by gcongr
    _ = _ := by ring


lemma Ide.ev_cont (e : Ends) (l : List ℝ) : Continuous fun y => chebEval l (Mapping.bwd e y) := by
  have : (fun y => chebEval l (Mapping.bwd e y)) = fun y => (chebPoly l).eval (2 / Mapping.diff e * y + -(e.e0 + e.e1) / Mapping.diff e) := by
    funext y
    rw [chebEval_eq_eval, bwd_affine]
  rw [this]
  exact (Polynomial.continuous _).comp (by fun_prop)

/-- the functions `c_i` -/
noncomputable def Ide.gf (e : Ends) (s : Source) (i : Fin s.integral.length) (y : ℝ) : ℝ := chebEval s.integral[i].1 (Mapping.bwd e y)

/-- the functionals `∫ d_i u` -/
noncomputable def Ide.mean (e : Ends) (s : Source) (i : Fin s.integral.length) (w : ℝ → ℝ) : ℝ :=
  ∫ t in e.e0..e.e1, chebEval s.integral[i].2 (Mapping.bwd e t) * w t

lemma Ide.applyLin_eq' (e : Ends) (s : Source) (r : ℕ) (c : ℝ) (hs : IsIDE s r c) (w : ℝ → ℝ) (y : ℝ) :
    applyLin e s w y = OdeStab.LinI r c (cf e s) (gf e s) (mean e s) w y := by
  rw [applyLin_split, OdeP.applyLin_eq e (ode s) r c hs.ode, OdeStab.LinI]
  congr 1
  rw [← Fin.sum_univ_fun_getElem]
  rfl

lemma Ide.integral_le (e : Ends) (he : e.e0 < e.e1) (l : List ℝ) : ∃ T, 0 ≤ T ∧ ∀ w : ℝ → ℝ, ∀ M, (∀ y ∈ Set.Icc e.e0 e.e1, |w y| ≤ M) →
    |∫ t in e.e0..e.e1, chebEval l (Mapping.bwd e t) * w t| ≤ T * M := by
  obtain ⟨B, hB⟩ := isCompact_Icc.exists_bound_of_continuousOn (ev_cont e l).continuousOn (s := Set.Icc e.e0 e.e1)
  have hB0 : 0 ≤ B := (norm_nonneg _).trans (hB e.e0 (Set.left_mem_Icc.2 he.le))
  refine ⟨B * (e.e1 - e.e0), mul_nonneg hB0 (by linarith), fun w M hM => ?_⟩
  have h := intervalIntegral.norm_integral_le_of_norm_le_const (a := e.e0) (b := e.e1) (f := fun t => chebEval l (Mapping.bwd e t) * w t) (C := B * M)
    (fun x hx => by
      rw [Set.uIoc_of_le he.le] at hx
      have hx' : x ∈ Set.Icc e.e0 e.e1 := ⟨hx.1.le, hx.2⟩
      rw [norm_mul]
      exact mul_le_mul (hB x hx') (hM x hx') (norm_nonneg _) hB0)
  rw [Real.norm_eq_abs, abs_of_pos (by linarith : 0 < e.e1 - e.e0)] at h
  linarith

lemma Ide.means (e : Ends) (he : e.e0 < e.e1) (s : Source) (r : ℕ) : ∃ T, 0 ≤ T ∧ ∀ i, OdeStab.IsMean r e.e0 e.e1 T (mean e s i) := by
  have h : ∀ i : Fin s.integral.length, ∃ T, 0 ≤ T ∧ ∀ w : ℝ → ℝ, ∀ M, (∀ y ∈ Set.Icc e.e0 e.e1, |w y| ≤ M) → |mean e s i w| ≤ T * M :=
    fun i => integral_le e he _
  choose T hT0 hT using h
  refine ⟨∑ i, T i, sum_nonneg fun i _ => hT0 i, fun i => ⟨fun w t _ => ?_, fun w z hw hz => ?_, fun w _ M hM => ?_⟩⟩
  · unfold mean
    rw [← intervalIntegral.integral_const_mul]
    congr 1
    funext x
    ring
  · unfold mean
    have h1 : Continuous fun t => chebEval s.integral[i].2 (Mapping.bwd e t) * w t := (ev_cont e _).mul hw.continuous
    have h2 : Continuous fun t => chebEval s.integral[i].2 (Mapping.bwd e t) * z t := (ev_cont e _).mul hz.continuous
    rw [← intervalIntegral.integral_sub (h1.intervalIntegrable _ _) (h2.intervalIntegrable _ _)]
    congr 1
    funext x
    ring
  · have hM0 : 0 ≤ M := (abs_nonneg _).trans (hM e.e0 (Set.left_mem_Icc.2 he.le))
    exact (hT i w M hM).trans (mul_le_mul_of_nonneg_right (single_le_sum (f := T) (fun i _ => hT0 i) (Finset.mem_univ i)) hM0)

lemma Ide.applyLin_sub' (e : Ends) (he : e.e0 < e.e1) (s : Source) (r : ℕ) (c : ℝ) (hs : IsIDE s r c) (w z : ℝ → ℝ) (hw : ContDiff ℝ r w)
    (hz : ContDiff ℝ r z) (y : ℝ) : applyLin e s (fun y => w y - z y) y = applyLin e s w y - applyLin e s z y := by
  obtain ⟨T, -, hT⟩ := means e he s r
  rw [applyLin_eq' e s r c hs, applyLin_eq' e s r c hs, applyLin_eq' e s r c hs, OdeStab.LinI_sub hT w z hw hz]

lemma Ide.strong' (e : Ends) (he : e.e0 < e.e1) (s : Source) (r : ℕ) (c : ℝ) (hs : IsIDE s r c) (bcs : List BC)
    (hb : ∀ b ∈ bcs, BC.PointsIn e b ∧ OrdLt r b) (hu : UniqueSol e s r bcs) : ∃ S, 0 ≤ S ∧ ∀ w : ℝ → ℝ, ContDiff ℝ r w → HomBC bcs w →
      ∀ M, (∀ y ∈ Set.Icc e.e0 e.e1, |applyLin e s w y| ≤ M) → ∀ j ≤ r, ∀ y ∈ Set.Icc e.e0 e.e1, |iteratedDeriv j w y| ≤ S * M := by
  obtain ⟨T, hT0, hT⟩ := means e he s r
  obtain ⟨S, hS, h⟩ := OdeStab.stable_of_unique_int (a := e.e0) (b := e.e1) (ι := {b // b ∈ bcs}) (al := cf e s) (g := gf e s) (τ := mean e s)
    hs.1 hs.2.1 he (fun j _ => (cf_cont e s j).continuousOn) (fun i => (ev_cont e _).continuousOn) hT0 hT
    (fun i J => jetF J i.1) (fun i => jetF_functional e r i.1 (hb _ i.2).1 (hb _ i.2).2)
    (fun w hw hbw hL => hu w hw (fun b hbm => by rw [bc_sem]; exact hbw ⟨b, hbm⟩) fun y hy => by rw [applyLin_eq' e s r c hs]; exact hL y hy)
  refine ⟨S, hS, fun w hw hbw M hM => h w hw (fun i => by rw [← bc_sem]; exact hbw _ i.2) M fun y hy => ?_⟩
  rw [← applyLin_eq' e s r c hs]
  exact hM y hy

/-- **C142, uniqueness implies stability**, also with integral terms. -/
theorem C142_stable (e : Ends) (he : e.e0 < e.e1) (s : Source) (r : ℕ) (c : ℝ) (hs : IsIDE s r c) (bcs : List BC)
    (hb : ∀ b ∈ bcs, BC.PointsIn e b ∧ OrdLt r b) (hu : UniqueSol e s r bcs) : ∃ S, 0 ≤ S ∧ WellPosed e s bcs S := by
  obtain ⟨S, hS, h⟩ := strong' e he s r c hs bcs hb hu
  refine ⟨S, hS, fun w hw hbw M hM y hy => ?_⟩
  have := h w (hw.of_le (by exact_mod_cast le_top)) hbw M hM 0 (Nat.zero_le r) y hy
  rwa [iteratedDeriv_zero] at this

lemma Ide.LinI_tendsto {m r : ℕ} {a b c T : ℝ} {al : ℕ → ℝ → ℝ} {g : Fin m → ℝ → ℝ} {τ : Fin m → (ℝ → ℝ) → ℝ} (hτ : ∀ i, OdeStab.IsMean r a b T (τ i))
    (v : ℕ → ℝ → ℝ) (hv : ∀ k, ContDiff ℝ r (v k)) (u : ℝ → ℝ) (hu : ContDiff ℝ r u) (δ : ℕ → ℝ) (hδ : Filter.Tendsto δ Filter.atTop (nhds 0))
    (hd : ∀ j ≤ r, ∀ k l, ∀ y ∈ Set.Icc a b, |iteratedDeriv j (v k) y - iteratedDeriv j (v l) y| ≤ δ k + δ l)
    (hut : ∀ j ≤ r, ∀ y ∈ Set.Icc a b, Filter.Tendsto (fun k => iteratedDeriv j (v k) y) Filter.atTop (nhds (iteratedDeriv j u y)))
    (y : ℝ) (hy : y ∈ Set.Icc a b) :
    Filter.Tendsto (fun k => OdeStab.LinI r c al g τ (v k) y) Filter.atTop (nhds (OdeStab.LinI r c al g τ u y)) := by
  have hunif : ∀ k, ∀ y ∈ Set.Icc a b, |v k y - u y| ≤ δ k := by
    intro k y hy
    have h1 := hut 0 (Nat.zero_le r) y hy
    simp only [iteratedDeriv_zero] at h1
    have h2 : Filter.Tendsto (fun l => |v k y - v l y|) Filter.atTop (nhds |v k y - u y|) := (tendsto_const_nhds.sub h1).abs
    have h3 : Filter.Tendsto (fun l => δ k + δ l) Filter.atTop (nhds (δ k + 0)) := tendsto_const_nhds.add hδ
    rw [add_zero] at h3
    refine le_of_tendsto_of_tendsto' h2 h3 fun l => ?_
    have := hd 0 (Nat.zero_le r) k l y hy
    rwa [iteratedDeriv_zero, iteratedDeriv_zero] at this
  have htτ : ∀ i, Filter.Tendsto (fun k => τ i (v k)) Filter.atTop (nhds (τ i u)) := by
    intro i
    rw [tendsto_iff_norm_sub_tendsto_zero]
    have h1 := hδ.const_mul T
    rw [mul_zero] at h1
    refine squeeze_zero (fun _ => norm_nonneg _) (fun k => ?_) h1
    rw [Real.norm_eq_abs, ← (hτ i).sub _ _ (hv _) hu]
    exact (hτ i).bound _ ((hv _).sub hu) _ (hunif k)
  unfold OdeStab.LinI OdeStab.Lin
  exact (((hut r le_rfl y hy).const_mul c).add (tendsto_finsetSum _ fun j hj => (hut j (Finset.mem_range.mp hj).le y hy).const_mul _)).add
    (tendsto_finsetSum _ fun i _ => (htτ i).const_mul _)

/-- **C142, the discretisation solves uniquely solvable problems with integral terms.**  Let `L` be an operator of order `r` whose leading coefficient is a
constant, with any number of integral terms, with
`r` conditions on derivatives of order less than `r` such that the homogeneous problem has only the zero solution, and assume that the coefficient
functions are multiplied exactly by all large discretisations.  Then for every right-hand side with finitely many Chebyshev coefficients and all boundary
values the boundary value problem has a solution `u`, all sufficiently large discretisations have exactly one solution, and these converge to `u`
with all derivatives up to the order `r`, uniformly on the interval and faster than every power of `1 / n`. -/
theorem C142_solves (e : Ends) (he : e.e0 < e.e1) (s : Source) (r : ℕ) (c eps : ℝ) (hs : IsIDE s r c) (bcs : List BC) (hsq : bcs.length = r)
    (hb : ∀ b ∈ bcs, BC.PointsIn e b ∧ BC.Mentions b ∧ OrdLt r b) (hu : UniqueSol e s r bcs) (N0 : ℕ) (hfit : ∀ n, N0 ≤ n → Ide.Fits n s)
    (f g : List ℝ) (hg : g.length = r) :
    ∃ u : ℝ → ℝ, ContDiff ℝ r u ∧ (∀ y ∈ Set.Icc e.e0 e.e1, applyLin e s u y = chebEval f (Mapping.bwd e y)) ∧
      (∀ k (hk : k < bcs.length), BC.sem u bcs[k] - BC.sem (fun _ => 0) bcs[k] = g.getD k 0) ∧
      ∀ t : ℕ, ∃ C N, ∀ n, N ≤ n → ∃ M, OpDisc.matrix (⟨e, r, eps, s, bcs⟩ : Disc n) = some M ∧ M.length = n ∧
        (∃! x : Fin n → ℝ, M.map (· ⬝ᵥ x) = projectVector (⟨e, r, eps, s, bcs⟩ : Disc n) g (fun i => f.getD i 0)) ∧
        ∀ x : Fin n → ℝ, M.map (· ⬝ᵥ x) = projectVector (⟨e, r, eps, s, bcs⟩ : Disc n) g (fun i => f.getD i 0) →
          ∀ j ≤ r, ∀ y ∈ Set.Icc e.e0 e.e1, |iteratedDeriv j (funOf e x) y - iteratedDeriv j u y| ≤ C / (n : ℝ) ^ t := by
  have hb1 : ∀ b ∈ bcs, BC.PointsIn e b ∧ BC.Mentions b := fun b h => ⟨(hb b h).1, (hb b h).2.1⟩
  have ho : ∀ b ∈ bcs, OrdLt r b := fun b h => (hb b h).2.2
  obtain ⟨S, hS, hst⟩ := strong' e he s r c hs bcs (fun b h => ⟨(hb b h).1, ho b h⟩) hu
  have hwp : WellPosed e s bcs S := fun w hw hbw M hM y hy => by
    have := hst w (hw.of_le (by exact_mod_cast le_top)) hbw M hM 0 (Nat.zero_le r) y hy
    rwa [iteratedDeriv_zero] at this
  obtain ⟨N1, hreg⟩ := C142_regular e he s r c eps hs bcs hsq hb1 S hS hwp
  obtain ⟨C1, N2, hC1, hres⟩ := C142_residual e he s r c eps hs bcs hb1 S hS hwp f g (by rw [hg, hsq]) 1
  have hsm : ∀ {n : ℕ} (x : Fin n → ℝ), ContDiff ℝ r (funOf e x) := fun x => (funOf_contDiff e x).of_le (by exact_mod_cast le_top)
  -- the sequence of discrete solutions
  have hseq : ∀ k : ℕ, ∃ v : ℝ → ℝ, ContDiff ℝ r v ∧ (∀ i (hi : i < bcs.length), BC.sem v bcs[i] - BC.sem (fun _ => 0) bcs[i] = g.getD i 0) ∧
      ∀ y ∈ Set.Icc e.e0 e.e1, |applyLin e s v y - chebEval f (Mapping.bwd e y)| ≤ C1 * (1 / ((k : ℝ) + 1)) := by
    intro k
    set n := k + 1 + N0 + N1 + N2 with hn
    have hf := hfit n (by omega)
    obtain ⟨M, hM, -, hx⟩ := hreg n (by omega) hf
    obtain ⟨x, hx, -⟩ := hx g (fun i => f.getD i 0) hg
    obtain ⟨h1, h2⟩ := hres n (by omega) hf M hM x hx
    refine ⟨funOf e x, hsm x, h1, fun y hy => (h2 y hy).trans ?_⟩
    rw [pow_one, div_eq_mul_one_div]
    gcongr
    rw [hn]
    push_cast
    have : (0:ℝ) ≤ (N0 : ℝ) + N1 + N2 := by positivity
    linarith
  choose v hv hvb hvr using hseq
  have hδ : Filter.Tendsto (fun k : ℕ => S * (C1 * (1 / ((k : ℝ) + 1)))) Filter.atTop (nhds 0) := by
    have := ((tendsto_one_div_add_atTop_nhds_zero_nat (𝕜 := ℝ)).const_mul C1).const_mul S
    rwa [mul_zero, mul_zero] at this
  have hvu : ∀ j ≤ r, ∀ k l, ∀ y ∈ Set.Icc e.e0 e.e1, |iteratedDeriv j (v k) y - iteratedDeriv j (v l) y|
      ≤ S * (C1 * (1 / ((k : ℝ) + 1))) + S * (C1 * (1 / ((l : ℝ) + 1))) := by
    intro j hj k l y hy
    rw [← OdeStab.iter_sub _ _ (hv k) (hv l) j hj, ← _root_.mul_add]
    refine hst _ ((hv k).sub (hv l)) (hom_sub r _ _ (hv k) (hv l) bcs ho g (hvb k) (hvb l)) _ (fun z hz => ?_) j hj y hy
    rw [applyLin_sub' e he s r c hs _ _ (hv k) (hv l)]
    have h1 := hvr k z hz
    have h2 := hvr l z hz
    rw [show applyLin e s (v k) z - applyLin e s (v l) z = (applyLin e s (v k) z - chebEval f (Mapping.bwd e z))
      - (applyLin e s (v l) z - chebEval f (Mapping.bwd e z)) by ring]
    exact (abs_sub _ _).trans (add_le_add h1 h2)
  obtain ⟨u, hus, hut⟩ := OdeStab.exists_limit (r := r) he.le v hv (fun k => S * (C1 * (1 / ((k : ℝ) + 1)))) hδ hvu
  have hLu : ∀ y ∈ Set.Icc e.e0 e.e1, applyLin e s u y = chebEval f (Mapping.bwd e y) := by
    intro y hy
    have h1 : Filter.Tendsto (fun k => applyLin e s (v k) y) Filter.atTop (nhds (applyLin e s u y)) := by
      simp only [applyLin_eq' e s r c hs]
      exact LinI_tendsto (means e he s r).choose_spec.2 v hv u hus (fun k => S * (C1 * (1 / ((k : ℝ) + 1)))) hδ hvu hut y hy
    have h2 : Filter.Tendsto (fun k => applyLin e s (v k) y) Filter.atTop (nhds (chebEval f (Mapping.bwd e y))) := by
      rw [tendsto_iff_norm_sub_tendsto_zero]
      have := (tendsto_one_div_add_atTop_nhds_zero_nat (𝕜 := ℝ)).const_mul C1
      rw [mul_zero] at this
      exact squeeze_zero (fun _ => norm_nonneg _) (fun k => hvr k y hy) this
    exact tendsto_nhds_unique h1 h2
  have hbu : ∀ k (hk : k < bcs.length), BC.sem u bcs[k] - BC.sem (fun _ => 0) bcs[k] = g.getD k 0 := by
    intro k hk
    have hm := List.getElem_mem hk
    have h1 := (jetF_functional e r bcs[k] (hb _ hm).1 (ho _ hm)).tendsto (fun i j => iteratedDeriv j (v i)) (fun j => iteratedDeriv j u)
      fun j hj y hy => hut j hj.le y hy
    rw [bc_sem]
    refine tendsto_nhds_unique h1 ?_
    have : (fun i => jetF (fun j => iteratedDeriv j (v i)) bcs[k]) = fun _ => g.getD k 0 := by
      funext i
      rw [← bc_sem, hvb i k hk]
    rw [this]
    exact tendsto_const_nhds
  refine ⟨u, hus, hLu, hbu, fun t => ?_⟩
  obtain ⟨C, N, hC, hr2⟩ := C142_residual e he s r c eps hs bcs hb1 S hS hwp f g (by rw [hg, hsq]) t
  refine ⟨S * C, N + N0 + N1, fun n hn => ?_⟩
  have hf := hfit n (by omega)
  obtain ⟨M, hM, hl, hx⟩ := hreg n (by omega) hf
  refine ⟨M, hM, hl, hx g _ hg, fun x hx j hj y hy => ?_⟩
  obtain ⟨h1, h2⟩ := hr2 n (by omega) hf M hM x hx
  rw [← OdeStab.iter_sub _ _ (hsm x) hus j hj, mul_div_assoc]
  refine hst _ ((hsm x).sub hus) (hom_sub r _ _ (hsm x) hus bcs ho g h1 hbu) _ (fun z hz => ?_) j hj y hy
  rw [applyLin_sub' e he s r c hs _ _ (hsm x) hus, hLu z hz]
  exact h2 z hz


end Funpy.Props
