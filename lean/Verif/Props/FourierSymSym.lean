import Verif.Props.FourierSymUnique

/-!
# C132: symmetries of the solution, scaling, dispersion relations
-/

namespace Funpy.Props
open Spec Trig TrigSpec Matrix Finset Complex FourierStab FCv FUn FSy
open scoped ContDiff

lemma FSy.fourierFun_inj {n : ℕ} (hn : n % 2 = 1) (e : Ends) (he : e.e0 < e.e1) (f g : Fin n → ℂ) (h : ∀ x, fourierFun e f x = fourierFun e g x) : f = g := by
  have h1 : ∀ y, ev (FCv.toCo f) y = ev (FCv.toCo g) y := by
    intro y
    have := h (Mapping.fwd e y)
    rw [← fn_toCo hn, ← fn_toCo hn, fn, fn, FUn.bwd_fwd e he] at this
    exact this
  funext i
  rw [← toCo_wave f, ← toCo_wave g, ← fourier_ev, ← fourier_ev, funext h1]

lemma FSy.fourierFun_modes {n : ℕ} (hn : n % 2 = 1) (e : Ends) (a : Fin n → ℂ) (x : ℝ) : fourierFun e a x = ∑ i, a i * mode e (wave n i) x := by
  rw [← fn_toCo hn]
  unfold FCv.toCo
  rw [fn_sum]
  exact sum_congr rfl fun i _ => fn_mode e _ _ x

lemma FSy.mode_shift (e : Ends) (he : e.e0 < e.e1) (k : ℤ) (x t : ℝ) : mode e k (x - t) = cexp (-(dmul e k * t)) * mode e k x := by
  have hd : Mapping.diff e ≠ 0 := by unfold Mapping.diff; linarith
  have hdc : (Mapping.diff e : ℂ) ≠ 0 := by exact_mod_cast hd
  unfold mode dmul
  rw [← Complex.exp_add, Cheb.bwd_eq, Cheb.bwd_eq]
  congr 1
  push_cast
  field_simp
  ring

/-- **C132, translations.**  The solution for a shifted right hand side is the shifted solution. -/
theorem C132_translate (n : ℕ) (hn : n % 2 = 1) (e : Ends) (he : e.e0 < e.e1) (eps : ℝ) (s : Source) (hs : IsConst s)
    (hreg : ∀ f : Fin n → ℂ, ∃! v : Fin n → ℂ, quasi2diffmat n (Mapping.diff e) eps s *ᵥ v = f) (f v f' v' : Fin n → ℂ)
    (hv : quasi2diffmat n (Mapping.diff e) eps s *ᵥ v = f) (hv' : quasi2diffmat n (Mapping.diff e) eps s *ᵥ v' = f') (t : ℝ)
    (hf : ∀ x, fourierFun e f' x = fourierFun e f (x - t)) (x : ℝ) : fourierFun e v' x = fourierFun e v (x - t) := by
  have hsh : ∀ (a : Fin n → ℂ) (x : ℝ), fourierFun e a (x - t) = fourierFun e (fun i => cexp (-(dmul e (wave n i) * t)) * a i) x := by
    intro a x
    rw [fourierFun_modes hn, fourierFun_modes hn]
    refine sum_congr rfl fun i _ => ?_
    rw [mode_shift e he]
    ring
  have h1 : f' = fun i : Fin n => cexp (-(dmul e (wave n i) * t)) * f i := fourierFun_inj hn e he _ _ fun x => by rw [hf, hsh]
  have h2 : v' = fun i : Fin n => cexp (-(dmul e (wave n i) * t)) * v i := by
    refine (hreg f').unique hv' ?_
    rw [C132_diagonal n hn e he eps s hs] at hv ⊢
    funext i
    rw [mulVec_diagonal, h1, ← hv]
    beta_reduce
    rw [mulVec_diagonal]
    ring
  rw [hsh, h2]

/-- The operator has real coefficients. -/
def FSy.IsReal (s : Source) : Prop :=
  (∀ p ∈ s.coeff, (p.2.getD 0 0).im = 0) ∧ (∀ p ∈ s.nl, (p.2.getD 0 0).im = 0) ∧ ∀ p ∈ s.integral, (p.1.getD 0 0).im = 0

lemma FSy.cst_conj (l : List (Bool × List ℂ)) (hl : ∀ p ∈ l, (p.2.getD 0 0).im = 0) (j : ℕ) (hj : j < l.length) :
    (starRingEnd ℂ) (cst (l.getD j (false, []))) = cst (l.getD j (false, [])) := by
  have := hl _ (List.getElem_mem hj)
  rw [getD_lt' _ _ _ hj]
  unfold cst
  split_ifs
  · exact Complex.conj_eq_iff_im.mpr this
  · simp

lemma FSy.aggFac_conj (len : ℝ) (k : ℤ) : (starRingEnd ℂ) (aggFac len k) = aggFac len (-k) := by
  unfold aggFac
  rw [map_mul, Complex.conj_I, Complex.conj_ofReal]
  by_cases hk : k = 0
  · simp [hk]
  · rw [if_neg hk, if_neg (neg_ne_zero.mpr hk)]
    push_cast
    rw [show (2 * (Real.pi : ℂ) * -(k : ℂ) / len) = -(2 * Real.pi * k / len) by ring, Complex.cos_neg]
    ring

lemma FSy.symbol_conj (len : ℝ) (s : Source) (hr : IsReal s) (k : ℤ) : (starRingEnd ℂ) (symbol len s k) = symbol len s (-k) := by
  have hI : ∀ k : ℤ, (starRingEnd ℂ) (I * (2 * Real.pi * k / len : ℝ)) = I * (2 * Real.pi * (-k : ℤ) / len : ℝ) := by
    intro k
    rw [map_mul, Complex.conj_I, Complex.conj_ofReal]
    push_cast
    ring
  unfold symbol
  rw [map_add, map_add, map_sum, map_sum]
  congr 1
  · congr 1
    · refine sum_congr rfl fun j hj => ?_
      rw [map_mul, map_pow, hI, cst_conj _ hr.1 j (Finset.mem_range.mp hj)]
    · by_cases hk : k = 0
      · subst hk
        rw [neg_zero, if_pos rfl, map_list_sum, List.map_map]
        congr 1
        apply List.map_congr_left
        intro p hp
        show (starRingEnd ℂ) (p.1.getD 0 0 * (len : ℂ)) = _
        rw [map_mul, Complex.conj_ofReal, Complex.conj_eq_iff_im.mpr (hr.2.2 p hp)]
      · rw [if_neg hk, if_neg (neg_ne_zero.mpr hk), map_zero]
  · refine sum_congr rfl fun j hj => ?_
    rw [map_mul, map_mul, map_pow, hI, cst_conj _ hr.2.1 j (Finset.mem_range.mp hj), aggFac_conj]

lemma FSy.wave_rev {n : ℕ} (hn : n % 2 = 1) (i : Fin n) : wave n (Fin.rev i) = -wave n i := by
  have := i.2
  unfold wave
  rw [Fin.val_rev]
  omega

lemma FSy.mode_conj (e : Ends) (k : ℤ) (x : ℝ) : (starRingEnd ℂ) (mode e k x) = mode e (-k) x := by
  unfold mode
  rw [← Complex.exp_conj]
  congr 1
  simp only [map_mul, Complex.conj_I, Complex.conj_ofReal, map_intCast]
  push_cast
  ring

/-- **C132, reality.**  With real coefficients the solution for a real right hand side is real. -/
theorem C132_real (n : ℕ) (hn : n % 2 = 1) (e : Ends) (he : e.e0 < e.e1) (eps : ℝ) (s : Source) (hs : IsConst s) (hr : IsReal s)
    (hreg : ∀ f : Fin n → ℂ, ∃! v : Fin n → ℂ, quasi2diffmat n (Mapping.diff e) eps s *ᵥ v = f) (f v : Fin n → ℂ)
    (hv : quasi2diffmat n (Mapping.diff e) eps s *ᵥ v = f) (hf : ∀ x, (fourierFun e f x).im = 0) (x : ℝ) : (fourierFun e v x).im = 0 := by
  have hcj : ∀ (a : Fin n → ℂ) (x : ℝ), fourierFun e (fun i => (starRingEnd ℂ) (a (Fin.rev i))) x = (starRingEnd ℂ) (fourierFun e a x) := by
    intro a x
    rw [fourierFun_modes hn, fourierFun_modes hn, map_sum]
    refine Fintype.sum_equiv Fin.revPerm _ _ fun i => ?_
    rw [map_mul, mode_conj, Fin.revPerm_apply, wave_rev hn, neg_neg]
  have h1 : (fun i => (starRingEnd ℂ) (f (Fin.rev i))) = f := fourierFun_inj hn e he _ _ fun x => by
    rw [hcj]
    exact Complex.conj_eq_iff_im.mpr (hf x)
  have h2 : (fun i => (starRingEnd ℂ) (v (Fin.rev i))) = v := by
    refine (hreg f).unique ?_ hv
    rw [C132_diagonal n hn e he eps s hs] at hv ⊢
    funext i
    have h3 := congrFun hv (Fin.rev i)
    rw [mulVec_diagonal, wave_rev hn, ← symbol_conj _ s hr, Complex.norm_conj] at h3
    have h4 := congrArg (starRingEnd ℂ) h3
    rw [map_mul, congrFun h1 i, apply_ite (starRingEnd ℂ), map_zero, Complex.conj_conj] at h4
    rw [mulVec_diagonal]
    exact h4
  rw [← Complex.conj_eq_iff_im, ← hcj, h2]

/-- The operator `t · L`. -/
def FSy.scale (t : ℂ) (s : Source) : Source :=
  ⟨s.coeff.map fun p => (p.1, p.2.map (t * ·)), s.integral.map fun p => (p.1.map (t * ·), p.2), s.nl.map fun p => (p.1, p.2.map (t * ·))⟩

lemma FSy.cst_scale (t : ℂ) (l : List (Bool × List ℂ)) (j : ℕ) :
    cst ((l.map fun p => (p.1, p.2.map (t * ·))).getD j (false, [])) = t * cst (l.getD j (false, [])) := by
  have h0 : (l.map fun p => (p.1, p.2.map (t * ·))).getD j (false, []) = (fun p : Bool × List ℂ => (p.1, p.2.map (t * ·))) (l.getD j (false, [])) := by
    rw [List.getD_eq_getElem?_getD, List.getD_eq_getElem?_getD, List.getElem?_map]
    cases l[j]? <;> simp
  rw [h0]
  generalize l.getD j (false, []) = q
  obtain ⟨b, c⟩ := q
  unfold cst
  cases b
  · simp
  · cases c <;> simp

lemma FSy.scale_const (t : ℂ) (s : Source) (hs : IsConst s) : IsConst (scale t s) := by
  refine ⟨fun p hp => ?_, fun p hp => ?_, ?_⟩
  · obtain ⟨q, hq, rfl⟩ := List.mem_map.mp hp
    simpa using hs.1 q hq
  · obtain ⟨q, hq, rfl⟩ := List.mem_map.mp hp
    simpa using hs.2.1 q hq
  · rcases hs.2.2 with h | ⟨a, h⟩
    · exact Or.inl (by rw [scale, h]; rfl)
    · exact Or.inr ⟨t * a, by rw [scale, h]; rfl⟩

lemma FSy.symbol_scale (len : ℝ) (t : ℂ) (s : Source) (k : ℤ) : symbol len (scale t s) k = t * symbol len s k := by
  unfold symbol
  rw [_root_.mul_add, _root_.mul_add, mul_sum, mul_sum]
  congr 1
  · congr 1
    · show ∑ j ∈ range (s.coeff.map _).length, _ = _
      rw [List.length_map]
      refine sum_congr rfl fun j _ => ?_
      rw [scale, cst_scale]
      ring
    · by_cases hk : k = 0
      · rw [if_pos hk, if_pos hk, scale, List.map_map, ← List.sum_map_mul_left]
        congr 1
        apply List.map_congr_left
        intro p _
        show (p.1.map (t * ·)).getD 0 0 * (len : ℂ) = t * (p.1.getD 0 0 * len)
        cases p.1 with
        | nil => simp
        | cons a b =>
          simp only [List.map_cons, List.getD_cons_zero]
          ring
      · rw [if_neg hk, if_neg hk, mul_zero]
  · show ∑ j ∈ range (s.nl.map _).length, _ = _
    rw [List.length_map]
    refine sum_congr rfl fun j _ => ?_
    rw [scale, cst_scale]
    ring

/-- **C132, finding: the result depends on the scale of the equation.**  Multiplying a constant coefficient equation by a nonzero number does not change its solutions, but
for every such equation and every `n` there is a number for which the matrix is zero. -/
theorem C132_scale_fails (n : ℕ) (hn : n % 2 = 1) (e : Ends) (he : e.e0 < e.e1) (eps : ℝ) (heps : 0 < eps) (s : Source) (hs : IsConst s) :
    (∀ (t : ℂ) (v : Fin n → ℂ) (x : ℝ), applyOp e (scale t s) (fourierFun e v) x = t * applyOp e s (fourierFun e v) x) ∧
    ∃ t : ℂ, t ≠ 0 ∧ quasi2diffmat n (Mapping.diff e) eps (scale t s) = 0 := by
  constructor
  · intro t v x
    rw [applyOp_fourierFun n hn e he _ (scale_const t s hs), applyOp_fourierFun n hn e he s hs, fourierFun_modes hn, fourierFun_modes hn, mul_sum]
    refine sum_congr rfl fun i _ => ?_
    rw [symbol_scale]
    ring
  · set B : ℝ := ∑ i : Fin n, ‖symbol (Mapping.diff e) s (wave n i)‖ with hB
    have hB0 : 0 ≤ B := sum_nonneg fun _ _ => norm_nonneg _
    have ht : 0 < eps / (B + 1) := by positivity
    refine ⟨((eps / (B + 1) : ℝ) : ℂ), by exact_mod_cast ht.ne', ?_⟩
    rw [C132_diagonal n hn e he eps _ (scale_const _ s hs)]
    ext i j
    by_cases hij : i = j
    · subst hij
      rw [diagonal_apply_eq, symbol_scale, norm_mul, Complex.norm_real, Real.norm_eq_abs, abs_of_pos ht, if_pos]
      · rfl
      · have h1 : ‖symbol (Mapping.diff e) s (wave n i)‖ ≤ B := single_le_sum (f := fun i : Fin n => ‖symbol (Mapping.diff e) s (wave n i)‖) (fun _ _ => norm_nonneg _) (mem_univ i)
        calc eps / (B + 1) * ‖symbol (Mapping.diff e) s (wave n i)‖ ≤ eps / (B + 1) * B := mul_le_mul_of_nonneg_left h1 ht.le
          _ < eps / (B + 1) * (B + 1) := mul_lt_mul_of_pos_left (by linarith) ht
          _ = eps := by field_simp
    · rw [diagonal_apply_ne _ hij]
      rfl

/-- `u ↦ D u'' - α (A u)'`, the linearisation of the adhesion model at a constant state. -/
def FSy.armstrong (D α : ℝ) : Source := ⟨[(false, [0]), (false, [0]), (true, [(D : ℂ)])], [], [(false, [0]), (true, [(-α : ℂ)])]⟩

/-- **C132, dispersion relation.**  For the linearised adhesion model `D u'' - α (A u)'` the eigenvalues of the matrix are `α(1 - cos θ) - D θ²`, `θ = 2πk/len`,
`|k| ≤ (n-1)/2` (zero for those of modulus below `eps`). -/
theorem C132_armstrong (n : ℕ) (hn : n % 2 = 1) (e : Ends) (he : e.e0 < e.e1) (eps D α : ℝ) (l : ℂ) :
    (∃ v : Fin n → ℂ, v ≠ 0 ∧ quasi2diffmat n (Mapping.diff e) eps (armstrong D α) *ᵥ v = l • v) ↔
      ∃ k : ℤ, |k| ≤ (n / 2 : ℕ) ∧ ∃ m : ℝ, m = α * (1 - Real.cos (2 * Real.pi * k / Mapping.diff e)) - D * (2 * Real.pi * k / Mapping.diff e) ^ 2 ∧
        l = ((if |m| < eps then 0 else m : ℝ) : ℂ) := by
  have hd : Mapping.diff e ≠ 0 := by unfold Mapping.diff; linarith
  have hc : IsConst (armstrong D α) := by
    refine ⟨?_, ?_, Or.inl rfl⟩ <;> intro p hp <;> simp [armstrong] at hp <;> rcases hp with rfl | rfl <;> rfl
  have hsym : ∀ k : ℤ, symbol (Mapping.diff e) (armstrong D α) k
      = ((α * (1 - Real.cos (2 * Real.pi * k / Mapping.diff e)) - D * (2 * Real.pi * k / Mapping.diff e) ^ 2 : ℝ) : ℂ) := by
    intro k
    unfold symbol armstrong cst aggFac
    simp only [List.length_cons, List.length_nil, sum_range_succ, range_zero, sum_empty, List.getD_cons_zero, List.getD_cons_succ, List.map_nil, List.sum_nil,
      Bool.false_eq_true, if_true, ite_self, zero_mul, zero_add, add_zero, pow_one]
    by_cases hk : k = 0
    · subst hk
      simp
    · rw [if_neg hk]
      have hθ : 2 * Real.pi * k / Mapping.diff e ≠ 0 := div_ne_zero (mul_ne_zero (mul_ne_zero two_ne_zero Real.pi_ne_zero) (by exact_mod_cast hk)) hd
      set θ : ℝ := 2 * Real.pi * k / Mapping.diff e with hθd
      have hθc : (θ : ℂ) ≠ 0 := by exact_mod_cast hθ
      push_cast
      field_simp
      rw [I_sq]
      ring
  rw [C132_eigenvalues n hn e he eps _ hc]
  constructor
  · rintro ⟨i, rfl⟩
    refine ⟨wave n i, ?_, _, rfl, ?_⟩
    · have := i.2
      unfold wave
      rw [abs_le]
      omega
    · rw [hsym, Complex.norm_real, Real.norm_eq_abs]
      split_ifs <;> simp
  · rintro ⟨k, hk, m, hm, rfl⟩
    rw [abs_le] at hk
    refine ⟨⟨(k + (n / 2 : ℕ)).toNat, by omega⟩, ?_⟩
    have hw : wave n ((⟨(k + (n / 2 : ℕ)).toNat, by omega⟩ : Fin n) : ℕ) = k := by
      unfold wave
      simp only
      omega
    rw [hw, hsym, Complex.norm_real, Real.norm_eq_abs, ← hm]
    split_ifs <;> simp

/-- `-u'' + u` satisfies the hypotheses of the C132 theorems on every interval, with five modes and `eps = 2⁻⁵²`; its symbol has no zero -/
example (e : Ends) : IsConst ⟨[(true, [1]), (false, [0]), (true, [-1])], [], []⟩ ∧ IsReal ⟨[(true, [1]), (false, [0]), (true, [-1])], [], []⟩ ∧
    ∀ k : ℤ, (1 : ℝ) ≤ ‖symbol (Mapping.diff e) ⟨[(true, [1]), (false, [0]), (true, [-1])], [], []⟩ k‖ := by
  refine ⟨⟨?_, by simp, Or.inl rfl⟩, ⟨?_, by simp, by simp⟩, fun k => ?_⟩
  · intro p hp
    simp at hp
    rcases hp with rfl | rfl | rfl <;> rfl
  · intro p hp
    simp at hp
    rcases hp with rfl | rfl | rfl <;> simp
  · have : symbol (Mapping.diff e) ⟨[(true, [1]), (false, [0]), (true, [-1])], [], []⟩ k = ((1 + (2 * Real.pi * k / Mapping.diff e) ^ 2 : ℝ) : ℂ) := by
      unfold symbol cst
      simp [sum_range_succ, mul_pow]
    rw [this, Complex.norm_real, Real.norm_eq_abs, abs_of_pos (by positivity)]
    nlinarith [sq_nonneg (2 * Real.pi * k / Mapping.diff e)]

/-! ### an even number of modes -/

lemma FSy.mult_const {n : ℕ} (c : List ℂ) (hc : c.length = 1) : multmat n c = c.getD 0 0 • (1 : Matrix (Fin n) (Fin n) ℂ) := by
  unfold multmat
  rw [if_pos hc]

lemma FSy.waveArr_even {n : ℕ} (hn : n % 2 = 0) (k : ℕ) : waveArr n k = wave n k := by
  obtain ⟨m, rfl⟩ : ∃ m, n = 2 * m := ⟨n / 2, by omega⟩
  rw [waveArr, if_neg (by omega), wave, show 2 * m / 2 = m by omega]
  push_cast
  ring

lemma FSy.diff_even {n : ℕ} (hn : n % 2 = 0) (len : ℝ) (j : ℕ) : discDiff n j len
    = diagonal fun i : Fin n => if j % 2 = 1 ∧ (i : ℕ) = 0 then 0 else (I * (2 * Real.pi * wave n i / len : ℝ)) ^ j := by
  unfold discDiff
  by_cases hj : j = 0
  · subst hj
    rw [if_pos rfl, ← diagonal_one]
    congr 1
  · rw [if_neg hj]
    unfold diffmat
    rw [if_pos (by omega), if_neg (by omega)]
    have hpow : ∀ i : Fin n, (((2 * Real.pi / len) ^ j : ℝ) : ℂ) * (I ^ j * ((wave n i : ℝ) : ℂ) ^ j) = (I * (2 * Real.pi * wave n i / len : ℝ)) ^ j := by
      intro i
      push_cast
      rw [← mul_pow, ← mul_pow]
      congr 1
      ring
    by_cases hj2 : j % 2 = 1
    · rw [if_pos hj2, diagonal_pow]
      ext a b
      rw [Matrix.smul_apply, Matrix.smul_apply, Matrix.diagonal_apply, Matrix.diagonal_apply, smul_eq_mul, smul_eq_mul]
      by_cases hab : a = b
      · rw [if_pos hab, if_pos hab, Pi.pow_apply]
        by_cases h0 : (a : ℕ) = 0
        · rw [if_pos h0, if_pos ⟨hj2, h0⟩, zero_pow hj]
          ring
        · rw [if_neg h0, if_neg (by tauto), ← hpow]
          congr 4
          obtain ⟨m, rfl⟩ : ∃ m, n = 2 * m := ⟨n / 2, by omega⟩
          rw [wave, show 2 * m / 2 = m by omega]
          push_cast
          ring
      · rw [if_neg hab, if_neg hab, mul_zero, mul_zero]
    · rw [if_neg hj2, diagonal_pow]
      ext a b
      rw [Matrix.smul_apply, Matrix.smul_apply, Matrix.diagonal_apply, Matrix.diagonal_apply, smul_eq_mul, smul_eq_mul]
      by_cases hab : a = b
      · rw [if_pos hab, if_pos hab, Pi.pow_apply, if_neg (by tauto), ← hpow, waveArr_even hn]
      · rw [if_neg hab, if_neg hab, mul_zero, mul_zero]

lemma FSy.mapIdx_sum {α M : Type*} [AddCommMonoid M] (l : List α) (d : α) (f : ℕ → α → M) :
    (l.mapIdx f).sum = ∑ j ∈ range l.length, f j (l.getD j d) := by
  induction l generalizing f with
  | nil => simp
  | cons a l ih =>
    rw [List.mapIdx_cons, List.sum_cons, ih, List.length_cons, sum_range_succ', add_comm]
    simp

/-- **C132, an even number of modes, local operators.**  For a constant coefficient differential operator and an even number of modes the matrix (before small entries are dropped)
is diagonal; its entries are the values of the symbol, except for the unpaired mode, a cosine, for which it is the mean of the values at the two wave numbers `± n/2`. -/
theorem C132_even_local (n : ℕ) (hn : n % 2 = 0) (len : ℝ) (s : Source) (hs : IsConst s) (hint : s.integral = []) (hnl : s.nl = []) :
    assemble n len s = diagonal fun i : Fin n => if (i : ℕ) = 0 then (symbol len s (n / 2 : ℕ) + symbol len s (-(n / 2 : ℕ))) / 2 else symbol len s (wave n i) := by
  have hsym : ∀ k, symbol len s k = ∑ j ∈ range s.coeff.length, cst (s.coeff.getD j (false, [])) * (I * (2 * Real.pi * k / len : ℝ)) ^ j := by
    intro k
    unfold symbol
    rw [hint, hnl]
    simp
  unfold assemble
  rw [hint, hnl]
  simp only [List.mapIdx_nil, List.sum_nil, add_zero]
  rw [mapIdx_sum _ (false, [])]
  ext a b
  rw [Matrix.sum_apply, Matrix.diagonal_apply]
  have hterm : ∀ j ∈ range s.coeff.length, (if (s.coeff.getD j (false, [])).1 = true then multmat n (s.coeff.getD j (false, [])).2 * discDiff n j len else 0) a b
      = if a = b then cst (s.coeff.getD j (false, [])) * (if j % 2 = 1 ∧ (a : ℕ) = 0 then 0 else (I * (2 * Real.pi * wave n a / len : ℝ)) ^ j) else 0 := by
    intro j hj
    have hl : (s.coeff.getD j (false, [])).2.length = 1 := by
      rw [getD_lt' _ _ _ (Finset.mem_range.mp hj)]
      exact hs.1 _ (List.getElem_mem _)
    rw [mult_const _ hl, diff_even hn]
    unfold cst
    by_cases hb : (s.coeff.getD j (false, [])).1 = true
    · rw [if_pos hb, if_pos hb, smul_mul, one_mul, Matrix.smul_apply, Matrix.diagonal_apply, smul_eq_mul]
      by_cases hab : a = b
      · rw [if_pos hab, if_pos hab]
      · rw [if_neg hab, if_neg hab, mul_zero]
    · rw [if_neg hb, if_neg hb, zero_mul, ite_self]
      rfl
  rw [sum_congr rfl hterm]
  by_cases hab : a = b
  · simp only [if_pos hab]
    by_cases h0 : (a : ℕ) = 0
    · rw [if_pos h0, hsym, hsym, ← sum_add_distrib, sum_div]
      refine sum_congr rfl fun j _ => ?_
      have hw : wave n a = -((n / 2 : ℕ) : ℤ) := by rw [h0]; simp [wave]
      rw [hw]
      have hneg : (I * ((2 * Real.pi * ((-((n / 2 : ℕ) : ℤ) : ℤ) : ℝ) / len : ℝ) : ℂ)) = -(I * ((2 * Real.pi * (((n / 2 : ℕ) : ℤ) : ℝ) / len : ℝ) : ℂ)) := by
        push_cast
        ring
      rw [hneg]
      by_cases hj : j % 2 = 1
      · rw [if_pos ⟨hj, h0⟩, Odd.neg_pow (Nat.odd_iff.mpr hj)]
        ring
      · rw [if_neg (by tauto), Even.neg_pow (Nat.even_iff.mpr (by omega))]
        ring
    · rw [if_neg h0, hsym]
      refine sum_congr rfl fun j _ => ?_
      rw [if_neg (by tauto)]
  · simp only [if_neg hab, sum_const_zero]

/-- `u ↦ (A u)'` -/
def FSy.aggDeriv : Source := ⟨[], [], [(false, [0]), (true, [1])]⟩

/-- **C132, finding: the aggregation operator with an even number of modes.**  The operator `(A u)'` multiplies the unpaired mode, `cos(πn/2 y)`, by `cos(πn/len) - 1`,
but its matrix maps it to zero. -/
theorem C132_even_agg_fails (m : ℕ) (hm : 0 < m) (e : Ends) (he : e.e0 < e.e1) :
    (∀ x, fourierFun e (Pi.single (⟨0, by omega⟩ : Fin (2 * m)) (1 : ℂ)) x = (Real.cos (Real.pi * m * Mapping.bwd e x) : ℝ)) ∧
    (∀ x, applyOp e aggDeriv (fourierFun e (Pi.single (⟨0, by omega⟩ : Fin (2 * m)) (1 : ℂ))) x
      = ((Real.cos (2 * Real.pi * m / Mapping.diff e) - 1) * Real.cos (Real.pi * m * Mapping.bwd e x) : ℝ)) ∧
    assemble (2 * m) (Mapping.diff e) aggDeriv *ᵥ Pi.single (⟨0, by omega⟩ : Fin (2 * m)) (1 : ℂ) = 0 := by
  have hd : Mapping.diff e ≠ 0 := by unfold Mapping.diff; linarith
  set u : Fin (2 * m) → ℂ := Pi.single (⟨0, by omega⟩ : Fin (2 * m)) (1 : ℂ) with hu
  set a : Co := Finsupp.single (m : ℤ) (1 / 2) + Finsupp.single (-(m : ℤ)) (1 / 2) with ha
  have hco : coOf (List.ofFn u) = a := by
    unfold coOf
    rw [List.length_ofFn, sum_eq_single 0]
    · rw [if_pos ⟨by omega, rfl⟩, show 2 * m / 2 = m by omega, getD_lt' _ _ _ (by simp; omega), List.getElem_ofFn, ha]
      simp [hu]
    · intro k hk h0
      rw [if_neg (by tauto), getD_lt' _ _ _ (by simpa using Finset.mem_range.mp hk), List.getElem_ofFn, hu, Pi.single_eq_of_ne (by
        intro h
        exact h0 (congrArg Fin.val h)), Finsupp.single_zero]
    · intro h
      exact absurd (Finset.mem_range.mpr (by omega)) h
  have hfn : fourierFun e u = fn e a := by
    funext x
    rw [fn, ← hco, ev_coOf]
    rfl
  have hcos : ∀ x, mode e (m : ℤ) x + mode e (-(m : ℤ)) x = 2 * (Real.cos (Real.pi * m * Mapping.bwd e x) : ℝ) := by
    intro x
    unfold mode
    rw [Complex.ofReal_cos, Complex.cos]
    rw [show I * Real.pi * ((m : ℤ) : ℂ) * (Mapping.bwd e x : ℝ) = ((Real.pi * m * Mapping.bwd e x : ℝ) : ℂ) * I by push_cast; ring,
      show I * Real.pi * ((-(m : ℤ) : ℤ) : ℂ) * (Mapping.bwd e x : ℝ) = -((Real.pi * m * Mapping.bwd e x : ℝ) : ℂ) * I by push_cast; ring]
    ring
  have hval : ∀ x, fn e a x = (Real.cos (Real.pi * m * Mapping.bwd e x) : ℝ) := by
    intro x
    rw [ha, fn_add, fn_mode, fn_mode, ← _root_.mul_add, hcos]
    ring
  have hc : IsConst aggDeriv := by
    refine ⟨by simp [aggDeriv], ?_, Or.inl rfl⟩
    intro p hp
    simp [aggDeriv] at hp
    rcases hp with rfl | rfl <;> rfl
  have hsym : ∀ k : ℤ, k ≠ 0 → symbol (Mapping.diff e) aggDeriv k = ((Real.cos (2 * Real.pi * k / Mapping.diff e) - 1 : ℝ) : ℂ) := by
    intro k hk
    have hθ : 2 * Real.pi * k / Mapping.diff e ≠ 0 := div_ne_zero (mul_ne_zero (mul_ne_zero two_ne_zero Real.pi_ne_zero) (by exact_mod_cast hk)) hd
    unfold symbol aggDeriv cst aggFac
    simp only [List.length_cons, List.length_nil, sum_range_succ, range_zero, sum_empty, List.getD_cons_zero, List.getD_cons_succ, List.map_nil, List.sum_nil,
      Bool.false_eq_true, if_true, ite_self, zero_mul, zero_add, add_zero, pow_one, one_mul, if_neg hk]
    set θ : ℝ := 2 * Real.pi * k / Mapping.diff e with hθd
    have hθc : (θ : ℂ) ≠ 0 := by exact_mod_cast hθ
    push_cast
    field_simp
    rw [I_sq]
    ring
  refine ⟨fun x => by rw [hfn, hval], fun x => ?_, ?_⟩
  · rw [hfn, applyOp_sym e he _ hc]
    have h2 : FourierStab.diag (symbol (Mapping.diff e) aggDeriv) a = ((Real.cos (2 * Real.pi * m / Mapping.diff e) - 1 : ℝ) : ℂ) • a := by
      ext k
      rw [FourierStab.diag_apply, Finsupp.smul_apply, smul_eq_mul, ha, Finsupp.add_apply, Finsupp.single_apply, Finsupp.single_apply]
      have hm0 : ((m : ℕ) : ℤ) ≠ 0 := by exact_mod_cast hm.ne'
      by_cases h1 : (m : ℤ) = k
      · rw [← h1, hsym _ hm0]
        push_cast
        ring
      · by_cases h2 : -(m : ℤ) = k
        · rw [← h2, hsym _ (neg_ne_zero.mpr hm0)]
          congr 2
          rw [show (2 * Real.pi * ((-(m : ℤ) : ℤ) : ℝ) / Mapping.diff e) = -(2 * Real.pi * m / Mapping.diff e) by push_cast; ring, Real.cos_neg]
        · simp [h1, h2]
    rw [h2, fn_smul, hval]
    push_cast
    ring
  · unfold assemble aggDeriv
    simp only [List.mapIdx_nil, List.sum_nil, zero_add, List.mapIdx_cons, List.sum_cons, add_zero, Bool.false_eq_true, if_false, if_true]
    rw [mult_const _ rfl, diff_even (by omega)]
    have hagg : (discAgg (2 * m) 0 (Mapping.diff e)).getD 0 = diagonal fun k : Fin (2 * m) => genM0 (waveArr (2 * m) k) (1 / (0.5 * Mapping.diff e) * Real.pi) := by
      simp [discAgg, aggmat]
    rw [hagg, smul_mul, one_mul, smul_mul, diagonal_mul_diagonal, smul_mulVec]
    funext i
    rw [Pi.smul_apply, mulVec_diagonal, hu]
    by_cases hi : i = ⟨0, by omega⟩
    · rw [hi, if_pos ⟨by norm_num, rfl⟩]
      simp
    · rw [Pi.single_eq_of_ne hi]
      simp

end Funpy.Props
