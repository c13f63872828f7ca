import Verif.Lemmas.Newton
import Mathlib.Tactic.Positivity
import Mathlib.Algebra.Order.Archimedean.Basic

namespace Funpy.Newton
open Funpy.Spec Classical

variable {X R : Type} [AddCommGroup X] [Module ℝ X] [AddCommGroup R]

theorem minQuot_le (a b y : ℝ) : minQuot a b y ≤ y := by
  unfold minQuot; split
  · exact min_le_right _ _
  · exact le_rfl

theorem minInv_le (a y : ℝ) : minInv a y ≤ y := by
  unfold minInv; split
  · exact le_rfl
  · exact min_le_right _ _

/-! ### Termination and fuel independence of the damping loop of `nleq_err` -/

section nleq
variable (P : Problem X R) (inner : X → X → ℝ) (cb : ℕ → X → ℝ → ℝ → Bool) (c : NleqCfg)

theorem damp_mono (x dx : X) (fuel : ℕ) (lam : ℝ) (red qn : Bool) (o : Damp X R)
    (h : damp P inner c x dx fuel lam red qn = .ok o) : damp P inner c x dx (fuel + 1) lam red qn = .ok o := by
  induction fuel generalizing lam red qn with
  | zero => simp [damp] at h
  | succ fuel ih =>
    rw [damp] at h ⊢
    split at h
    · rename_i h1; rw [if_pos h1]; exact h
    rename_i h1; rw [if_neg h1]
    simp only [] at h ⊢
    split at h
    · rename_i h2; rw [if_pos h2]; exact h
    rename_i h2; rw [if_neg h2]
    split at h
    · rename_i h3; rw [if_pos h3]; rw [if_neg h1]; exact ih _ _ _ h
    rename_i h3; rw [if_neg h3]
    split at h
    · rename_i h4; rw [if_pos h4]; exact h
    rename_i h4; rw [if_neg h4]
    split at h
    · rename_i h5; rw [if_pos h5]; exact ih _ _ _ h
    rename_i h5; rw [if_neg h5]; exact h

theorem damp_mono_le (x dx : X) {f g : ℕ} (hfg : f ≤ g) (lam : ℝ) (red qn : Bool) (o : Damp X R)
    (h : damp P inner c x dx f lam red qn = .ok o) : damp P inner c x dx g lam red qn = .ok o := by
  induction g, hfg using Nat.le_induction with
  | base => exact h
  | succ g _ ih => exact damp_mono P inner c x dx g lam red qn o ih

theorem damp_term_red (x dx : X) (hmin : 0 < c.lamMin) (B : ℕ) (lam : ℝ) (qn : Bool) (hB : lam ≤ c.lamMin * 2 ^ B) :
    ∃ o, damp P inner c x dx (B + 1) lam true qn = .ok o := by
  induction B generalizing lam with
  | zero => refine ⟨.limitation, ?_⟩; rw [damp, if_pos (by simpa using hB)]
  | succ B ih =>
    rw [damp]
    split
    · exact ⟨_, rfl⟩
    simp only []
    split
    · exact ⟨_, rfl⟩
    split
    · apply ih
      apply max_le
      · refine (minQuot_le _ _ _).trans ?_
        rw [pow_succ] at hB; linarith
      · have : (1 : ℝ) ≤ 2 ^ B := one_le_pow₀ (by norm_num)
        nlinarith
    split
    · split <;> exact ⟨_, rfl⟩
    split
    · rename_i h; simp at h
    · exact ⟨_, rfl⟩

theorem damp_term (x dx : X) (hmin : 0 < c.lamMin) (A B : ℕ) (lam : ℝ) (qn : Bool) (hA : c.lamMin < lam → 1 ≤ lam * 4 ^ A)
    (hB : lam ≤ c.lamMin * 2 ^ B) (hB1 : 1 ≤ c.lamMin * 2 ^ B) :
    ∃ o, damp P inner c x dx (A + (B + 2)) lam false qn = .ok o := by
  induction A generalizing lam with
  | zero =>
    rw [Nat.zero_add, damp]
    split
    · exact ⟨_, rfl⟩
    rename_i h1
    simp only []
    split
    · exact ⟨_, rfl⟩
    split
    · apply damp_term_red P inner c x dx hmin
      apply max_le
      · refine (minQuot_le _ _ _).trans ?_
        linarith [hmin.le.trans (not_le.mp h1).le]
      · have : (1 : ℝ) ≤ 2 ^ B := one_le_pow₀ (by norm_num)
        nlinarith
    split
    · split <;> exact ⟨_, rfl⟩
    split
    · rename_i h
      have h2 := h.1.trans (minQuot_le _ _ _)
      have h3 := hA (not_le.mp h1)
      simp at h3
      linarith
    · exact ⟨_, rfl⟩
  | succ A ih =>
    rw [show A + 1 + (B + 2) = A + (B + 2) + 1 by omega, damp]
    split
    · exact ⟨_, rfl⟩
    rename_i h1
    simp only []
    split
    · exact ⟨_, rfl⟩
    split
    · have : ∃ o, damp P inner c x dx (B + 1) (max (minQuot (1 / 2 * nrm inner dx * lam * lam)
          (nrm inner ((P.solve x (-P.F (x + lam • dx))).1 - (1 - lam) • dx)) (1 / 2 * lam)) c.lamMin) true qn = .ok o := by
        apply damp_term_red P inner c x dx hmin
        apply max_le
        · refine (minQuot_le _ _ _).trans ?_
          linarith [hmin.le.trans (not_le.mp h1).le]
        · have : (1 : ℝ) ≤ 2 ^ B := one_le_pow₀ (by norm_num)
          nlinarith
      obtain ⟨o, ho⟩ := this
      exact ⟨o, damp_mono_le P inner c x dx (by omega) _ _ _ _ ho⟩
    split
    · split <;> exact ⟨_, rfl⟩
    split
    · rename_i h
      apply ih
      · intro _
        have h3 := hA (not_le.mp h1)
        have h4 : lam * 4 ^ (A + 1) = (4 * lam) * 4 ^ A := by ring
        rw [h4] at h3
        exact h3.trans (mul_le_mul_of_nonneg_right h.1 (by positivity))
      · exact (minQuot_le _ _ _).trans hB1
    · exact ⟨_, rfl⟩

theorem nleqLoop_mono (fuel : ℕ) (k neval : ℕ) (x : X) (prev : Option (X × X)) (fx : R) (lam : ℝ)
    (qn : Bool) (normdx : ℝ) (sys : Option X) (r : Result X)
    (h : nleqLoop P inner cb c fuel k neval x prev fx lam qn normdx sys = .ok r) :
    nleqLoop P inner cb c (fuel + 1) k neval x prev fx lam qn normdx sys = .ok r := by
  induction' hm : c.miter - k using Nat.strong_induction_on with m ih generalizing k neval x prev fx lam qn normdx sys
  rw [nleqLoop] at h ⊢
  split at h
  · rename_i h1; rw [dif_pos h1]; exact h
  rename_i h1; rw [dif_neg h1]
  simp only [] at h ⊢
  split at h
  · rename_i h2; rw [if_pos h2]; exact h
  rename_i h2; rw [if_neg h2]
  split at h
  · rename_i h3; rw [if_pos h3]; exact h
  rename_i h3; rw [if_neg h3]
  cases hdamp : damp P inner c x (P.solve x (-curRes P.F prev x fx)).1 fuel
    (lamStart inner prev (P.solve x (-curRes P.F prev x fx)).1 lam) false qn with
  | error e => simp only [hdamp] at h; cases h
  | ok o =>
    have hd2 := damp_mono P inner c _ _ _ _ _ _ _ hdamp
    simp only [hdamp] at h
    simp only [hd2]
    cases o with
    | limitation => exact h
    | linFail => exact h
    | converged xk f dxb th l => exact h
    | accept xk f dxb th l q =>
      simp only [] at h ⊢
      split at h
      · rename_i h4; rw [if_pos h4]; exact h
      rename_i h4; rw [if_neg h4]
      split at h
      · rename_i h5; rw [if_pos h5]
        exact ih _ (by omega) _ _ _ _ _ _ _ _ _ h rfl
      rename_i h5; rw [if_neg h5]
      exact ih _ (by omega) _ _ _ _ _ _ _ _ _ h rfl

theorem nleqLoop_term (hmin : 0 < c.lamMin) (A B : ℕ) (hA : 1 ≤ c.lamMin * 4 ^ A) (hB : 1 ≤ c.lamMin * 2 ^ B)
    (k neval : ℕ) (x : X) (prev : Option (X × X)) (fx : R) (lam : ℝ)
    (qn : Bool) (normdx : ℝ) (sys : Option X) (hlam : prev = none → lam ≤ c.lamMin * 2 ^ B) :
    ∃ r, nleqLoop P inner cb c (A + (B + 2)) k neval x prev fx lam qn normdx sys = .ok r := by
  induction' hm : c.miter - k using Nat.strong_induction_on with m ih generalizing k neval x prev fx lam qn normdx sys
  rw [nleqLoop]
  split
  · exact ⟨_, rfl⟩
  simp only []
  split
  · exact ⟨_, rfl⟩
  split
  · exact ⟨_, rfl⟩
  have hl : lamStart inner prev (P.solve x (-curRes P.F prev x fx)).1 lam ≤ c.lamMin * 2 ^ B := by
    cases prev with
    | none => exact hlam rfl
    | some v => exact (minQuot_le _ _ _).trans hB
  obtain ⟨o, hdamp⟩ := damp_term P inner c x (P.solve x (-curRes P.F prev x fx)).1 hmin A B
    (lamStart inner prev (P.solve x (-curRes P.F prev x fx)).1 lam) qn (fun hlt => by
      have : (0:ℝ) < 4 ^ A := by positivity
      nlinarith) hl hB
  simp only [hdamp]
  cases o with
  | limitation => exact ⟨_, rfl⟩
  | linFail => exact ⟨_, rfl⟩
  | converged xk f dxb th l => simp only []; split <;> exact ⟨_, rfl⟩
  | accept xk f dxb th l q =>
    simp only []
    split
    · exact ⟨_, rfl⟩
    split
    · exact ih _ (by omega) _ _ _ _ _ _ _ _ _ (by simp) rfl
    · exact ih _ (by omega) _ _ _ _ _ _ _ _ _ (by simp) rfl

theorem nleqErr_terminates (hmin : 0 < c.lamMin) (lam : ℝ) (x : X) :
    ∃ r N, ∀ fuel, N ≤ fuel → nleqErr P inner cb c fuel lam x = .ok r := by
  obtain ⟨A, hA⟩ := pow_unbounded_of_one_lt (1 / c.lamMin) (by norm_num : (1:ℝ) < 4)
  obtain ⟨B, hB⟩ := pow_unbounded_of_one_lt (max lam 1 / c.lamMin) (by norm_num : (1:ℝ) < 2)
  rw [div_lt_iff₀ hmin] at hA hB
  obtain ⟨r, hr⟩ := nleqLoop_term P inner cb c hmin A B (by linarith) (by linarith [le_max_right lam 1]) 0 0 x none 0 lam
    false 0 none (fun _ => by linarith [le_max_left lam 1])
  refine ⟨r, A + (B + 2), fun fuel hf => ?_⟩
  induction fuel, hf using Nat.le_induction with
  | base => exact hr
  | succ g _ ih => exact nleqLoop_mono P inner cb c _ _ _ _ _ _ _ _ _ _ _ ih

end nleq

/-! ### giant_gbit -/

section giant
variable (P : InexactProblem X R) (inner : X → X → ℝ) (c : GiantCfg)

theorem gdamp_spec (x dx : X) (fuel : ℕ) (lam : ℝ) (red : Bool) (o : GDamp X R)
    (h : gdamp P inner c x dx fuel lam red = .ok o) :
    (∀ dxb, o = .converged dxb → nrm inner dxb ≤ c.xtol ∧ ∃ y t, P.lin x (-P.F (x + dx)) y t true = (dxb, true)) ∧
    (∀ xk fx dxb l hk, o = .accept xk fx dxb l hk →
      c.lamMin ≤ l ∧ xk = x + l • dx ∧ fx = P.F xk ∧ (0 ≤ l → nrm inner dxb / nrm inner dx ≤ 1)) := by
  induction fuel generalizing lam red with
  | zero => simp [gdamp] at h
  | succ fuel ih =>
    rw [gdamp] at h
    split at h
    · cases h; simp
    rename_i hlam
    simp only [] at h
    split at h
    · cases h; simp
    rename_i hsol
    split at h
    · exact ih _ _ h
    rename_i hth
    have hth1 : 0 ≤ lam → nrm inner (P.lin x (-P.F (x + lam • dx)) ((1 - lam) • dx)
        ((1 / 2 * c.rho) / (1 + 1 / 2 * c.rho)) true).1 / nrm inner dx ≤ 1 := by
      intro hl
      by_contra hcon
      rw [not_le] at hcon
      apply hth
      cases hres : c.restricted with
      | false => exact Or.inl ⟨rfl, hcon.le⟩
      | true => exact Or.inr ⟨rfl, by linarith⟩
    split at h
    · rename_i hl
      split at h
      · rename_i hnb
        cases h
        refine ⟨?_, by simp⟩
        intro dxb ho
        cases ho
        refine ⟨hnb, (1 - lam) • dx, (1 / 2 * c.rho) / (1 + 1 / 2 * c.rho), ?_⟩
        rw [hl.1] at hsol ⊢
        rw [one_smul] at hsol ⊢
        ext
        · rfl
        · simpa using hsol
      · cases h
        refine ⟨by simp, ?_⟩
        intro xk fx dxb l hk ho
        cases ho
        exact ⟨not_lt.mp hlam, rfl, rfl, hth1⟩
    · split at h
      · exact ih _ _ h
      · cases h
        refine ⟨by simp, ?_⟩
        intro xk fx dxb l hk ho
        cases ho
        exact ⟨not_lt.mp hlam, rfl, rfl, hth1⟩

theorem giantLoop_spec (fuel : ℕ) (k njac : ℕ) (x : X) (prev : Option (X × X)) (dxbar : X) (fx : R) (lam hk : ℝ)
    (r : Result X) (hkm : k ≤ c.maxIter + 1) (hfx : prev.isSome → fx = P.F x)
    (h : giantLoop P inner c fuel k njac x prev dxbar fx lam hk = .ok r) :
    k ≤ r.k ∧ r.k ≤ c.maxIter + 1 ∧ (njac + (r.k - k) ≤ r.neval ∧ r.neval ≤ njac + (c.maxIter + 1 - k)) ∧
      (r.success = true → k < r.k ∧
        ((∃ y t u, P.lin y (-P.F y) u t false = (r.x - y, true) ∧ nrm inner (r.x - y) ≤ c.xtol) ∨
         (∃ y d t u, P.lin y (-P.F (y + d)) u t true = (r.x - y, true) ∧ nrm inner (r.x - y) ≤ c.xtol ∧
           c.xtol < nrm inner d ∧ ∃ t' u', P.lin y (-P.F y) u' t' false = (d, true)))) := by
  induction' hm : c.maxIter + 1 - k using Nat.strong_induction_on with m ih generalizing k njac x prev dxbar fx lam hk
  rw [giantLoop] at h
  split at h
  · cases h; exact ⟨le_rfl, hkm, by simp, by simp⟩
  rename_i hlt
  simp only [] at h
  have hfx' : curRes P.F prev x fx = P.F x := by
    cases prev with
    | none => rfl
    | some v => exact hfx rfl
  rw [hfx'] at h
  generalize (if c.quadratic = true then 1 / 4 else c.rho / (2 * (1 + c.rho))) = t1 at h
  generalize (if c.quadratic = true then c.rho / 2 * hk / (1 + hk) else c.deltaBar) = t2 at h
  split at h
  · cases h; exact ⟨le_rfl, hkm, by simp; omega, by simp⟩
  rename_i hsol
  have hr2 : ∃ t u, (if glamStart inner c.rho prev lam hk (P.lin x (-P.F x) dxbar t1 false).1 = 1 ∧
        prev.isSome = true then P.lin x (-P.F x) (P.lin x (-P.F x) dxbar t1 false).1 t2 false
      else P.lin x (-P.F x) dxbar t1 false) = P.lin x (-P.F x) u t false := by
    split
    · exact ⟨_, _, rfl⟩
    · exact ⟨_, _, rfl⟩
  obtain ⟨t, u, htu⟩ := hr2
  rw [htu] at h
  split at h
  · cases h; exact ⟨le_rfl, hkm, by simp; omega, by simp⟩
  rename_i hsol2
  have hpair : P.lin x (-P.F x) u t false = ((P.lin x (-P.F x) u t false).1, true) := by
    ext
    · rfl
    · simpa using hsol2
  generalize (P.lin x (-P.F x) u t false).1 = dx at h hpair
  split at h
  · rename_i hnd
    cases h
    refine ⟨by simp, by simp; omega, by simp; omega, fun _ => ⟨by simp, Or.inl ⟨x, t, u, ?_, ?_⟩⟩⟩
    · simpa using hpair
    · simpa using hnd
  rename_i hnd
  cases hdamp : gdamp P inner c x dx fuel (glamStart inner c.rho prev lam hk dx) false with
  | error e => simp only [hdamp] at h; cases h
  | ok o =>
    simp only [hdamp] at h
    obtain ⟨s1, s2⟩ := gdamp_spec P inner c _ _ _ _ _ _ hdamp
    cases o with
    | fail => cases h; exact ⟨le_rfl, hkm, by simp; omega, by simp⟩
    | converged dxb =>
      obtain ⟨h1, y, t', h2⟩ := s1 _ rfl
      cases h
      refine ⟨by simp, by simp; omega, by simp; omega, fun _ => ⟨by simp, Or.inr ⟨x, dx, t', y, ?_, ?_, not_le.mp hnd, t, u, hpair⟩⟩⟩
      · simpa using h2
      · simpa using h1
    | accept xk f dxb l hk' =>
      obtain ⟨_, hxk, hf, _⟩ := s2 _ _ _ _ _ rfl
      obtain ⟨a, b, d, e⟩ := ih _ (by omega) _ _ _ _ _ _ _ _ (by omega) (fun _ => hf) h rfl
      refine ⟨by omega, b, by omega, fun hs => ?_⟩
      obtain ⟨e1, e2⟩ := e hs
      exact ⟨by omega, e2⟩

theorem gdamp_mono (x dx : X) (fuel : ℕ) (lam : ℝ) (red : Bool) (o : GDamp X R)
    (h : gdamp P inner c x dx fuel lam red = .ok o) : gdamp P inner c x dx (fuel + 1) lam red = .ok o := by
  induction fuel generalizing lam red with
  | zero => simp [gdamp] at h
  | succ fuel ih =>
    rw [gdamp] at h ⊢
    split at h
    · rename_i h1; rw [if_pos h1]; exact h
    rename_i h1; rw [if_neg h1]
    simp only [] at h ⊢
    by_cases h2 : (P.lin x (-P.F (x + lam • dx)) ((1 - lam) • dx) (1 / 2 * c.rho / (1 + 1 / 2 * c.rho)) true).2 = false
    · rw [if_pos h2] at h ⊢; exact h
    rw [if_neg h2] at h ⊢
    split at h
    · rename_i h3; rw [if_pos h3]; exact ih _ _ h
    rename_i h3; rw [if_neg h3]
    split at h
    · rename_i h4; rw [if_pos h4]; exact h
    rename_i h4; rw [if_neg h4]
    split at h
    · rename_i h5; rw [if_pos h5]; exact ih _ _ h
    rename_i h5; rw [if_neg h5]; exact h

theorem gdamp_mono_le (x dx : X) {f g : ℕ} (hfg : f ≤ g) (lam : ℝ) (red : Bool) (o : GDamp X R)
    (h : gdamp P inner c x dx f lam red = .ok o) : gdamp P inner c x dx g lam red = .ok o := by
  induction g, hfg using Nat.le_induction with
  | base => exact h
  | succ g _ ih => exact gdamp_mono P inner c x dx g lam red o ih

theorem gdamp_term_red (x dx : X) (hmin : 0 < c.lamMin) (B : ℕ) (lam : ℝ) (hB : lam ≤ c.lamMin * 2 ^ B) :
    ∃ o, gdamp P inner c x dx (B + 2) lam true = .ok o := by
  induction B generalizing lam with
  | zero =>
    rw [gdamp]
    split
    · exact ⟨_, rfl⟩
    rename_i h0
    simp only []
    split
    · exact ⟨_, rfl⟩
    split
    · have hle : lam ≤ c.lamMin := by simpa using hB
      rw [if_pos hle, gdamp, if_pos]
      · exact ⟨_, rfl⟩
      · refine (minInv_le _ _).trans_lt ?_
        linarith
    split
    · split <;> exact ⟨_, rfl⟩
    split
    · rename_i h; simp at h
    · exact ⟨_, rfl⟩
  | succ B ih =>
    rw [gdamp]
    split
    · exact ⟨_, rfl⟩
    simp only []
    split
    · exact ⟨_, rfl⟩
    have h1 : (1 : ℝ) ≤ 2 ^ B := one_le_pow₀ (by norm_num)
    have h2 : lam * (1 / 2) ≤ c.lamMin * 2 ^ B := by rw [pow_succ] at hB; linarith
    split
    · apply ih
      split
      · exact (minInv_le _ _).trans (by linarith)
      · exact max_le ((minInv_le _ _).trans (by linarith)) (by nlinarith)
    split
    · split <;> exact ⟨_, rfl⟩
    split
    · rename_i h; simp at h
    · exact ⟨_, rfl⟩

theorem gdamp_term (x dx : X) (hmin : 0 < c.lamMin) (A B : ℕ) (lam : ℝ) (hA : c.lamMin ≤ lam → 1 ≤ lam * 4 ^ A)
    (hB : lam ≤ c.lamMin * 2 ^ B) (hB1 : 1 ≤ c.lamMin * 2 ^ B) :
    ∃ o, gdamp P inner c x dx (A + (B + 3)) lam false = .ok o := by
  have h1 : (1 : ℝ) ≤ 2 ^ B := one_le_pow₀ (by norm_num)
  induction A generalizing lam with
  | zero =>
    rw [Nat.zero_add, gdamp]
    split
    · exact ⟨_, rfl⟩
    rename_i h0
    simp only []
    split
    · exact ⟨_, rfl⟩
    split
    · apply gdamp_term_red P inner c x dx hmin
      split
      · exact (minInv_le _ _).trans (by linarith [not_lt.mp h0])
      · exact max_le ((minInv_le _ _).trans (by linarith [not_lt.mp h0])) (by nlinarith)
    split
    · split <;> exact ⟨_, rfl⟩
    split
    · rename_i h
      have h2 := h.1.trans (minInv_le _ _)
      have h3 := hA (not_lt.mp h0)
      simp at h3
      linarith
    · exact ⟨_, rfl⟩
  | succ A ih =>
    rw [show A + 1 + (B + 3) = A + (B + 3) + 1 by omega, gdamp]
    split
    · exact ⟨_, rfl⟩
    rename_i h0
    simp only []
    split
    · exact ⟨_, rfl⟩
    split
    · have : ∀ l, l ≤ c.lamMin * 2 ^ B → ∃ o, gdamp P inner c x dx (A + (B + 3)) l true = .ok o := by
        intro l hl
        obtain ⟨o, ho⟩ := gdamp_term_red P inner c x dx hmin B l hl
        exact ⟨o, gdamp_mono_le P inner c x dx (by omega) _ _ _ ho⟩
      apply this
      split
      · exact (minInv_le _ _).trans (by linarith [not_lt.mp h0])
      · exact max_le ((minInv_le _ _).trans (by linarith [not_lt.mp h0])) (by nlinarith)
    split
    · split <;> exact ⟨_, rfl⟩
    split
    · rename_i h
      apply ih
      · intro _
        have h3 := hA (not_lt.mp h0)
        have h4 : lam * 4 ^ (A + 1) = (4 * lam) * 4 ^ A := by ring
        rw [h4] at h3
        exact h3.trans (mul_le_mul_of_nonneg_right h.1 (by positivity))
      · exact (minInv_le _ _).trans hB1
    · exact ⟨_, rfl⟩

theorem giantLoop_mono (fuel : ℕ) (k njac : ℕ) (x : X) (prev : Option (X × X)) (dxbar : X) (fx : R) (lam hk : ℝ)
    (r : Result X) (h : giantLoop P inner c fuel k njac x prev dxbar fx lam hk = .ok r) :
    giantLoop P inner c (fuel + 1) k njac x prev dxbar fx lam hk = .ok r := by
  induction' hm : c.maxIter + 1 - k using Nat.strong_induction_on with m ih generalizing k njac x prev dxbar fx lam hk
  rw [giantLoop] at h ⊢
  split at h
  · rename_i h1; rw [dif_pos h1]; exact h
  rename_i h1; rw [dif_neg h1]
  simp only [] at h ⊢
  generalize P.lin x (-curRes P.F prev x fx) dxbar (if c.quadratic = true then 1 / 4 else c.rho / (2 * (1 + c.rho)))
    false = r1 at h ⊢
  split at h
  · rename_i h2; rw [if_pos h2]; exact h
  rename_i h2; rw [if_neg h2]
  generalize (if glamStart inner c.rho prev lam hk r1.1 = 1 ∧ prev.isSome = true then
      P.lin x (-curRes P.F prev x fx) r1.1
        (if c.quadratic = true then c.rho / 2 * hk / (1 + hk) else c.deltaBar) false
      else r1) = r2 at h ⊢
  split at h
  · rename_i h3; rw [if_pos h3]; exact h
  rename_i h3; rw [if_neg h3]
  split at h
  · rename_i h4; rw [if_pos h4]; exact h
  rename_i h4; rw [if_neg h4]
  cases hdamp : gdamp P inner c x r2.1 fuel (glamStart inner c.rho prev lam hk r2.1) false with
  | error e => simp only [hdamp] at h; cases h
  | ok o =>
    have hd2 := gdamp_mono P inner c _ _ _ _ _ _ hdamp
    simp only [hdamp] at h
    simp only [hd2]
    cases o with
    | fail => exact h
    | converged dxb => exact h
    | accept xk f dxb l hk' => exact ih _ (by omega) _ _ _ _ _ _ _ _ h rfl

theorem giantLoop_term (hmin : 0 < c.lamMin) (A B : ℕ) (hA : 1 ≤ c.lamMin * 4 ^ A) (hB : 1 ≤ c.lamMin * 2 ^ B)
    (k njac : ℕ) (x : X) (prev : Option (X × X)) (dxbar : X) (fx : R) (lam hk : ℝ)
    (hlam : prev = none → lam ≤ c.lamMin * 2 ^ B) :
    ∃ r, giantLoop P inner c (A + (B + 3)) k njac x prev dxbar fx lam hk = .ok r := by
  induction' hm : c.maxIter + 1 - k using Nat.strong_induction_on with m ih generalizing k njac x prev dxbar fx lam hk
  rw [giantLoop]
  split
  · exact ⟨_, rfl⟩
  simp only []
  generalize P.lin x (-curRes P.F prev x fx) dxbar (if c.quadratic = true then 1 / 4 else c.rho / (2 * (1 + c.rho)))
    false = r1
  split
  · exact ⟨_, rfl⟩
  generalize (if glamStart inner c.rho prev lam hk r1.1 = 1 ∧ prev.isSome = true then
      P.lin x (-curRes P.F prev x fx) r1.1
        (if c.quadratic = true then c.rho / 2 * hk / (1 + hk) else c.deltaBar) false
      else r1) = r2
  split
  · exact ⟨_, rfl⟩
  split
  · exact ⟨_, rfl⟩
  have hl : glamStart inner c.rho prev lam hk r2.1 ≤ c.lamMin * 2 ^ B := by
    cases prev with
    | none => exact hlam rfl
    | some v => exact (minInv_le _ _).trans hB
  obtain ⟨o, hdamp⟩ := gdamp_term P inner c x r2.1 hmin A B (glamStart inner c.rho prev lam hk r2.1) (fun hlt => by
      have : (0:ℝ) < 4 ^ A := by positivity
      nlinarith) hl hB
  simp only [hdamp]
  cases o with
  | fail => exact ⟨_, rfl⟩
  | converged dxb => exact ⟨_, rfl⟩
  | accept xk f dxb l hk' => exact ih _ (by omega) _ _ _ _ _ _ _ _ (by simp) rfl

theorem giant_terminates (hmin : 0 < c.lamMin) (lam : ℝ) (x : X) :
    ∃ r N, ∀ fuel, N ≤ fuel → giantGbit P inner c fuel lam x = .ok r := by
  obtain ⟨A, hA⟩ := pow_unbounded_of_one_lt (1 / c.lamMin) (by norm_num : (1:ℝ) < 4)
  obtain ⟨B, hB⟩ := pow_unbounded_of_one_lt (max lam 1 / c.lamMin) (by norm_num : (1:ℝ) < 2)
  rw [div_lt_iff₀ hmin] at hA hB
  obtain ⟨r, hr⟩ := giantLoop_term P inner c hmin A B (by linarith) (by linarith [le_max_right lam 1]) 0 0 x none 0 0 lam
    0 (fun _ => by linarith [le_max_left lam 1])
  refine ⟨r, A + (B + 3), fun fuel hf => ?_⟩
  induction fuel, hf using Nat.le_induction with
  | base => exact hr
  | succ g _ ih => exact giantLoop_mono P inner c _ _ _ _ _ _ _ _ _ _ ih

end giant

end Funpy.Newton
