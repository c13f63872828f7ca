import Verif.Spec.Newton
import Mathlib.Tactic.Cases
import Mathlib.Data.List.GetD
import Mathlib.Tactic.Linarith

namespace Funpy.Newton
open Funpy.Spec Classical

variable {X R : Type} [AddCommGroup X] [Module ℝ X] [AddCommGroup R]
variable (P : Problem X R) (inner : X → X → ℝ) (cb : ℕ → X → ℝ → ℝ → Bool)

theorem standardLoop_spec (tol : ℝ) (debug : Bool) (miter : ℕ) (x0 : X) (k : ℕ) (normdx : ℝ) (sys : Option X)
    (r : Result X) (hk : k ≤ miter)
    (hpre : ∀ j < k, ¬ nrm inner (newtonCorr P x0 j) ≤ tol)
    (h : standardLoop P inner cb tol debug miter k k (newtonIter P x0 k) normdx sys = .ok r) :
    k ≤ r.k ∧ r.k ≤ miter ∧ r.neval = r.k ∧ r.x = newtonIter P x0 r.k ∧
      (∀ j, j + 1 < r.k → ¬ nrm inner (newtonCorr P x0 j) ≤ tol) ∧
      (r.success = true ↔ 0 < r.k ∧ nrm inner (newtonCorr P x0 (r.k - 1)) ≤ tol) ∧
      (k < r.k → r.normdx = nrm inner (newtonCorr P x0 (r.k - 1)) ∧ r.sys = some (newtonIter P x0 (r.k - 1))) ∧
      (r.success = false → r.k < miter → ∃ nd, cb r.k (newtonCorr P x0 (r.k - 1)) nd 0 = false ∧ 0 < r.k) := by
  induction' hm : miter - k using Nat.strong_induction_on with m ih generalizing k normdx sys
  rw [standardLoop] at h
  split at h
  · rename_i hmk
    have : k = miter := le_antisymm hk hmk
    subst this
    split at h
    · cases h
    · cases h
      refine ⟨le_rfl, le_rfl, rfl, rfl, fun j hj => hpre j (by simp at hj; omega), ?_, by simp, by simp⟩
      constructor
      · simp
      · rintro ⟨h0, h1⟩
        exact absurd h1 (hpre _ (by simp at h0 ⊢; omega))
  · rename_i hmk
    simp only [] at h
    split at h
    · cases h
    split at h
    · rename_i hle
      cases h
      refine ⟨by simp, by simp; omega, rfl, rfl, fun j hj => hpre j (by simp at hj; omega), ?_, ?_, by simp⟩
      · simpa [newtonCorr] using hle
      · intro _; exact ⟨rfl, rfl⟩
    rename_i hgt
    split at h
    · rename_i hcb
      cases h
      refine ⟨by simp, by simp; omega, rfl, rfl, fun j hj => hpre j (by simp at hj; omega), ?_, ?_, ?_⟩
      · simp only [Nat.add_sub_cancel]
        constructor
        · simp
        · rintro ⟨_, h1⟩; exact absurd h1 hgt
      · intro _; exact ⟨rfl, rfl⟩
      · intro _ _; exact ⟨_, hcb, by simp⟩
    · have hpre' : ∀ j < k + 1, ¬ nrm inner (newtonCorr P x0 j) ≤ tol := by
        intro j hj
        rcases Nat.lt_succ_iff_lt_or_eq.mp hj with h1 | h1
        · exact hpre j h1
        · subst h1; exact hgt
      have := ih (miter - (k + 1)) (by omega) (k + 1) _ _ (by omega) hpre' h rfl
      obtain ⟨a1, a2, a3, a4, a5, a6, a7, a8⟩ := this
      refine ⟨by omega, a2, a3, a4, a5, a6, ?_, a8⟩
      intro _
      rcases Nat.lt_or_ge (k + 1) r.k with h1 | h1
      · exact a7 h1
      · -- returned immediately at the limit
        have hrk : r.k = k + 1 := by omega
        rw [standardLoop] at h
        split at h
        · split at h
          · cases h
          · cases h; exact ⟨rfl, rfl⟩
        · simp only [] at h
          exfalso
          rename_i hlt
          have key : k + 1 < r.k := by
            split at h
            · cases h
            split at h
            · cases h; simp
            split at h
            · cases h; simp
            have hmon : ∀ (k' ne : ℕ) (x : X) nd sys, standardLoop P inner cb tol debug miter k' ne x nd sys = .ok r →
                k' ≤ r.k := by
              intro k'
              induction' hm' : miter - k' using Nat.strong_induction_on with m' ih' generalizing k'
              intro ne x nd sys h'
              rw [standardLoop] at h'
              split at h'
              · split at h'
                · cases h'
                · cases h'; simp
              · simp only [] at h'
                split at h'
                · cases h'
                split at h'
                · cases h'; simp
                split at h'
                · cases h'; simp
                have := ih' (miter - (k' + 1)) (by omega) (k' + 1) rfl _ _ _ _ h'
                omega
            have := hmon _ _ _ _ _ h
            omega
          omega

theorem standardLoop_ok (tol : ℝ) (miter : ℕ) (x0 : X) (k : ℕ) (ne : ℕ) (normdx : ℝ) (sys : Option X)
    (hs : ∀ x b, (P.solve x b).2 = true) :
    ∃ r, standardLoop P inner cb tol false miter k ne x0 normdx sys = .ok r := by
  induction' hm : miter - k using Nat.strong_induction_on with m ih generalizing k normdx sys ne x0
  rw [standardLoop]
  split
  · exact ⟨_, rfl⟩
  · simp only [hs]
    simp only [Bool.true_eq_false, if_false]
    split
    · exact ⟨_, rfl⟩
    split
    · exact ⟨_, rfl⟩
    exact ih (miter - (k + 1)) (by omega) _ _ _ _ _ rfl

/-! ### qnerr -/

theorem qnerrLoop_k (tol thetaMax : ℝ) (itr miter : ℕ) (x0 : X) (neval : ℕ) (k : ℕ) (skip : Bool) (x : X)
    (dxs : List X) (sigmas : List ℝ) (normdx : ℝ) (hk : k ≤ miter + 1) (r : Result X)
    (hr : qnerrLoop P inner cb tol thetaMax itr miter x0 neval k skip x dxs sigmas normdx = r) :
    k ≤ r.k ∧ r.k ≤ miter + 1 ∧ r.neval = neval ∧ r.sys = some x0 := by
  induction' hm : miter + 1 - k using Nat.strong_induction_on with m ih generalizing k skip x dxs sigmas normdx
  rw [qnerrLoop] at hr
  split at hr
  · subst hr; exact ⟨le_rfl, hk, rfl, rfl⟩
  · simp only [] at hr
    generalize (if skip = true then x else x + dxs.getD k 0) = x' at hr
    split at hr
    · subst hr; exact ⟨by simp, by simp; omega, rfl, rfl⟩
    split at hr
    · subst hr; exact ⟨by simp, by simp; omega, rfl, rfl⟩
    split at hr
    · subst hr; exact ⟨by simp, by simp; omega, rfl, rfl⟩
    obtain ⟨a, b, c, d⟩ := ih (miter + 1 - (k + 1)) (by omega) (k + 1) false _ _ _ _ (by omega) hr rfl
    exact ⟨by omega, b, c, d⟩

/-- Invariant of `qnerr`: the stored squared norms from index `lo` on are those of the stored steps. -/
theorem qnerrLoop_success (tol thetaMax : ℝ) (itr miter : ℕ) (x0 : X) (neval : ℕ) (k : ℕ) (skip : Bool) (x : X)
    (dxs : List X) (sigmas : List ℝ) (normdx : ℝ) (r : Result X)
    (hr : qnerrLoop P inner cb tol thetaMax itr miter x0 neval k skip x dxs sigmas normdx = r)
    (hd : dxs.length = k + 1) (hs : sigmas.length = k + 1) (hsucc : r.success = true) :
    ∃ y d σ, r.x = y + d ∧ σ ≤ tol * tol ∧ 1 ≤ r.k ∧
      ((r.k = 1 ∧ skip = false ∧ d = dxs.getD 0 0 ∧ σ = sigmas.getD 0 0 ∧ y = x ∧ k = 0) ∨
        σ = inner d d ∨ (k ≠ 0 ∧ σ = sigmas.getD k 0 ∧ d = dxs.getD k 0)) := by
  induction' hm : miter + 1 - k using Nat.strong_induction_on with m ih generalizing k skip x dxs sigmas normdx
  rw [qnerrLoop] at hr
  split at hr
  · subst hr; simp at hsucc
  · simp only [] at hr
    split at hr
    · rename_i hc
      subst hr
      obtain ⟨hsk, hσ⟩ := hc
      subst hsk
      refine ⟨x, dxs.getD k 0, sigmas.getD k 0, by simp, hσ, by simp, ?_⟩
      by_cases h0 : k = 0
      · subst h0; exact Or.inl ⟨rfl, rfl, rfl, rfl, rfl, rfl⟩
      · exact Or.inr (Or.inr ⟨h0, rfl, rfl⟩)
    generalize (if skip = true then x else x + dxs.getD k 0) = x' at hr
    split at hr
    · subst hr; simp at hsucc
    split at hr
    · subst hr; simp at hsucc
    obtain ⟨y, d, σ, h1, h2, h2', h3⟩ := ih (miter + 1 - (k + 1)) (by omega) (k + 1) false _ _ _ _ hr
      (by simp [hd]) (by simp [hs]) rfl
    refine ⟨y, d, σ, h1, h2, h2', ?_⟩
    rcases h3 with h3 | h3 | h3
    · omega
    · exact Or.inr (Or.inl h3)
    · obtain ⟨_, h4, h5⟩ := h3
      right; left
      rw [h4, h5, List.getD_append_right _ _ _ _ (by omega), List.getD_append_right _ _ _ _ (by omega)]
      simp [hd, hs]

/-! ### nleq_err -/

/-- Results of the damping loop: the trial point, its residual and the simplified correction belong together. -/
theorem damp_spec (c : NleqCfg) (x dx : X) (fuel : ℕ) (lam : ℝ) (red qn : Bool) (o : Damp X R)
    (h : damp P inner c x dx fuel lam red qn = .ok o) :
    (∀ xk fx dxb th l, o = .converged xk fx dxb th l →
      l = 1 ∧ xk = x + l • dx ∧ P.solve x (-P.F xk) = (dxb, true) ∧ nrm inner dxb ≤ c.tol ∧
        th = nrm inner dxb / nrm inner dx) ∧
    (∀ xk fx dxb th l q, o = .accept xk fx dxb th l q →
      c.lamMin < l ∧ xk = x + l • dx ∧ fx = P.F xk ∧ P.solve x (-P.F xk) = (dxb, true) ∧
        th = nrm inner dxb / nrm inner dx ∧
        (c.restricted = false → th < 1) ∧ (c.restricted = true → th ≤ 1 - l / 4)) := by
  induction fuel generalizing lam red qn with
  | zero => simp [damp] at h
  | succ fuel ih =>
    rw [damp] at h
    split at h
    · cases h; simp
    rename_i hlam
    simp only [] at h
    split at h
    · cases h; simp
    rename_i hsol
    split at h
    · exact ih _ _ _ h
    rename_i hth
    have hth1 : (c.restricted = false → nrm inner (P.solve x (-P.F (x + lam • dx))).1 / nrm inner dx < 1) := by
      intro hr; by_contra hcon; exact hth (Or.inl ⟨hr, not_lt.mp hcon⟩)
    have hth2 : (c.restricted = true →
        nrm inner (P.solve x (-P.F (x + lam • dx))).1 / nrm inner dx ≤ 1 - lam / 4) := by
      intro hr; by_contra hcon; exact hth (Or.inr ⟨hr, not_le.mp hcon⟩)
    have hpair : P.solve x (-P.F (x + lam • dx)) = ((P.solve x (-P.F (x + lam • dx))).1, true) := by
      ext
      · rfl
      · simpa using hsol
    split at h
    · rename_i hl
      split at h
      · rename_i hnb
        cases h
        refine ⟨?_, by simp⟩
        intro xk fx dxb th l ho
        cases ho
        exact ⟨hl.1, rfl, hpair, hnb, rfl⟩
      · cases h
        refine ⟨by simp, ?_⟩
        intro xk fx dxb th l q ho
        cases ho
        exact ⟨not_le.mp hlam, rfl, rfl, hpair, rfl, hth1, hth2⟩
    · split at h
      · exact ih _ _ _ h
      · cases h
        refine ⟨by simp, ?_⟩
        intro xk fx dxb th l q ho
        cases ho
        exact ⟨not_le.mp hlam, rfl, rfl, hpair, rfl, hth1, hth2⟩

theorem nleqLoop_spec (c : NleqCfg) (fuel : ℕ) (k neval : ℕ) (x : X) (prev : Option (X × X)) (fx : R) (lam : ℝ)
    (qn : Bool) (normdx : ℝ) (sys : Option X) (r : Result X)
    (hk : k ≤ c.miter + 2) (hfx : prev.isSome → fx = P.F x)
    (h : nleqLoop P inner cb c fuel k neval x prev fx lam qn normdx sys = .ok r) :
    k ≤ r.k ∧ r.k ≤ c.miter + 2 ∧ (r.success = true → HonestSuccess P inner c.tol r ∧ k < r.k ∧ r.k ≤ c.miter) ∧
      (neval ≤ r.neval) ∧ (neval ≤ k → r.neval ≤ r.k + 1) ∧ (c.useQnerr = false → k ≤ c.miter → r.k ≤ c.miter) := by
  induction' hm : c.miter - k using Nat.strong_induction_on with m ih generalizing k neval x prev fx lam qn normdx sys
  rw [nleqLoop] at h
  split at h
  · cases h; exact ⟨le_rfl, hk, by simp, le_rfl, by simp; omega, by simp⟩
  rename_i hlt
  simp only [] at h
  have hfx' : curRes P.F prev x fx = P.F x := by
    cases prev with
    | none => rfl
    | some v => exact hfx rfl
  rw [hfx'] at h
  split at h
  · cases h; exact ⟨le_rfl, hk, by simp, by simp, by simp, by simp⟩
  rename_i hsol
  have hpair : P.solve x (-P.F x) = ((P.solve x (-P.F x)).1, true) := by
    ext
    · rfl
    · simpa using hsol
  split at h
  · rename_i hnd
    cases h
    exact ⟨by simp, by simp; omega, fun _ => ⟨⟨x, x, _, hpair, rfl, hnd, rfl⟩, by simp, by simp; omega⟩,
      by simp, by simp; omega, by simp; omega⟩
  cases hdamp : damp P inner c x (P.solve x (-P.F x)).1 fuel
    (lamStart inner prev (P.solve x (-P.F x)).1 lam) false qn with
  | error e => simp only [hdamp] at h; cases h
  | ok o =>
    simp only [hdamp] at h
    obtain ⟨s1, s2⟩ := damp_spec P inner c _ _ _ _ _ _ _ hdamp
    cases o with
    | limitation => cases h; exact ⟨le_rfl, hk, by simp, by simp, by simp, by simp⟩
    | linFail => cases h; exact ⟨le_rfl, hk, by simp, by simp, by simp, by simp⟩
    | converged xk f dxb th l =>
      obtain ⟨hl, hxk, hs, hn, _⟩ := s1 _ _ _ _ _ rfl
      simp only [] at h
      split at h
      · cases h
        exact ⟨by simp, by simp; omega, by simp, by simp, by simp; omega, by simp; omega⟩
      · cases h
        exact ⟨by simp, by simp; omega, fun _ => ⟨⟨xk, x, dxb, hs, rfl, hn, rfl⟩, by simp, by simp; omega⟩,
          by simp, by simp; omega, by simp; omega⟩
    | accept xk f dxb th l q =>
      obtain ⟨hl, hxk, hf, hs, _⟩ := s2 _ _ _ _ _ _ rfl
      simp only [] at h
      split at h
      · cases h
        exact ⟨by simp, by simp; omega, by simp, by simp, by simp; omega, by simp; omega⟩
      split at h
      · rename_i hq
        obtain ⟨q1, q2, q3, q4⟩ := qnerrLoop_k P inner cb c.tol c.thetaMax (k + 1) (c.miter - (k + 1) + 1) x 0 0 true
          xk [(P.solve x (-P.F x)).1] [nrm inner (P.solve x (-P.F x)).1 ^ 2] (nrm inner (P.solve x (-P.F x)).1)
          (by omega) _ rfl
        have q2' : (qnerrCalled P inner cb c.tol c.thetaMax (k + 1) (c.miter - (k + 1) + 1) x xk
          (P.solve x (-P.F x)).1).k ≤ c.miter - (k + 1) + 1 + 1 := q2
        have q3' : (qnerrCalled P inner cb c.tol c.thetaMax (k + 1) (c.miter - (k + 1) + 1) x xk
          (P.solve x (-P.F x)).1).neval = 0 := q3
        generalize qnerrCalled P inner cb c.tol c.thetaMax (k + 1) (c.miter - (k + 1) + 1) x xk
          (P.solve x (-P.F x)).1 = qr at h q2' q3'
        obtain ⟨a, b, d, e, e2, e3⟩ := ih (c.miter - (k + 1 + qr.k)) (by omega) _ _ _ _ _ _ _ _ _ (by omega) (by simp) h rfl
        refine ⟨by omega, b, fun hs => ?_, by omega, fun hh => e2 (by omega), fun hh => ?_⟩
        · obtain ⟨d1, d2, d3⟩ := d hs; exact ⟨d1, by omega, d3⟩
        · rw [hh] at hq; simp at hq
      · obtain ⟨a, b, d, e, e2, e3⟩ := ih (c.miter - (k + 1)) (by omega) _ _ _ _ _ _ _ _ _ (by omega) (fun _ => hf) h rfl
        refine ⟨by omega, b, fun hs => ?_, by omega, fun hh => e2 (by omega), fun hh hh2 => e3 hh (by omega)⟩
        obtain ⟨d1, d2, d3⟩ := d hs; exact ⟨d1, by omega, d3⟩

end Funpy.Newton
