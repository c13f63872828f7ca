import Verif.Lemmas.Newton
import Mathlib.Analysis.InnerProductSpace.Basic

namespace Funpy.Newton
open Funpy.Spec Classical

variable {X R : Type} [NormedAddCommGroup X] [InnerProductSpace ℝ X] [AddCommGroup R]

/-- The inner product handed to the drivers. -/
noncomputable abbrev ip : X → X → ℝ := fun x y => inner ℝ x y

theorem nrm_ip (x : X) : nrm (ip : X → X → ℝ) x = ‖x‖ := by
  rw [nrm, ip, real_inner_self_eq_norm_sq, Real.sqrt_sq (norm_nonneg x)]

theorem broyden_congr (S : R → X) (d d' : ℕ → X) (k : ℕ) (b : R) (h : ∀ i ≤ k, d i = d' i) :
    broyden S d k b = broyden S d' k b := by
  induction k with
  | zero => rfl
  | succ k ih => rw [broyden, broyden, ih (fun i hi => h i (by omega)), h k (by omega), h (k + 1) le_rfl]

theorem path_congr (x0 : X) (d d' : ℕ → X) (k : ℕ) (h : ∀ i < k, d i = d' i) : path x0 d k = path x0 d' k := by
  induction k with
  | zero => rfl
  | succ k ih => rw [path, path, ih (fun i hi => h i (by omega)), h k (by omega)]

theorem qnUpdate_aux (S : R → X) (d : ℕ → X) (sg : ℕ → ℝ) (b : R) (k : ℕ) (h : ∀ i < k, sg i = ‖d i‖ ^ 2) :
    (List.range k).foldl (fun v i => v + (ip v (d i) / sg i) • d (i + 1)) (S b) = broyden S d k b := by
  induction k with
  | zero => rfl
  | succ k ih =>
    rw [List.range_succ, List.foldl_append, ih (fun i hi => h i (by omega))]
    simp only [List.foldl_cons, List.foldl_nil]
    rw [broyden, h k (by omega)]

theorem broyden_add (S : R → X) (d : ℕ → X) (hS : ∀ a b, S (a + b) = S a + S b) (k : ℕ) (a b : R) :
    broyden S d k (a + b) = broyden S d k a + broyden S d k b := by
  induction k with
  | zero => exact hS a b
  | succ k ih =>
    rw [broyden, broyden, broyden, ih, inner_add_left, add_div, add_smul]
    abel

/-- The steps `d 0, …, d (n-1)` are quasi-Newton steps with approximate inverse Jacobians that satisfy the secant
condition. -/
structure QnSteps (P : Problem X R) (x0 : X) (thetaMax : ℝ) (d : ℕ → X) (n : ℕ) : Prop where
  step : ∀ i < n, d i = broyden (fun b => (P.solve x0 b).1) d i (-P.F (path x0 d i))
  secant : ∀ i, i + 1 < n →
    broyden (fun b => (P.solve x0 b).1) d (i + 1) (P.F (path x0 d (i + 1)) - P.F (path x0 d i)) = d i
  contract : ∀ i, i + 1 < n →
    ‖broyden (fun b => (P.solve x0 b).1) d i (-P.F (path x0 d (i + 1)))‖ ≤ thetaMax * ‖d i‖

theorem QnSteps.congr {P : Problem X R} {x0 : X} {t : ℝ} {d d' : ℕ → X} {n : ℕ} (h : QnSteps P x0 t d n)
    (he : ∀ i < n, d i = d' i) : QnSteps P x0 t d' n := by
  have hp : ∀ i ≤ n, path x0 d i = path x0 d' i := fun i hi => path_congr x0 d d' i (fun j hj => he j (by omega))
  have hb : ∀ i < n, ∀ b, broyden (fun b => (P.solve x0 b).1) d i b = broyden (fun b => (P.solve x0 b).1) d' i b :=
    fun i hi b => broyden_congr _ d d' i b (fun j hj => he j (by omega))
  refine ⟨fun i hi => ?_, fun i hi => ?_, fun i hi => ?_⟩
  · rw [← he i hi, ← hb i hi, ← hp i hi.le, ← h.step i hi]
  · rw [← hb _ hi, ← hp _ hi.le, ← hp _ (by omega), ← he _ (by omega), h.secant i hi]
  · rw [← hb _ (by omega), ← hp _ (by omega), ← he _ (by omega)]; exact h.contract i hi

theorem QnSteps.mono {P : Problem X R} {x0 : X} {t : ℝ} {d : ℕ → X} {n m : ℕ} (h : QnSteps P x0 t d n)
    (hm : m ≤ n) : QnSteps P x0 t d m :=
  ⟨fun i hi => h.step i (by omega), fun i hi => h.secant i (by omega), fun i hi => h.contract i (by omega)⟩

theorem sqrt_div_norm (v d : X) : Real.sqrt (ip v v / ‖d‖ ^ 2) = ‖v‖ / ‖d‖ := by
  rw [ip, real_inner_self_eq_norm_sq, ← div_pow, Real.sqrt_sq (by positivity)]

theorem qnStep_alg (v d : X) (hd : d ≠ 0) (hθ : ‖v‖ / ‖d‖ < 1) :
    v + (inner ℝ v d / ‖d‖ ^ 2) • ((1 / (1 - inner ℝ v d / ‖d‖ ^ 2)) • v) =
      (1 / (1 - inner ℝ v d / ‖d‖ ^ 2)) • v := by
  have hdpos : 0 < ‖d‖ := norm_pos_iff.mpr hd
  have hα : inner ℝ v d / ‖d‖ ^ 2 < 1 := by
    have h1 := real_inner_le_norm v d
    rw [div_lt_one (by positivity)] at hθ ⊢
    nlinarith
  have hne : 1 - inner ℝ v d / ‖d‖ ^ 2 ≠ 0 := by linarith
  generalize inner ℝ v d / ‖d‖ ^ 2 = α at *
  rw [smul_smul]
  nth_rewrite 1 [← one_smul ℝ v]
  rw [← add_smul]
  congr 1
  field_simp
  ring

theorem qnerrLoop_steps (P : Problem X R) (cb : ℕ → X → ℝ → ℝ → Bool) (tol thetaMax : ℝ) (hθ : thetaMax < 1)
    (itr miter : ℕ) (x0 : X) (hS : ∀ a b, (P.solve x0 (a + b)).1 = (P.solve x0 a).1 + (P.solve x0 b).1)
    (neval : ℕ) (k : ℕ) (skip : Bool) (x : X) (dxs : List X) (normdx : ℝ) (r : Result X)
    (hr : qnerrLoop P ip cb tol thetaMax itr miter x0 neval k skip x dxs (dxs.map fun d => ‖d‖ ^ 2) normdx = r)
    (hlen : dxs.length = k + 1)
    (hq : QnSteps P x0 thetaMax (fun i => dxs.getD i 0) (k + 1))
    (hx : x = path x0 (fun i => dxs.getD i 0) (if skip then k + 1 else k))
    (hne : skip = true → dxs.getD k 0 ≠ 0) (hkm : skip = true → k ≤ miter) :
    ∃ d n, (∀ i ≤ k, d i = dxs.getD i 0) ∧ QnSteps P x0 thetaMax d n ∧ r.x = path x0 d n ∧ k ≤ n ∧
      (r.success = true → n = r.k ∧ k + 1 ≤ n ∧ ‖d (n - 1)‖ ^ 2 ≤ tol * tol ∧ (skip = true → k + 1 < n)) := by
  induction' hm : miter + 1 - k using Nat.strong_induction_on with m ih generalizing k skip x dxs normdx
  rw [qnerrLoop] at hr
  have hσ : (dxs.map fun d => ‖d‖ ^ 2).getD k 0 = ‖dxs.getD k 0‖ ^ 2 := by
    rw [List.getD_eq_getElem _ _ (by simp [hlen]), List.getD_eq_getElem _ _ (by simp [hlen])]
    simp
  split at hr
  · subst hr
    cases skip with
    | true => have := hkm rfl; omega
    | false =>
      exact ⟨fun i => dxs.getD i 0, k, fun i _ => rfl, hq.mono (by omega), by simpa using hx, le_rfl, by simp⟩
  rename_i hkle
  have hx' : (if skip = true then x else x + dxs.getD k 0) = path x0 (fun i => dxs.getD i 0) (k + 1) := by
    cases skip with
    | true => simpa using hx
    | false => simp only [Bool.false_eq_true, if_false] at hx ⊢; rw [hx, path]
  rw [hx', hσ] at hr
  simp only [] at hr
  split at hr
  · rename_i hc
    obtain ⟨hs, hc⟩ := hc
    subst hr
    refine ⟨fun i => dxs.getD i 0, k + 1, fun i _ => rfl, hq, rfl, by omega, fun _ => ⟨rfl, by omega, by simpa using hc, ?_⟩⟩
    rw [hs]; simp
  rename_i hc
  have hdne : dxs.getD k 0 ≠ 0 := by
    cases skip with
    | true => exact hne rfl
    | false =>
      intro h0
      apply hc
      refine ⟨rfl, ?_⟩
      rw [h0]; simpa using mul_self_nonneg tol
  split at hr
  · subst hr
    exact ⟨fun i => dxs.getD i 0, k + 1, fun i _ => rfl, hq, rfl, by omega, by simp⟩
  have hv : ∀ b, qnUpdate ip dxs (dxs.map fun d => ‖d‖ ^ 2) ((P.solve x0 b).1) =
      broyden (fun b => (P.solve x0 b).1) (fun i => dxs.getD i 0) k b := by
    intro b
    rw [qnUpdate, hlen, Nat.add_sub_cancel]
    refine qnUpdate_aux (fun b => (P.solve x0 b).1) (fun i => dxs.getD i 0) _ b k ?_
    intro i hi
    rw [List.getD_eq_getElem _ _ (by simp [hlen]; omega)]
    rw [List.getElem_map]
    congr 2
    exact (List.getD_eq_getElem _ _ (by omega)).symm
  rw [hv] at hr
  split at hr
  · subst hr
    exact ⟨fun i => dxs.getD i 0, k + 1, fun i _ => rfl, hq, rfl, by omega, by simp⟩
  rename_i hth
  push Not at hth
  obtain ⟨hth, -⟩ := hth
  rw [sqrt_div_norm] at hth
  set v := broyden (fun b => (P.solve x0 b).1) (fun i => dxs.getD i 0) k
    (-P.F (path x0 (fun i => dxs.getD i 0) (k + 1))) with hvdef
  set dk := dxs.getD k 0 with hdk
  set dn := (1 / (1 - ip v dk / ‖dk‖ ^ 2)) • v with hdn
  have hext : ∀ i ≤ k, (dxs ++ [dn]).getD i 0 = dxs.getD i 0 := fun i hi => by
    rw [List.getD_append _ _ _ _ (by omega)]
  have hlast : (dxs ++ [dn]).getD (k + 1) 0 = dn := by
    rw [List.getD_append_right _ _ _ _ (by omega), hlen]; simp
  have hpx : ∀ i ≤ k + 1, path x0 (fun i => (dxs ++ [dn]).getD i 0) i = path x0 (fun i => dxs.getD i 0) i :=
    fun i hi => path_congr x0 _ _ i (fun j hj => hext j (by omega))
  have hbx : ∀ i ≤ k, ∀ b, broyden (fun b => (P.solve x0 b).1) (fun i => (dxs ++ [dn]).getD i 0) i b =
      broyden (fun b => (P.solve x0 b).1) (fun i => dxs.getD i 0) i b :=
    fun i hi b => broyden_congr _ _ _ i b (fun j hj => hext j (by omega))
  have hq1 := hq.congr (d' := fun i => (dxs ++ [dn]).getD i 0) (fun i hi => (hext i (by omega)).symm)
  have hH : broyden (fun b => (P.solve x0 b).1) (fun i => (dxs ++ [dn]).getD i 0) (k + 1)
      (-P.F (path x0 (fun i => (dxs ++ [dn]).getD i 0) (k + 1))) = dn := by
    rw [broyden, hbx k le_rfl, hpx (k + 1) le_rfl, hlast, hext k le_rfl, ← hdk, ← hvdef, hdn]
    exact qnStep_alg v dk hdne (hth.trans_lt hθ)
  have hq2 : QnSteps P x0 thetaMax (fun i => (dxs ++ [dn]).getD i 0) (k + 1 + 1) := by
    refine ⟨fun i hi => ?_, fun i hi => ?_, fun i hi => ?_⟩
    · rcases Nat.lt_succ_iff_lt_or_eq.mp hi with h1 | h1
      · exact hq1.step i h1
      · subst h1
        rw [hH]; exact hlast
    · rcases Nat.lt_succ_iff_lt_or_eq.mp hi with h1 | h1
      · exact hq1.secant i h1
      · have : i = k := by omega
        subst this
        have hadd : P.F (path x0 (fun i => (dxs ++ [dn]).getD i 0) (i + 1)) -
            P.F (path x0 (fun i => (dxs ++ [dn]).getD i 0) i) =
            (-P.F (path x0 (fun i => (dxs ++ [dn]).getD i 0) i)) +
            P.F (path x0 (fun i => (dxs ++ [dn]).getD i 0) (i + 1)) := by abel
        have hneg : broyden (fun b => (P.solve x0 b).1) (fun i => (dxs ++ [dn]).getD i 0) (i + 1)
            (P.F (path x0 (fun i => (dxs ++ [dn]).getD i 0) (i + 1))) = -dn := by
          have h0 := broyden_add (fun b => (P.solve x0 b).1) (fun i => (dxs ++ [dn]).getD i 0) hS (i + 1)
            (P.F (path x0 (fun i => (dxs ++ [dn]).getD i 0) (i + 1)))
            (-P.F (path x0 (fun i => (dxs ++ [dn]).getD i 0) (i + 1)))
          have hz : broyden (fun b => (P.solve x0 b).1) (fun i => (dxs ++ [dn]).getD i 0) (i + 1) 0 = 0 := by
            have := broyden_add (fun b => (P.solve x0 b).1) (fun i => (dxs ++ [dn]).getD i 0) hS (i + 1) 0 0
            rw [add_zero] at this
            exact left_eq_add.mp this
          rw [add_neg_cancel, hz, hH] at h0
          exact (neg_eq_of_add_eq_zero_left h0.symm).symm
        rw [hadd, broyden_add _ _ hS, hneg, broyden, ← hq1.step i (by omega), hlast, hext i le_rfl, ← hdk]
        rw [real_inner_self_eq_norm_sq, div_self (by positivity), one_smul]
        abel
    · rcases Nat.lt_succ_iff_lt_or_eq.mp hi with h1 | h1
      · exact hq1.contract i h1
      · have : i = k := by omega
        subst this
        rw [hbx i le_rfl, hpx _ le_rfl, hext i le_rfl, ← hdk, ← hvdef]
        rwa [div_le_iff₀ (norm_pos_iff.mpr hdne)] at hth
  have hmap : (dxs.map fun d => ‖d‖ ^ 2) ++ [ip dn dn] = (dxs ++ [dn]).map fun d => ‖d‖ ^ 2 := by
    simp [ip, real_inner_self_eq_norm_sq]
  rw [hmap] at hr
  obtain ⟨d, n, h1, h2, h3, h4, h5⟩ := ih (miter + 1 - (k + 1)) (by omega) (k + 1) false _ _ _ hr (by simp [hlen]) hq2
    (by simp only [Bool.false_eq_true, if_false]; exact (hpx (k + 1) le_rfl).symm) (by simp) (by simp) rfl
  refine ⟨d, n, fun i hi => (h1 i (by omega)).trans (hext i hi), h2, h3, by omega, fun hs => ?_⟩
  obtain ⟨a, b, c, _⟩ := h5 hs
  exact ⟨a, by omega, c, fun _ => by omega⟩

end Funpy.Newton
