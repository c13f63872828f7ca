import Verif.Spec.Gbit
import Verif.Lemmas.NewtonQn

namespace Funpy.Gbit
open Funpy.Spec Funpy.Newton Classical

section generic
variable {V : Type} [AddCommGroup V] [Module ℝ V] (inner : V → V → ℝ) (A P : V → V) (b : V) (c : Cfg)

theorem innerLoop_iter (y0 : V) (i iter : ℕ) (y : V) (ds : List V) (sg ts : List ℝ) (hit : iter ≤ c.maxIter + 1)
    (r : V × ℕ × Bool) (h : innerLoop inner A P c y0 i iter y ds sg ts = r) :
    iter ≤ r.2.1 ∧ r.2.1 ≤ c.maxIter + 1 ∧ (i = 0 → iter ≤ c.maxIter → iter < r.2.1) := by
  induction' hm : c.maxIter + 1 - iter using Nat.strong_induction_on with m ih generalizing i iter y ds sg ts
  rw [innerLoop] at h
  split at h
  · simp only [] at h
    split at h
    · subst h; exact ⟨le_rfl, hit, fun h0 => by omega⟩
    split at h
    · subst h; exact ⟨by simp, by simp; omega, by simp⟩
    split at h
    · subst h; exact ⟨by simp, by simp; omega, by simp⟩
    obtain ⟨a, b, _⟩ := ih _ (by omega) _ _ _ _ _ _ (by omega) h rfl
    exact ⟨by omega, b, by omega⟩
  · subst h
    refine ⟨le_rfl, hit, fun h0 h1 => ?_⟩
    subst h0
    rename_i hc
    exact absurd ⟨Nat.zero_le _, h1⟩ hc

theorem outerLoop_term (y0 : V) (fuel iter : ℕ) (y : V) (hf : c.maxIter + 1 ≤ fuel + iter) (hf0 : 0 < fuel)
    (hit : iter ≤ c.maxIter) :
    ∃ r, outerLoop inner A P b c y0 fuel iter y = .ok r ∧ r.2.2 ≤ c.maxIter + 1 ∧ iter < r.2.2 ∧
      (r.2.1 = true → r.2.2 < c.maxIter) ∧ (c.maxIter ≤ r.2.2 ∨ r.2.1 = true) := by
  induction fuel generalizing iter y with
  | zero => omega
  | succ fuel ih =>
    rw [outerLoop]
    obtain ⟨a1, a2, a3⟩ := innerLoop_iter inner A P c y0 0 iter y _ _ [] (by omega) _
      (rfl : innerLoop inner A P c y0 0 iter y [P (b - A y)] [inner (P (b - A y)) (P (b - A y))] [] = _)
    have a3 := a3 rfl hit
    split
    · rename_i hc
      refine ⟨_, rfl, a2, a3, by simp, ?_⟩
      simp only [Bool.and_eq_true, decide_eq_true_eq]
      rcases Nat.lt_or_ge (innerLoop inner A P c y0 0 iter y [P (b - A y)] [inner (P (b - A y)) (P (b - A y))] []).2.1
        c.maxIter with h1 | h1
      · right; exact ⟨hc.resolve_right (by omega), h1⟩
      · left; exact h1
    · rename_i hc
      push Not at hc
      obtain ⟨r, h1, h2, h3, h4, h5⟩ := ih
        (innerLoop inner A P c y0 0 iter y [P (b - A y)] [inner (P (b - A y)) (P (b - A y))] []).2.1
        (innerLoop inner A P c y0 0 iter y [P (b - A y)] [inner (P (b - A y)) (P (b - A y))] []).1
        (by omega) (by omega) (by omega)
      exact ⟨r, h1, h2, by omega, h4, h5⟩

theorem outerLoop_mono (y0 : V) (fuel iter : ℕ) (y : V) (r : V × Bool × ℕ)
    (h : outerLoop inner A P b c y0 fuel iter y = .ok r) : outerLoop inner A P b c y0 (fuel + 1) iter y = .ok r := by
  induction fuel generalizing iter y with
  | zero => simp [outerLoop] at h
  | succ fuel ih =>
    rw [outerLoop] at h ⊢
    split at h
    · rename_i h1; rw [if_pos h1]; exact h
    · rename_i h1; rw [if_neg h1]; exact ih _ _ h

end generic

section ipspace
variable {V : Type} [NormedAddCommGroup V] [InnerProductSpace ℝ V] (A P : V → V) (b : V) (c : Cfg)

theorem gbH_congr (d d' : ℕ → V) (t t' : ℕ → ℝ) (i : ℕ) (r : V) (h : ∀ j ≤ i, d j = d' j) (h' : ∀ j < i, t j = t' j) :
    gbH P d t i r = gbH P d' t' i r := by
  induction i with
  | zero => rfl
  | succ i ih =>
    rw [gbH, gbH, ih (fun j hj => h j (by omega)) (fun j hj => h' j (by omega)), h i (by omega), h (i + 1) le_rfl,
      h' i (by omega)]

theorem gpath_congr (y : V) (d d' : ℕ → V) (t t' : ℕ → ℝ) (i : ℕ) (h : ∀ j < i, d j = d' j) (h' : ∀ j < i, t j = t' j) :
    gpath y d t i = gpath y d' t' i := by
  induction i with
  | zero => rfl
  | succ i ih => rw [gpath, gpath, ih (fun j hj => h j (by omega)) (fun j hj => h' j (by omega)), h i (by omega),
      h' i (by omega)]

theorem update_aux (d : ℕ → V) (t : ℕ → ℝ) (sg : ℕ → ℝ) (r : V) (k : ℕ) (h : ∀ i < k, sg i = ‖d i‖ ^ 2) :
    (List.range k).foldl (fun z m => z + (inner ℝ (d m) z / sg m) • (d (m + 1) - (1 - t m) • d m)) (P r) =
      gbH P d t k r := by
  induction k with
  | zero => rfl
  | succ k ih =>
    rw [List.range_succ, List.foldl_append, ih (fun i hi => h i (by omega))]
    simp only [List.foldl_cons, List.foldl_nil]
    rw [gbH, h k (by omega)]

theorem GbitSteps.congr {y : V} {d d' : ℕ → V} {t t' : ℕ → ℝ} {n : ℕ} (h : GbitSteps A P b c y d t n)
    (hd : ∀ i ≤ n, d i = d' i) (ht : ∀ i < n, t i = t' i) : GbitSteps A P b c y d' t' n := by
  refine ⟨by rw [← hd 0 (by omega)]; exact h.start, fun i hi => ?_⟩
  have hb : ∀ r, gbH P d t i r = gbH P d' t' i r := fun r =>
    gbH_congr P d d' t t' i r (fun j hj => hd j (by omega)) (fun j hj => ht j (by omega))
  obtain ⟨tau, h1, h2, h3⟩ := h.step i hi
  refine ⟨tau, ?_, ?_, ?_⟩
  · rw [← hb, ← hd i (by omega)]; exact h1
  · rw [← ht i hi]; exact h2
  · rw [← hb, ← hd i (by omega), ← hd (i + 1) (by omega), ← ht i hi]; exact h3

theorem epsilon_eq (ds : List V) (i : ℕ) (hlen : ds.length = i + 2) :
    epsilon (ds.map fun d => ‖d‖ ^ 2) i = gbEps (fun j => ds.getD j 0) (i + 1) := by
  have hg : ∀ j, j < ds.length → (ds.map fun d => ‖d‖ ^ 2).getD j 0 = ‖ds.getD j 0‖ ^ 2 := by
    intro j hj
    rw [List.getD_eq_getElem _ _ (by simpa using hj), List.getD_eq_getElem _ _ hj]; simp
  unfold epsilon gbEps
  by_cases h : 1 ≤ i
  · rw [if_pos h, if_neg (by omega), hg _ (by omega), hg _ (by omega), hg _ (by omega), abs_of_nonneg (by positivity)]
    rfl
  · have : i = 0 := by omega
    subst this
    rw [if_neg (by omega), if_pos (by omega), hg _ (by omega), abs_of_nonneg (by positivity),
      Real.sqrt_sq (norm_nonneg _)]

theorem innerLoop_spec (y0 y1 : V) (i iter : ℕ) (y : V) (ds : List V) (ts : List ℝ) (r : V × ℕ × Bool)
    (h : innerLoop ip A P c y0 i iter y ds (ds.map fun d => ‖d‖ ^ 2) ts = r)
    (hd : ds.length = i + 1) (ht : ts.length = i)
    (hs : GbitSteps A P b c y1 (fun j => ds.getD j 0) (fun j => ts.getD j 0) i)
    (hy : y = gpath y1 (fun j => ds.getD j 0) (fun j => ts.getD j 0) i) (hstop : r.2.2 = true) :
    ∃ d t n, 1 ≤ n ∧ n ≤ c.iMax + 1 ∧ GbitSteps A P b c y1 d t n ∧ r.1 = gpath y1 d t n ∧
      (c.simple = false → gbEps d n ≤ c.rho * ‖r.1‖ * c.tol) ∧
      (c.simple = true → r.1 ≠ y0 ∧ gbEps d n ≤ c.rho * c.tol * ‖r.1 - y0‖) := by
  induction' hm : c.maxIter + 1 - iter using Nat.strong_induction_on with m ih generalizing i iter y ds ts
  rw [innerLoop] at h
  split at h
  swap
  · subst h; simp at hstop
  rename_i hcond
  have hσ : ∀ j, j < ds.length → (ds.map fun d => ‖d‖ ^ 2).getD j 0 = ‖ds.getD j 0‖ ^ 2 := by
    intro j hj
    rw [List.getD_eq_getElem _ _ (by simpa using hj), List.getD_eq_getElem _ _ hj]; simp
  have hz : update ip ds (ds.map fun d => ‖d‖ ^ 2) ts i (P (A (ds.getD i 0))) =
      gbH P (fun j => ds.getD j 0) (fun j => ts.getD j 0) i (A (ds.getD i 0)) :=
    update_aux P (fun j => ds.getD j 0) (fun j => ts.getD j 0) _ _ i (fun j hj => hσ j (by omega))
  rw [hz, hσ i (by omega)] at h
  simp only [] at h
  set z := gbH P (fun j => ds.getD j 0) (fun j => ts.getD j 0) i (A (ds.getD i 0)) with hzdef
  set di := ds.getD i 0 with hdi
  set tau := tauOf c (‖di‖ ^ 2) (ip di z) with htau
  set t := tOf c tau with htdef
  set dn := (1 - t + tau) • di - tau • z with hdn
  split at h
  · subst h; simp at hstop
  have hext : ∀ j ≤ i, (ds ++ [dn]).getD j 0 = ds.getD j 0 := fun j hj => by rw [List.getD_append _ _ _ _ (by omega)]
  have hextt : ∀ j < i, (ts ++ [t]).getD j 0 = ts.getD j 0 := fun j hj => by rw [List.getD_append _ _ _ _ (by omega)]
  have hlast : (ds ++ [dn]).getD (i + 1) 0 = dn := by
    rw [List.getD_append_right _ _ _ _ (by omega), hd]; simp
  have hlastt : (ts ++ [t]).getD i 0 = t := by
    rw [List.getD_append_right _ _ _ _ (by omega), ht]; simp
  have hs1 := GbitSteps.congr A P b c hs (d' := fun j => (ds ++ [dn]).getD j 0) (t' := fun j => (ts ++ [t]).getD j 0)
    (fun j hj => (hext j hj).symm) (fun j hj => (hextt j hj).symm)
  have hHi : gbH P (fun j => (ds ++ [dn]).getD j 0) (fun j => (ts ++ [t]).getD j 0) i (A di) = z := by
    rw [hzdef]
    exact gbH_congr P _ _ _ _ i _ (fun j hj => hext j hj) (fun j hj => hextt j hj)
  have hs2 : GbitSteps A P b c y1 (fun j => (ds ++ [dn]).getD j 0) (fun j => (ts ++ [t]).getD j 0) (i + 1) := by
    refine ⟨hs1.start, fun j hj => ?_⟩
    rcases Nat.lt_succ_iff_lt_or_eq.mp hj with h1 | h1
    · exact hs1.step j h1
    · subst h1
      refine ⟨tau, ?_, ?_, ?_⟩
      · rw [hext j le_rfl, ← hdi, hHi]
        intro hne
        rw [htau, tauOf, if_neg hne]
      · rw [hlastt, htdef, tOf]
        by_cases h1 : tau < c.tauMin
        · rw [if_pos h1]; exact Or.inl rfl
        rw [if_neg h1]
        by_cases h2 : tau ≤ c.tauMax
        · rw [if_pos h2]; exact Or.inr ⟨rfl, not_lt.mp h1, h2⟩
        · rw [if_neg h2]; exact Or.inl rfl
      · rw [hlast, hext j le_rfl, ← hdi, hHi, hlastt]
  have hy2 : y + t • di = gpath y1 (fun j => (ds ++ [dn]).getD j 0) (fun j => (ts ++ [t]).getD j 0) (i + 1) := by
    rw [gpath, hlastt, hext i le_rfl, ← hdi, hy]
    congr 1
    exact gpath_congr y1 _ _ _ _ i (fun j hj => (hext j hj.le).symm) (fun j hj => (hextt j hj).symm)
  have hmap : (ds.map fun d => ‖d‖ ^ 2) ++ [ip dn dn] = (ds ++ [dn]).map fun d => ‖d‖ ^ 2 := by
    simp [ip, real_inner_self_eq_norm_sq]
  rw [hmap] at h
  have heps := epsilon_eq (ds ++ [dn]) i (by simp [hd])
  split at h
  · rename_i hst
    subst h
    refine ⟨_, _, i + 1, by omega, by omega, hs2, hy2, ?_, ?_⟩
    · intro hsim
      rw [stopTest, hsim] at hst
      simp only [Bool.false_eq_true, if_false, decide_eq_true_eq, nrm_ip] at hst
      rw [heps] at hst
      exact hst
    · intro hsim
      rw [stopTest, hsim] at hst
      simp only [if_true, nrm_ip] at hst
      split at hst
      · simp at hst
      rename_i hne
      have hpos : 0 < ‖y + t • di - y0‖ := lt_of_le_of_ne (norm_nonneg _) (Ne.symm hne)
      refine ⟨fun he => hne (by rw [show y + t • di = y0 from he, sub_self, norm_zero]), ?_⟩
      simp only [decide_eq_true_eq] at hst
      rw [heps, div_le_iff₀ hpos] at hst
      exact hst
  split at h
  · subst h; simp at hstop
  exact ih _ (by omega) _ _ _ _ _ h (by simp [hd]) (by simp [ht]) hs2 hy2 rfl

theorem outerLoop_spec (y0 : V) (fuel iter : ℕ) (y : V) (r : V × Bool × ℕ)
    (h : outerLoop ip A P b c y0 fuel iter y = .ok r) (hs : r.2.1 = true) :
    ∃ y1 d t n, 1 ≤ n ∧ n ≤ c.iMax + 1 ∧ GbitSteps A P b c y1 d t n ∧ r.1 = gpath y1 d t n ∧
      (c.simple = false → gbEps d n ≤ c.rho * ‖r.1‖ * c.tol) ∧
      (c.simple = true → r.1 ≠ y0 ∧ gbEps d n ≤ c.rho * c.tol * ‖r.1 - y0‖) := by
  induction fuel generalizing iter y with
  | zero => simp [outerLoop] at h
  | succ fuel ih =>
    rw [outerLoop] at h
    split at h
    · cases h
      simp only [Bool.and_eq_true] at hs
      have hm : [ip (P (b - A y)) (P (b - A y))] = [P (b - A y)].map fun d => ‖d‖ ^ 2 := by
        simp [ip, real_inner_self_eq_norm_sq]
      have := innerLoop_spec A P b c y0 y 0 iter y [P (b - A y)] [] _ (by rw [← hm]) rfl rfl
        ⟨rfl, fun i hi => by omega⟩ rfl hs.1
      exact ⟨y, this⟩
    · exact ih _ _ h

/-- Residual identity and secant condition of the good Broyden iteration. -/
theorem gbit_broyden {A P : V →ₗ[ℝ] V} {b : V} {c : Cfg} {y : V} {d : ℕ → V} {t : ℕ → ℝ} {n : ℕ}
    (h : GbitSteps A P b c y d t n) (hne : ∀ i < n, inner ℝ (d i) (gbH P d t i (A (d i))) ≠ 0) :
    (∀ i ≤ n, d i = gbH P d t i (b - A (gpath y d t i))) ∧
    (∀ i < n, gbH P d t (i + 1) (A (d i)) = d i) := by
  have hlin : ∀ i r s (a : ℝ), gbH P d t i (r + a • s) = gbH P d t i r + a • gbH P d t i s := by
    intro i
    induction i with
    | zero => intro r s a; simp [gbH]
    | succ i ih =>
      intro r s a
      rw [gbH, gbH, gbH, ih, inner_add_right, inner_smul_right, add_div, add_smul, smul_add, mul_div_assoc, mul_smul]
      abel
  have hdn : ∀ i < n, ‖d i‖ ^ 2 ≠ 0 := by
    intro i hi h0
    have : d i = 0 := by simpa using h0
    exact hne i hi (by rw [this, inner_zero_left])
  have hsec : ∀ i < n, gbH P d t (i + 1) (A (d i)) = d i := by
    intro i hi
    obtain ⟨tau, h1, _, h3⟩ := h.step i hi
    have h1 := h1 (hne i hi)
    have hd := hdn i hi
    have hz := hne i hi
    rw [gbH, h3]
    set z := gbH P d t i (A (d i))
    have htau : inner ℝ (d i) z / ‖d i‖ ^ 2 * tau = 1 := by
      rw [h1]; generalize ‖d i‖ ^ 2 = q at hd; field_simp
    have e : (1 - t i + tau) • d i - tau • z - (1 - t i) • d i = tau • (d i - z) := by
      rw [add_smul, smul_sub]; abel
    rw [e, smul_smul, htau, one_smul]
    abel
  refine ⟨fun i hi => ?_, hsec⟩
  induction i with
  | zero => exact h.start
  | succ i ih =>
    have ih := ih (by omega)
    obtain ⟨tau, h1, _, h3⟩ := h.step i (by omega)
    have h1 := h1 (hne i (by omega))
    have hd := hdn i (by omega)
    have hz := hne i (by omega)
    have hr : b - A (gpath y d t (i + 1)) = (b - A (gpath y d t i)) + (-t i) • A (d i) := by
      rw [gpath, map_add, map_smul, neg_smul]; abel
    rw [hr, hlin, hsec i (by omega), gbH, ← ih, real_inner_self_eq_norm_sq, div_self hd, one_smul]
    rw [neg_smul, sub_smul, one_smul]
    abel

end ipspace

end Funpy.Gbit
