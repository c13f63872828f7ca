import Verif.Lemmas.TrigArith
import Verif.Lemmas.TrigTol
import Verif.Lemmas.ChebChop

/-! What `simplify_coeffs` drops, and error bounds for partial sums of trigonometric polynomials. -/

namespace Funpy.Trig
open Finset Complex Spec ComplexConjugate

lemma getD_flatMap_dup (l : List ℂ) (i : ℕ) : (l.flatMap fun z => [z, z]).getD i 0 = l.getD (i / 2) 0 := by
  induction l generalizing i with
  | nil => simp
  | cons a l ih =>
    rw [List.flatMap_cons]
    rcases i with _ | _ | i
    · rfl
    · rfl
    · rw [getD_append', if_neg (by simp)]
      simp only [List.length_cons, List.length_nil]
      rw [show i + 1 + 1 - (0 + 1 + 1) = i by omega, ih, show (i + 1 + 1) / 2 = i / 2 + 1 by omega, List.getD_cons_succ]

lemma getD_reverse' (l : List ℂ) (i : ℕ) (h : i < l.length) : l.reverse.getD i 0 = l.getD (l.length - 1 - i) 0 := by
  rw [getD_lt' _ _ _ (by simpa using h), getD_lt' _ _ _ (by omega), List.getElem_reverse]

lemma length_flatMap_dup (l : List ℂ) : (l.flatMap fun z => [z, z]).length = 2 * l.length := by
  induction l with
  | nil => simp
  | cons a l ih => rw [List.flatMap_cons, List.length_append, ih]; simp; ring

/-- The folded moduli: both entries of the mode `±w`. -/
lemma foldedAbs_getD (c : List ℂ) (hc : c.length ≠ 0) :
    (foldedAbs c).length = (if c.length % 2 = 0 then c.length + 1 else c.length) ∧
    ∀ w, 1 ≤ w → 2 * w < c.length → ∀ i, i = 2 * w - 1 ∨ i = 2 * w →
      (foldedAbs c).getD i 0 = ((‖c.getD (c.length / 2 + w) 0‖ + ‖c.getD (c.length / 2 - w) 0‖ : ℝ) : ℂ) := by
  set a := c.reverse.map fun z => ((‖z‖ : ℝ) : ℂ) with ha
  have hal : a.length = c.length := by simp [ha]
  have hag : ∀ j < c.length, a.getD j 0 = ((‖c.getD (c.length - 1 - j) 0‖ : ℝ) : ℂ) := by
    intro j hj
    rw [ha, getD_map_lt _ 0 _ _ _ (by simpa using hj), getD_reverse' _ _ hj]
  have key : ∀ s : List ℂ, (∀ w, 1 ≤ w → 2 * w < c.length → s.getD (s.length - 1 - w) 0 =
        ((‖c.getD (c.length / 2 + w) 0‖ + ‖c.getD (c.length / 2 - w) 0‖ : ℝ) : ℂ)) →
      s.length = c.length / 2 + 1 →
      ([s.reverse.getD 0 0] ++ (s.reverse.drop 1).flatMap fun z => [z, z]).length = (if c.length % 2 = 0 then c.length + 1 else c.length) ∧
      ∀ w, 1 ≤ w → 2 * w < c.length → ∀ i, i = 2 * w - 1 ∨ i = 2 * w →
      ([s.reverse.getD 0 0] ++ (s.reverse.drop 1).flatMap fun z => [z, z]).getD i 0
        = ((‖c.getD (c.length / 2 + w) 0‖ + ‖c.getD (c.length / 2 - w) 0‖ : ℝ) : ℂ) := by
    intro s hs hsl
    constructor
    · rw [List.length_append, length_flatMap_dup]
      simp only [List.length_cons, List.length_nil, List.length_drop, List.length_reverse, hsl]
      split_ifs <;> omega
    · intro w hw hwc i hi
      rw [getD_append', if_neg (by simp; omega), getD_flatMap_dup]
      simp only [List.length_cons, List.length_nil]
      have e : (i - (0 + 1)) / 2 = w - 1 := by omega
      rw [e, getD_lt' _ _ _ (by simp; omega), List.getElem_drop, ← getD_lt' _ 0 _ (by simp; omega),
        show 1 + (w - 1) = w by omega, getD_reverse' _ _ (by omega), hs w hw hwc]
  unfold foldedAbs
  simp only [vals2coeffs_coeffs2vals, ← ha, hal]
  by_cases h : c.length % 2 = 0
  · rw [if_pos h]
    apply key
    · intro w hw hwc
      rw [getD_append', if_pos (by simp; omega), getD_append', if_neg (by simp; omega)]
      simp only [List.length_append, List.length_map, List.length_range, List.length_cons, List.length_nil]
      rw [getD_map_range, if_pos (by omega), hag _ (by omega), hag _ (by omega), ← ofReal_add]
      congr 1
      rw [add_comm ‖_‖ ‖_‖]
      congr 3 <;> omega
    · simp; omega
  · rw [if_neg h]
    apply key
    · intro w hw hwc
      rw [getD_append', if_pos (by simp; omega)]
      simp only [List.length_append, List.length_map, List.length_range, List.length_cons, List.length_nil]
      rw [getD_map_range, if_pos (by omega), hag _ (by omega), hag _ (by omega), ← ofReal_add]
      congr 1
      rw [add_comm ‖_‖ ‖_‖]
      congr 3 <;> omega
    · simp; omega

lemma padTo_getD (e : List ℂ) (he : e.length % 2 = 1) (N : ℕ) (h : e.length + 2 ≤ N) (w : ℤ)
    (hw : |w| ≤ (e.length / 2 : ℕ)) :
    (padTo e N).getD (w + (N / 2 : ℕ)).toNat 0 = e.getD (w + (e.length / 2 : ℕ)).toNat 0 := by
  have := abs_le.mp hw
  simp only [padTo]
  rw [getD_append', if_pos (by simp; omega), getD_append', if_neg (by simp; omega)]
  congr 1
  simp only [List.length_replicate]
  omega

lemma foldl_max_mem {α : Type*} (f : α → ℕ) (l : List α) (m : ℕ) (a : α) (ha : a ∈ l) :
    f a ≤ l.foldl (fun m c => max m (f c)) m := by
  induction l generalizing m with
  | nil => simp at ha
  | cons b l ih =>
    simp only [List.foldl_cons]
    rcases List.mem_cons.mp ha with rfl | h
    · exact (le_max_right _ _).trans (foldl_max_ge f l _)
    · exact ih _ h

/-- Every mode dropped by `simplify_coeffs` is small. -/
lemma simplify_dropped (n : ℕ) (hn : n ≠ 0) (cols : List (List ℂ)) (eps : ℝ) (h0 : 0 < eps) (h1 : eps < 1)
    (h : ∀ c ∈ cols, c.length = n) (c : List ℂ) (hc : c ∈ cols) (w : ℕ) (hw : (simplifyCols n cols eps).2 ≤ w) :
    ‖fourier (trigEval c) w‖ + ‖fourier (trigEval c) (-w)‖ ≤ eps ^ ((1 : ℝ) / 3) := by
  have hcl := h c hc
  have hc0 : c.length ≠ 0 := by omega
  have hsl := splitEven_length c hc0
  have hodd := splitEven_odd c hc0
  have hδ : (0 : ℝ) ≤ eps ^ ((1 : ℝ) / 3) := by positivity
  have hN := simplifyLen_bounds n
  set e := splitEven c with he
  set N := simplifyLen n with hNd
  have hle : e.length ≤ n + 1 := by split_ifs at hsl <;> omega
  have hev : fourier (trigEval c) = fourier (trigEval e) := by
    rw [show trigEval c = trigEval e from (funext (splitEven_eval c hc0)).symm]
  rw [hev]
  obtain ⟨b1, -, -⟩ := simplifyCutoff_bounds n hn (cols.map fun c => prolongCol c N) eps
  have hw' : simplifyCutoff n (cols.map fun c => prolongCol c N) eps ≤ w := hw
  by_cases hbig : e.length / 2 < w
  · rw [fourier_odd e hodd, fourier_odd e hodd, if_pos (by omega), if_neg (by omega), getD_ge' _ _ _ (by omega)]
    simpa using hδ
  push Not at hbig
  set p := prolongCol c N with hp
  have hpp : p = padTo e N := prolong_pad c hc0 N (by omega)
  have hpl : p.length = N := by rw [hpp]; exact padTo_length _ _ (by omega)
  obtain ⟨fl, fg⟩ := foldedAbs_getD p (by omega)
  rw [hpl] at fl fg
  set F := (foldedAbs p).map fun z => ‖z‖ with hF
  have hFl : F.length = (foldedAbs p).length := by simp [hF]
  have hK : Cheb.standardChopAbs F eps < 2 * w := by
    have hm := foldl_max_mem (fun c => Cheb.standardChopAbs ((foldedAbs c).map fun z => ‖z‖) eps)
      (cols.map fun c => prolongCol c N) 1 p (List.mem_map_of_mem hc)
    unfold simplifyCutoff at hw'
    simp only [] at hw' hm
    set K := (cols.map fun c => prolongCol c N).foldl
      (fun m c => max m (Cheb.standardChopAbs ((foldedAbs c).map fun z => ‖z‖) eps)) 1
    have hm' : Cheb.standardChopAbs F eps ≤ K := hm
    rcases le_total K n with hKn | hKn
    · rw [min_eq_left hKn] at hw'
      split_ifs at hw' <;> omega
    · rw [min_eq_right hKn] at hw'
      split_ifs at hw' hsl <;> omega
  have hspec := Cheb.standardChopAbs_spec F (by
    intro i hi
    rw [getD_lt' _ _ _ hi]
    simp [hF]) eps h0 h1 17 (by norm_num)
  have hlen : 2 * w < F.length := by rw [hFl, fl]; split_ifs <;> omega
  rcases hspec with hs | ⟨-, hs⟩
  · omega
  have := hs (2 * w) hK hlen
  rw [getD_lt' _ _ _ hlen] at this
  simp only [hF, List.getElem_map] at this
  rw [← getD_lt' _ 0 _ (by rw [← hFl]; exact hlen), fg w (by omega) (by omega) _ (Or.inr rfl), Complex.norm_real,
    Real.norm_of_nonneg (by positivity)] at this
  rw [fourier_odd e hodd, fourier_odd e hodd, if_pos (by omega), if_pos (by omega),
    ← padTo_getD e hodd N (by omega) w (by rw [abs_of_nonneg (by omega)]; omega),
    ← padTo_getD e hodd N (by omega) (-w) (by rw [abs_neg, abs_of_nonneg (by omega)]; omega), ← hpp]
  convert this using 4 <;> omega

end Funpy.Trig
