import Verif.Lemmas.TrigCalc
import Verif.Lemmas.ListAux2
import Verif.Model.TrigArith
import Verif.Spec.Fourier

/-! Band-limited functions, interpolation of products, Fourier coefficients and `simplify`. -/

namespace Funpy.Trig
open Finset Complex Spec ComplexConjugate

/-- `F` is a trigonometric polynomial with wave numbers `|w| ≤ M`. -/
def Band (M : ℕ) (F : ℝ → ℂ) : Prop := ∃ h : List ℂ, h.length = 2 * M + 1 ∧ ∀ x, trigEval h x = F x

lemma band_of_fun (M : ℕ) (a : ℕ → ℂ) (F : ℝ → ℂ)
    (h : ∀ x, F x = ∑ k ∈ range (2 * M + 1), a k * cexp (I * Real.pi * (wave (2 * M + 1) k) * x)) :
    Band M F := by
  refine ⟨(List.range (2 * M + 1)).map a, by simp, ?_⟩
  intro x
  rw [trigEval_odd _ (by simp), h]
  simp only [List.length_map, List.length_range]
  apply sum_congr rfl
  intro k hk
  rw [getD_map_range, if_pos (mem_range.mp hk)]

lemma band_repr {M : ℕ} {F : ℝ → ℂ} (h : Band M F) : ∃ a : ℕ → ℂ, ∀ x,
    F x = ∑ k ∈ range (2 * M + 1), a k * cexp (I * Real.pi * (wave (2 * M + 1) k) * x) := by
  obtain ⟨l, hl, hx⟩ := h
  refine ⟨fun k => l.getD k 0, fun x => ?_⟩
  rw [← hx, trigEval_odd _ (by omega), hl]

lemma band_add {M : ℕ} {F G : ℝ → ℂ} (hF : Band M F) (hG : Band M G) : Band M fun x => F x + G x := by
  obtain ⟨a, ha⟩ := band_repr hF
  obtain ⟨b, hb⟩ := band_repr hG
  apply band_of_fun M fun k => a k + b k
  intro x
  rw [ha, hb, ← sum_add_distrib]
  apply sum_congr rfl; intros; ring

lemma band_smul {M : ℕ} {F : ℝ → ℂ} (hF : Band M F) (s : ℂ) : Band M fun x => s * F x := by
  obtain ⟨a, ha⟩ := band_repr hF
  apply band_of_fun M fun k => s * a k
  intro x
  rw [ha, mul_sum]
  apply sum_congr rfl; intros; ring

lemma band_zero (M : ℕ) : Band M fun _ => 0 := by
  apply band_of_fun M fun _ => 0
  intro x; simp

lemma band_sum {M : ℕ} {ι : Type*} (s : Finset ι) (F : ι → ℝ → ℂ) (h : ∀ i ∈ s, Band M (F i)) :
    Band M fun x => ∑ i ∈ s, F i x := by
  classical
  induction s using Finset.induction_on with
  | empty => simpa using band_zero M
  | insert i s hi ih =>
    simp only [sum_insert hi]
    exact band_add (h i (mem_insert_self _ _)) (ih fun j hj => h j (mem_insert_of_mem hj))

lemma band_mode (M : ℕ) (w : ℤ) (hw : |w| ≤ M) : Band M fun x => cexp (I * Real.pi * w * x) := by
  apply band_of_fun M fun k => if k = (w + M).toNat then 1 else 0
  intro x
  have hw' := abs_le.mp hw
  rw [sum_eq_single (w + M).toNat]
  · rw [if_pos rfl, one_mul]
    have : wave (2 * M + 1) (w + M).toNat = w := by unfold wave; omega
    rw [this]
  · intro k _ hk; rw [if_neg hk, zero_mul]
  · intro h; exfalso; apply h; rw [mem_range]; omega

lemma band_trigEval (c : List ℂ) (h : c.length % 2 = 1) : Band (c.length / 2) (trigEval c) :=
  ⟨c, by omega, fun _ => rfl⟩

lemma band_mul {M N : ℕ} {F G : ℝ → ℂ} (hF : Band M F) (hG : Band N G) :
    Band (M + N) fun x => F x * G x := by
  obtain ⟨a, ha⟩ := band_repr hF
  obtain ⟨b, hb⟩ := band_repr hG
  have : (fun x : ℝ => F x * G x) = fun x : ℝ => ∑ k ∈ range (2 * M + 1), ∑ l ∈ range (2 * N + 1),
      (a k * b l) * cexp (I * Real.pi * ((wave (2 * M + 1) k + wave (2 * N + 1) l : ℤ) : ℂ) * x) := by
    funext x
    rw [ha, hb, sum_mul_sum]
    apply sum_congr rfl; intro k _
    apply sum_congr rfl; intro l _
    rw [show a k * cexp (I * Real.pi * (wave (2 * M + 1) k) * x)
      * (b l * cexp (I * Real.pi * (wave (2 * N + 1) l) * x))
      = a k * b l * (cexp (I * Real.pi * (wave (2 * M + 1) k) * x) * cexp (I * Real.pi * (wave (2 * N + 1) l) * x)) by ring,
      ← Complex.exp_add]
    congr 2; push_cast; ring
  rw [this]
  apply band_sum
  intro k hk
  apply band_sum
  intro l hl
  apply band_smul
  apply band_mode
  have := mem_range.mp hk
  have := mem_range.mp hl
  rw [abs_le]
  unfold wave
  constructor <;> push_cast <;> omega

lemma band_mono {M N : ℕ} (h : M ≤ N) {F : ℝ → ℂ} (hF : Band M F) : Band N F := by
  obtain ⟨a, ha⟩ := band_repr hF
  rw [show F = _ from funext ha]
  apply band_sum
  intro k hk
  apply band_smul
  apply band_mode
  have := mem_range.mp hk
  rw [abs_le]; unfold wave
  constructor <;> omega

/-- Interpolation of a band-limited function on an odd grid is exact. -/
lemma band_interp {M : ℕ} {F : ℝ → ℂ} (hF : Band M F) (v : List ℂ) (hv : v.length = 2 * M + 1)
    (h : ∀ j < v.length, v.getD j 0 = F (equi v.length j)) (x : ℝ) : trigEval (vals2coeffs v) x = F x := by
  obtain ⟨l, hl, hx⟩ := hF
  have : v = coeffs2vals l := by
    apply ext_getD 0 (by rw [coeffs2vals_length]; omega)
    intro j hj
    rw [h j hj, ← trigEval_grid _ _ (by omega), hx, hv, hl]
  rw [this, vals2coeffs_coeffs2vals, hx]

/-! ### Fourier coefficients -/

lemma fourier_mode (u w : ℤ) : fourier (fun x => cexp (I * Real.pi * u * x)) w = if u = w then 1 else 0 := by
  unfold fourier
  have : (fun x : ℝ => cexp (I * Real.pi * u * x) * cexp (-(I * Real.pi * w * x)))
      = fun x : ℝ => cexp (I * Real.pi * ((u - w : ℤ) : ℂ) * x) := by
    funext x; rw [← Complex.exp_add]; congr 1; push_cast; ring
  rw [this, integral_mode]
  by_cases h : u = w
  · simp [h]
  · rw [if_neg (by omega), if_neg h]; simp

lemma fourier_sum (n : ℕ) (a : ℕ → ℂ) (u : ℕ → ℤ) (w : ℤ) :
    fourier (fun x => ∑ k ∈ range n, a k * cexp (I * Real.pi * (u k) * x)) w
      = ∑ k ∈ range n, if u k = w then a k else 0 := by
  have h1 : ∀ k, (if u k = w then a k else 0) = a k * fourier (fun x => cexp (I * Real.pi * (u k) * x)) w := by
    intro k; rw [fourier_mode]; split_ifs <;> simp
  simp only [h1]
  unfold fourier
  simp only [sum_mul]
  rw [intervalIntegral.integral_finsetSum]
  · rw [sum_div]
    apply sum_congr rfl
    intro k _
    simp only [mul_assoc, intervalIntegral.integral_const_mul, mul_div_assoc]
  · intro k _
    apply Continuous.intervalIntegrable
    fun_prop

lemma fourier_odd (c : List ℂ) (hc : c.length % 2 = 1) (w : ℤ) :
    fourier (trigEval c) w = if 0 ≤ w + (c.length / 2 : ℕ) then c.getD (w + (c.length / 2 : ℕ)).toNat 0 else 0 := by
  rw [show trigEval c = _ from funext (trigEval_odd c hc), fourier_sum]
  split_ifs with h
  · by_cases h2 : (w + (c.length / 2 : ℕ)).toNat < c.length
    · rw [sum_eq_single (w + (c.length / 2 : ℕ)).toNat]
      · rw [if_pos (by unfold wave; omega)]
      · intro k _ hk; rw [if_neg (by unfold wave; omega)]
      · intro h3; exact absurd (mem_range.mpr h2) h3
    · rw [getD_ge' _ _ _ (by omega)]
      apply sum_eq_zero
      intro k hk
      have := mem_range.mp hk
      rw [if_neg (by unfold wave; omega)]
  · apply sum_eq_zero
    intro k hk
    rw [if_neg (by unfold wave; omega)]

/-- The central slice of width `2k-1` is the partial sum. -/
lemma slice_eval (e : List ℂ) (he : e.length % 2 = 1) (k : ℕ) (hk : 1 ≤ k) (hk2 : k ≤ (e.length + 1) / 2) :
    ((e.take ((e.length + 1) / 2 + k - 1)).drop ((e.length + 1) / 2 - k)).length = 2 * k - 1 ∧ ∀ x,
    trigEval ((e.take ((e.length + 1) / 2 + k - 1)).drop ((e.length + 1) / 2 - k)) x
      = partialSum (trigEval e) k x := by
  have hl : ((e.take ((e.length + 1) / 2 + k - 1)).drop ((e.length + 1) / 2 - k)).length = 2 * k - 1 := by
    simp; omega
  refine ⟨hl, fun x => ?_⟩
  rw [trigEval_odd _ (by omega), hl]
  unfold partialSum
  refine sum_nbij' (fun j => (j : ℤ) - (k - 1 : ℕ)) (fun w => (w + (k - 1 : ℕ)).toNat) ?_ ?_ ?_ ?_ ?_
  · intro j hj; have := mem_range.mp hj; rw [mem_Ioo]; omega
  · intro w hw; have := mem_Ioo.mp hw; rw [mem_range]; omega
  · intro j hj; have := mem_range.mp hj; omega
  · intro w hw; have := mem_Ioo.mp hw; omega
  · intro j hj
    have := mem_range.mp hj
    rw [fourier_odd e he, if_pos (by omega)]
    have hw : wave (2 * k - 1) j = (j : ℤ) - (k - 1 : ℕ) := by unfold wave; omega
    rw [hw]
    congr 1
    rw [getD_lt' _ _ _ (by omega), List.getElem_drop, List.getElem_take, getD_lt' _ _ _ (by omega)]
    congr 1
    omega

/-- A partial sum containing all modes is the function. -/
lemma partialSum_all (c : List ℂ) (hc : c.length % 2 = 1) (k : ℕ) (hk : c.length / 2 < k) (x : ℝ) :
    partialSum (trigEval c) k x = trigEval c x := by
  rw [trigEval_odd c hc]
  unfold partialSum
  symm
  apply sum_of_injOn (fun j : ℕ => (wave c.length j))
  · intro a _ b _ h; simp only [wave] at h; omega
  · intro j hj
    have := mem_range.mp (mem_coe.mp hj)
    simp only [mem_coe, mem_Ioo, wave]; omega
  · intro w _ hw
    rw [fourier_odd c hc]
    split_ifs with h
    · rw [getD_ge', zero_mul]
      by_contra hlt
      apply hw
      refine ⟨(w + (c.length / 2 : ℕ)).toNat, ?_, ?_⟩
      · simp only [mem_coe, mem_range]; omega
      · simp only [wave]; omega
    · rw [zero_mul]
  · intro j hj
    have := mem_range.mp hj
    rw [fourier_odd c hc, if_pos (by unfold wave; omega)]
    congr 2
    unfold wave; omega

/-! ### `simplify_coeffs` -/

lemma simplifyLen_bounds (n : ℕ) : 17 ≤ simplifyLen n ∧ n + 5 ≤ simplifyLen n := by
  unfold simplifyLen pyRound
  simp only []
  constructor
  · exact le_max_left _ _
  · apply le_trans _ (le_max_right _ _)
    split_ifs <;> omega

lemma prolong_pad (c : List ℂ) (hc : c.length ≠ 0) (N : ℕ) (h : c.length + 3 ≤ N) :
    prolongCol c N = padTo (splitEven c) N := by
  have hl := splitEven_length c hc
  unfold prolongCol
  simp only []
  rw [if_neg (by omega), if_neg (by split_ifs at hl <;> omega), if_pos (by split_ifs at hl <;> omega)]

lemma putBack_pad (e : List ℂ) (he : e.length % 2 = 1) (N : ℕ) (h : e.length + 2 ≤ N) :
    (putBack (padTo e N)).length = (if N % 2 = 0 then N + 1 else N) ∧
    ∀ x, trigEval (putBack (padTo e N)) x = trigEval e x := by
  have hl := padTo_length e N (by omega)
  by_cases hN : N % 2 = 0
  swap
  · have : putBack (padTo e N) = padTo e N := by unfold putBack; rw [hl, if_neg hN]
    rw [this, if_neg hN]
    exact ⟨hl, fun x => padTo_eval e he N (by omega) x⟩
  · have h0 : (padTo e N).getD 0 0 = 0 := by
      simp only [padTo]
      rw [getD_append', if_pos (by simp; omega), getD_append', if_pos (by simp; omega), getD_replicate']
    have hlast : (padTo e N).getD (N - 1) 0 = 0 := by
      simp only [padTo]
      rw [getD_append', if_neg (by simp; omega), getD_replicate']
    have : putBack (padTo e N) = splitEven (padTo e N) := by
      unfold putBack splitEven
      rw [hl, if_pos hN, if_pos hN, h0, hlast]
    rw [this, splitEven_length _ (by omega), hl, if_pos hN]
    exact ⟨rfl, fun x => by rw [splitEven_eval _ (by omega), padTo_eval e he N (by omega)]⟩

lemma foldl_max_ge {α : Type*} (f : α → ℕ) (l : List α) (m : ℕ) : m ≤ l.foldl (fun m c => max m (f c)) m := by
  induction l generalizing m with
  | nil => simp
  | cons a l ih => simp only [List.foldl_cons]; exact (le_max_left _ _).trans (ih _)

lemma simplifyCutoff_bounds (n : ℕ) (hn : n ≠ 0) (cols : List (List ℂ)) (eps : ℝ) :
    1 ≤ simplifyCutoff n cols eps ∧ 2 * simplifyCutoff n cols eps - 1 ≤ n + 1 ∧
    (n % 2 = 1 → 2 * simplifyCutoff n cols eps - 1 ≤ n) := by
  unfold simplifyCutoff
  simp only []
  have := foldl_max_ge (fun c => Cheb.standardChopAbs ((foldedAbs c).map fun z => ‖z‖) eps) cols 1
  set K := cols.foldl (fun m c => max m (Cheb.standardChopAbs ((foldedAbs c).map fun z => ‖z‖) eps)) 1
  have h1 : 1 ≤ min K n := by simp; omega
  have h2 : min K n ≤ n := min_le_right _ _
  split_ifs <;> omega

/-- `simplify_coeffs` returns the partial sums of width `2k-1`. -/
lemma simplifyCols_eval (n : ℕ) (hn : n ≠ 0) (cols : List (List ℂ)) (eps : ℝ) (h : ∀ c ∈ cols, c.length = n) :
    let k := (simplifyCols n cols eps).2
    1 ≤ k ∧ 2 * k - 1 ≤ n + 1 ∧ (n % 2 = 1 → 2 * k - 1 ≤ n) ∧
    (simplifyCols n cols eps).1.length = cols.length ∧
    ∀ i < cols.length, ((simplifyCols n cols eps).1.getD i []).length = 2 * k - 1 ∧
      ∀ x, trigEval ((simplifyCols n cols eps).1.getD i []) x = partialSum (trigEval (cols.getD i [])) k x := by
  intro k
  obtain ⟨b1, b2, b3⟩ := simplifyCutoff_bounds n hn (cols.map fun c => prolongCol c (simplifyLen n)) eps
  have hk : k = simplifyCutoff n (cols.map fun c => prolongCol c (simplifyLen n)) eps := rfl
  rw [← hk] at b1 b2 b3
  refine ⟨b1, b2, b3, by simp [simplifyCols], ?_⟩
  intro i hi
  have hN := simplifyLen_bounds n
  have hcl : (cols.getD i []).length = n := by
    rw [getD_lt' _ _ _ hi]; exact h _ (List.getElem_mem hi)
  have hc0 : (cols.getD i []).length ≠ 0 := by omega
  have hsl := splitEven_length _ hc0
  have hodd := splitEven_odd _ hc0
  have e1 : (simplifyCols n cols eps).1.getD i [] =
      (((putBack (padTo (splitEven (cols.getD i [])) (simplifyLen n))).take
        (((putBack (padTo (splitEven (cols.getD i [])) (simplifyLen n))).length + 1) / 2 + k - 1)).drop
        (((putBack (padTo (splitEven (cols.getD i [])) (simplifyLen n))).length + 1) / 2 - k)) := by
    unfold simplifyCols
    simp only []
    rw [getD_map_lt _ [] _ _ _ (by simpa using hi), getD_map_lt _ [] _ _ _ hi,
      prolong_pad _ hc0 _ (by omega)]
    rw [hk]
  have hp := putBack_pad _ hodd (simplifyLen n) (by split_ifs at hsl <;> omega)
  have hs := slice_eval (putBack (padTo (splitEven (cols.getD i [])) (simplifyLen n)))
    (by rw [hp.1]; split_ifs <;> omega) k b1 (by rw [hp.1]; split_ifs <;> omega)
  rw [e1]
  refine ⟨hs.1, fun x => ?_⟩
  rw [hs.2]
  congr 1
  funext y
  rw [hp.2, splitEven_eval _ hc0]

end Funpy.Trig
