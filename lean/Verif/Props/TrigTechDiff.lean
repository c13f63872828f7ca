import Verif.Model.TrigTechDiff
import Verif.Props.TrigColloc

/-!
# C122: the trigonometric differentiation matrix of trigtech
-/

namespace Funpy.Props
namespace TDiff
end TDiff
open Spec Trig Finset Complex TCol TDiff

/-! ### Kernels given by a symbol -/

/-- The kernel with symbol `s`. -/
noncomputable def TDiff.kernS (s : ℕ → ℂ) (n : ℕ) (z : ℤ) : ℂ := (∑ k ∈ range n, s k * rou n (wave n k * z)) / n

/-- The coefficient of the opposite frequency. -/
def TDiff.refl (n k : ℕ) : ℕ := if n % 2 = 0 then (if k = 0 then 0 else n - k) else n - 1 - k

lemma TDiff.refl_lt {n k : ℕ} (hk : k < n) : refl n k < n := by
  unfold refl; split_ifs <;> omega

lemma TDiff.refl_refl {n k : ℕ} (hk : k < n) : refl n (refl n k) = k := by
  unfold refl; split_ifs <;> omega

lemma TDiff.wave_refl {n k : ℕ} (hk : k < n) (h : ¬ (n % 2 = 0 ∧ k = 0)) : wave n (refl n k) = -wave n k := by
  unfold refl wave; split_ifs <;> omega

lemma TDiff.rou_refl {n k : ℕ} (hk : k < n) (z : ℤ) : rou n (wave n (refl n k) * z) = rou n (wave n k * -z) := by
  by_cases h : n % 2 = 0 ∧ k = 0
  · apply rou_mod n (by omega)
    obtain ⟨h1, rfl⟩ := h
    have e : refl n 0 = 0 := by unfold refl; rw [if_pos h1, if_pos rfl]
    rw [e]
    unfold wave
    refine ⟨-z, ?_⟩
    have : ((n / 2 : ℕ) : ℤ) * 2 = n := by omega
    push_cast at this ⊢
    linear_combination (-z) * this
  · rw [wave_refl hk h]
    congr 1
    ring

lemma TDiff.sum_refl (n : ℕ) (f : ℕ → ℂ) : ∑ k ∈ range n, f (refl n k) = ∑ k ∈ range n, f k :=
  sum_nbij' (refl n) (refl n) (fun k hk => mem_range.2 (refl_lt (mem_range.1 hk))) (fun k hk => mem_range.2 (refl_lt (mem_range.1 hk)))
    (fun k hk => refl_refl (mem_range.1 hk)) (fun k hk => refl_refl (mem_range.1 hk)) (fun _ _ => rfl)

lemma TDiff.kernS_neg (s : ℕ → ℂ) (n : ℕ) (ε : ℂ) (hs : ∀ k < n, s (refl n k) = ε * s k) (z : ℤ) :
    kernS s n (-z) = ε * kernS s n z := by
  unfold kernS
  rw [← mul_div_assoc, mul_sum, ← sum_refl n fun k => s k * rou n (wave n k * -z)]
  congr 1
  refine sum_congr rfl fun k hk => ?_
  rw [hs k (mem_range.1 hk), rou_refl (mem_range.1 hk), neg_neg, mul_assoc]

lemma TDiff.conj_rou (n : ℕ) (z : ℤ) : (starRingEnd ℂ) (rou n z) = rou n (-z) := by
  unfold rou
  rw [← Complex.exp_conj]
  congr 1
  simp only [map_div₀, map_mul, Complex.conj_I, Complex.conj_ofReal, map_ofNat, map_intCast, map_natCast]
  push_cast
  ring

lemma TDiff.kernS_real (s : ℕ → ℂ) (n : ℕ) (hs : ∀ k < n, s (refl n k) = (starRingEnd ℂ) (s k)) (z : ℤ) :
    ((kernS s n z).re : ℂ) = kernS s n z := by
  rw [← Complex.conj_eq_iff_re]
  unfold kernS
  rw [map_div₀, map_sum, Complex.conj_natCast, ← sum_refl n fun k => s k * rou n (wave n k * z)]
  congr 1
  refine sum_congr rfl fun k hk => ?_
  rw [hs k (mem_range.1 hk), rou_refl (mem_range.1 hk), map_mul, conj_rou]
  congr 2
  ring

lemma TDiff.kernS_apply (s : ℕ → ℂ) (n k : ℕ) (hk : k < n) (j : ℤ) :
    ∑ l ∈ range n, kernS s n (j - l) * rou n (wave n k * l) = s k * rou n (wave n k * j) := by
  have hn : n ≠ 0 := by omega
  have hnc : (n : ℂ) ≠ 0 := by exact_mod_cast hn
  unfold kernS
  simp only [div_mul_eq_mul_div, sum_mul, ← sum_div]
  rw [sum_comm, div_eq_iff hnc]
  have : ∀ k' ∈ range n, ∑ l ∈ range n, s k' * rou n (wave n k' * (j - l)) * rou n (wave n k * l)
      = if k' = k then s k * rou n (wave n k * j) * n else 0 := by
    intro k' hk'
    rw [mem_range] at hk'
    have e : ∀ l : ℕ, s k' * rou n (wave n k' * (j - l)) * rou n (wave n k * l)
        = s k' * rou n (wave n k' * j) * rou n ((wave n k - wave n k') * l) := by
      intro l
      rw [mul_assoc, ← rou_add, mul_assoc, ← rou_add]
      congr 2
      ring
    simp only [e, ← mul_sum, sum_rou n hn]
    by_cases h : k' = k
    · subst h; simp
    · rw [if_neg h, if_neg, mul_zero]
      unfold wave
      rintro ⟨q, hq⟩
      have : (k : ℤ) - k' = n * q := by rw [← hq]; ring
      have h1 : |((k : ℤ) - k')| < n := by rw [abs_lt]; constructor <;> omega
      have := Int.eq_zero_of_abs_lt_dvd ⟨q, this⟩ h1
      omega
  rw [sum_congr rfl this, sum_ite_eq' (range n) k, if_pos (mem_range.mpr hk)]

/-- A matrix with the kernel of symbol `s`, applied to the values of a Fourier series. -/
lemma TDiff.mat_apply (c : List ℂ) (m : ℕ) (s : ℕ → ℂ) (hn : 1 ≤ c.length) (D : Matrix (Fin c.length) (Fin c.length) ℝ)
    (hD : ∀ i j : Fin c.length, (D i j : ℂ) = Real.pi ^ m * kernS s c.length ((i : ℤ) - j)) (j : Fin c.length) :
    ∑ l : Fin c.length, (D j l : ℂ) * trigEval c (equi c.length l) = ∑ k ∈ range c.length,
      c.getD k 0 * (Real.pi ^ m * s k * ((-1) ^ wave c.length k * rou c.length (wave c.length k * j))) := by
  simp only [hD]
  rw [Fin.sum_univ_eq_sum_range (fun l => (Real.pi : ℂ) ^ m * kernS s c.length ((j : ℤ) - l) * trigEval c (equi c.length l))]
  have e2 : ∀ l ∈ range c.length, (Real.pi : ℂ) ^ m * kernS s c.length ((j : ℤ) - l) * trigEval c (equi c.length l)
      = ∑ k ∈ range c.length, (Real.pi : ℂ) ^ m * c.getD k 0 * (-1) ^ wave c.length k *
        (kernS s c.length ((j : ℤ) - l) * rou c.length (wave c.length k * l)) := by
    intro l _
    rw [trigEval, mul_sum]
    refine sum_congr rfl fun k _ => ?_
    rw [trigMode_grid _ (by omega)]
    ring
  rw [sum_congr rfl e2, sum_comm]
  refine sum_congr rfl fun k hk => ?_
  rw [← mul_sum, kernS_apply _ _ _ (mem_range.mp hk)]
  ring

/-! ### The symbols -/

/-- The symbol of the code for `k ≥ 3`: the unpaired mode is dropped. -/
noncomputable def TDiff.mu0 (n m k : ℕ) : ℂ := if n % 2 = 0 ∧ k = 0 then 0 else (I * (wave n k : ℂ)) ^ m

lemma TDiff.mu0_refl (n m k : ℕ) (hk : k < n) : mu0 n m (refl n k) = (-1) ^ m * mu0 n m k := by
  unfold mu0
  by_cases h : n % 2 = 0 ∧ k = 0
  · have e : refl n k = 0 := by unfold refl; rw [if_pos h.1, if_pos h.2]
    rw [if_pos h, if_pos ⟨h.1, e⟩, mul_zero]
  · have h' : ¬ (n % 2 = 0 ∧ refl n k = 0) := by
      unfold refl; split_ifs <;> omega
    rw [if_neg h, if_neg h', wave_refl hk h]
    push_cast
    rw [mul_neg, neg_pow]

lemma TDiff.mu0_conj (n m k : ℕ) (hk : k < n) : mu0 n m (refl n k) = (starRingEnd ℂ) (mu0 n m k) := by
  rw [mu0_refl n m k hk]
  unfold mu0
  split_ifs with h
  · simp
  · rw [map_pow, map_mul, Complex.conj_I, map_intCast, neg_mul, neg_pow (I * (wave n k : ℂ))]

lemma TDiff.mu_refl (n m k : ℕ) (hk : k < n) : mu n m (refl n k) = (-1) ^ m * mu n m k := by
  unfold mu
  by_cases h : n % 2 = 0 ∧ k = 0
  · have e : refl n k = k := by unfold refl; rw [if_pos h.1, if_pos h.2, h.2]
    rw [e]
    split_ifs with h2
    · rw [mul_zero]
    · have : Even m := by rw [Nat.even_iff]; by_contra hm; exact h2 ⟨h.1, h.2, by omega⟩
      rw [this.neg_one_pow, one_mul]
  · have h' : ¬ (n % 2 = 0 ∧ refl n k = 0) := by
      unfold refl; split_ifs <;> omega
    rw [if_neg (fun h2 => h' ⟨h2.1, h2.2.1⟩), if_neg (fun h2 => h ⟨h2.1, h2.2.1⟩), wave_refl hk h]
    push_cast
    rw [mul_neg, neg_pow]

/-! ### The columns -/

lemma TDiff.spacing_half (n q : ℕ) : ((q : ℝ) + 1) * TrigTechDiff.spacing n / 2 = Real.pi * ((q + 1 : ℕ) : ℝ) / n := by
  unfold TrigTechDiff.spacing; push_cast; ring

/-- The entries of the mirrored vector, for a function which is symmetric up to the sign `s`. -/
lemma TDiff.mirror_getD (n : ℕ) (s : ℝ) (f : ℝ → ℝ) (hf : ∀ v : ℕ, 0 < v → v < n → s * f (Real.pi * (n - v : ℕ) / n) = f (Real.pi * v / n))
    (v : ℕ) (h0 : 0 < v) (hv : v < n) :
    (TrigTechDiff.mirror n s ((TrigTechDiff.grid n).map f)).length = n - 1 ∧
    (TrigTechDiff.mirror n s ((TrigTechDiff.grid n).map f)).getD (v - 1) 0 = f (Real.pi * v / n) := by
  unfold TrigTechDiff.mirror TrigTechDiff.grid TrigTechDiff.n1 TrigTechDiff.n2
  have hl : ((List.map f (List.map (fun q : ℕ => ((q : ℝ) + 1) * TrigTechDiff.spacing n / 2) (List.range (n / 2))))).length = n / 2 := by simp
  constructor
  · simp only [List.length_append, List.length_map, List.length_reverse, List.length_take, List.length_range]
    omega
  · rw [getD_append', hl]
    split_ifs with h
    · rw [getD_lt' _ _ _ (by rw [hl]; exact h)]
      simp only [List.getElem_map, List.getElem_range, spacing_half]
      rw [Nat.sub_add_cancel h0]
    · have h2 : v - 1 - n / 2 < (n - 1) / 2 := by omega
      rw [getD_lt' _ _ _ (by simp only [List.length_map, List.length_reverse, List.length_take, List.length_range]; omega)]
      simp only [List.getElem_map, List.getElem_reverse, List.getElem_take, List.getElem_range, List.length_map, List.length_take,
        List.length_range, spacing_half]
      rw [← hf v h0 hv]
      have : min ((n - 1) / 2) (n / 2) - 1 - (v - 1 - n / 2) + 1 = n - v := by omega
      rw [this]

lemma TDiff.getD_zipWith (f : ℝ → ℝ → ℝ) (a b : List ℝ) (v : ℕ) (ha : v < a.length) (hb : v < b.length) :
    (List.zipWith f a b).getD v 0 = f (a.getD v 0) (b.getD v 0) := by
  rw [getD_lt' _ _ _ (by rw [List.length_zipWith]; omega), getD_lt' _ _ _ ha, getD_lt' _ _ _ hb, List.getElem_zipWith]

lemma TDiff.sgn_getD (n v : ℕ) (h0 : 0 < v) (hv : v < n) : (TrigTechDiff.sgn n).getD (v - 1) 0 = (-1) ^ v := by
  unfold TrigTechDiff.sgn
  rw [getD_lt' _ _ _ (by simp; omega)]
  simp only [List.getElem_map, List.getElem_range]
  rw [Nat.sub_add_cancel h0]

lemma TDiff.col_aux (n : ℕ) (a s c0 : ℝ) (f : ℝ → ℝ)
    (hf : ∀ v : ℕ, 0 < v → v < n → s * f (Real.pi * (n - v : ℕ) / n) = f (Real.pi * v / n)) (v : ℕ) (h0 : 0 < v) (hv : v < n) :
    (c0 :: List.zipWith (fun s t => a * s * t) (TrigTechDiff.sgn n) (TrigTechDiff.mirror n s ((TrigTechDiff.grid n).map f))).getD v 0
      = a * (-1) ^ v * f (Real.pi * v / n) := by
  obtain ⟨hl, hg⟩ := mirror_getD n s f hf v h0 hv
  obtain ⟨w, rfl⟩ : ∃ w, v = w + 1 := ⟨v - 1, by omega⟩
  rw [List.getD_cons_succ, getD_zipWith _ _ _ _ (by simp [TrigTechDiff.sgn]; omega) (by rw [hl]; omega)]
  have h1 := sgn_getD n (w + 1) h0 hv
  rw [Nat.add_sub_cancel] at h1 hg
  rw [h1, hg]

lemma TDiff.pi_sub (n v : ℕ) (hv : v < n) : Real.pi * ((n - v : ℕ) : ℝ) / n = Real.pi - Real.pi * v / n := by
  have hn : (n : ℝ) ≠ 0 := by exact_mod_cast (by omega : n ≠ 0)
  rw [Nat.cast_sub hv.le]; field_simp

lemma TDiff.getD_map_mul (a : ℝ) (l : List ℝ) (v : ℕ) : (l.map fun t => a * t).getD v 0 = a * l.getD v 0 := by
  by_cases h : v < l.length
  · rw [getD_lt' _ _ _ (by simpa using h), getD_lt' _ _ _ h, List.getElem_map]
  · rw [getD_ge' _ _ _ (by simpa using h), getD_ge' _ _ _ (by simpa using h), mul_zero]

lemma TDiff.col_one (n v : ℕ) (hv : v < n) : (TrigTechDiff.col n 1).getD v 0 = Real.pi ^ 1 * TrigColloc.column n 1 v := by
  unfold TrigTechDiff.col
  rw [if_pos rfl, column_sign_one]
  rcases Nat.eq_zero_or_pos v with rfl | h0
  · unfold TrigColloc.rawColumn
    rw [if_pos (rfl : (1 : ℕ) = 1), if_pos (rfl : (0 : ℕ) = 0)]
    split_ifs <;> simp
  · unfold TrigColloc.rawColumn
    simp only [t_eq, if_true, if_neg h0.ne']
    split_ifs with h
    · rw [col_aux n _ _ _ (fun v => 1 / Real.sin v) (fun v _ hv => by rw [pi_sub n v hv, Real.sin_pi_sub, one_mul]) v h0 hv]
      ring
    · rw [col_aux n _ _ _ (fun v => 1 / Real.tan v) (fun v _ hv => by rw [pi_sub n v hv, Real.tan_pi_sub, div_neg]; ring) v h0 hv]
      ring

lemma TDiff.col_two (n v : ℕ) (hv : v < n) : (TrigTechDiff.col n 2).getD v 0 = Real.pi ^ 2 * TrigColloc.column n 2 v := by
  unfold TrigTechDiff.col
  rw [if_neg (by decide), if_pos rfl, column_sign _ _ _ (by decide)]
  have hsp : TrigTechDiff.spacing n = TrigColloc.spacing n := rfl
  rcases Nat.eq_zero_or_pos v with rfl | h0
  · unfold TrigColloc.rawColumn
    simp only [show (2 : ℕ) ≠ 1 by decide, if_true, if_false, pow_zero, one_mul, hsp]
    split_ifs with h
    · rw [getD_map_mul, List.getD_cons_zero]
      congr 1
      field_simp
      ring
    · rw [getD_map_mul, List.getD_cons_zero]
      congr 1
      field_simp
      ring
  · unfold TrigColloc.rawColumn
    simp only [t_eq, show (2 : ℕ) ≠ 1 by decide, if_true, if_false, if_neg h0.ne']
    split_ifs with h
    · rw [getD_map_mul, col_aux n _ _ _ (fun v => 1 / Real.sin v * (1 / Real.tan v)) (fun v _ hv => by
        rw [pi_sub n v hv, Real.sin_pi_sub, Real.tan_pi_sub, div_neg]; ring) v h0 hv]
      ring
    · rw [getD_map_mul, col_aux n _ _ _ (fun v => (1 / Real.sin v) ^ 2) (fun v _ hv => by
        rw [pi_sub n v hv, Real.sin_pi_sub, one_mul]) v h0 hv]
      ring

lemma TDiff.waveNumber_length (n : ℕ) (hn : 1 ≤ n) : (TrigTechDiff.waveNumber n).length = n := by
  unfold TrigTechDiff.waveNumber TrigTechDiff.n1
  simp only [List.length_map, List.length_append, List.length_range, List.length_replicate]
  omega

lemma TDiff.waveNumber_getD (n q : ℕ) (hq : q < n) : (TrigTechDiff.waveNumber n).getD q 0
    = I * (if q ≤ (n - 1) / 2 then (q : ℂ) else if n % 2 = 0 ∧ q = n / 2 then 0 else (q : ℂ) - n) := by
  unfold TrigTechDiff.waveNumber TrigTechDiff.n1
  rw [getD_lt' _ _ _ (by simp only [List.length_map, List.length_append, List.length_range, List.length_replicate]; omega),
    List.getElem_map]
  congr 1
  by_cases h1 : q ≤ (n - 1) / 2
  · rw [if_pos h1, List.getElem_append_left (by simp; omega), List.getElem_append_left (by simp; omega)]
    simp
  · rw [if_neg h1]
    by_cases h2 : n % 2 = 0 ∧ q = n / 2
    · rw [if_pos h2, List.getElem_append_left (by simp; omega), List.getElem_append_right (by simp; omega)]
      simp
    · rw [if_neg h2, List.getElem_append_right (by simp; omega)]
      simp only [List.getElem_map, List.getElem_range, List.length_append, List.length_map, List.length_range, List.length_replicate]
      have : ((q - ((n - 1) / 2 + 1 + (n + 1) % 2) : ℕ) : ℂ) + n = q + ((n - 1) / 2 : ℕ) := by
        exact_mod_cast (by omega : (q - ((n - 1) / 2 + 1 + (n + 1) % 2)) + n = q + (n - 1) / 2)
      linear_combination this

lemma TDiff.fft_delta (n q : ℕ) (hq : q < n) : (fft (1 :: List.replicate (n - 1) 0)).getD q 0 = 1 := by
  have hl : (1 :: List.replicate (n - 1) (0 : ℂ)).length = n := by simp; omega
  rw [fft_getD _ _ (by rw [hl]; exact hq), hl, sum_eq_single 0]
  · simp [rou_zero]
  · intro j _ hj
    obtain ⟨i, rfl⟩ : ∃ i, j = i + 1 := ⟨j - 1, by omega⟩
    rw [List.getD_cons_succ, getD_replicate', zero_mul]
  · intro h
    exact absurd (mem_range.2 (by omega)) h

/-- The column computed with the FFT. -/
lemma TDiff.col_fft (n k v : ℕ) (hk : 3 ≤ k) (hv : v < n) :
    ((TrigTechDiff.col n k).getD v 0 : ℂ) = Real.pi ^ k * kernS (mu0 n k) n v := by
  have hn : n ≠ 0 := by omega
  set w := List.zipWith (fun w f => w ^ k * f) (TrigTechDiff.waveNumber n) (fft (1 :: List.replicate (n - 1) 0)) with hw
  have hfl : (fft (1 :: List.replicate (n - 1) 0)).length = n := by rw [fft_length]; simp; omega
  have hwl : w.length = n := by rw [hw, List.length_zipWith, waveNumber_length n (by omega), hfl, min_self]
  have hwg : ∀ q < n, w.getD q 0 = (TrigTechDiff.waveNumber n).getD q 0 ^ k := by
    intro q hq
    rw [getD_lt' _ _ _ (by rw [hwl]; exact hq)]
    simp only [hw, List.getElem_zipWith]
    have h1 := fft_delta n q hq
    rw [getD_lt' _ _ _ (by rw [hfl]; exact hq)] at h1
    rw [h1, mul_one, getD_lt' _ _ _ (by rw [waveNumber_length n (by omega)]; exact hq)]
  have hi : (ifft w).getD v 0 = kernS (mu0 n k) n v := by
    rw [ifft_getD _ _ (by rw [hwl]; exact hv), hwl]
    unfold kernS
    congr 1
    refine sum_nbij' (fun q => (q + n / 2) % n) (fun j => (j + (n - n / 2)) % n) (fun q hq => ?_) (fun q hq => ?_) (fun q hq => ?_)
      (fun q hq => ?_) (fun q hq => ?_)
    · exact mem_range.2 (Nat.mod_lt _ (by omega))
    · exact mem_range.2 (Nat.mod_lt _ (by omega))
    · rw [mem_range] at hq
      rw [Nat.mod_add_mod, show q + n / 2 + (n - n / 2) = q + n by omega, Nat.add_mod_right, Nat.mod_eq_of_lt hq]
    · rw [mem_range] at hq
      rw [Nat.mod_add_mod, show q + (n - n / 2) + n / 2 = q + n by omega, Nat.add_mod_right, Nat.mod_eq_of_lt hq]
    · rw [mem_range] at hq
      rw [hwg q hq, waveNumber_getD n q hq]
      by_cases h1 : q + n / 2 < n
      · rw [Nat.mod_eq_of_lt h1, if_pos (by omega), mu0, if_neg (by omega)]
        have : wave n (q + n / 2) = q := by unfold wave; push_cast; ring
        rw [this]
        push_cast
        congr 2
        ring
      · have h2 : (q + n / 2) % n = q + n / 2 - n := by
          rw [Nat.mod_eq_sub_mod (by omega), Nat.mod_eq_of_lt (by omega)]
        have hwv : wave n (q + n / 2 - n) = (q : ℤ) - n := by unfold wave; omega
        rw [h2, if_neg (by omega), mu0, hwv]
        have hr : rou n ((v : ℤ) * q) = rou n (((q : ℤ) - n) * v) := rou_mod n hn _ _ ⟨v, by ring⟩
        rw [hr]
        by_cases h3 : n % 2 = 0 ∧ q = n / 2
        · rw [if_pos h3, if_pos (by omega), mul_zero, zero_pow (by omega)]
        · rw [if_neg h3, if_neg (by omega)]
          push_cast
          rfl
  have hreal := kernS_real (mu0 n k) n (fun j hj => mu0_conj n k j hj) v
  set c : List ℝ := (ifft w).map fun z => Real.pi ^ k * z.re with hc
  have hcl : c.length = n := by rw [hc, List.length_map, ifft_length, hwl]
  have hcg : ((c.getD v 0 : ℝ) : ℂ) = Real.pi ^ k * kernS (mu0 n k) n v := by
    rw [getD_lt' _ _ _ (by rw [hcl]; exact hv)]
    simp only [hc, List.getElem_map]
    rw [getD_lt' _ _ _ (by rw [ifft_length, hwl]; exact hv)] at hi
    rw [hi]
    push_cast
    rw [hreal]
  have hcol : TrigTechDiff.col n k = if k % 2 = 1 then 0 :: c.drop 1 else c := by
    unfold TrigTechDiff.col
    rw [if_neg (by omega), if_neg (by omega)]
  rw [hcol]
  split_ifs with h
  · rcases v with _ | v
    · rw [List.getD_cons_zero]
      have := kernS_neg (mu0 n k) n ((-1) ^ k) (fun j hj => mu0_refl n k j hj) 0
      rw [(Nat.odd_iff.2 h).neg_one_pow, neg_zero] at this
      have h0 : kernS (mu0 n k) n 0 = 0 := by
        have h2 : (2 : ℂ) * kernS (mu0 n k) n 0 = 0 := by linear_combination this
        simpa using h2
      simp only [Nat.cast_zero]
      rw [h0]
      simp
    · rw [List.getD_cons_succ, ← hcg]
      congr 1
      simp only [List.getD_eq_getElem?_getD, List.getElem?_drop, Nat.add_comm 1 v]
  · exact hcg

/-- The symbol of the matrix. -/
noncomputable def TDiff.symb (n k : ℕ) : ℕ → ℂ := if k ≤ 2 then mu n k else mu0 n k

/-- The entries of the matrix, for all orders. -/
lemma TDiff.entry (n k : ℕ) (hk : 1 ≤ k) (i j : Fin n) :
    ((TrigTechDiff.diffmat n k i j : ℝ) : ℂ) = Real.pi ^ k * kernS (symb n k) n ((i : ℤ) - j) := by
  have hcol : ∀ v < n, (((TrigTechDiff.col n k).getD v 0 : ℝ) : ℂ) = Real.pi ^ k * kernS (symb n k) n v := by
    intro v hv
    unfold symb
    by_cases h2 : k ≤ 2
    · rw [if_pos h2]
      have hks := kern_column n k v hk (by omega) hv
      have hkk : kern n k v = kernS (mu n k) n v := rfl
      rw [sgn, if_neg (by omega), one_mul, hkk] at hks
      rw [← hks]
      interval_cases k
      · rw [col_one n v hv]; push_cast; rfl
      · rw [col_two n v hv]; push_cast; rfl
    · rw [if_neg h2]
      exact col_fft n k v (by omega) hv
  have hneg : ∀ z, kernS (symb n k) n (-z) = (-1) ^ k * kernS (symb n k) n z := by
    intro z
    apply kernS_neg
    intro q hq
    unfold symb
    split_ifs
    · exact mu_refl n k q hq
    · exact mu0_refl n k q hq
  have hrow : ∀ v < n, (((TrigTechDiff.row n k).getD v 0 : ℝ) : ℂ) = Real.pi ^ k * kernS (symb n k) n (-(v : ℤ)) := by
    intro v hv
    have hm : ((TrigTechDiff.col n k).map (- ·)).getD v 0 = -(TrigTechDiff.col n k).getD v 0 := by
      have := getD_map_mul (-1) (TrigTechDiff.col n k) v
      simpa only [neg_one_mul] using this
    rw [hneg]
    unfold TrigTechDiff.row
    rcases Nat.even_or_odd k with h | h
    · have h1 := Nat.even_iff.1 h
      rw [if_neg (by omega), h.neg_one_pow, one_mul, ← hcol v hv]
      split_ifs <;> first | rfl | omega
    · have h1 := Nat.odd_iff.1 h
      rw [h.neg_one_pow, neg_one_mul, mul_neg, ← hcol v hv]
      split_ifs
      · rw [hm]; push_cast; rfl
      · omega
      · rw [hm]; push_cast; rfl
  unfold TrigTechDiff.diffmat
  rw [if_neg (by omega), Matrix.of_apply]
  split_ifs with h
  · rw [hcol _ (by omega), Nat.cast_sub h]
  · rw [hrow _ (by omega), Nat.cast_sub (by omega)]
    congr 2
    ring

/-! ### The property -/

/-- **C122**: for every number `n ≥ 1` of equispaced points and every order `k`, except even orders `k ≥ 4` with an even number of points,
the matrix maps the values of every Fourier series with `n` coefficients to the values of its `k`-th derivative at the same points. -/
theorem C122_diffmat (c : List ℂ) (k : ℕ) (hn : 1 ≤ c.length) (h : c.length % 2 = 1 ∨ k ≤ 2 ∨ k % 2 = 1) (j : Fin c.length) :
    ∑ l : Fin c.length, (TrigTechDiff.diffmat c.length k j l : ℂ) * trigEval c (equi c.length l)
      = iteratedDeriv k (trigEval c) (equi c.length j) := by
  rcases Nat.eq_zero_or_pos k with rfl | h0
  · unfold TrigTechDiff.diffmat
    rw [if_pos rfl, sum_eq_single j (fun l _ hl => by rw [Matrix.one_apply_ne hl.symm]; simp) (fun h => absurd (mem_univ j) h)]
    simp
  · rw [TDiff.mat_apply c k (symb c.length k) hn _ (fun i j => TDiff.entry c.length k h0 i j), eval_deriv_grid c k j (by omega)]
    refine sum_congr rfl fun q _ => ?_
    have : symb c.length k q = mu c.length k q := by
      unfold symb
      split_ifs with h2
      · rfl
      · unfold mu0 mu
        split_ifs with h3 h4 h4
        · rfl
        · omega
        · omega
        · rfl
    rw [this]

/-- **C122**: said of arbitrary values: they belong to exactly one Fourier series with `n` coefficients, and the matrix returns the values of its
derivative. -/
theorem C122_interpolant (n k : ℕ) (hn : 1 ≤ n) (h : n % 2 = 1 ∨ k ≤ 2 ∨ k % 2 = 1) (v : Fin n → ℂ) :
    ∃! c : List ℂ, c.length = n ∧ (∀ l : Fin n, trigEval c (equi n l) = v l) ∧
      ∀ j : Fin n, ∑ l : Fin n, (TrigTechDiff.diffmat n k j l : ℂ) * v l = iteratedDeriv k (trigEval c) (equi n j) := by
  set c := vals2coeffs (List.ofFn v) with hc
  have hl : c.length = n := by rw [hc, vals2coeffs_length, List.length_ofFn]
  have hv : ∀ l : Fin n, trigEval c (equi n l) = v l := by
    intro l
    have := trigEval_grid c l (by rw [hl]; exact l.2)
    rw [hl] at this
    rw [this, hc, coeffs2vals_vals2coeffs, getD_lt' _ _ _ (by rw [List.length_ofFn]; exact l.2)]
    simp
  have hDe : ∀ j : Fin n, ∑ l : Fin n, (TrigTechDiff.diffmat n k j l : ℂ) * trigEval c (equi n l)
      = iteratedDeriv k (trigEval c) (equi n j) := by
    have := C122_diffmat c k (by omega) (by rw [hl]; exact h)
    rw [hl] at this
    exact this
  refine ⟨c, ⟨hl, hv, fun j => ?_⟩, ?_⟩
  · rw [← hDe j]
    exact sum_congr rfl fun l _ => by rw [hv l]
  · rintro d ⟨hd, hdv, -⟩
    apply eq_of_grid d c (by rw [hd, hl])
    intro j hj
    rw [hd] at hj ⊢
    rw [hdv ⟨j, hj⟩, hv ⟨j, hj⟩]

/-- **C122 fails for even orders `k ≥ 4` with an even number of points**: the highest mode (the coefficient with index 0) is dropped; the result is
the derivative of the series without it. -/
theorem C122_even_fails (c : List ℂ) (k : ℕ) (hn : 1 ≤ c.length) (he : c.length % 2 = 0) (hk : 4 ≤ k) (j : Fin c.length) :
    ∑ l : Fin c.length, (TrigTechDiff.diffmat c.length k j l : ℂ) * trigEval c (equi c.length l)
      = iteratedDeriv k (trigEval (c.set 0 0)) (equi c.length j) := by
  rw [TDiff.mat_apply c k (symb c.length k) hn _ (fun i j => TDiff.entry c.length k (by omega) i j)]
  have h := eval_deriv_grid (c.set 0 0) k j (by rw [List.length_set]; omega)
  rw [List.length_set] at h
  rw [h]
  refine sum_congr rfl fun q _ => ?_
  rw [symb, if_neg (by omega)]
  by_cases hq : q = 0
  · subst hq
    rw [mu0, if_pos ⟨he, rfl⟩]
    have : (c.set 0 0).getD 0 0 = 0 := by
      rw [getD_lt' _ _ _ (by rw [List.length_set]; omega)]; simp
    rw [this]
    simp
  · have : (c.set 0 0).getD q 0 = c.getD q 0 := by
      simp only [List.getD_eq_getElem?_getD, List.getElem?_set_ne (Ne.symm hq)]
    rw [this, mu0, mu, if_neg (by omega), if_neg (by omega)]

/-- **C122 fails**: this is visible for every even `n ≥ 2` and every even `k ≥ 4`: for the values of `cos(n/2 πx)` the result is zero, but the
`k`-th derivative is not. -/
theorem C122_wrong_fails (n k : ℕ) (hn : 2 ≤ n) (he : n % 2 = 0) (hk : 4 ≤ k) (hk2 : k % 2 = 0) :
    ∃ c : List ℂ, c.length = n ∧ ∑ l : Fin n, (TrigTechDiff.diffmat n k ⟨0, by omega⟩ l : ℂ) * trigEval c (equi n l) = 0 ∧
      iteratedDeriv k (trigEval c) (equi n 0) ≠ 0 := by
  set c : List ℂ := 1 :: List.replicate (n - 1) 0 with hc
  have hl : c.length = n := by simp [hc]; omega
  have hz : ∀ q, q ≠ 0 → c.getD q 0 = 0 := by
    intro q hq
    obtain ⟨i, rfl⟩ : ∃ i, q = i + 1 := ⟨q - 1, by omega⟩
    rw [hc, List.getD_cons_succ, getD_replicate']
  refine ⟨c, hl, ?_, ?_⟩
  · have h1 : ∀ j : Fin n, ∑ l : Fin n, (TrigTechDiff.diffmat n k j l : ℂ) * trigEval c (equi n l)
        = iteratedDeriv k (trigEval (c.set 0 0)) (equi n j) := by
      have := C122_even_fails c k (by omega) (by omega) hk
      rw [hl] at this
      exact this
    rw [h1]
    have : trigEval (c.set 0 0) = fun _ => 0 := by
      funext x
      rw [trigEval]
      refine sum_eq_zero fun q _ => ?_
      by_cases hq : q = 0
      · subst hq; simp [hc]
      · rw [show (c.set 0 0).getD q 0 = c.getD q 0 by
          simp only [List.getD_eq_getElem?_getD, List.getElem?_set_ne (Ne.symm hq)], hz q hq, zero_mul]
    rw [this]
    simp
  · have h := eval_deriv_grid c k 0 (by omega)
    rw [hl] at h
    rw [h, sum_eq_single 0 (fun q _ hq => by rw [hz q hq, zero_mul]) (fun h => absurd (mem_range.2 (by omega)) h)]
    have hp : (Real.pi : ℂ) ≠ 0 := by exact_mod_cast Real.pi_ne_zero
    have hw : (wave n 0 : ℂ) ≠ 0 := by
      have : wave n 0 ≠ 0 := by unfold wave; omega
      exact_mod_cast this
    rw [mu, if_neg (by omega), hc, List.getD_cons_zero, one_mul]
    exact mul_ne_zero (mul_ne_zero (pow_ne_zero _ hp) (pow_ne_zero _ (mul_ne_zero I_ne_zero hw)))
      (mul_ne_zero (zpow_ne_zero _ (by norm_num)) (rou_ne_zero _ _))

/-- The hypotheses are met: five points, the seventh derivative. -/
example (j : Fin 5) : ∑ l : Fin 5, (TrigTechDiff.diffmat 5 7 j l : ℂ) * trigEval [2, 5, I, 1, 3] (equi 5 l)
    = iteratedDeriv 7 (trigEval [2, 5, I, 1, 3]) (equi 5 j) :=
  C122_diffmat [2, 5, I, 1, 3] 7 (by simp) (by simp) j

end Funpy.Props
