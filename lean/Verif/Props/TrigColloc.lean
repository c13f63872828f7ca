import Verif.Model.TrigColloc
import Verif.Lemmas.TrigEval
import Verif.Lemmas.TrigTransform
import Mathlib.Analysis.Calculus.IteratedDeriv.Lemmas
import Mathlib.Analysis.SpecialFunctions.Trigonometric.Deriv
import Mathlib.Analysis.SpecialFunctions.ExpDeriv
import Mathlib.Tactic.LinearCombination
import Mathlib.Tactic.FieldSimp

/-!
# C105: Fourier collocation differentiation matrices
-/

namespace Funpy.Props
namespace TCol
end TCol
open Spec Trig Finset Complex TrigColloc TCol

/-! ### Sums of powers against roots of unity -/

lemma TCol.telescope (f : ℤ → ℂ) (z : ℂ) (n : ℕ) (hz : z ^ n = 1) :
    (z - 1) * ∑ k ∈ range n, f k * z ^ k = ∑ k ∈ range n, (f (k - 1) - f k) * z ^ k + (f (n - 1) - f (-1)) := by
  have h1 : z * ∑ k ∈ range n, f k * z ^ k = ∑ k ∈ range n, f ((k + 1 : ℕ) - 1) * z ^ (k + 1) := by
    rw [mul_sum]
    refine sum_congr rfl fun k _ => ?_
    push_cast
    rw [show (k : ℤ) + 1 - 1 = k by ring]
    ring
  have h2 := sum_range_succ (fun k : ℕ => f ((k : ℤ) - 1) * z ^ k) n
  rw [sum_range_succ' (fun k : ℕ => f ((k : ℤ) - 1) * z ^ k) n] at h2
  simp only [hz, pow_zero, mul_one, Nat.cast_zero, zero_sub] at h2
  rw [sub_mul, one_mul, h1]
  simp only [sub_mul, sum_sub_distrib]
  linear_combination h2

/-- `∑ (k - N)^m z^k`. -/
noncomputable def TCol.T (n : ℕ) (N : ℤ) (z : ℂ) (m : ℕ) : ℂ := ∑ k ∈ range n, ((k : ℂ) - N) ^ m * z ^ k

lemma TCol.T_rec (n : ℕ) (N : ℤ) (z : ℂ) (hz : z ^ n = 1) (m : ℕ) :
    (z - 1) * T n N z m = ∑ k ∈ range n, (((k : ℂ) - 1 - N) ^ m - ((k : ℂ) - N) ^ m) * z ^ k
      + (((n : ℂ) - 1 - N) ^ m - (-1 - N : ℂ) ^ m) := by
  have := telescope (fun k => ((k : ℂ) - N) ^ m) z n hz
  push_cast at this
  exact this

lemma TCol.T_all (n : ℕ) (N : ℤ) (z g : ℂ) (hz : z ^ n = 1) (hg : g * (z - 1) = 1) :
    T n N z 0 = 0 ∧ T n N z 1 = g * n ∧
    T n N z 2 = g * (-2 * T n N z 1 + (((n : ℂ) - 1 - N) ^ 2 - (-1 - N : ℂ) ^ 2)) ∧
    T n N z 3 = g * (-3 * T n N z 2 + 3 * T n N z 1 + (((n : ℂ) - 1 - N) ^ 3 - (-1 - N : ℂ) ^ 3)) := by
  have key : ∀ a b : ℂ, (z - 1) * a = b → a = g * b := fun a b h => by
    rw [← h, ← mul_assoc, hg, one_mul]
  have h0 : T n N z 0 = 0 := by
    rw [key _ _ (T_rec n N z hz 0)]; simp
  refine ⟨h0, ?_, ?_, ?_⟩
  · rw [key _ _ (T_rec n N z hz 1)]
    have : ∑ k ∈ range n, (((k : ℂ) - 1 - N) ^ 1 - ((k : ℂ) - N) ^ 1) * z ^ k = -T n N z 0 := by
      rw [T, ← sum_neg_distrib]
      refine sum_congr rfl fun k _ => by ring
    rw [this, h0]; ring
  · rw [key _ _ (T_rec n N z hz 2)]
    have : ∑ k ∈ range n, (((k : ℂ) - 1 - N) ^ 2 - ((k : ℂ) - N) ^ 2) * z ^ k = -2 * T n N z 1 + T n N z 0 := by
      simp only [T, mul_sum, ← sum_add_distrib]
      refine sum_congr rfl fun k _ => by ring
    rw [this, h0]; ring
  · rw [key _ _ (T_rec n N z hz 3)]
    have : ∑ k ∈ range n, (((k : ℂ) - 1 - N) ^ 3 - ((k : ℂ) - N) ^ 3) * z ^ k
        = -3 * T n N z 2 + 3 * T n N z 1 - T n N z 0 := by
      simp only [T, mul_sum, ← sum_add_distrib, ← sum_sub_distrib]
      refine sum_congr rfl fun k _ => by ring
    rw [this, h0]; ring

/-! ### The kernel -/

/-- The symbol of the `m`-th derivative in units of `π^m`: the unpaired mode of an even number of points has no odd derivatives on the grid. -/
noncomputable def TCol.mu (n m k : ℕ) : ℂ :=
  if n % 2 = 0 ∧ k = 0 ∧ m % 2 = 1 then 0 else (I * (wave n k : ℂ)) ^ m

/-- The kernel of the `m`-th derivative of the interpolant. -/
noncomputable def TCol.kern (n m : ℕ) (z : ℤ) : ℂ := (∑ k ∈ range n, mu n m k * rou n (wave n k * z)) / n

lemma TCol.kern_mod (n m : ℕ) (hn : n ≠ 0) (a b : ℤ) (h : (n : ℤ) ∣ a - b) : kern n m a = kern n m b := by
  unfold kern
  congr 1
  refine sum_congr rfl fun k _ => ?_
  rw [rou_mod n hn (wave n k * a) (wave n k * b) (by rw [← mul_sub]; exact Dvd.dvd.mul_left h _)]

lemma TCol.wave_cast (n k : ℕ) : ((wave n k : ℤ) : ℂ) = (k : ℂ) - ((n / 2 : ℕ) : ℤ) := by
  unfold wave; push_cast; ring

/-- The sum defining the kernel in terms of `T`. -/
lemma TCol.kern_T (n m v : ℕ) (hn : n ≠ 0) :
    kern n m v = I ^ m * (rou n (-((n / 2 : ℕ) * v)) * T n (n / 2 : ℕ) (rou n v) m
      - if n % 2 = 0 ∧ m % 2 = 1 then (-((n / 2 : ℕ) : ℂ)) ^ m * rou n (-((n / 2 : ℕ) * v)) else 0) / n := by
  unfold kern
  congr 1
  have h1 : ∀ k : ℕ, rou n (wave n k * v) = rou n (-((n / 2 : ℕ) * v)) * rou n v ^ k := by
    intro k
    rw [rou_pow, ← rou_add]
    congr 1
    unfold wave
    ring
  have h2 : I ^ m * (rou n (-((n / 2 : ℕ) * v)) * T n (n / 2 : ℕ) (rou n v) m)
      = ∑ k ∈ range n, (I * (wave n k : ℂ)) ^ m * rou n (wave n k * v) := by
    rw [T, mul_sum, mul_sum]
    refine sum_congr rfl fun k _ => ?_
    rw [h1, wave_cast, mul_pow]
    ring
  rw [mul_sub, h2]
  unfold mu
  split_ifs with h
  · have e : ∀ k, (if n % 2 = 0 ∧ k = 0 ∧ m % 2 = 1 then (0:ℂ) else (I * (wave n k : ℂ)) ^ m) * rou n (wave n k * v)
        = (I * (wave n k : ℂ)) ^ m * rou n (wave n k * v)
          - if k = 0 then (I * (wave n 0 : ℂ)) ^ m * rou n (wave n 0 * v) else 0 := by
      intro k
      by_cases hk : k = 0
      · subst hk; simp [h.1, h.2]
      · simp [hk]
    simp only [e, sum_sub_distrib, sum_ite_eq', mem_range, Nat.pos_of_ne_zero hn, if_true]
    rw [h1 0, wave_cast, mul_pow]
    simp only [pow_zero, mul_one, Nat.cast_zero, zero_sub, Int.cast_natCast]
    ring
  · rw [mul_zero, sub_zero]
    refine sum_congr rfl fun k _ => ?_
    rw [if_neg (fun hh => h ⟨hh.1, hh.2.2⟩)]

lemma TCol.rou_half_even (N v : ℕ) (hN : N ≠ 0) : rou (2 * N) (-(N * v)) = (-1) ^ v := by
  have hN' : (N : ℂ) ≠ 0 := by exact_mod_cast hN
  unfold rou
  rw [show (2 * Real.pi * I * ((-(N * v) : ℤ) : ℂ) / ((2 * N : ℕ) : ℂ)) = (v : ℕ) * (-(Real.pi * I)) by
    push_cast; field_simp, Complex.exp_nat_mul, Complex.exp_neg, Complex.exp_pi_mul_I]
  norm_num

lemma TCol.rou_half_odd (N v : ℕ) :
    rou (2 * N + 1) (-(N * v)) = (-1) ^ v * cexp (I * ((Real.pi * v / (2 * N + 1 : ℕ) : ℝ) : ℂ)) := by
  have hN' : (2 * (N : ℂ) + 1) ≠ 0 := by exact_mod_cast (by omega : 2 * N + 1 ≠ 0)
  have h : ((-1 : ℂ)) ^ v = cexp ((v : ℕ) * (-(Real.pi * I))) := by
    rw [Complex.exp_nat_mul, Complex.exp_neg, Complex.exp_pi_mul_I]; norm_num
  rw [h, ← Complex.exp_add]
  unfold rou
  congr 1
  push_cast
  field_simp
  ring

lemma TCol.rou_sq (n v : ℕ) : rou n v = cexp (I * ((Real.pi * v / n : ℝ) : ℂ)) ^ 2 := by
  unfold rou
  rw [← Complex.exp_nat_mul]
  congr 1
  push_cast
  ring

lemma TCol.sin_pos' (n v : ℕ) (h0 : 0 < v) (hv : v < n) : 0 < Real.sin (Real.pi * v / n) := by
  have hn : (0 : ℝ) < n := by exact_mod_cast (by omega : 0 < n)
  have hv' : (v : ℝ) < n := by exact_mod_cast hv
  have h0' : (0 : ℝ) < v := by exact_mod_cast h0
  apply Real.sin_pos_of_pos_of_lt_pi
  · have := Real.pi_pos; positivity
  · rw [div_lt_iff₀ hn]
    exact mul_lt_mul_of_pos_left hv' Real.pi_pos

lemma TCol.t_eq (n v : ℕ) : 0.5 * (v : ℝ) * spacing n = Real.pi * v / n := by
  unfold spacing; ring

/-- The values of `T` for the kernel at `0 < v < n`. -/
lemma TCol.T_vals (n v : ℕ) (N : ℤ) (h0 : 0 < v) (hv : v < n) (c s : ℂ)
    (hc : c = Real.cos (Real.pi * v / n)) (hs : s = Real.sin (Real.pi * v / n)) :
    let g := -I * (c - I * s) / (2 * s)
    s ≠ 0 ∧ c ^ 2 + s ^ 2 = 1 ∧ cexp (I * ((Real.pi * v / n : ℝ) : ℂ)) = c + I * s ∧
    T n N (rou n v) 1 = g * n ∧
    T n N (rou n v) 2 = g * (-2 * T n N (rou n v) 1 + (((n : ℂ) - 1 - N) ^ 2 - (-1 - N : ℂ) ^ 2)) ∧
    T n N (rou n v) 3 = g * (-3 * T n N (rou n v) 2 + 3 * T n N (rou n v) 1 + (((n : ℂ) - 1 - N) ^ 3 - (-1 - N : ℂ) ^ 3)) := by
  intro g
  have hn : n ≠ 0 := by omega
  have hs0 : s ≠ 0 := by
    rw [hs]; exact_mod_cast (sin_pos' n v h0 hv).ne'
  have hcs : c ^ 2 + s ^ 2 = 1 := by
    rw [hc, hs]
    exact_mod_cast Real.cos_sq_add_sin_sq (Real.pi * v / n)
  have hw : cexp (I * ((Real.pi * v / n : ℝ) : ℂ)) = c + I * s := by
    rw [mul_comm, Complex.exp_mul_I, hc, hs, Complex.ofReal_cos, Complex.ofReal_sin]; ring
  have hz : rou n v ^ n = 1 := by
    rw [rou_pow, mul_comm, rou_mul_self n hn]
  have hg : g * (rou n v - 1) = 1 := by
    rw [rou_sq, hw]
    simp only [g]
    field_simp
    linear_combination (-I * c + s) * hcs + (-c ^ 2 * s - s + I * c * s ^ 2 + (I ^ 2 - 1) * s ^ 3) * Complex.I_sq
  obtain ⟨-, a1, a2, a3⟩ := T_all n N (rou n v) g hz hg
  exact ⟨hs0, hcs, hw, a1, a2, a3⟩

lemma TCol.column_sign (n m v : ℕ) (hm : m ≠ 1) : column n m v = -((-1) ^ v * rawColumn n m v) := by
  unfold column
  rw [if_neg hm]
  rcases Nat.even_or_odd v with h | h
  · rw [if_pos (Nat.even_iff.mp h), h.neg_one_pow, one_mul]
  · rw [if_neg (by rw [Nat.odd_iff.mp h]; decide), h.neg_one_pow]; ring

lemma TCol.column_sign_one (n v : ℕ) : column n 1 v = (-1) ^ v * rawColumn n 1 v := by
  unfold column
  rw [if_pos rfl]
  rcases Nat.even_or_odd v with h | h
  · rw [if_neg (by rw [Nat.even_iff.mp h]; decide), h.neg_one_pow, one_mul]
  · rw [if_pos (Nat.odd_iff.mp h), h.neg_one_pow]; ring

/-- The kernel away from the diagonal. -/
lemma TCol.kern_off (n v : ℕ) (h0 : 0 < v) (hv : v < n) :
    kern n 1 v = (column n 1 v : ℝ) ∧ kern n 2 v = (column n 2 v : ℝ) ∧ kern n 3 v = -((column n 3 v : ℝ) : ℂ) := by
  have hn : n ≠ 0 := by omega
  have hnc : (n : ℂ) ≠ 0 := by exact_mod_cast hn
  obtain ⟨hs0, hcs, hw, t1, t2, t3⟩ := T_vals n v ((n / 2 : ℕ) : ℤ) h0 hv _ _ rfl rfl
  rw [column_sign_one, column_sign n 2 v (by decide), column_sign n 3 v (by decide), kern_T n 1 v hn, kern_T n 2 v hn, kern_T n 3 v hn]
  have hpi : (Real.pi : ℂ) ≠ 0 := by exact_mod_cast Real.pi_ne_zero
  have hv0 : v ≠ 0 := by omega
  have hI2 : I ^ 2 = -1 := I_sq
  have hI3 : I ^ 3 = -I := by rw [pow_succ, hI2]; ring
  have hI4 : I ^ 4 = 1 := by rw [show (4:ℕ) = 2 * 2 by rfl, pow_mul, hI2]; ring
  have hI5 : I ^ 5 = I := by rw [pow_succ, hI4]; ring
  have hI6 : I ^ 6 = -1 := by rw [show (6:ℕ) = 2 * 3 by rfl, pow_mul, hI2]; ring
  have hpp : (Real.pi ^ 2 / 2 / spacing n ^ 2 : ℝ) = n ^ 2 / 8 := by
    unfold spacing
    have : (n : ℝ) ≠ 0 := by exact_mod_cast hn
    have := Real.pi_ne_zero
    field_simp
    norm_num
  unfold rawColumn
  simp only [t_eq, hpp, hv0, if_true, if_false, Real.tan_eq_sin_div_cos, show (2:ℕ) ≠ 1 by decide, show (3:ℕ) ≠ 1 by decide, show (3:ℕ) ≠ 2 by decide]
  rcases Nat.even_or_odd' n with ⟨N, hN | hN⟩
  · have h2 : n / 2 = N := by omega
    have h3 : n % 2 = 0 := by omega
    have h4 : N ≠ 0 := by omega
    have hNc : (N : ℂ) ≠ 0 := by exact_mod_cast h4
    have hnN : (n : ℂ) = 2 * N := by rw [hN]; push_cast; ring
    have hr : rou n (-((n / 2 : ℕ) * v)) = (-1) ^ v := by
      rw [h2, hN]; exact rou_half_even N v h4
    rw [hr, t3, t2, t1]
    generalize hC : Real.cos (Real.pi * v / n) = C at *
    generalize hS : Real.sin (Real.pi * v / n) = S at *
    have hS0 : S ≠ 0 := by exact_mod_cast hs0
    simp only [h2, h3]
    clear t1 t2 t3 hC hS hw hr
    obtain ⟨q, hq⟩ : ∃ q : ℂ, q = C / (2 * S) := ⟨_, rfl⟩
    have hg : -I * ((C : ℂ) - I * S) / (2 * S) = -(1 / 2) - I * q := by
      rw [hq]; field_simp; linear_combination (S : ℂ) * Complex.I_sq
    have hq1 : (C : ℂ) = 2 * q * S := by rw [hq]; field_simp
    have hq2 : 1 / (S : ℂ) ^ 2 = 1 + 4 * q ^ 2 := by
      rw [hq, eq_comm]; field_simp; linear_combination 4 * hcs
    rw [hg]
    norm_num
    rw [hnN]
    refine ⟨?_, ?_, ?_⟩
    · rw [hq1]
      field_simp
      ring_nf
      simp only [hI2, hI3, hI4, hI5, hI6]
      ring
    · rw [show (1 / 2 / (S : ℂ) ^ 2) = (1 / 2) * (1 / (S : ℂ) ^ 2) by ring, hq2]
      field_simp
      ring_nf
      simp only [hI2, hI3, hI4, hI5, hI6]
      ring
    · rw [hq1, show (((S : ℂ) ^ 2)⁻¹) = (1 / (S : ℂ) ^ 2) by rw [one_div], hq2]
      field_simp
      ring_nf
      simp only [hI2, hI3, hI4, hI5, hI6]
      ring
  · have h2 : n / 2 = N := by omega
    have h3 : n % 2 = 1 := by omega
    have hnN : (n : ℂ) = 2 * N + 1 := by rw [hN]; push_cast; ring
    have hN1 : (2 * (N : ℂ) + 1) ≠ 0 := by rw [← hnN]; exact hnc
    have hr : rou n (-((n / 2 : ℕ) * v)) = (-1) ^ v * cexp (I * ((Real.pi * v / n : ℝ) : ℂ)) := by
      rw [h2, hN]; exact rou_half_odd N v
    rw [hr, hw, t3, t2, t1]
    generalize hC : Real.cos (Real.pi * v / n) = C at *
    generalize hS : Real.sin (Real.pi * v / n) = S at *
    have hS0 : S ≠ 0 := by exact_mod_cast hs0
    simp only [h2, h3]
    clear t1 t2 t3 hC hS hw hr
    obtain ⟨q, hq⟩ : ∃ q : ℂ, q = C / (2 * S) := ⟨_, rfl⟩
    obtain ⟨r, hr⟩ : ∃ r : ℂ, r = 1 / (2 * S) := ⟨_, rfl⟩
    have hg : -I * ((C : ℂ) - I * S) / (2 * S) = -(1 / 2) - I * q := by
      rw [hq]; field_simp; linear_combination (S : ℂ) * Complex.I_sq
    have hq1 : (C : ℂ) = 2 * q * S := by rw [hq]; field_simp
    have hr1 : (S : ℂ)⁻¹ = 2 * r := by rw [hr]; field_simp
    have hr2 : r ^ 2 = 1 / 4 + q ^ 2 := by
      rw [hq, hr, eq_comm]; field_simp; linear_combination 4 * hcs
    have hwg : ((C : ℂ) + I * S) * (-(1 / 2) - I * q) = -I * r := by
      rw [← hg, hr]; field_simp; linear_combination -hcs + (S : ℂ) ^ 2 * Complex.I_sq
    have hsr : (S : ℂ) * (2 * r) = 1 := by rw [← hr1]; field_simp
    rw [hg]
    norm_num
    rw [hr1, hnN]
    have hCS : (C : ℂ) / S = 2 * q := by rw [hq]; field_simp
    have hS3 : ((S : ℂ) ^ 3)⁻¹ = 8 * r * (1 / 4 + q ^ 2) := by rw [← hr2, ← inv_pow, hr1]; ring
    have hX : ∀ X : ℂ, (-1 : ℂ) ^ v * ((C : ℂ) + I * S) * ((-(1 / 2) - I * q) * X) = (-1) ^ v * (-I * r) * X := by
      intro X; rw [← hwg]; ring
    refine ⟨?_, ?_, ?_⟩
    · rw [hX, show 1 / 2 / (S : ℂ) = r by rw [div_eq_mul_inv, hr1]; ring]
      field_simp
      linear_combination (-r) * Complex.I_sq
    · rw [hX, show 1 / 2 / (S : ℂ) = r by rw [div_eq_mul_inv, hr1]; ring, hCS]
      field_simp
      ring_nf
      simp only [hI2]
      ring
    · rw [hX, hCS, hS3]
      field_simp
      ring_nf
      simp only [hI2, hI3, hI4]
      ring

lemma TCol.power_sums (n : ℕ) (a : ℂ) :
    ∑ k ∈ range n, ((k : ℂ) - a) ^ 1 = n * (n - 1) / 2 - a * n ∧
    ∑ k ∈ range n, ((k : ℂ) - a) ^ 2 = n * (n - 1) * (2 * n - 1) / 6 - a * n * (n - 1) + a ^ 2 * n ∧
    ∑ k ∈ range n, ((k : ℂ) - a) ^ 3 = (n * (n - 1) / 2) ^ 2 - 3 * a * (n * (n - 1) * (2 * n - 1) / 6)
      + 3 * a ^ 2 * (n * (n - 1) / 2) - a ^ 3 * n := by
  induction n with
  | zero => simp
  | succ n ih =>
    obtain ⟨h1, h2, h3⟩ := ih
    refine ⟨?_, ?_, ?_⟩
    · rw [sum_range_succ, h1]; push_cast; ring
    · rw [sum_range_succ, h2]; push_cast; ring
    · rw [sum_range_succ, h3]; push_cast; ring

/-- The kernel on the diagonal. -/
lemma TCol.kern_diag (n : ℕ) (hn : n ≠ 0) :
    kern n 1 0 = (column n 1 0 : ℝ) ∧ kern n 2 0 = (column n 2 0 : ℝ) ∧ kern n 3 0 = -((column n 3 0 : ℝ) : ℂ) := by
  have hnc : (n : ℂ) ≠ 0 := by exact_mod_cast hn
  have hT : ∀ m, T n (n / 2 : ℕ) (rou n (0 : ℕ)) m = ∑ k ∈ range n, ((k : ℂ) - (n / 2 : ℕ)) ^ m := by
    intro m
    rw [T, Nat.cast_zero, rou_zero]
    simp only [one_pow, mul_one, Int.cast_natCast]
  have hr : rou n (-((n / 2 : ℕ) * (0 : ℕ))) = 1 := by simp [rou_zero]
  have hk := fun m => kern_T n m 0 hn
  simp only [hT, hr] at hk
  obtain ⟨p1, p2, p3⟩ := power_sums n (n / 2 : ℕ)
  rw [Nat.cast_zero] at hk
  rw [hk 1, hk 2, hk 3, p1, p2, p3, column_sign_one, column_sign n 2 0 (by decide), column_sign n 3 0 (by decide)]
  have hI3 : I ^ 3 = -I := by rw [pow_succ, I_sq]; ring
  have hpp : (Real.pi ^ 2 / 3 / spacing n ^ 2 : ℝ) = n ^ 2 / 12 := by
    unfold spacing
    have : (n : ℝ) ≠ 0 := by exact_mod_cast hn
    have := Real.pi_ne_zero
    field_simp
    norm_num
  unfold rawColumn
  simp only [hpp, if_true, if_false, show (2:ℕ) ≠ 1 by decide, show (3:ℕ) ≠ 1 by decide, show (3:ℕ) ≠ 2 by decide, hI3, I_sq]
  rcases Nat.even_or_odd' n with ⟨N, hN | hN⟩
  · have h2 : n / 2 = N := by omega
    have h3 : n % 2 = 0 := by omega
    have hnN : (n : ℂ) = 2 * N := by rw [hN]; push_cast; ring
    have hN0 : (N : ℂ) ≠ 0 := by exact_mod_cast (by omega : N ≠ 0)
    simp only [h2, h3]
    norm_num
    rw [hnN]
    refine ⟨?_, ?_, ?_⟩
    · left; ring
    · field_simp; ring
    · left; ring
  · have h2 : n / 2 = N := by omega
    have h3 : n % 2 = 1 := by omega
    have hnN : (n : ℂ) = 2 * N + 1 := by rw [hN]; push_cast; ring
    have hN1 : (2 * (N : ℂ) + 1) ≠ 0 := by rw [← hnN]; exact hnc
    simp only [h2, h3]
    norm_num
    rw [hnN]
    refine ⟨?_, ?_, ?_⟩
    · left; ring
    · rw [div_eq_iff hN1]; ring
    · left; ring

/-- The sign with which the code computes derivative `m`. -/
def TCol.sgn (m : ℕ) : ℂ := if m = 3 then -1 else 1

lemma TCol.kern_column (n m v : ℕ) (hm : 1 ≤ m) (hm3 : m ≤ 3) (hv : v < n) :
    ((column n m v : ℝ) : ℂ) = sgn m * kern n m v := by
  unfold sgn
  rcases Nat.eq_zero_or_pos v with rfl | h0
  · obtain ⟨a, b, c⟩ := kern_diag n (by omega)
    interval_cases m <;> simp [a, b, c]
  · obtain ⟨a, b, c⟩ := kern_off n v h0 hv
    interval_cases m <;> simp [a, b, c]

lemma TCol.column_two_symm (n v : ℕ) (h0 : 0 < v) (hv : v < n) : column n 2 (n - v) = column n 2 v := by
  have hn : (n : ℝ) ≠ 0 := by exact_mod_cast (by omega : n ≠ 0)
  have ht : Real.pi * ((n - v : ℕ) : ℝ) / n = Real.pi - Real.pi * v / n := by
    rw [Nat.cast_sub hv.le]; field_simp
  have hs := Real.sin_pi_sub (Real.pi * v / n)
  have hta : Real.tan (Real.pi - Real.pi * v / n) = -Real.tan (Real.pi * v / n) := Real.tan_pi_sub _
  rw [column_sign _ _ _ (by decide), column_sign _ _ _ (by decide)]
  unfold rawColumn
  simp only [t_eq, ht, hs, hta, show (2:ℕ) ≠ 1 by decide, if_true, if_false, show n - v ≠ 0 by omega, show v ≠ 0 by omega]
  rcases Nat.even_or_odd n with h | h
  · have hne : ¬ n % 2 = 1 := by rw [Nat.even_iff.mp h]; decide
    simp only [if_neg hne]
    have : (-1 : ℝ) ^ (n - v) = (-1) ^ v := by
      have e : (-1 : ℝ) ^ (n - v) * (-1) ^ v = 1 := by rw [← pow_add, Nat.sub_add_cancel hv.le, h.neg_one_pow]
      rcases neg_one_pow_eq_or ℝ v with h' | h' <;> rw [h'] at e ⊢ <;> linarith
    rw [this]
  · simp only [if_pos (Nat.odd_iff.mp h)]
    have : (-1 : ℝ) ^ (n - v) = -(-1) ^ v := by
      have e : (-1 : ℝ) ^ (n - v) * (-1) ^ v = -1 := by rw [← pow_add, Nat.sub_add_cancel hv.le, h.neg_one_pow]
      rcases neg_one_pow_eq_or ℝ v with h' | h' <;> rw [h'] at e ⊢ <;> linarith
    rw [this, div_neg]
    ring

/-- The entries of the matrix. -/
lemma TCol.entry (n m : ℕ) (hm : 1 ≤ m) (hm3 : m ≤ 3) (i j : Fin n) :
    (((if (j : ℕ) ≤ i then column n m (i - j) else row n m (j - i)) : ℝ) : ℂ) = sgn m * kern n m ((i : ℤ) - j) := by
  have hn : n ≠ 0 := by have := i.2; omega
  split_ifs with h
  · rw [kern_column n m _ hm hm3 (by omega), Nat.cast_sub h]
  · unfold row
    by_cases h2 : m = 2
    · subst h2
      rw [if_pos rfl, ← column_two_symm n _ (by omega) (by omega), kern_column n 2 _ (by omega) (by omega) (by omega)]
      rw [kern_mod n 2 hn _ ((i : ℤ) - j)]
      refine ⟨1, by omega⟩
    · rw [if_neg h2, if_neg (by omega), kern_column n m _ hm hm3 (by omega)]
      rw [kern_mod n m hn _ ((i : ℤ) - j)]
      refine ⟨1, by omega⟩

/-- Orthogonality. -/
lemma TCol.kern_apply (n m k : ℕ) (hk : k < n) (j : ℤ) :
    ∑ l ∈ range n, kern n m (j - l) * rou n (wave n k * l) = mu n m k * rou n (wave n k * j) := by
  have hn : n ≠ 0 := by omega
  have hnc : (n : ℂ) ≠ 0 := by exact_mod_cast hn
  unfold kern
  simp only [div_mul_eq_mul_div, sum_mul, ← sum_div]
  rw [sum_comm, div_eq_iff hnc]
  have : ∀ k' ∈ range n, ∑ l ∈ range n, mu n m k' * rou n (wave n k' * (j - l)) * rou n (wave n k * l)
      = if k' = k then mu n m k * rou n (wave n k * j) * n else 0 := by
    intro k' hk'
    rw [mem_range] at hk'
    have e : ∀ l : ℕ, mu n m k' * rou n (wave n k' * (j - l)) * rou n (wave n k * l)
        = mu n m k' * rou n (wave n k' * j) * rou n ((wave n k - wave n k') * l) := by
      intro l
      rw [mul_assoc, ← rou_add, mul_assoc, ← rou_add]
      congr 2
      ring
    simp only [e, ← mul_sum, sum_rou n hn]
    by_cases h : k' = k
    · subst h; simp
    · rw [if_neg h, if_neg, mul_zero]
      unfold wave
      rintro ⟨q, hq⟩
      have : (k : ℤ) - k' = n * q := by rw [← hq]; ring
      have h1 : |((k : ℤ) - k')| < n := by rw [abs_lt]; constructor <;> omega
      have := Int.eq_zero_of_abs_lt_dvd ⟨q, this⟩ h1
      omega
  rw [sum_congr rfl this, sum_ite_eq' (range n) k, if_pos (mem_range.mpr hk)]

/-! ### Derivatives of the modes -/

lemma TCol.iter_exp (a : ℂ) (m : ℕ) : iteratedDeriv m (fun x : ℝ => cexp (a * x)) = fun x : ℝ => a ^ m * cexp (a * x) := by
  induction m with
  | zero => simp
  | succ m ih =>
    rw [iteratedDeriv_succ, ih]
    funext x
    have h : HasDerivAt (fun x : ℝ => cexp (a * x)) (cexp (a * x) * a) x := by
      have := ((hasDerivAt_id x).ofReal_comp.const_mul a).cexp
      simpa using this
    rw [(h.const_mul (a ^ m)).deriv]
    ring

lemma TCol.exp_smooth (a : ℂ) (m : ℕ) : ContDiff ℝ m (fun x : ℝ => cexp (a * x)) := by
  have : ContDiff ℝ m (fun x : ℝ => (x : ℂ)) := Complex.ofRealCLM.contDiff
  exact (contDiff_const.mul this).cexp

/-- Every mode is a combination of exponentials. -/
lemma TCol.mode_exp (n k : ℕ) : (fun x : ℝ => trigMode n k x) = fun x : ℝ =>
    if n % 2 = 0 ∧ k = 0 then (1 / 2 : ℂ) * (cexp ((I * Real.pi * (wave n k)) * x) + cexp ((-(I * Real.pi * (wave n k))) * x))
    else cexp ((I * Real.pi * (wave n k)) * x) := by
  funext x
  unfold trigMode
  split_ifs with h
  · obtain ⟨-, rfl⟩ := h
    rw [Complex.ofReal_cos, Complex.cos]
    rw [show wave n 0 = -((n / 2 : ℕ) : ℤ) by unfold wave; simp]
    generalize n / 2 = M
    push_cast
    ring_nf
  · rfl

lemma TCol.mode_smooth (n k m : ℕ) : ContDiff ℝ m (trigMode n k) := by
  have := mode_exp n k
  rw [show (trigMode n k) = fun x : ℝ => trigMode n k x from rfl, this]
  split_ifs with h
  · exact contDiff_const.mul ((exp_smooth _ m).add (exp_smooth _ m))
  · exact exp_smooth _ m

lemma TCol.mode_deriv_grid (n k m j : ℕ) (hn : n ≠ 0) :
    iteratedDeriv m (trigMode n k) (equi n j) = Real.pi ^ m * mu n m k * ((-1) ^ wave n k * rou n (wave n k * j)) := by
  have := mode_exp n k
  rw [show (trigMode n k) = fun x : ℝ => trigMode n k x from rfl, this]
  unfold mu
  by_cases h : n % 2 = 0 ∧ k = 0
  · simp only [if_pos h]
    rw [iteratedDeriv_const_mul_field, iteratedDeriv_fun_add (exp_smooth _ m).contDiffAt (exp_smooth _ m).contDiffAt, iter_exp, iter_exp]
    have g1 := grid_exp n hn (wave n k) j
    have g2 := grid_exp n hn (-wave n k) j
    push_cast at g2
    have e : -(I * Real.pi * (wave n k : ℂ)) = I * Real.pi * -(wave n k : ℂ) := by ring
    have er : rou n (-wave n k * j) = rou n (wave n k * j) := by
      apply rou_mod n hn
      obtain ⟨h1, rfl⟩ := h
      unfold wave
      refine ⟨j, ?_⟩
      have : ((n / 2 : ℕ) : ℤ) * 2 = n := by omega
      push_cast at this ⊢
      linear_combination (j : ℤ) * this
    have es : ((-1 : ℂ)) ^ (-wave n k) = (-1) ^ wave n k := by
      rw [zpow_neg, ← inv_zpow]; norm_num
    simp only [e, g1, g2, er, es]
    obtain ⟨h1, rfl⟩ := h
    rcases Nat.even_or_odd m with hm | hm
    · rw [if_neg (by rw [Nat.even_iff.mp hm]; omega)]
      rw [show I * Real.pi * -(wave n 0 : ℂ) = -(I * Real.pi * (wave n 0 : ℂ)) by ring, hm.neg_pow]
      ring
    · rw [if_pos ⟨h1, rfl, Nat.odd_iff.mp hm⟩]
      rw [show I * Real.pi * -(wave n 0 : ℂ) = -(I * Real.pi * (wave n 0 : ℂ)) by ring, hm.neg_pow]
      ring
  · simp only [if_neg h]
    rw [iter_exp, if_neg (fun hh => h ⟨hh.1, hh.2.1⟩)]
    simp only [grid_exp n hn (wave n k) j]
    ring

lemma TCol.eval_deriv_grid (c : List ℂ) (m j : ℕ) (hn : c.length ≠ 0) :
    iteratedDeriv m (trigEval c) (equi c.length j) = ∑ k ∈ range c.length,
      c.getD k 0 * (Real.pi ^ m * mu c.length m k * ((-1) ^ wave c.length k * rou c.length (wave c.length k * j))) := by
  have : trigEval c = fun x => ∑ k ∈ range c.length, c.getD k 0 * trigMode c.length k x := rfl
  rw [this, iteratedDeriv_fun_sum (fun k _ => (contDiff_const.mul (mode_smooth c.length k m)).contDiffAt)]
  refine sum_congr rfl fun k _ => ?_
  rw [iteratedDeriv_const_mul_field]
  rw [mode_deriv_grid _ _ _ _ hn]

/-- The action of the matrix on the values of a Fourier series. -/
lemma TCol.mat_apply (c : List ℂ) (m : ℕ) (hn : 2 ≤ c.length) (hm : 1 ≤ m) (hm3 : m ≤ 3)
    (D : Matrix (Fin c.length) (Fin c.length) ℝ) (hD : diffmat c.length m = some D) (j : Fin c.length) :
    ∑ l : Fin c.length, (D j l : ℂ) * trigEval c (equi c.length l)
      = sgn m * iteratedDeriv m (trigEval c) (equi c.length j) := by
  unfold diffmat at hD
  rw [if_neg (by omega), if_neg (by omega), if_neg (by omega), if_neg (by omega)] at hD
  have hD' := Option.some.inj hD
  have e : ∀ l : Fin c.length, (D j l : ℂ) = Real.pi ^ m * (sgn m * kern c.length m ((j : ℤ) - l)) := by
    intro l
    rw [← hD', ← entry c.length m hm hm3 j l]
    rw [Matrix.smul_apply, Matrix.of_apply, smul_eq_mul]
    push_cast
    rfl
  simp only [e]
  rw [eval_deriv_grid c m j (by omega)]
  rw [Fin.sum_univ_eq_sum_range (fun l => (Real.pi : ℂ) ^ m * (sgn m * kern c.length m ((j : ℤ) - l)) * trigEval c (equi c.length l))]
  have e2 : ∀ l ∈ range c.length, (Real.pi : ℂ) ^ m * (sgn m * kern c.length m ((j : ℤ) - l)) * trigEval c (equi c.length l)
      = ∑ k ∈ range c.length, (Real.pi : ℂ) ^ m * sgn m * c.getD k 0 * (-1) ^ wave c.length k *
        (kern c.length m ((j : ℤ) - l) * rou c.length (wave c.length k * l)) := by
    intro l _
    rw [trigEval, mul_sum]
    refine sum_congr rfl fun k _ => ?_
    rw [trigMode_grid _ (by omega)]
    ring
  rw [sum_congr rfl e2, sum_comm, mul_sum]
  refine sum_congr rfl fun k hk => ?_
  rw [← mul_sum, kern_apply _ _ _ (mem_range.mp hk)]
  ring

/-! ### The property -/

/-- **C105**: for every number `n ≥ 2` of equispaced points, even or odd, and for the orders `m = 0, 1, 2`, `diffmat(n, m)` maps the values
of every Fourier series with `n` coefficients to the values of its `m`-th derivative at the same points. -/
theorem C105_diffmat (c : List ℂ) (m : ℕ) (hn : 2 ≤ c.length) (hm : m ≤ 2) :
    ∃ D, diffmat c.length m = some D ∧ ∀ j : Fin c.length,
      ∑ l : Fin c.length, (D j l : ℂ) * trigEval c (equi c.length l) = iteratedDeriv m (trigEval c) (equi c.length j) := by
  rcases Nat.eq_zero_or_pos m with rfl | h0
  · refine ⟨1, ?_, fun j => ?_⟩
    · unfold diffmat
      rw [if_neg (by omega), if_neg (by omega), if_pos rfl]
    · rw [sum_eq_single j (fun l _ hl => by rw [Matrix.one_apply_ne hl.symm]; simp) (fun h => absurd (mem_univ j) h)]
      simp
  · obtain ⟨D, hD⟩ : ∃ D, diffmat c.length m = some D := by
      unfold diffmat
      rw [if_neg (by omega), if_neg (by omega), if_neg (by omega), if_neg (by omega)]
      exact ⟨_, rfl⟩
    refine ⟨D, hD, fun j => ?_⟩
    rw [mat_apply c m hn h0 (by omega) D hD j, sgn, if_neg (by omega), one_mul]

/-- **C105**: said of arbitrary values instead of coefficients: the values `v` at `n` equispaced points belong to exactly one Fourier series with
`n` coefficients, and the matrix returns the values of its derivative. -/
theorem C105_interpolant (n m : ℕ) (hn : 2 ≤ n) (hm : m ≤ 2) (v : Fin n → ℂ) :
    ∃ D, diffmat n m = some D ∧ ∃! c : List ℂ, c.length = n ∧ (∀ l : Fin n, trigEval c (equi n l) = v l) ∧
      ∀ j : Fin n, ∑ l : Fin n, (D j l : ℂ) * v l = iteratedDeriv m (trigEval c) (equi n j) := by
  set c := vals2coeffs (List.ofFn v) with hc
  have hl : c.length = n := by rw [hc, vals2coeffs_length, List.length_ofFn]
  have hv : ∀ l : Fin n, trigEval c (equi n l) = v l := by
    intro l
    have := trigEval_grid c l (by rw [hl]; exact l.2)
    rw [hl] at this
    rw [this, hc, coeffs2vals_vals2coeffs, getD_lt' _ _ _ (by rw [List.length_ofFn]; exact l.2)]
    simp
  obtain ⟨D, hD, hDe⟩ : ∃ D, diffmat n m = some D ∧ ∀ j : Fin n,
      ∑ l : Fin n, (D j l : ℂ) * trigEval c (equi n l) = iteratedDeriv m (trigEval c) (equi n j) := by
    have := C105_diffmat c m (by omega) hm
    rw [hl] at this
    exact this
  refine ⟨D, hD, c, ⟨hl, hv, fun j => ?_⟩, ?_⟩
  · rw [← hDe j]
    exact sum_congr rfl fun l _ => by rw [hv l]
  · rintro d ⟨hd, hdv, -⟩
    apply eq_of_grid d c (by rw [hd, hl])
    intro j hj
    rw [hd] at hj ⊢
    rw [hdv ⟨j, hj⟩, hv ⟨j, hj⟩]

/-- **C105 fails for the third derivative**: for every `n ≥ 2` the matrix `diffmat(n, 3)` returns exactly **minus** the third derivative. -/
theorem C105_third_fails (c : List ℂ) (hn : 2 ≤ c.length) :
    ∃ D, diffmat c.length 3 = some D ∧ ∀ j : Fin c.length,
      ∑ l : Fin c.length, (D j l : ℂ) * trigEval c (equi c.length l) = -iteratedDeriv 3 (trigEval c) (equi c.length j) := by
  obtain ⟨D, hD⟩ : ∃ D, diffmat c.length 3 = some D := by
    unfold diffmat
    rw [if_neg (by omega), if_neg (by omega), if_neg (by omega), if_neg (by omega)]
    exact ⟨_, rfl⟩
  refine ⟨D, hD, fun j => ?_⟩
  rw [mat_apply c 3 hn (by omega) (by omega) D hD j, sgn, if_pos rfl]
  ring

/-- **C105**: and the sign is visible: for every `n ≥ 3` there are values whose third derivative is not zero, so that the result is wrong. -/
theorem C105_third_wrong (n : ℕ) (hn : 3 ≤ n) :
    ∃ c : List ℂ, c.length = n ∧ ∃ D, diffmat n 3 = some D ∧
      ∑ l : Fin n, (D ⟨0, by omega⟩ l : ℂ) * trigEval c (equi n l) ≠ iteratedDeriv 3 (trigEval c) (equi n 0) := by
  set c : List ℂ := (List.range n).map fun k => if k = n / 2 + 1 then 1 else 0 with hc
  have hl : c.length = n := by simp [hc]
  obtain ⟨D, hD, hDe⟩ : ∃ D, diffmat n 3 = some D ∧ ∀ j : Fin n,
      ∑ l : Fin n, (D j l : ℂ) * trigEval c (equi n l) = -iteratedDeriv 3 (trigEval c) (equi n j) := by
    have := C105_third_fails c (by omega)
    rw [hl] at this
    exact this
  refine ⟨c, hl, D, hD, ?_⟩
  rw [hDe]
  intro h
  have h0 : iteratedDeriv 3 (trigEval c) (equi n 0) = 0 := by
    have h' := neg_eq_iff_add_eq_zero.mp h
    have : (2 : ℂ) * iteratedDeriv 3 (trigEval c) (equi n 0) = 0 := by rw [two_mul]; exact h'
    simpa using this
  have e := eval_deriv_grid c 3 0 (by omega)
  rw [hl, h0, sum_eq_single (n / 2 + 1)] at e
  · have hw : wave n (n / 2 + 1) = 1 := by unfold wave; push_cast; ring
    rw [hc, getD_map_range, if_pos (by omega), if_pos rfl, hw, mu, if_neg (by omega), hw] at e
    have hp : (Real.pi : ℂ) ≠ 0 := by exact_mod_cast Real.pi_ne_zero
    have := rou_ne_zero n (1 * (0 : ℕ))
    have hI := I_ne_zero
    refine absurd e.symm ?_
    simp only [one_mul, Int.cast_one, mul_one, zpow_one]
    refine mul_ne_zero (mul_ne_zero (pow_ne_zero _ hp) (pow_ne_zero _ hI)) (mul_ne_zero (by norm_num) ?_)
    simpa using this
  · intro k hk hne
    rw [hc, getD_map_range, if_pos (mem_range.mp hk), if_neg hne, zero_mul]
  · intro h
    exact absurd (mem_range.mpr (by omega)) h

/-- **C105**: one point. The result is zero for every order, also for `m = 0`, where the identity is expected. -/
theorem C105_one_point (m : ℕ) : diffmat 1 m = some 0 ∧ ((0 : Matrix (Fin 1) (Fin 1) ℝ) ≠ 1) := by
  refine ⟨by unfold diffmat; simp, fun h => ?_⟩
  have := congrFun (congrFun h 0) 0
  simp at this

/-- **C105**: no matrix for `m ≥ 4` or without points. -/
theorem C105_undefined (n m : ℕ) (hn : n ≠ 1) : diffmat n m = none ↔ n = 0 ∨ 4 ≤ m := by
  unfold diffmat
  rcases Nat.eq_zero_or_pos n with rfl | h
  · simp
  · rw [if_neg (by omega), if_neg hn]
    split_ifs with h1 h2 <;> simp <;> omega

/-- Three coefficients are enough: the hypotheses are met, and the derivative is that of the series. -/
example : ∃ D, diffmat 3 1 = some D ∧ ∀ j : Fin 3,
    ∑ l : Fin 3, (D j l : ℂ) * trigEval [2, 5, I] (equi 3 l) = iteratedDeriv 1 (trigEval [2, 5, I]) (equi 3 j) :=
  C105_diffmat [2, 5, I] 1 (by simp) (by omega)

/-- Four points: the unpaired mode. -/
example : ∃ D, diffmat 4 2 = some D ∧ ∀ j : Fin 4,
    ∑ l : Fin 4, (D j l : ℂ) * trigEval [2, 5, I, 1] (equi 4 l) = iteratedDeriv 2 (trigEval [2, 5, I, 1]) (equi 4 j) :=
  C105_diffmat [2, 5, I, 1] 2 (by simp) (by omega)

end Funpy.Props
