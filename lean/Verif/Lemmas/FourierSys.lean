import Verif.Lemmas.FourierEven
import Mathlib.Data.Matrix.Mul
import Mathlib.LinearAlgebra.Pi

/-!
# Stability of Fourier truncations of systems
-/

namespace Funpy.FourierStab
open Spec Finset Complex

/-- the coefficients of `d` functions -/
abbrev Vec (d : ℕ) := Fin d → Co

variable {d : ℕ}

/-- the sum of the norms of the components -/
noncomputable def V (s : ℕ) (a : Vec d) : ℝ := ∑ i, W s (a i)

lemma V_nonneg (s : ℕ) (a : Vec d) : 0 ≤ V s a := sum_nonneg fun i _ => W_nonneg s _

lemma W_le_V (s : ℕ) (a : Vec d) (i : Fin d) : W s (a i) ≤ V s a := single_le_sum (f := fun i => W s (a i)) (fun i _ => W_nonneg s _) (mem_univ i)

lemma V_zero (s : ℕ) : V s (0 : Vec d) = 0 := by simp [V, W_zero]

lemma V_add (s : ℕ) (a b : Vec d) : V s (a + b) ≤ V s a + V s b := by
  unfold V
  rw [← sum_add_distrib]
  exact sum_le_sum fun i _ => W_add s _ _

lemma V_smul (s : ℕ) (r : ℂ) (a : Vec d) : V s (r • a) = ‖r‖ * V s a := by
  unfold V
  rw [mul_sum]
  exact sum_congr rfl fun i _ => W_smul s r _

lemma V_neg (s : ℕ) (a : Vec d) : V s (-a) = V s a := sum_congr rfl fun i _ => W_neg s _

lemma V_sub (s : ℕ) (a b : Vec d) : V s (a - b) ≤ V s a + V s b := by
  rw [sub_eq_add_neg]
  exact (V_add _ _ _).trans (by rw [V_neg])

lemma V_mono (s s' : ℕ) (h : s ≤ s') (a : Vec d) : V s a ≤ V s' a := sum_le_sum fun i _ => W_mono s s' h _

/-- the modes `-(n / 2), …, n - n / 2 - 1` -/
noncomputable def tr (n : ℕ) (a : Vec d) : Vec d := fun i => (a i).filter fun k => -((n / 2 : ℕ) : ℤ) ≤ k ∧ k < ((n - n / 2 : ℕ) : ℤ)

/-- only the modes `-(n / 2), …, n - n / 2 - 1` -/
def Kept (n : ℕ) (a : Vec d) : Prop := ∀ i k, (k < -((n / 2 : ℕ) : ℤ) ∨ ((n - n / 2 : ℕ) : ℤ) ≤ k) → a i k = 0

lemma tr_apply (n : ℕ) (a : Vec d) (i : Fin d) (k : ℤ) : tr n a i k = if -((n / 2 : ℕ) : ℤ) ≤ k ∧ k < ((n - n / 2 : ℕ) : ℤ) then a i k else 0 :=
  Finsupp.filter_apply _ _ _

lemma Kept.mono {n n' : ℕ} (h : n ≤ n') {a : Vec d} (ha : Kept n a) : Kept n' a := fun i k hk => ha i k (by omega)

lemma Kept.sub {n : ℕ} {a b : Vec d} (ha : Kept n a) (hb : Kept n b) : Kept n (a - b) := fun i k hk => by
  rw [Pi.sub_apply, Finsupp.sub_apply, ha i k hk, hb i k hk, sub_zero]

lemma tr_kept (n : ℕ) {a : Vec d} (ha : Kept n a) : tr n a = a := by
  funext i
  ext k
  rw [tr_apply]
  split_ifs with h
  · rfl
  · rw [ha i k (by omega)]

lemma tr_sub (n : ℕ) (a b : Vec d) : tr n (a - b) = tr n a - tr n b := by
  funext i
  ext k
  rw [Pi.sub_apply, Finsupp.sub_apply, tr_apply, tr_apply, tr_apply, Pi.sub_apply, Finsupp.sub_apply]
  split_ifs
  · rfl
  · rw [sub_zero]

lemma V_tr (s n : ℕ) (a : Vec d) : V s (tr n a) ≤ V s a := by
  apply sum_le_sum
  intro i _
  rw [W_eq s (tr n a i) (a i).support (support_mono_filter _ _), W_eq s (a i) _ subset_rfl]
  apply sum_le_sum
  intro k _
  have := (wt_pos k).le
  rw [tr_apply]
  split_ifs
  · exact le_rfl
  · rw [norm_zero, mul_zero]; positivity

lemma V_tr_tail (s t n : ℕ) (a : Vec d) : (((n / 2 : ℕ) : ℝ) + 1) ^ t * V s (a - tr n a) ≤ V (s + t) a := by
  unfold V
  rw [mul_sum]
  apply sum_le_sum
  intro i _
  have hsub : ((a - tr n a) i).support ⊆ (a i).support := by
    intro k hk
    rw [Finsupp.mem_support_iff] at hk ⊢
    intro h
    rw [Pi.sub_apply, Finsupp.sub_apply, tr_apply, h, ite_self, sub_zero] at hk
    exact hk rfl
  rw [W_eq s _ (a i).support hsub, W_eq (s + t) (a i) _ subset_rfl, mul_sum]
  apply sum_le_sum
  intro k _
  have := (wt_pos k).le
  rw [Pi.sub_apply, Finsupp.sub_apply, tr_apply]
  split_ifs with h
  · rw [sub_self, norm_zero, mul_zero, mul_zero]; positivity
  · rw [sub_zero]
    have hm : ((n / 2 : ℕ) : ℝ) + 1 ≤ wt k := by
      unfold wt
      have : ((n / 2 : ℕ) : ℝ) ≤ k.natAbs := by exact_mod_cast (by omega : n / 2 ≤ k.natAbs)
      linarith
    have h2 : (((n / 2 : ℕ) : ℝ) + 1) ^ t ≤ wt k ^ t := by gcongr
    calc (((n / 2 : ℕ) : ℝ) + 1) ^ t * (wt k ^ s * ‖a i k‖) ≤ wt k ^ t * (wt k ^ s * ‖a i k‖) := by gcongr
      _ = _ := by rw [pow_add]; ring

lemma exists_kept (a : Vec d) : ∃ N, ∀ n, N ≤ n → Kept n a := by
  choose m hm using fun i => exists_bound (a i)
  refine ⟨2 * ∑ i, m i + 2, fun n hn i k hk => hm i k ?_⟩
  have := single_le_sum (f := m) (fun i _ => Nat.zero_le _) (mem_univ i)
  omega

/-- an invertible matrix times a multiplier of order `p + 1` plus an operator of order `p` -/
structure SOp (d : ℕ) where
  /-- order minus one -/
  p : ℕ
  /-- leading multiplier -/
  mu : ℤ → ℂ
  /-- its lower bound -/
  γ : ℝ
  /-- positive -/
  hγ : 0 < γ
  /-- lower bound -/
  hmu : ∀ k, k ≠ 0 → γ * wt k ^ (p + 1) ≤ ‖mu k‖
  /-- the matrix -/
  A : Matrix (Fin d) (Fin d) ℂ
  /-- its inverse -/
  B : Matrix (Fin d) (Fin d) ℂ
  /-- inverse -/
  hBA : B * A = 1
  /-- the lower order part -/
  K : Vec d →ₗ[ℂ] Vec d
  /-- its order -/
  hK : ∀ s, ∃ C, 0 ≤ C ∧ ∀ a, V s (K a) ≤ C * V (s + p) a

namespace SOp
variable (L : SOp d)

/-- the leading part -/
noncomputable def lead : Vec d →ₗ[ℂ] Vec d := LinearMap.pi fun i => ∑ j, L.A i j • (diag L.mu).comp (LinearMap.proj j)

lemma lead_apply (a : Vec d) (i : Fin d) : L.lead a i = ∑ j, L.A i j • diag L.mu (a j) := by
  unfold lead
  rw [LinearMap.pi_apply, LinearMap.sum_apply]
  rfl

/-- the operator -/
noncomputable def Lam : Vec d →ₗ[ℂ] Vec d := L.lead + L.K

lemma Lam_apply (a : Vec d) : L.Lam a = L.lead a + L.K a := rfl

/-- the coefficients are controlled by the norm of the image -/
def CStable (S : ℝ) : Prop := ∀ a i k, ‖a i k‖ ≤ S * V 0 (L.Lam a)

/-- the size of the inverse -/
noncomputable def β : ℝ := ∑ j, ∑ i, ‖L.B j i‖

lemma β_nonneg : 0 ≤ L.β := sum_nonneg fun j _ => sum_nonneg fun i _ => norm_nonneg _

lemma unlead (a : Vec d) (j : Fin d) : diag L.mu (a j) = ∑ i, L.B j i • L.lead a i := by
  simp only [lead_apply, smul_sum]
  rw [sum_comm]
  simp only [smul_smul, ← sum_smul]
  have h : ∀ l, ∑ i, L.B j i * L.A i l = if j = l then 1 else 0 := by
    intro l
    have := congrFun (congrFun L.hBA j) l
    rw [Matrix.mul_apply, Matrix.one_apply] at this
    exact this
  simp only [h]
  rw [sum_eq_single j]
  · rw [if_pos rfl, one_smul]
  · intro l _ hl
    rw [if_neg (Ne.symm hl), zero_smul]
  · simp

lemma W_unlead (s : ℕ) (a : Vec d) (j : Fin d) : W s (diag L.mu (a j)) ≤ (∑ i, ‖L.B j i‖) * V s (L.lead a) := by
  rw [L.unlead, sum_mul]
  refine (W_sum _ _ _).trans (sum_le_sum fun i _ => ?_)
  rw [W_smul]
  exact mul_le_mul_of_nonneg_left (W_le_V _ _ _) (norm_nonneg _)

lemma V_lead (s : ℕ) (a : Vec d) : L.γ * V (s + (L.p + 1)) a ≤ L.β * V s (L.lead a) + L.γ * ∑ j, ‖a j 0‖ := by
  set M : Op := { p := L.p, lead := L.mu, γ := L.γ, hγ := L.hγ, hlead := L.hmu, K := 0, hK := fun s => ⟨0, le_rfl, fun a => by simp [W_zero]⟩ } with hM
  rw [β, sum_mul, mul_sum, ← sum_add_distrib]
  rw [show V (s + (L.p + 1)) a = ∑ j, W (s + (L.p + 1)) (a j) from rfl, mul_sum]
  apply sum_le_sum
  intro j _
  have h1 := M.W_lead s (a j)
  exact h1.trans (add_le_add (L.W_unlead s a j) le_rfl)

lemma coeff_V (a : Vec d) (M : ℝ) (h : ∀ i k, ‖a i k‖ ≤ M) (s m : ℕ) :
    V s (fun i => lo m (a i)) ≤ d * ((2 * m + 1) * ((m + 1) ^ s * M)) := by
  unfold V
  calc _ ≤ ∑ _i : Fin d, ((2 * (m : ℝ) + 1) * ((m + 1) ^ s * M)) := sum_le_sum fun i _ => W_lo_bound s m (a i) M (h i)
    _ = _ := by rw [sum_const, card_univ, Fintype.card_fin, nsmul_eq_mul]

lemma V_split (s m : ℕ) (a : Vec d) : V s a ≤ V s (fun i => lo m (a i)) + V s (fun i => hi m (a i)) := by
  have : a = (fun i => lo m (a i)) + (fun i => hi m (a i)) := by
    funext i
    rw [Pi.add_apply, lo_add_hi]
  conv_lhs => rw [this]
  exact V_add _ _ _

lemma V_hi_tail (s t m : ℕ) (a : Vec d) : ((m : ℝ) + 1) ^ t * V s (fun i => hi m (a i)) ≤ V (s + t) a := by
  unfold V
  rw [mul_sum]
  exact sum_le_sum fun i _ => W_hi_tail s t m (a i)

/-- regularity up to lower order terms -/
lemma weak (s : ℕ) : ∃ C, 0 ≤ C ∧ ∀ a, V (s + (L.p + 1)) a ≤ C * (V s (L.Lam a) + V (s + L.p) a) := by
  obtain ⟨C, hC, hK⟩ := L.hK s
  have hγ := L.hγ
  have hβ := L.β_nonneg
  refine ⟨(L.β + L.β * C + L.γ) / L.γ, by positivity, fun a => ?_⟩
  have h1 := L.V_lead s a
  have h2 : V s (L.lead a) ≤ V s (L.Lam a) + C * V (s + L.p) a := by
    rw [show L.lead a = L.Lam a - L.K a by rw [Lam_apply]; abel]
    exact (V_sub _ _ _).trans (add_le_add le_rfl (hK a))
  have h3 : ∑ j, ‖a j 0‖ ≤ V (s + L.p) a := sum_le_sum fun j _ => (coeff_le_W (a j) 0).trans (W_mono _ _ (Nat.zero_le _) _)
  have h4 := V_nonneg s (L.Lam a)
  have h5 := V_nonneg (s + L.p) a
  rw [div_mul_eq_mul_div, le_div_iff₀ hγ]
  have h6 : L.β * V s (L.lead a) ≤ L.β * (V s (L.Lam a) + C * V (s + L.p) a) := by gcongr
  have h7 : L.γ * ∑ j, ‖a j 0‖ ≤ L.γ * V (s + L.p) a := by gcongr
  have h8 : 0 ≤ L.β * C * V s (L.Lam a) := by positivity
  have h9 : 0 ≤ L.γ * V s (L.Lam a) := by positivity
  have h10 : 0 ≤ L.β * V (s + L.p) a := by positivity
  linarith

/-- regularity: the coefficients gain the full order -/
lemma regularity (S : ℝ) (hS : 0 ≤ S) (hst : L.CStable S) (s : ℕ) : ∃ C, 0 ≤ C ∧ ∀ a, V (s + (L.p + 1)) a ≤ C * V s (L.Lam a) := by
  obtain ⟨C, hC, hw⟩ := L.weak s
  obtain ⟨m, hm⟩ := exists_nat_ge (2 * C)
  set D : ℝ := d * ((2 * m + 1) * ((m + 1) ^ (s + L.p) * S)) with hD
  have hD0 : 0 ≤ D := by positivity
  refine ⟨2 * (C * (1 + D)), by positivity, fun a => ?_⟩
  set P := V s (L.Lam a) with hP
  have hP0 : 0 ≤ P := V_nonneg _ _
  have hc : ∀ i k, ‖a i k‖ ≤ S * P := fun i k => (hst a i k).trans (mul_le_mul_of_nonneg_left (V_mono _ _ (Nat.zero_le s) _) hS)
  have h1 := hw a
  have h2 := V_split (s + L.p) m a
  have h3 := coeff_V a _ hc (s + L.p) m
  have h4 := V_hi_tail (s + L.p) 1 m a
  rw [pow_one] at h4
  have h5 : (d : ℝ) * ((2 * m + 1) * ((m + 1) ^ (s + L.p) * (S * P))) = D * P := by rw [hD]; ring
  rw [h5] at h3
  set T := V (s + L.p) (fun i => hi m (a i)) with hT
  have hT0 : 0 ≤ T := V_nonneg _ _
  rw [show s + L.p + 1 = s + (L.p + 1) by ring] at h4
  have h6 : C * T ≤ V (s + (L.p + 1)) a / 2 := by nlinarith
  have h7 : C * (P + V (s + L.p) a) ≤ C * (P + (D * P + T)) := by gcongr; linarith
  nlinarith

variable (E : ℕ → Vec d → Vec d) (G : ℕ → Prop)

/-- the perturbation is small on the modes which are far out -/
def Small (E : ℕ → Vec d → Vec d) (G : ℕ → Prop) (p : ℕ) : Prop := ∀ s t, ∃ C, 0 ≤ C ∧ ∀ n, G n → ∀ a, (((n / 2 : ℕ) : ℝ) + 1) ^ t * V s (E n a) ≤ C * V (s + t + p) a

variable (hE : Small E G L.p)
include hE

/-- what the truncation misses -/
lemma defect (s t : ℕ) : ∃ C, 0 ≤ C ∧ ∀ n, G n → ∀ a, Kept n a →
    (((n / 2 : ℕ) : ℝ) + 1) ^ t * V s (L.Lam a - tr n (L.Lam a - E n a)) ≤ C * V (s + t + L.p) a := by
  obtain ⟨C, hC, hK⟩ := L.hK (s + t)
  obtain ⟨D, hD, hED⟩ := hE s t
  refine ⟨C + D, by positivity, fun n hn a ha => ?_⟩
  have h1 : L.Lam a - tr n (L.Lam a - E n a) = (L.K a - tr n (L.K a)) + tr n (E n a) := by
    have h2 : tr n (L.lead a) = L.lead a := by
      apply tr_kept
      intro i k hk
      rw [lead_apply, Finsupp.finsetSum_apply]
      apply sum_eq_zero
      intro j _
      rw [Finsupp.smul_apply, diag_apply, ha j k hk, mul_zero, smul_zero]
    have h3 : tr n (L.Lam a) = L.lead a + tr n (L.K a) := by
      have : L.K a = L.Lam a - L.lead a := by rw [Lam_apply]; abel
      rw [this, tr_sub, h2]
      abel
    rw [tr_sub, h3, Lam_apply]
    abel
  rw [h1]
  have h2 := (V_tr_tail s t n (L.K a)).trans (hK a)
  have h3 := hED n hn a
  have h4 := V_tr s n (E n a)
  have h0 : (0 : ℝ) ≤ (((n / 2 : ℕ) : ℝ) + 1) ^ t := by positivity
  calc _ ≤ (((n / 2 : ℕ) : ℝ) + 1) ^ t * (V s (L.K a - tr n (L.K a)) + V s (E n a)) :=
        mul_le_mul_of_nonneg_left ((V_add _ _ _).trans (add_le_add le_rfl h4)) h0
    _ = (((n / 2 : ℕ) : ℝ) + 1) ^ t * V s (L.K a - tr n (L.K a)) + (((n / 2 : ℕ) : ℝ) + 1) ^ t * V s (E n a) := by ring
    _ ≤ C * V (s + t + L.p) a + D * V (s + t + L.p) a := add_le_add h2 h3
    _ = _ := by ring

/-- **discrete stability** -/
lemma discrete_stability (S : ℝ) (hS : 0 ≤ S) (hst : L.CStable S) (s : ℕ) :
    ∃ C N, 0 ≤ C ∧ ∀ n, N ≤ n → G n → ∀ a, Kept n a → V (s + (L.p + 1)) a ≤ C * V s (tr n (L.Lam a - E n a)) := by
  obtain ⟨C, hC, hreg⟩ := L.regularity S hS hst s
  obtain ⟨D, hD, htail⟩ := L.defect E G hE s 1
  obtain ⟨N, hN⟩ := exists_nat_ge (2 * (C * D))
  refine ⟨2 * C, 2 * N, by positivity, fun n hn hg a ha => ?_⟩
  have h1 := hreg a
  have h2 := htail n hg a ha
  rw [pow_one, show s + 1 + L.p = s + (L.p + 1) by ring] at h2
  set T := V s (L.Lam a - tr n (L.Lam a - E n a)) with hT
  have hT0 : 0 ≤ T := V_nonneg _ _
  have h3 : V s (L.Lam a) ≤ V s (tr n (L.Lam a - E n a)) + T := by
    have := V_add s (tr n (L.Lam a - E n a)) (L.Lam a - tr n (L.Lam a - E n a))
    rwa [add_sub_cancel] at this
  set m := n / 2 with hm
  have hmN : (N : ℝ) ≤ m := by exact_mod_cast (by omega : N ≤ m)
  have hm0 : 0 < (m : ℝ) + 1 := by positivity
  have h4 : C * T ≤ V (s + (L.p + 1)) a / 2 := by
    have hW := V_nonneg (s + (L.p + 1)) a
    have h5 : ((m : ℝ) + 1) * (C * T) ≤ ((m : ℝ) + 1) * (V (s + (L.p + 1)) a / 2) := by
      calc ((m : ℝ) + 1) * (C * T) = C * (((m : ℝ) + 1) * T) := by ring
        _ ≤ C * (D * V (s + (L.p + 1)) a) := by gcongr
        _ = 2 * (C * D) * (V (s + (L.p + 1)) a / 2) := by ring
        _ ≤ ((m : ℝ) + 1) * (V (s + (L.p + 1)) a / 2) := by gcongr; linarith
    exact le_of_mul_le_mul_left h5 hm0
  have h5 : V (s + (L.p + 1)) a ≤ C * V s (tr n (L.Lam a - E n a)) + C * T := by
    refine h1.trans ?_
    rw [← _root_.mul_add]
    gcongr
  linarith

/-- the solutions of the sections are bounded -/
lemma section_bound (S : ℝ) (hS : 0 ≤ S) (hst : L.CStable S) (φ : Vec d) (s : ℕ) :
    ∃ C N, 0 ≤ C ∧ ∀ n, N ≤ n → G n → ∀ a, Kept n a → tr n (L.Lam a - E n a) = tr n φ → V s a ≤ C := by
  obtain ⟨C, N, hC, hds⟩ := L.discrete_stability E G hE S hS hst s
  refine ⟨C * V s φ, N, mul_nonneg hC (V_nonneg _ _), fun n hn hg a ha heq => ?_⟩
  have h1 := hds n hn hg a ha
  rw [heq] at h1
  exact (V_mono _ _ (by omega) a).trans (h1.trans (mul_le_mul_of_nonneg_left (V_tr s n φ) hC))

/-- **spectral convergence of the residual** -/
lemma residual_decay (S : ℝ) (hS : 0 ≤ S) (hst : L.CStable S) (φ : Vec d) (s t : ℕ) :
    ∃ C N, 0 ≤ C ∧ ∀ n, N ≤ n → G n → ∀ a, Kept n a → tr n (L.Lam a - E n a) = tr n φ →
      (((n / 2 : ℕ) : ℝ) + 1) ^ t * V s (L.Lam a - φ) ≤ C := by
  obtain ⟨C, N, hC, hb⟩ := L.section_bound E G hE S hS hst φ (s + t + L.p)
  obtain ⟨D, hD, htail⟩ := L.defect E G hE s t
  obtain ⟨N1, hN1⟩ := exists_kept φ
  refine ⟨D * C, N + N1, by positivity, fun n hn hg a ha heq => ?_⟩
  have h4 := htail n hg a ha
  rw [heq, tr_kept n (hN1 n (by omega))] at h4
  exact h4.trans (mul_le_mul_of_nonneg_left (hb n (by omega) hg a ha heq) hD)

/-- the solutions of the sections are a Cauchy sequence in every norm -/
lemma section_cauchy (hEs : ∀ n a b, E n (a - b) = E n a - E n b) (S : ℝ) (hS : 0 ≤ S) (hst : L.CStable S) (φ : Vec d) (s t : ℕ) :
    ∃ C N, 0 ≤ C ∧ ∀ n, N ≤ n → G n → ∀ l, n ≤ l → G l → ∀ a b, Kept n a → Kept l b →
      tr n (L.Lam a - E n a) = tr n φ → tr l (L.Lam b - E l b) = tr l φ → (((n / 2 : ℕ) : ℝ) + 1) ^ t * V s (a - b) ≤ C := by
  obtain ⟨C, N, hC, hds⟩ := L.discrete_stability E G hE S hS hst s
  obtain ⟨D, N1, hD, hdec⟩ := L.residual_decay E G hE S hS hst φ s t
  obtain ⟨B, N2, hB, hbd⟩ := L.section_bound E G hE S hS hst φ (s + t + L.p)
  obtain ⟨F, hF, hEF⟩ := hE s t
  refine ⟨C * (D + F * B), N + N1 + N2, by positivity, fun n hn hg l hl hgl a b ha hb hla hlb => ?_⟩
  have h1 := hds l (by omega) hgl (a - b) ((ha.mono hl).sub hb)
  have h2 : tr l (L.Lam (a - b) - E l (a - b)) = tr l (L.Lam a - φ - E l a) := by
    rw [map_sub, hEs, show L.Lam a - L.Lam b - (E l a - E l b) = (L.Lam a - E l a) - (L.Lam b - E l b) by abel,
      show L.Lam a - φ - E l a = (L.Lam a - E l a) - φ by abel, tr_sub l (L.Lam a - E l a) (L.Lam b - E l b), tr_sub l (L.Lam a - E l a) φ, hlb]
  rw [h2] at h1
  have h3 := hdec n (by omega) hg a ha hla
  have h4 := hEF l hgl a
  have h5 := hbd n (by omega) hg a ha hla
  have hm0 : (0 : ℝ) ≤ (((n / 2 : ℕ) : ℝ) + 1) ^ t := by positivity
  have h6 : (((n / 2 : ℕ) : ℝ) + 1) ^ t * V s (E l a) ≤ F * B := by
    have h7 : (((n / 2 : ℕ) : ℝ) + 1) ^ t ≤ (((l / 2 : ℕ) : ℝ) + 1) ^ t := by
      have : ((n / 2 : ℕ) : ℝ) ≤ ((l / 2 : ℕ) : ℝ) := by exact_mod_cast (by omega : n / 2 ≤ l / 2)
      gcongr
    have := V_nonneg s (E l a)
    calc _ ≤ (((l / 2 : ℕ) : ℝ) + 1) ^ t * V s (E l a) := by gcongr
      _ ≤ F * V (s + t + L.p) a := h4
      _ ≤ F * B := by gcongr
  have h8 : V s (a - b) ≤ C * (V s (L.Lam a - φ) + V s (E l a)) :=
    (V_mono _ _ (by omega) _).trans (h1.trans (mul_le_mul_of_nonneg_left ((V_tr s l _).trans (V_sub _ _ _)) hC))
  calc _ ≤ (((n / 2 : ℕ) : ℝ) + 1) ^ t * (C * (V s (L.Lam a - φ) + V s (E l a))) := by gcongr
    _ = C * ((((n / 2 : ℕ) : ℝ) + 1) ^ t * V s (L.Lam a - φ) + (((n / 2 : ℕ) : ℝ) + 1) ^ t * V s (E l a)) := by ring
    _ ≤ _ := by gcongr

omit hE in
/-- **uniqueness implies stability**: if no sequence converging to a non-zero limit is mapped to a null sequence then the operator is stable -/
lemma stable_of_unique (hu : ∀ a : ℕ → Vec d, (∀ ε > 0, ∃ N, ∀ m ≥ N, ∀ l ≥ N, V (L.p + 1) (a m - a l) ≤ ε) → Filter.Tendsto (fun m => V 0 (L.Lam (a m))) Filter.atTop (nhds 0) →
    ∀ ε > 0, ∃ N, ∀ m ≥ N, ∀ i k, ‖a m i k‖ ≤ ε) : ∃ S, 0 ≤ S ∧ L.CStable S := by
  by_contra hcon
  push Not at hcon
  have hcV : ∀ (s : ℕ) (b : Vec d) i k, ‖b i k‖ ≤ V s b := fun s b i k =>
    (coeff_le_W (b i) k).trans ((W_mono _ _ (Nat.zero_le _) _).trans (W_le_V s b i))
  have h0 : ∀ m : ℕ, ∃ a : Vec d, V (L.p + 1) a = 1 ∧ V 0 (L.Lam a) ≤ 1 / ((m : ℝ) + 1) := by
    intro m
    have h1 := hcon ((m : ℝ) + 1) (by positivity)
    unfold CStable at h1
    push Not at h1
    obtain ⟨b, i, k, hb⟩ := h1
    set w := V (L.p + 1) b with hw
    have h2 : ‖b i k‖ ≤ w := hcV _ _ _ _
    have h3 := V_nonneg 0 (L.Lam b)
    have hm : (0 : ℝ) < (m : ℝ) + 1 := by positivity
    have hw0 : 0 < w := lt_of_lt_of_le (lt_of_le_of_lt (by positivity) hb) h2
    have hn : ‖((1 / w : ℝ) : ℂ)‖ = 1 / w := by
      rw [Complex.norm_real, Real.norm_eq_abs, abs_of_pos (by positivity)]
    refine ⟨((1 / w : ℝ) : ℂ) • b, ?_, ?_⟩
    · rw [V_smul, hn, ← hw]
      field_simp
    · rw [map_smul, V_smul, hn, one_div_mul_eq_div, div_le_div_iff₀ hw0 hm]
      linarith
  choose a ha1 ha2 using h0
  have hcoef : ∀ m i k, ‖a m i k‖ ≤ 1 := fun m i k => by
    rw [← ha1 m]
    exact hcV _ _ _ _
  -- a subsequence converges coefficientwise
  have hK : IsCompact (Set.univ.pi fun _ : Fin d × ℤ => Metric.closedBall (0 : ℂ) 1) := isCompact_univ_pi fun _ => isCompact_closedBall _ _
  obtain ⟨b, -, φ, hφ, hlim⟩ := hK.tendsto_subseq (x := fun m q => a m q.1 q.2) (fun m q _ => by
    rw [mem_closedBall_zero_iff]; exact hcoef m q.1 q.2)
  have hlimk : ∀ i k, Filter.Tendsto (fun m => a (φ m) i k) Filter.atTop (nhds (b (i, k))) := fun i k => (tendsto_pi_nhds.mp hlim) (i, k)
  have hres : Filter.Tendsto (fun m => V 0 (L.Lam (a (φ m)))) Filter.atTop (nhds 0) := by
    refine squeeze_zero (fun m => V_nonneg _ _) (fun m => (ha2 (φ m)).trans ?_) tendsto_one_div_add_atTop_nhds_zero_nat
    have : (m : ℝ) ≤ φ m := by exact_mod_cast hφ.id_le m
    gcongr
  obtain ⟨C, hC, hreg⟩ := L.weak 0
  simp only [zero_add] at hreg
  -- Cauchy in the lower norm
  have htail : ∀ M (c : Vec d), V (L.p + 1) c ≤ 2 → V L.p (fun i => hi M (c i)) ≤ 2 / ((M : ℝ) + 1) := fun M c hc => by
    have := V_hi_tail L.p 1 M c
    rw [pow_one] at this
    rw [le_div_iff₀ (by positivity)]
    linarith
  have hdiff : ∀ m l, V (L.p + 1) (a m - a l) ≤ 2 := fun m l => (V_sub _ _ _).trans (by rw [ha1, ha1]; norm_num)
  have hd0 : (0 : ℝ) ≤ d := Nat.cast_nonneg d
  have hlow : ∀ ε > 0, ∃ N, ∀ m ≥ N, ∀ l ≥ N, V L.p (a (φ m) - a (φ l)) ≤ ε := by
    intro ε hε
    obtain ⟨M, hM⟩ := exists_nat_ge (4 / ε)
    have hM1 : 2 / ((M : ℝ) + 1) ≤ ε / 2 := by
      rw [div_le_iff₀ hε] at hM
      rw [div_le_iff₀ (by positivity)]
      nlinarith
    set δ : ℝ := ε / 2 / ((d + 1) * ((2 * M + 1) * (M + 1) ^ L.p)) / 2 with hδ
    have hδ0 : 0 < δ := by positivity
    have hfin : ∀ᶠ m in Filter.atTop, ∀ q ∈ (univ : Finset (Fin d)) ×ˢ Icc (-(M : ℤ)) M, ‖a (φ m) q.1 q.2 - b q‖ < δ := by
      rw [Filter.eventually_all_finset]
      intro q _
      have := (tendsto_iff_norm_sub_tendsto_zero.mp (hlimk q.1 q.2)).eventually (gt_mem_nhds hδ0)
      exact this
    obtain ⟨N, hN⟩ := Filter.eventually_atTop.mp hfin
    refine ⟨N, fun m hm l hl => ?_⟩
    set c := a (φ m) - a (φ l) with hc
    have h1 : V L.p (fun i => lo M (c i)) ≤ d * ((2 * M + 1) * ((M + 1) ^ L.p * (2 * δ))) := by
      have h2 : (fun i => lo M (c i)) = fun i => lo M ((fun i => lo M (c i)) i) := by
        funext i
        ext k
        rw [lo_apply M (lo M (c i)), lo_apply M (c i) k]
        split_ifs <;> rfl
      rw [h2]
      apply coeff_V
      intro i k
      rw [lo_apply]
      split_ifs with hk
      · have hk' : (i, k) ∈ (univ : Finset (Fin d)) ×ˢ Icc (-(M : ℤ)) M := by
          rw [mem_product, mem_Icc]
          exact ⟨mem_univ _, by simp only; omega⟩
        have h3 := hN m hm _ hk'
        have h4 := hN l hl _ hk'
        simp only at h3 h4
        rw [hc, Pi.sub_apply, Finsupp.sub_apply, show a (φ m) i k - a (φ l) i k = (a (φ m) i k - b (i, k)) - (a (φ l) i k - b (i, k)) by ring]
        refine (norm_sub_le _ _).trans ?_
        linarith
      · rw [norm_zero]; positivity
    have h5 : ((d : ℝ) + 1) * ((2 * (M : ℝ) + 1) * (((M : ℝ) + 1) ^ L.p * (2 * δ))) = ε / 2 := by
      rw [hδ]
      field_simp
    have h5' : (0 : ℝ) ≤ (2 * (M : ℝ) + 1) * (((M : ℝ) + 1) ^ L.p * (2 * δ)) := by positivity
    have h6 := htail M c (hdiff _ _)
    have h7 := V_split L.p M c
    linarith
  have hcau : ∀ ε > 0, ∃ N, ∀ m ≥ N, ∀ l ≥ N, V (L.p + 1) (a (φ m) - a (φ l)) ≤ ε := by
    intro ε hε
    set η := ε / (3 * (C + 1)) with hη
    have hη0 : 0 < η := by positivity
    obtain ⟨N1, hN1⟩ := hlow η hη0
    obtain ⟨N2, hN2⟩ := Filter.eventually_atTop.mp (hres.eventually (gt_mem_nhds hη0))
    refine ⟨N1 + N2, fun m hm l hl => ?_⟩
    have h1 := hreg (a (φ m) - a (φ l))
    have h2 := hN1 m (by omega) l (by omega)
    have h3 : V 0 (L.Lam (a (φ m) - a (φ l))) ≤ 2 * η := by
      rw [map_sub]
      have h4 := hN2 m (by omega)
      have h5 := hN2 l (by omega)
      exact (V_sub _ _ _).trans (by linarith)
    have h6 : C * (3 * η) ≤ ε := by
      rw [hη, show C * (3 * (ε / (3 * (C + 1)))) = ε * (C / (C + 1)) by field_simp]
      have : C / (C + 1) ≤ 1 := by rw [div_le_one (by positivity)]; linarith
      nlinarith
    calc _ ≤ C * (V 0 (L.Lam (a (φ m) - a (φ l))) + V L.p (a (φ m) - a (φ l))) := h1
      _ ≤ C * (3 * η) := by gcongr; linarith
      _ ≤ ε := h6
  have hzero := hu (fun m => a (φ m)) hcau hres
  -- the limit vanishes, which contradicts the normalisation
  set η : ℝ := 1 / (8 * (C + 1)) with hη
  have hη0 : 0 < η := by positivity
  obtain ⟨M, hM⟩ := exists_nat_ge (2 / η)
  have hM1 : 2 / ((M : ℝ) + 1) ≤ η := by
    rw [div_le_iff₀ hη0] at hM
    rw [div_le_iff₀ (by positivity)]
    nlinarith
  obtain ⟨N1, hN1⟩ := hzero (η / ((d + 1) * ((2 * M + 1) * (M + 1) ^ L.p))) (by positivity)
  obtain ⟨N2, hN2⟩ := Filter.eventually_atTop.mp (hres.eventually (gt_mem_nhds hη0))
  set c := a (φ (N1 + N2)) with hc
  have h1 := hreg c
  rw [ha1] at h1
  have h2 := hN2 (N1 + N2) (by omega)
  have h3 := coeff_V c _ (hN1 (N1 + N2) (by omega)) L.p M
  have h4 : ((d : ℝ) + 1) * ((2 * (M : ℝ) + 1) * (((M : ℝ) + 1) ^ L.p * (η / ((d + 1) * ((2 * M + 1) * (M + 1) ^ L.p))))) = η := by field_simp
  have h4' : (0 : ℝ) ≤ (2 * (M : ℝ) + 1) * (((M : ℝ) + 1) ^ L.p * (η / ((d + 1) * ((2 * M + 1) * (M + 1) ^ L.p)))) := by positivity
  have h5 := htail M c (by rw [ha1]; norm_num)
  have h6 := V_split L.p M c
  have h7 : C * (V 0 (L.Lam c) + V L.p c) ≤ C * (3 * η) := by
    gcongr
    linarith
  have h8 : C * (3 * η) < 1 := by
    rw [hη, show C * (3 * (1 / (8 * (C + 1)))) = 3 / 8 * (C / (C + 1)) by field_simp]
    have : C / (C + 1) ≤ 1 := by rw [div_le_one (by positivity)]; linarith
    linarith
  linarith

end SOp
end Funpy.FourierStab
