import Verif.Model.Adaptive
import Verif.Props.Tools
import Mathlib.Data.Nat.Log
import Mathlib.Tactic.Linarith

/-!
# C100: the adaptive solver
-/

namespace Funpy.Props
open Adaptive

private lemma mem_unique (l : List ℕ) (x : ℕ) : x ∈ unique l ↔ x ∈ l := by
  rw [unique, List.mem_dedup, (List.perm_insertionSort _ l).mem_iff]

private lemma sorted_unique (l : List ℕ) : (unique l).Pairwise (· < ·) := by
  have h1 : (l.insertionSort (· ≤ ·)).Pairwise (· ≤ ·) := List.pairwise_insertionSort _ _
  have h2 : (unique l).Pairwise (· ≤ ·) := h1.sublist (List.dedup_sublist _)
  have h3 : (unique l).Pairwise (· ≠ ·) := List.nodup_dedup _
  exact (h2.and h3).imp fun h => lt_of_le_of_ne h.1 h.2

/-- C100: the sizes tried are strictly increasing; they are the numbers `1 + 2^k`, clipped to the
requested bounds, and none of them is smaller than the given state. -/
theorem C100_sizes (nMin nMax lower upper : ℕ) :
    (nDisc nMin nMax lower upper false).Pairwise (· < ·) ∧
    (∀ n, n ∈ nDisc nMin nMax lower upper false ↔
      ∃ k, nMin ≤ k ∧ k ≤ nMax ∧ n = max lower (min upper (1 + 2 ^ k))) ∧
    ∀ n ∈ nDisc nMin nMax lower upper false, lower ≤ n ∧ n ≤ max lower upper := by
  have hmem : ∀ n, n ∈ nDisc nMin nMax lower upper false ↔
      ∃ k, nMin ≤ k ∧ k ≤ nMax ∧ n = max lower (min upper (1 + 2 ^ k)) := by
    intro n
    rw [nDisc, if_neg (by simp), mem_unique, List.mem_map]
    constructor
    · rintro ⟨k, hk, rfl⟩
      rw [List.mem_range'_1] at hk
      exact ⟨k, hk.1, by omega, rfl⟩
    · rintro ⟨k, h1, h2, rfl⟩
      exact ⟨k, by rw [List.mem_range'_1]; omega, rfl⟩
  refine ⟨?_, hmem, ?_⟩
  · rw [nDisc, if_neg (by simp)]
    exact sorted_unique _
  · intro n hn
    obtain ⟨k, -, -, rfl⟩ := (hmem n).mp hn
    exact ⟨le_max_left _ _, max_le_max_left _ (min_le_left _ _)⟩

/-- C100: the largest size is the next power of two, doubled `up_steps - 1` times. -/
theorem C100_upper (len up : ℕ) (hl : 2 ≤ len) :
    ∃ k : ℕ, len ≤ 2 ^ k ∧ (∀ j, len ≤ 2 ^ j → 2 ^ k ≤ 2 ^ j) ∧ upperBd len up = 2 ^ (k + (up - 1)) := by
  obtain ⟨k, h1, h2, h3⟩ := C48_pow2 (len : ℤ) (by exact_mod_cast hl)
  refine ⟨k, by exact_mod_cast h2, fun j hj => by exact_mod_cast h3 j (by exact_mod_cast hj), ?_⟩
  rw [upperBd, h1]
  have : ((2 : ℤ) ^ k).toNat = 2 ^ k := by
    have : ((2 : ℤ) ^ k) = ((2 ^ k : ℕ) : ℤ) := by push_cast; rfl
    rw [this, Int.toNat_natCast]
  rw [this, Nat.log2_two_pow]

/-! ## The run of the solver

Specification: the states before the steps, and the step at which the solver stops. -/

variable {S : Type}

/-- The state with which step `k` starts. -/
def stateAt (E : Env S) (sizes : ℕ → ℕ) (st : S) : ℕ → S
  | 0 => st
  | k + 1 =>
    let r := E.newton k (sizes k) (E.prolong (sizes k) (stateAt E sizes st k))
    if r.ok then r.out else r.arg

/-- The Newton solve of step `k`. -/
def newtonAt (E : Env S) (sizes : ℕ → ℕ) (st : S) (k : ℕ) : Newton S :=
  E.newton k (sizes k) (E.prolong (sizes k) (stateAt E sizes st k))

/-- Two consecutive approximations agree. -/
def Agree (E : Env S) (sizes : ℕ → ℕ) (eps : ℝ) (st : S) (k : ℕ) : Prop :=
  E.dist (newtonAt E sizes st k).arg (newtonAt E sizes st k).out < eps ∧ 0 < k

/-- The solver stops at step `k`: success and agreement, or only failures so far, or no size left. -/
def Stops (E : Env S) (sizes : ℕ → ℕ) (len : ℕ) (eps : ℝ) (maxFail : ℕ) (st : S) (k : ℕ) : Prop :=
  ((newtonAt E sizes st k).ok = true ∧ Agree E sizes eps st k) ∨
  ((∀ j ≤ k, (newtonAt E sizes st j).ok = false) ∧ maxFail ≤ k + 1) ∨ k + 1 = len

private lemma loop_spec (E : Env S) (eps : ℝ) (maxFail : ℕ) (sizes : ℕ → ℕ) (len : ℕ) (st : S) :
    ∀ (l : List ℕ) (k : ℕ) (anyOk : Bool), k + l.length = len → (∀ i (hi : i < l.length), l[i] = sizes (k + i)) →
      l ≠ [] → (anyOk = false ↔ ∀ j < k, (newtonAt E sizes st j).ok = false) →
      ∃ K, k ≤ K ∧ K < len ∧ Stops E sizes len eps maxFail st K ∧
        (∀ j, k ≤ j → j < K → ¬ Stops E sizes len eps maxFail st j) ∧
        ((newtonAt E sizes st K).ok = true ∧ ¬ Agree E sizes eps st K →
          loop E eps maxFail k (stateAt E sizes st k) anyOk l
            = some ((newtonAt E sizes st K).out, true, (newtonAt E sizes st K).it)) ∧
        (¬ ((newtonAt E sizes st K).ok = true ∧ ¬ Agree E sizes eps st K) →
          loop E eps maxFail k (stateAt E sizes st k) anyOk l
            = some ((newtonAt E sizes st K).arg, (newtonAt E sizes st K).ok, (newtonAt E sizes st K).it)) := by
  intro l
  induction l with
  | nil => intro k _ _ _ h; exact absurd rfl h
  | cons n rest ih =>
    intro k anyOk hlen hl _ hany
    have hn : n = sizes k := hl 0 (by simp)
    have hr : E.newton k n (E.prolong n (stateAt E sizes st k)) = newtonAt E sizes st k := by rw [hn]; rfl
    rw [loop]
    simp only [hr]
    have hlen' : k + (rest.length + 1) = len := by simpa using hlen
    have hlast : rest = [] ↔ k + 1 = len := by
      rw [← List.length_eq_zero_iff]; omega
    have hnext : ∀ (b : Bool) (s : S), rest ≠ [] → s = stateAt E sizes st (k + 1) →
        (b = false ↔ ∀ j < k + 1, (newtonAt E sizes st j).ok = false) →
        ¬ Stops E sizes len eps maxFail st k →
        ∃ K, k ≤ K ∧ K < len ∧ Stops E sizes len eps maxFail st K ∧
          (∀ j, k ≤ j → j < K → ¬ Stops E sizes len eps maxFail st j) ∧
          ((newtonAt E sizes st K).ok = true ∧ ¬ Agree E sizes eps st K →
            loop E eps maxFail (k + 1) s b rest
              = some ((newtonAt E sizes st K).out, true, (newtonAt E sizes st K).it)) ∧
          (¬ ((newtonAt E sizes st K).ok = true ∧ ¬ Agree E sizes eps st K) →
            loop E eps maxFail (k + 1) s b rest
              = some ((newtonAt E sizes st K).arg, (newtonAt E sizes st K).ok, (newtonAt E sizes st K).it)) := by
      intro b s hne hs hb hstop
      obtain ⟨K, h1, h2, h3, h4, h5, h6⟩ := ih (k + 1) b (by omega) (fun i hi => by
        have := hl (i + 1) (by simpa using hi)
        rw [List.getElem_cons_succ] at this
        rw [this]; congr 1; omega) hne hb
      refine ⟨K, by omega, h2, h3, fun j hj1 hj2 => ?_, ?_, ?_⟩
      · rcases Nat.eq_or_lt_of_le hj1 with rfl | h
        · exact hstop
        · exact h4 j h hj2
      · rw [hs]; exact h5
      · rw [hs]; exact h6
    by_cases hok : (newtonAt E sizes st k).ok = true
    · rw [if_pos hok]
      have hst : stateAt E sizes st (k + 1) = (newtonAt E sizes st k).out := by
        rw [stateAt]; exact if_pos hok
      by_cases hag : Agree E sizes eps st k
      · rw [if_pos (show _ ∧ _ from hag)]
        refine ⟨k, le_refl _, by omega, Or.inl ⟨hok, hag⟩, by omega, fun h => absurd hag h.2, fun _ => by rw [hok]⟩
      · rw [if_neg (show ¬ (_ ∧ _) from hag)]
        by_cases hre : rest = []
        · rw [if_pos hre]
          exact ⟨k, le_refl _, by omega, Or.inr (Or.inr (hlast.mp hre)), by omega, fun _ => rfl,
            fun h => absurd ⟨hok, hag⟩ h⟩
        · rw [if_neg hre]
          apply hnext _ _ hre hst.symm
          · simp only [Bool.true_eq_false, false_iff]
            intro h
            rw [h k (by omega)] at hok
            exact absurd hok (by simp)
          · rintro (⟨-, h⟩ | ⟨h, -⟩ | h)
            · exact hag h
            · rw [h k (le_refl _)] at hok; exact absurd hok (by simp)
            · exact hre (hlast.mpr h)
    · have hok' : (newtonAt E sizes st k).ok = false := by simpa using hok
      rw [if_neg hok]
      have hst : stateAt E sizes st (k + 1) = (newtonAt E sizes st k).arg := by
        rw [stateAt]; exact if_neg hok
      have hall : (∀ j ≤ k, (newtonAt E sizes st j).ok = false) ↔ anyOk = false := by
        rw [hany]
        constructor
        · intro h j hj; exact h j (by omega)
        · intro h j hj
          rcases Nat.eq_or_lt_of_le hj with rfl | h'
          · exact hok'
          · exact h j h'
      by_cases hf : k + 1 ≥ maxFail ∧ anyOk = false
      · rw [if_pos hf]
        exact ⟨k, le_refl _, by omega, Or.inr (Or.inl ⟨hall.mpr hf.2, hf.1⟩), by omega,
          fun h => absurd h.1 hok, fun _ => by rw [hok']⟩
      · rw [if_neg hf]
        by_cases hre : rest = []
        · rw [if_pos hre]
          exact ⟨k, le_refl _, by omega, Or.inr (Or.inr (hlast.mp hre)), by omega, fun h => absurd h.1 hok,
            fun _ => by rw [hok']⟩
        · rw [if_neg hre]
          apply hnext _ _ hre hst.symm
          · rw [← hall]
            constructor
            · intro h j hj; exact h j (by omega)
            · intro h j hj; exact h j (by omega)
          · rintro (⟨h, -⟩ | ⟨h, h'⟩ | h)
            · exact hok h
            · exact hf ⟨h', hall.mp h⟩
            · exact hre (hlast.mpr h)

/-- The sizes the solver tries for a state of `len` coefficients. -/
def sizesOf (nMin nMax len up : ℕ) (constant : Bool) : List ℕ :=
  nDisc (ctorMin nMin) nMax len (upperBd len up) constant

/-- C100: complete description of a run.  There is a first step at which the solver stops; the flag and
the iteration count are those of that step; the state is the result of that step, except that the state
from which that step started is returned when the two agree or the step failed. -/
theorem C100_run (E : Env S) (nMin nMax : ℕ) (eps : ℝ) (up maxFail : ℕ) (constant : Bool) (len : ℕ) (st : S)
    (hne : sizesOf nMin nMax len up constant ≠ []) :
    let l := sizesOf nMin nMax len up constant
    let sizes := fun k => l.getD k 0
    ∃ K, K < l.length ∧ Stops E sizes l.length eps maxFail st K ∧
      (∀ j < K, ¬ Stops E sizes l.length eps maxFail st j) ∧
      ((newtonAt E sizes st K).ok = true ∧ ¬ Agree E sizes eps st K →
        Adaptive.solve E nMin nMax eps up maxFail constant len st
          = some ((newtonAt E sizes st K).out, true, (newtonAt E sizes st K).it)) ∧
      (¬ ((newtonAt E sizes st K).ok = true ∧ ¬ Agree E sizes eps st K) →
        Adaptive.solve E nMin nMax eps up maxFail constant len st
          = some ((newtonAt E sizes st K).arg, (newtonAt E sizes st K).ok, (newtonAt E sizes st K).it)) := by
  intro l sizes
  obtain ⟨K, -, h2, h3, h4, h5, h6⟩ := loop_spec E eps maxFail sizes l.length st l 0 false (by simp)
    (fun i hi => by
      show l[i] = l.getD (0 + i) 0
      rw [Nat.zero_add, List.getD_eq_getElem _ _ hi]) hne (by simp)
  exact ⟨K, h2, h3, fun j hj => h4 j (Nat.zero_le _) hj, h5, h6⟩

/-- C100: a reported success is honest: the last Newton solve was successful, and the returned state is
its result, or (never on the first grid) the state it started from, which differs from the result by
less than `eps`. -/
theorem C100_success (E : Env S) (nMin nMax : ℕ) (eps : ℝ) (up maxFail : ℕ) (constant : Bool) (len : ℕ) (st s : S)
    (it : ℕ) (h : Adaptive.solve E nMin nMax eps up maxFail constant len st = some (s, true, it)) :
    ∃ k n r, n ∈ sizesOf nMin nMax len up constant ∧
      (∃ a, r = E.newton k n (E.prolong n a)) ∧ r.ok = true ∧ it = r.it ∧
      (s = r.out ∨ s = r.arg ∧ E.dist s r.out < eps ∧ 0 < k) := by
  have hne : sizesOf nMin nMax len up constant ≠ [] := by
    intro h0
    rw [Adaptive.solve, show nDisc (ctorMin nMin) nMax len (upperBd len up) constant = [] from h0, loop] at h
    cases h
  obtain ⟨K, h1, -, -, h4, h5⟩ := C100_run E nMin nMax eps up maxFail constant len st hne
  refine ⟨K, _, newtonAt E (fun k => (sizesOf nMin nMax len up constant).getD k 0) st K,
    ?_, ⟨_, rfl⟩, ?_⟩
  · show (sizesOf nMin nMax len up constant).getD K 0 ∈ _
    rw [List.getD_eq_getElem _ _ h1]
    exact List.getElem_mem _
  · by_cases hc : (newtonAt E (fun k => (sizesOf nMin nMax len up constant).getD k 0) st K).ok = true ∧
        ¬ Agree E (fun k => (sizesOf nMin nMax len up constant).getD k 0) eps st K
    · have := h4 hc
      rw [h] at this
      simp only [Option.some.injEq, Prod.mk.injEq] at this
      exact ⟨hc.1, this.2.2, Or.inl this.1⟩
    · have := h5 hc
      rw [h] at this
      simp only [Option.some.injEq, Prod.mk.injEq] at this
      have hag : Agree E (fun k => (sizesOf nMin nMax len up constant).getD k 0) eps st K := by
        by_contra hag
        exact hc ⟨this.2.1.symm, hag⟩
      exact ⟨this.2.1.symm, this.2.2, Or.inr ⟨this.1, this.1 ▸ hag.1, hag.2⟩⟩

/-- **C100** (constant states): for a constant state the nonlinear solver is called exactly once, with a single coefficient, and its result and its
verdict are returned. -/
theorem C100_constant (E : Env S) (nMin nMax : ℕ) (eps : ℝ) (up maxFail len : ℕ) (st : S) :
    let r := E.newton 0 1 (E.prolong 1 st)
    Adaptive.solve E nMin nMax eps up maxFail true len st = some (if r.ok then r.out else r.arg, r.ok, r.it) := by
  intro r
  rw [Adaptive.solve, nDisc, if_pos rfl, loop]
  cases h : r.ok with
  | true => simp [r] at h ⊢
  | false => simp [r] at h ⊢

/-- C100: the solver gives up early: if no Newton solve succeeds, exactly
`min (max maxFail 1) (number of sizes)` of them are made, and failure is reported. -/
theorem C100_gives_up (E : Env S) (nMin nMax : ℕ) (eps : ℝ) (up maxFail : ℕ) (constant : Bool) (len : ℕ) (st : S)
    (hne : sizesOf nMin nMax len up constant ≠ []) (hfail : ∀ k n a, (E.newton k n a).ok = false) :
    ∃ a it, Adaptive.solve E nMin nMax eps up maxFail constant len st = some (a, false, it) ∧
      ∃ K n b, K + 1 = min (max maxFail 1) (sizesOf nMin nMax len up constant).length ∧
        a = (E.newton K n b).arg ∧ it = (E.newton K n b).it := by
  obtain ⟨K, h1, h2, h3, -, h5⟩ := C100_run E nMin nMax eps up maxFail constant len st hne
  have hf : ∀ j, (newtonAt E (fun k => (sizesOf nMin nMax len up constant).getD k 0) st j).ok = false :=
    fun j => hfail _ _ _
  have h5' := h5 (by rw [hf K]; simp)
  rw [hf K] at h5'
  refine ⟨_, _, h5', K, _, _, ?_, rfl, rfl⟩
  have hK : maxFail ≤ K + 1 ∨ K + 1 = (sizesOf nMin nMax len up constant).length := by
    rcases h2 with ⟨h, -⟩ | ⟨-, h⟩ | h
    · rw [hf K] at h; exact absurd h (by simp)
    · exact Or.inl h
    · exact Or.inr h
  have hmin : ∀ j < K, ¬ (maxFail ≤ j + 1) := fun j hj hle => h3 j hj (Or.inr (Or.inl ⟨fun i _ => hf i, hle⟩))
  rcases Nat.eq_zero_or_pos K with rfl | hpos
  · omega
  · have := hmin (K - 1) (by omega)
    omega

/-- C100: with a solver that updates its argument in place (`newton_standard`: `x += dx`) the two states
that are compared are the same object, so the comparison always succeeds: whatever the difference
between the solutions on the two grids, two successful solves are reported as converged. -/
theorem C100_inplace_fails (E : Env S) (eps : ℝ) (heps : 0 < eps) (maxFail : ℕ) (st : S) (n₀ n₁ : ℕ) (l : List ℕ)
    (hself : ∀ a, E.dist a a = 0) (hin : ∀ k n a, (E.newton k n a).arg = (E.newton k n a).out)
    (hok : ∀ k n a, (E.newton k n a).ok = true) :
    ∃ it, loop E eps maxFail 0 st false (n₀ :: n₁ :: l)
      = some ((E.newton 1 n₁ (E.prolong n₁ (E.newton 0 n₀ (E.prolong n₀ st)).out)).out, true, it) := by
  rw [loop]
  simp only [hok, if_true]
  rw [if_neg (by simp), if_neg (by simp), loop]
  simp only [hok, if_true]
  rw [if_pos ⟨by rw [hin, hself]; exact heps, by norm_num⟩, hin]
  exact ⟨_, rfl⟩

/-- States of the examples: the size of the grid they were last put on, and the solution found. -/
private noncomputable def exEnv (ok : ℕ → Bool) : Env ℝ :=
  ⟨fun _ a => a, fun k n a => ⟨if ok k then n else a, a, ok k, 1⟩, fun a b => |a - b|⟩

/-- C100: a success on one grid is forgotten if the solve on the next grid fails and there are no
further grids: failure is reported although the returned state was reported as a solution. -/
theorem C100_lost_success_fails :
    loop (exEnv fun k => k == 0) 1 3 0 0 false [17, 33] = some (17, false, 1) ∧
      ((exEnv fun k => k == 0).newton 0 17 0).ok = true ∧ ((exEnv fun k => k == 0).newton 0 17 0).out = 17 := by
  refine ⟨?_, rfl, by norm_num [exEnv]⟩
  rw [loop]
  norm_num [exEnv]
  rw [loop]
  norm_num

/-- C100: success does not mean that the solution is resolved: if the sizes are exhausted the result on the
last grid is reported as a success even if it is far from the one before. -/
theorem C100_unresolved_fails :
    loop (exEnv fun _ => true) 1 3 0 0 false [17, 33] = some (33, true, 1) := by
  rw [loop]
  norm_num [exEnv]
  rw [loop]
  norm_num

/-- non-vacuity of `C100_run`, `C100_success`: sizes for a state of 20 coefficients, and a run that stops because two
grids agree. -/
example : sizesOf 2 6 20 3 false = [20, 33, 65] ∧
    loop ⟨fun _ a => a, fun _ _ a => ⟨1, a, true, 4⟩, fun a b => |a - b|⟩ (1 / 2 : ℝ) 3 0 0 false [20, 33, 65]
      = some ((1 : ℝ), true, 4) := by
  constructor
  · decide
  · rw [loop]
    norm_num
    rw [loop]
    norm_num

end Funpy.Props
