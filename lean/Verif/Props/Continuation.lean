import Verif.Model.Continuation
import Verif.Lemmas.ListAux
import Mathlib.Tactic.FieldSimp
import Mathlib.Tactic.Linarith
import Mathlib.Tactic.NormNum

/-!
# C136: natural parameter continuation
-/

namespace Funpy.Props
open Continuation

/-! ### Specification -/

/-- `g 0, …, g m` are the guesses of a run over the parameter values `l` which uses the first `m` of them: each is the result of a successful solve
started at the previous one (the last solve may fail). -/
structure IsPath {U : Type} (solve : ℝ → U → U × Bool) (l : List ℝ) (m : ℕ) (g : ℕ → U) : Prop where
  le : m ≤ l.length
  step : ∀ i (hi : i < m), g (i + 1) = (solve (l[i]'(hi.trans_le le)) (g i)).1
  ok : ∀ i (hi : i + 1 < m), (solve (l[i]'((Nat.lt_of_succ_lt hi).trans_le le)) (g i)).2 = true

/-! ### Proofs -/

/-- C136, the parameter values: with two values `p0 ≠ pf` the solver is run at exactly the `no_steps + 1` equidistant values from `p0` to `pf`, in both
directions, including both ends. -/
theorem C136_params (p0 pf : ℝ) (h : p0 ≠ pf) (n : ℕ) (hn : n ≠ 0) :
    params (some [p0, pf]) n = some ((List.range (n + 1)).map fun i : ℕ => p0 + i * ((pf - p0) / n)) ∧
    p0 + ((0 : ℕ) : ℝ) * ((pf - p0) / n) = p0 ∧ p0 + (n : ℝ) * ((pf - p0) / n) = pf := by
  have hn' : (n : ℝ) ≠ 0 := by exact_mod_cast hn
  have hd : pf - p0 ≠ 0 := sub_ne_zero.2 h.symm
  have hdp : (pf - p0) / n ≠ 0 := div_ne_zero hd hn'
  refine ⟨?_, by simp, by field_simp; ring⟩
  simp only [params, hn, if_false, arange, hdp]
  have h1 : (pf + 0.5 * ((pf - p0) / n) - p0) / ((pf - p0) / n) = n + 1 / 2 := by
    field_simp
    ring
  have h2 : ⌈(n : ℝ) + 1 / 2⌉ = (n : ℤ) + 1 := by
    rw [Int.ceil_eq_iff]
    push_cast
    constructor <;> linarith
  rw [h1, h2]
  have : ((n : ℤ) + 1).toNat = n + 1 := by omega
  rw [this]

private lemma run_path {U : Type} (solve : ℝ → U → U × Bool) : ∀ (l : List ℝ) (guess : U), ∃ m g, IsPath solve l m g ∧ g 0 = guess ∧
    g m = run solve l guess ∧ (m = l.length ∨ ∃ i, ∃ (hi : i < l.length), m = i + 1 ∧ (solve l[i] (g i)).2 = false) ∧
    (l ≠ [] → m ≠ 0)
  | [], guess => ⟨0, fun _ => guess, ⟨le_rfl, by simp, by simp⟩, rfl, rfl, Or.inl rfl, by simp⟩
  | p :: ps, guess => by
    by_cases h : (solve p guess).2 = false
    · refine ⟨1, fun i => if i = 0 then guess else (solve p guess).1, ⟨by simp, fun i hi => ?_, fun i hi => by omega⟩, rfl, ?_, Or.inr ⟨0, by simp, rfl, ?_⟩, by simp⟩
      · obtain rfl : i = 0 := by omega
        simp
      · simp [run, h]
      · simpa using h
    · obtain ⟨m, g, hg, h0, hm, hend, -⟩ := run_path solve ps (solve p guess).1
      refine ⟨m + 1, fun i => match i with | 0 => guess | i + 1 => g i, ⟨by simpa using hg.le, ?_, ?_⟩, rfl, ?_, ?_, by simp⟩
      · rintro (_ | i) hi
        · simpa using h0
        · simpa using hg.step i (by omega)
      · rintro (_ | i) hi
        · simpa using h
        · simpa using hg.ok i (by omega)
      · simp only [run, h, Bool.true_eq_false, if_false]
        simpa using hm
      · rcases hend with rfl | ⟨i, hi, rfl, hf⟩
        · exact Or.inl (by simp)
        · exact Or.inr ⟨i + 1, by simpa using hi, rfl, by simpa using hf⟩

/-- C136: the parameter values are visited in order, every solve is started at the previous solution (the first one at the given guess), and
the run ends at the last value or with the first failing solve; the result is that of the last solve. -/
theorem C136_path {U : Type} (solve : ℝ → U → U × Bool) (guess : U) (ps : Option (List ℝ)) (n : ℕ) (l : List ℝ) (hl : params ps n = some l) :
    ∃ m g, IsPath solve l m g ∧ g 0 = guess ∧ call solve guess ps n = some (g m) ∧
      (m = l.length ∨ ∃ i, ∃ (hi : i < l.length), m = i + 1 ∧ (solve l[i] (g i)).2 = false) := by
  obtain ⟨m, g, h1, h2, h3, h4, -⟩ := run_path solve l guess
  exact ⟨m, g, h1, h2, by rw [call, hl, Option.map_some, h3], h4⟩

/-- C136: if a solve from a solution at one value to the next one never fails then the result solves the problem at the final value: for
every relation `Sol p u` such that `solve p` succeeds at every guess that is a solution at an earlier value, and success means `Sol`. -/
theorem C136_solution {U : Type} (solve : ℝ → U → U × Bool) (Sol : ℝ → U → Prop) (guess : U) (p0 pf : ℝ) (h : p0 ≠ pf) (n : ℕ) (hn : n ≠ 0)
    (hsound : ∀ p u, (solve p u).2 = true → Sol p (solve p u).1) (hstart : (solve p0 guess).2 = true)
    (hstep : ∀ i : ℕ, i < n → ∀ u, Sol (p0 + i * ((pf - p0) / n)) u → (solve (p0 + (i + 1 : ℕ) * ((pf - p0) / n)) u).2 = true) :
    ∃ u, call solve guess (some [p0, pf]) n = some u ∧ Sol pf u := by
  obtain ⟨hp, e0, en⟩ := C136_params p0 pf h n hn
  obtain ⟨m, g, hg, h0, hc, hend⟩ := C136_path solve guess (some [p0, pf]) n _ hp
  have hlen : ((List.range (n + 1)).map fun i : ℕ => p0 + i * ((pf - p0) / n)).length = n + 1 := by simp
  have hget : ∀ i (hi : i < ((List.range (n + 1)).map fun i : ℕ => p0 + (i : ℝ) * ((pf - p0) / n)).length),
      ((List.range (n + 1)).map fun i : ℕ => p0 + (i : ℝ) * ((pf - p0) / n))[i] = p0 + i * ((pf - p0) / n) := by
    intro i hi
    simp
  have hm : m ≤ n + 1 := hlen ▸ hg.le
  have key : ∀ i, i < m → (solve (p0 + (i : ℝ) * ((pf - p0) / n)) (g i)).2 = true ∧ Sol (p0 + (i : ℝ) * ((pf - p0) / n)) (g (i + 1)) := by
    intro i
    induction i with
    | zero =>
      intro hi
      have h1 : (solve (p0 + ((0 : ℕ) : ℝ) * ((pf - p0) / n)) (g 0)).2 = true := by rw [e0, h0]; exact hstart
      refine ⟨h1, ?_⟩
      rw [hg.step 0 hi, hget]
      exact hsound _ _ h1
    | succ i ih =>
      intro hi
      have h1 := hstep i (by omega) _ (ih (by omega)).2
      refine ⟨h1, ?_⟩
      rw [hg.step (i + 1) hi, hget]
      exact hsound _ _ h1
  have hmn : m = n + 1 := by
    rcases hend with h1 | ⟨i, hi, h1, h2⟩
    · rw [h1, hlen]
    · exfalso
      have := (key i (by omega)).1
      rw [hget] at h2
      rw [h2] at this
      exact absurd this (by simp)
  subst hmn
  refine ⟨_, hc, ?_⟩
  have := (key n (by omega)).2
  rwa [en] at this

/-- C136 fails silently: when the first solve fails, its (unconverged) result is returned as if it were the solution, for all parameter values. -/
theorem C136_failure_fails {U : Type} (solve : ℝ → U → U × Bool) (guess : U) (p0 pf : ℝ) (h : p0 ≠ pf) (n : ℕ) (hn : n ≠ 0)
    (hbad : (solve p0 guess).2 = false) : call solve guess (some [p0, pf]) n = some (solve p0 guess).1 := by
  obtain ⟨hp, e0, -⟩ := C136_params p0 pf h n hn
  rw [call, hp, Option.map_some, List.range_succ_eq_map, List.map_cons, e0, run, hbad]
  rfl

/-- C136 fails: a list of three parameter values, no values at all (the default), and equal end points raise; two values are never
taken as the list of values. -/
theorem C136_lists_fails {U : Type} (solve : ℝ → U → U × Bool) (guess : U) (p q r : ℝ) (n : ℕ) :
    call solve guess (some [p, q, r]) n = none ∧ call solve guess none n = none ∧ call solve guess (some [p, p]) n = none := by
  refine ⟨rfl, rfl, ?_⟩
  simp [call, params, arange]

/-- the hypotheses of `C136_solution` hold for the equation `u = p`, solved exactly -/
example : ∃ u, call (fun p _ => (p, true)) (0 : ℝ) (some [1, 3]) 10 = some u ∧ u = 3 :=
  C136_solution (fun p _ => (p, true)) (fun p u => u = p) 0 1 3 (by norm_num) 10 (by norm_num) (fun _ _ _ => rfl) rfl (fun _ _ _ _ => rfl)

end Funpy.Props
