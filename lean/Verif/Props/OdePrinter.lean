import Verif.Model.OdePrinter
import Verif.Props.Printer

/-!
# C146: `odecode` prints the equations of solutions without space dependence
-/

namespace Funpy.Props
namespace Ode
end Ode
open Printer Linearize OdePrinter Ode

/-! ### Specification -/

/-- Neither the spatial variable nor a constant function occurs: all functions are unknowns. -/
def Ode.SpaceFree (M : Meaning) : Ex → Prop
  | .x => False
  | .num _ | .par _ => True
  | .fn s => s ∈ M.names
  | .known _ a | .pow a _ | .der a _ | .int a _ => SpaceFree M a
  | .add a b | .mul a b => SpaceFree M a ∧ SpaceFree M b

/-- Derivatives (of positive order) and integrals are taken of expressions in which the spatial variable does not occur explicitly. -/
def Ode.Autonomous (M : Meaning) : Ex → Prop
  | .x | .num _ | .par _ | .fn _ => True
  | .known _ a | .pow a _ => Autonomous M a
  | .der a k => SpaceFree M a ∧ 0 < k
  | .int a _ => SpaceFree M a ∧ Autonomous M a
  | .add a b | .mul a b => Autonomous M a ∧ Autonomous M b

/-- No integral occurs. -/
def Ode.NoIntegral : Ex → Prop
  | .x | .num _ | .par _ | .fn _ => True
  | .known _ a | .pow a _ | .der a _ => NoIntegral a
  | .int _ _ => False
  | .add a b | .mul a b => NoIntegral a ∧ NoIntegral b

/-- The names of the code are numbers: `x` is the point `y`, the `j`-th unknown is the number `c j`, a constant function its value at `y`, the parameters in `P` theirs. -/
structure Ode.Numbers (M : Meaning) (P : List String) (c : ℕ → ℝ) (y : ℝ) (ev : String → Option Val) : Prop where
  x : ev "x" = some (.num y)
  unknown : ∀ s j, M.names.idxOf? s = some j → ev s = some (.num (c j))
  cfun : ∀ s g, M.names.idxOf? s = none → M.cfun s = some g → ev s = some (.num (g y))
  pars : ∀ s ∈ P, ev s = some (.num (M.pars s))

/-- The functions of the operator are printed as bare names: all are listed, or unknown functions are not allowed and evaluation is off. -/
def Ode.Bare (M : Meaning) (m : OdeSettings) : Prop :=
  (∀ s, s ∈ M.names ∨ (M.cfun s).isSome → s ∈ m.fnames) ∨ (m.unknown = false ∧ m.noEval = true)

/-! ### Proofs -/

lemma Ode.mem_of_idx {s : String} {l : List String} {j : ℕ} (h : l.idxOf? s = some j) : s ∈ l := by
  by_contra hn
  have : l.idxOf? s = none := by simpa using hn
  rw [this] at h
  simp at h

lemma Ode.iteratedDeriv_const_fn (k : ℕ) (hk : 0 < k) (r : ℝ) : iteratedDeriv k (fun _ : ℝ => r) = fun _ => 0 := by
  obtain ⟨n, rfl⟩ : ∃ n, k = n + 1 := ⟨k - 1, by omega⟩
  rw [iteratedDeriv_succ']
  have : deriv (fun _ : ℝ => r) = fun _ => 0 := by funext y; simp
  rw [this]
  clear this hk
  induction n with
  | zero => simp
  | succ n ih =>
    rw [iteratedDeriv_succ, ih]
    funext y
    simp

/-- expressions without the spatial variable are constant functions for constant unknowns -/
lemma Ode.constant (M : Meaning) (c : ℕ → ℝ) (a : Ex) (hs : SpaceFree M a) (l : Loc) (hl : M.loc a = some l) :
    ∃ r, l.eval (fun j _ => c j) = fun _ => r := by
  induction a generalizing l with
  | x => exact hs.elim
  | num q =>
    simp only [Meaning.loc, Option.some.injEq] at hl
    subst hl
    exact ⟨q, rfl⟩
  | par s =>
    simp only [Meaning.loc, Option.some.injEq] at hl
    subst hl
    exact ⟨M.pars s, rfl⟩
  | fn s =>
    simp only [Meaning.loc] at hl
    cases hi : M.names.idxOf? s with
    | some j =>
      rw [hi] at hl
      simp only [Option.some.injEq] at hl
      subst hl
      exact ⟨c j, by funext y; simp [Loc.eval]⟩
    | none =>
      have : s ∉ M.names := by simpa using hi
      exact absurd hs this
  | known s a ih =>
    simp only [Meaning.loc, Option.bind_eq_some_iff, Option.map_eq_some_iff] at hl
    obtain ⟨g, _, l', hl', rfl⟩ := hl
    obtain ⟨r, hr⟩ := ih hs l' hl'
    exact ⟨g r, by funext y; simp [Loc.eval, hr]⟩
  | add a b iha ihb =>
    simp only [Meaning.loc, Option.bind_eq_some_iff, Option.map_eq_some_iff] at hl
    obtain ⟨p, hp, q, hq, rfl⟩ := hl
    obtain ⟨r, hr⟩ := iha hs.1 p hp
    obtain ⟨t, ht⟩ := ihb hs.2 q hq
    exact ⟨r + t, by funext y; simp [Loc.eval, hr, ht]⟩
  | mul a b iha ihb =>
    simp only [Meaning.loc, Option.bind_eq_some_iff, Option.map_eq_some_iff] at hl
    obtain ⟨p, hp, q, hq, rfl⟩ := hl
    obtain ⟨r, hr⟩ := iha hs.1 p hp
    obtain ⟨t, ht⟩ := ihb hs.2 q hq
    exact ⟨r * t, by funext y; simp [Loc.eval, hr, ht]⟩
  | pow a n ih =>
    simp only [Meaning.loc, Option.map_eq_some_iff] at hl
    obtain ⟨p, hp, rfl⟩ := hl
    obtain ⟨r, hr⟩ := ih hs p hp
    exact ⟨r ^ n, by funext y; simp [Loc.eval, hr]⟩
  | der a k ih =>
    simp only [Meaning.loc, Option.map_eq_some_iff] at hl
    obtain ⟨p, hp, rfl⟩ := hl
    obtain ⟨r, hr⟩ := ih hs p hp
    have key : ∀ k : ℕ, ∃ t, (Loc.der^[k] p).eval (fun j _ => c j) = fun _ => t := by
      intro k
      induction k with
      | zero => exact ⟨r, hr⟩
      | succ k ihk =>
        obtain ⟨t, ht⟩ := ihk
        refine ⟨0, ?_⟩
        rw [Function.iterate_succ_apply']
        funext y
        simp [Loc.eval, ht]
    split
    · rename_i j
      rcases Nat.eq_zero_or_pos k with rfl | hk
      · exact ⟨c j, by funext y; simp [Loc.eval]⟩
      · exact ⟨0, by funext y; simp [Loc.eval, iteratedDeriv_const_fn k hk]⟩
    · exact key k
  | int a b => simp [Meaning.loc] at hl

/-- derivatives of expressions without the spatial variable vanish -/
lemma Ode.der_zero (M : Meaning) (c : ℕ → ℝ) (a : Ex) (k : ℕ) (hk : 0 < k) (hs : SpaceFree M a) (l : Loc) (hl : M.loc (.der a k) = some l) (y : ℝ) :
    l.eval (fun j _ => c j) y = 0 := by
  simp only [Meaning.loc, Option.map_eq_some_iff] at hl
  obtain ⟨p, hp, rfl⟩ := hl
  split
  · simp [Loc.eval, iteratedDeriv_const_fn k hk]
  · obtain ⟨n, rfl⟩ : ∃ n, k = n + 1 := ⟨k - 1, by omega⟩
    obtain ⟨r, hr⟩ := Ode.constant M c a hs p hp
    have key : ∀ n : ℕ, ∃ t, (Loc.der^[n] p).eval (fun j _ => c j) = fun _ => t := by
      intro n
      induction n with
      | zero => exact ⟨r, hr⟩
      | succ n ih =>
        obtain ⟨t, ht⟩ := ih
        refine ⟨0, ?_⟩
        rw [Function.iterate_succ_apply']
        funext y
        simp [Loc.eval, ht]
    obtain ⟨t, ht⟩ := key n
    rw [Function.iterate_succ_apply']
    simp [Loc.eval, ht]

variable (M : Meaning) (hM : NoConflict M) (m : OdeSettings) (hm : Bare M m) (P : List String) (c : ℕ → ℝ) (y : ℝ) (ev : String → Option Val)
  (hev : Numbers M P c y ev) (e : Ends)

include hM hm in
lemma Ode.print_fn (s : String) (h : s ∈ M.names ∨ (M.cfun s).isSome) : odePrint M.known m (.fn s) = some (.name s) := by
  have hk : M.known s = none := by
    rcases h with h | h
    · exact hM.known s h
    · exact hM.cknown s h
  rw [odePrint, hk, if_neg (by simp), printUnknown]
  rcases hm with hm | ⟨h1, h2⟩
  · rw [if_pos (hm s h)]
  · by_cases hs : s ∈ m.fnames
    · rw [if_pos hs]
    · simp [h1, h2, hs]

include hM hm hev in
lemma Ode.code_loc (a : Ex) (hs : Autonomous M a) (hP : ∀ s ∈ params a, s ∈ P) (l : Loc) (hl : M.loc a = some l) :
    ∃ p, odePrint M.known m a = some p ∧ p.eval M.known e ev = some (.num (l.eval (fun j _ => c j) y)) := by
  induction a generalizing l with
  | x =>
    simp only [Meaning.loc, Option.some.injEq] at hl
    subst hl
    exact ⟨_, rfl, hev.x⟩
  | num q =>
    simp only [Meaning.loc, Option.some.injEq] at hl
    subst hl
    exact ⟨_, rfl, rfl⟩
  | par s =>
    simp only [Meaning.loc, Option.some.injEq] at hl
    subst hl
    exact ⟨_, rfl, hev.pars s (hP s (by simp [params]))⟩
  | fn s =>
    simp only [Meaning.loc] at hl
    cases hi : M.names.idxOf? s with
    | some j =>
      rw [hi] at hl
      simp only [Option.some.injEq] at hl
      subst hl
      exact ⟨_, print_fn M hM m hm s (Or.inl (mem_of_idx hi)), by simp [PyE.eval, hev.unknown s j hi, Loc.eval]⟩
    | none =>
      rw [hi] at hl
      simp only [Option.map_eq_some_iff] at hl
      obtain ⟨g, hc, rfl⟩ := hl
      exact ⟨_, print_fn M hM m hm s (Or.inr (by simp [hc])), hev.cfun s g hi hc⟩
  | known s a ih =>
    simp only [Meaning.loc, Option.bind_eq_some_iff, Option.map_eq_some_iff] at hl
    obtain ⟨g, hk, l', hl', rfl⟩ := hl
    obtain ⟨p, h1, h2⟩ := ih hs hP l' hl'
    exact ⟨.np s p, by simp [odePrint, hk, h1], by simp [PyE.eval, hk, h2, Val.op₁, Loc.eval]⟩
  | add a b iha ihb =>
    simp only [Meaning.loc, Option.bind_eq_some_iff, Option.map_eq_some_iff] at hl
    obtain ⟨p, hp, q, hq, rfl⟩ := hl
    obtain ⟨s, h1, h2⟩ := iha hs.1 (fun s h => hP s (by simp [params, h])) p hp
    obtain ⟨t, k1, k2⟩ := ihb hs.2 (fun s h => hP s (by simp [params, h])) q hq
    exact ⟨.add s t, by simp [odePrint, h1, k1], by simp [PyE.eval, h2, k2, Val.op₂, Loc.eval]⟩
  | mul a b iha ihb =>
    simp only [Meaning.loc, Option.bind_eq_some_iff, Option.map_eq_some_iff] at hl
    obtain ⟨p, hp, q, hq, rfl⟩ := hl
    obtain ⟨s, h1, h2⟩ := iha hs.1 (fun s h => hP s (by simp [params, h])) p hp
    obtain ⟨t, k1, k2⟩ := ihb hs.2 (fun s h => hP s (by simp [params, h])) q hq
    exact ⟨.mul s t, by simp [odePrint, h1, k1], by simp [PyE.eval, h2, k2, Val.op₂, Loc.eval]⟩
  | pow a n ih =>
    simp only [Meaning.loc, Option.map_eq_some_iff] at hl
    obtain ⟨p, hp, rfl⟩ := hl
    obtain ⟨s, h1, h2⟩ := ih hs hP p hp
    exact ⟨.pow s n, by simp [odePrint, h1], by simp [PyE.eval, h2, Val.op₁, Loc.eval]⟩
  | der a k ih =>
    rw [der_zero M c a k hs.2 hs.1 l hl y]
    exact ⟨.lit 0, rfl, by simp [PyE.eval]⟩
  | int a b => simp [Meaning.loc] at hl

/-- C146: the code which `odecode` prints for an autonomous expression, evaluated with numbers for the unknowns, gives without an error the value of the expression for the constant
functions with these values, if the expression has no integrals, or the domain has length `1`. -/
theorem C146_code_partial (hM : NoConflict M) (hm : Bare M m) (hev : Numbers M P c y ev) (a : Ex) (hs : Autonomous M a) (hP : ∀ s ∈ params a, s ∈ P)
    (he : NoIntegral a ∨ e.e1 - e.e0 = 1) (o : Op) (ho : M.op a = some o) :
    ∃ p, odePrint M.known m a = some p ∧ p.eval M.known e ev = some (.num (o.eval e (fun j _ => c j) y)) := by
  induction a generalizing o with
  | x | num _ | par _ | fn _ | der a k _ =>
    simp only [Meaning.op, Option.map_eq_some_iff] at ho
    obtain ⟨l, hl, rfl⟩ := ho
    exact code_loc M hM m hm P c y ev hev e _ hs hP l hl
  | known s a ih =>
    simp only [Meaning.op, Option.bind_eq_some_iff, Option.map_eq_some_iff] at ho
    obtain ⟨g, hk, l', hl', rfl⟩ := ho
    obtain ⟨p, h1, h2⟩ := ih hs hP he l' hl'
    exact ⟨.np s p, by simp [odePrint, hk, h1], by simp [PyE.eval, hk, h2, Val.op₁, Op.eval]⟩
  | add a b iha ihb =>
    simp only [Meaning.op, Option.bind_eq_some_iff, Option.map_eq_some_iff] at ho
    obtain ⟨p, hp, q, hq, rfl⟩ := ho
    obtain ⟨s, h1, h2⟩ := iha hs.1 (fun s h => hP s (by simp [params, h])) (he.imp And.left id) p hp
    obtain ⟨t, k1, k2⟩ := ihb hs.2 (fun s h => hP s (by simp [params, h])) (he.imp And.right id) q hq
    exact ⟨.add s t, by simp [odePrint, h1, k1], by simp [PyE.eval, h2, k2, Val.op₂, Op.eval]⟩
  | mul a b iha ihb =>
    simp only [Meaning.op, Option.bind_eq_some_iff, Option.map_eq_some_iff] at ho
    obtain ⟨p, hp, q, hq, rfl⟩ := ho
    obtain ⟨s, h1, h2⟩ := iha hs.1 (fun s h => hP s (by simp [params, h])) (he.imp And.left id) p hp
    obtain ⟨t, k1, k2⟩ := ihb hs.2 (fun s h => hP s (by simp [params, h])) (he.imp And.right id) q hq
    exact ⟨.mul s t, by simp [odePrint, h1, k1], by simp [PyE.eval, h2, k2, Val.op₂, Op.eval]⟩
  | pow a n ih =>
    simp only [Meaning.op, Option.map_eq_some_iff] at ho
    obtain ⟨p, hp, rfl⟩ := ho
    obtain ⟨s, h1, h2⟩ := ih hs hP he p hp
    exact ⟨.pow s n, by simp [odePrint, h1], by simp [PyE.eval, h2, Val.op₁, Op.eval]⟩
  | int a b ih =>
    cases b with
    | true => simp [Meaning.op] at ho
    | false =>
      simp only [Meaning.op, Option.map_eq_some_iff] at ho
      obtain ⟨l, hl, rfl⟩ := ho
      have he1 : e.e1 - e.e0 = 1 := he.resolve_left fun h => h
      obtain ⟨p, h1, h2⟩ := code_loc M hM m hm P c y ev hev e a hs.2 hP l hl
      obtain ⟨r, hr⟩ := Ode.constant M c a hs.1 l hl
      refine ⟨p, h1, ?_⟩
      rw [h2]
      simp only [Op.eval, hr, intervalIntegral.integral_const, he1, one_smul]

include hM hm hev in
/-- C146: what the printed code computes for an integral on any domain: the mean value, that is the integral divided by the length of the domain. -/
theorem C146_integral_partial (a : Ex) (hs : SpaceFree M a ∧ Autonomous M a) (hP : ∀ s ∈ params a, s ∈ P) (lim : Bool) (l : Loc) (hl : M.loc a = some l) :
    ∃ p v, odePrint M.known m (.int a lim) = some p ∧ p.eval M.known e ev = some (.num v) ∧
      (∫ t in e.e0..e.e1, l.eval (fun j _ => c j) t) = (e.e1 - e.e0) * v := by
  obtain ⟨p, h1, h2⟩ := code_loc M hM m hm P c y ev hev e a hs.2 hP l hl
  obtain ⟨r, hr⟩ := Ode.constant M c a hs.1 l hl
  exact ⟨p, _, h1, h2, by simp [hr]⟩

/-- C146, failure: on a domain whose length is not `1` the code printed for `∫ u dx` is wrong for every number `u` but `0`. -/
theorem C146_integral_fails (u : ℝ) (hu : u ≠ 0) (he : e.e1 - e.e0 ≠ 1) (hk : M.known "u" = none) :
    ∃ p, odePrint M.known ⟨["u"], false, false⟩ (.int (.fn "u") false) = some p ∧
      p.eval M.known e (fun s => if s = "u" then some (.num u) else none) = some (.num u) ∧ (∫ _t in e.e0..e.e1, u) ≠ u := by
  refine ⟨.name "u", by simp [odePrint, printUnknown, hk], by simp [PyE.eval], ?_⟩
  rw [intervalIntegral.integral_const, smul_eq_mul]
  intro h
  exact he (mul_right_cancel₀ hu (by rw [h, one_mul]))

/-- C146, failure: derivatives of expressions in which `x` occurs are printed as zero: for the derivative of `x u` the code gives `0` and not `u`. -/
theorem C146_derivative_fails (u : ℝ) (hu : u ≠ 0) (y : ℝ) (ev : String → Option Val) :
    ∃ p, odePrint M.known m (.der (.mul .x (.fn "u")) 1) = some p ∧ p.eval M.known e ev = some (.num 0) ∧ deriv (fun x => x * u) y ≠ 0 := by
  refine ⟨.lit 0, rfl, by simp [PyE.eval], ?_⟩
  simpa using hu

/-- C146, failure: with the default settings no code is printed for an unknown function; if unknown functions are allowed, it is called with `x`, so that numbers cannot be
given for the unknowns. -/
theorem C146_settings_fails (K : String → Option (ℝ → ℝ)) (s : String) (hk : K s = none) (noEval : Bool) :
    odePrint K ⟨[], false, false⟩ (.fn s) = none ∧ odePrint K ⟨[], true, noEval⟩ (.fn s) = some (.call s (.name "x")) := by
  simp [odePrint, printUnknown, hk]

/-- Non-vacuity: `diff(u, x, 2) + p*exp(u)*v + sum(u*v)` on `[0, 1]` at `u = 2`, `v = 5`, `p = 3`: the code gives `15 exp(2) + 10`. -/
example : ∃ (M : Meaning) (ev : String → Option Val) (o : Op),
    let a : Ex := .add (.der (.fn "u") 2) (.add (.mul (.par "p") (.mul (.known "exp" (.fn "u")) (.fn "v"))) (.int (.mul (.fn "u") (.fn "v")) false))
    let c : ℕ → ℝ := fun j => if j = 0 then 2 else 5
    NoConflict M ∧ Numbers M ["p"] c 0 ev ∧ Bare M ⟨["u", "v"], false, false⟩ ∧ Autonomous M a ∧ (∀ s ∈ params a, s ∈ ["p"]) ∧ M.op a = some o ∧
    o.eval ⟨0, 1⟩ (fun j _ => c j) 0 = 15 * Real.exp 2 + 10 := by
  refine ⟨⟨fun s => if s = "exp" then some Real.exp else none, ["u", "v"], fun _ => none, fun _ => 3⟩,
    fun s => if s = "x" then some (.num 0) else if s = "u" then some (.num 2) else if s = "v" then some (.num 5) else if s = "p" then some (.num 3) else none, _,
    ⟨by simp, by simp, by simp⟩, ⟨by simp, ?_, by simp, by simp⟩, Or.inl (by simp), ?_, ?_, rfl, ?_⟩
  · intro s j h
    have hs := mem_of_idx h
    simp only [List.mem_cons, List.not_mem_nil, or_false] at hs
    rcases hs with rfl | rfl
    · have : List.idxOf? "u" ["u", "v"] = some 0 := by decide
      rw [this] at h
      obtain rfl := Option.some.inj h
      simp
    · have : List.idxOf? "v" ["u", "v"] = some 1 := by decide
      rw [this] at h
      obtain rfl := Option.some.inj h
      simp
  · simp [Autonomous, SpaceFree]
  · simp [params]
  · simp [Op.eval, Loc.eval, iteratedDeriv_const_fn]
    ring

end Funpy.Props
