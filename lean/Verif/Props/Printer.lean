import Verif.Model.Printer
import Verif.Lemmas.ListAux
import Mathlib.Analysis.SpecialFunctions.Integrals.Basic

/-!
# C113: the code printed for an expression computes the expression
-/

namespace Funpy.Props
open Printer Linearize

/-! ### Specification -/

/-- What the names of an operator mean: sympy's functions, the unknowns (in this order), the constant functions and the parameters. -/
structure Meaning where
  known : String → Option (ℝ → ℝ)
  names : List String
  cfun : String → Option (ℝ → ℝ)
  pars : String → ℝ

/-- The meaning of an expression without integrals, as a pointwise expression of `Model/Linearize.lean`. -/
noncomputable def Meaning.loc (M : Meaning) : Ex → Option Loc
  | .x => some .x
  | .num q => some (.const q)
  | .par s => some (.const (M.pars s))
  | .fn s => match M.names.idxOf? s with
    | some j => some (.fn j 0)
    | none => (M.cfun s).map (.app · .x)
  | .known s a => (M.known s).bind fun g => (M.loc a).map (.app g)
  | .add a b => (M.loc a).bind fun p => (M.loc b).map (.add p)
  | .mul a b => (M.loc a).bind fun p => (M.loc b).map (.mul p)
  | .pow a n => (M.loc a).map (.pow · n)
  | .der a k => (M.loc a).map fun p => match p with
    | .fn j 0 => .fn j k
    | p => Loc.der^[k] p
  | .int _ _ => none

/-- The meaning of an expression with integrals over the domain. -/
noncomputable def Meaning.op (M : Meaning) : Ex → Option Op
  | .int a false => (M.loc a).map .int
  | .int _ true => none
  | .add a b => (M.op a).bind fun p => (M.op b).map (.add p)
  | .mul a b => (M.op a).bind fun p => (M.op b).map (.mul p)
  | .known s a => (M.known s).bind fun g => (M.op a).map (.app g)
  | .pow a n => (M.op a).map (.app (· ^ n))
  | a => (M.loc a).map .loc

/-- The spatial variable or a function occurs outside of integrals. -/
def Varies : Ex → Prop
  | .x | .fn _ => True
  | .num _ | .par _ | .int _ _ => False
  | .known _ a | .pow a _ | .der a _ => Varies a
  | .add a b | .mul a b => Varies a ∨ Varies b

/-- Derivatives and integrals are taken of expressions in which `x` or a function occurs: sympy evaluates all others. -/
def Sensible : Ex → Prop
  | .x | .fn _ | .num _ | .par _ => True
  | .known _ a | .pow a _ => Sensible a
  | .der a _ | .int a _ => Varies a ∧ Sensible a
  | .add a b | .mul a b => Sensible a ∧ Sensible b

/-- The names are chosen without conflicts: no unknown or constant function has the name of a function known to sympy, no name is given twice, and
none is `x`. -/
structure NoConflict (M : Meaning) : Prop where
  known : ∀ s ∈ M.names, M.known s = none
  cknown : ∀ s, (M.cfun s).isSome → M.known s = none
  x : "x" ∉ M.names ∧ M.cfun "x" = none

/-- The globals which the code finds: `x`, the constant functions, the parameters in `P`. -/
structure Globals (M : Meaning) (P : List String) (glob : String → Option Val) : Prop where
  x : glob "x" = some (.fn id)
  cfun : ∀ s g, M.cfun s = some g → glob s = some (.fn g)
  pars : ∀ s ∈ P, s ∉ M.names ∧ glob s = some (.num (M.pars s))

/-- The parameters of an expression. -/
def params : Ex → List String
  | .par s => [s]
  | .x | .fn _ | .num _ => []
  | .known _ a | .pow a _ | .der a _ | .int a _ => params a
  | .add a b | .mul a b => params a ++ params b

/-- The settings with which code is printed: those of residuals, or those of coefficients with the names of all functions. -/
def Proper (M : Meaning) (m : Settings) : Prop :=
  m = resSettings ∨ ∃ cnames, m = coefficients M.names cnames ∧ ∀ s, (M.cfun s).isSome → s ∈ cnames

/-! ### Proof -/

/-- `v` is a function exactly if `b`. -/
private def IsFn (v : Val) (b : Prop) : Prop := (b → ∃ f, v = .fn f) ∧ (¬ b → ∃ r, v = .num r)

private lemma op2_at (o : ℝ → ℝ → ℝ) (v w : Val) (y : ℝ) : (v.op₂ o w).at y = o (v.at y) (w.at y) := by
  cases v <;> cases w <;> rfl

private lemma op1_at (o : ℝ → ℝ) (v : Val) (y : ℝ) : (v.op₁ o).at y = o (v.at y) := by
  cases v <;> rfl

private lemma op2_fn (o : ℝ → ℝ → ℝ) {v w : Val} {a b : Prop} (hv : IsFn v a) (hw : IsFn w b) : IsFn (v.op₂ o w) (a ∨ b) := by
  by_cases ha : a
  · obtain ⟨f, rfl⟩ := hv.1 ha
    exact ⟨fun _ => ⟨_, rfl⟩, fun h => absurd (Or.inl ha) h⟩
  · obtain ⟨r, rfl⟩ := hv.2 ha
    by_cases hb : b
    · obtain ⟨f, rfl⟩ := hw.1 hb
      exact ⟨fun _ => ⟨_, rfl⟩, fun h => absurd (Or.inr hb) h⟩
    · obtain ⟨s, rfl⟩ := hw.2 hb
      exact ⟨fun h => absurd h (by tauto), fun _ => ⟨_, rfl⟩⟩

private lemma op1_fn (o : ℝ → ℝ) {v : Val} {a : Prop} (hv : IsFn v a) : IsFn (v.op₁ o) a := by
  by_cases ha : a
  · obtain ⟨f, rfl⟩ := hv.1 ha
    exact ⟨fun _ => ⟨_, rfl⟩, fun h => absurd ha h⟩
  · obtain ⟨f, rfl⟩ := hv.2 ha
    exact ⟨fun h => absurd h ha, fun _ => ⟨_, rfl⟩⟩

private lemma der_iter (U : ℕ → ℝ → ℝ) (p : Loc) (k : ℕ) : (Loc.der^[k] p).eval U = iteratedDeriv k (p.eval U) := by
  induction k with
  | zero => simp
  | succ k ih =>
    rw [Function.iterate_succ_apply', iteratedDeriv_succ, ← ih]
    rfl

/-- Printing and evaluating -/
private def Ok (M : Meaning) (e : Ends) (m : Settings) (ev : String → Option Val) (b : Prop) (f : ℝ → ℝ) (a : Ex) : Prop :=
  ∃ c v, print M.known m a = some c ∧ c.eval M.known e ev = some v ∧ IsFn v b ∧ ∀ y, v.at y = f y

section
variable {M : Meaning} {e : Ends} {m : Settings} {ev : String → Option Val}

private lemma ok_add {a b : Ex} {p q : Prop} {f g : ℝ → ℝ} (ha : Ok M e m ev p f a) (hb : Ok M e m ev q g b) :
    Ok M e m ev (p ∨ q) (fun y => f y + g y) (.add a b) := by
  obtain ⟨c, v, h1, h2, h3, h4⟩ := ha
  obtain ⟨d, w, k1, k2, k3, k4⟩ := hb
  refine ⟨.add c d, v.op₂ (· + ·) w, by simp [print, h1, k1], by simp [PyE.eval, h2, k2], op2_fn _ h3 k3, fun y => ?_⟩
  rw [op2_at, h4, k4]

private lemma ok_mul {a b : Ex} {p q : Prop} {f g : ℝ → ℝ} (ha : Ok M e m ev p f a) (hb : Ok M e m ev q g b) :
    Ok M e m ev (p ∨ q) (fun y => f y * g y) (.mul a b) := by
  obtain ⟨c, v, h1, h2, h3, h4⟩ := ha
  obtain ⟨d, w, k1, k2, k3, k4⟩ := hb
  refine ⟨.mul c d, v.op₂ (· * ·) w, by simp [print, h1, k1], by simp [PyE.eval, h2, k2], op2_fn _ h3 k3, fun y => ?_⟩
  rw [op2_at, h4, k4]

private lemma ok_pow {a : Ex} {p : Prop} {f : ℝ → ℝ} (n : ℕ) (ha : Ok M e m ev p f a) :
    Ok M e m ev p (fun y => f y ^ n) (.pow a n) := by
  obtain ⟨c, v, h1, h2, h3, h4⟩ := ha
  refine ⟨.pow c n, v.op₁ (· ^ n), by simp [print, h1], by simp [PyE.eval, h2], op1_fn _ h3, fun y => ?_⟩
  rw [op1_at, h4]

private lemma ok_known {a : Ex} {p : Prop} {f : ℝ → ℝ} (s : String) (g : ℝ → ℝ) (hg : M.known s = some g) (ha : Ok M e m ev p f a) :
    Ok M e m ev p (fun y => g (f y)) (.known s a) := by
  obtain ⟨c, v, h1, h2, h3, h4⟩ := ha
  refine ⟨.np s c, v.op₁ g, by simp [print, h1, hg], by simp [PyE.eval, h2, hg], op1_fn _ h3, fun y => ?_⟩
  rw [op1_at, h4]

private lemma ok_der {a : Ex} {f : ℝ → ℝ} (k : ℕ) (ha : Ok M e m ev True f a) :
    Ok M e m ev True (iteratedDeriv k f) (.der a k) := by
  obtain ⟨c, v, h1, h2, h3, h4⟩ := ha
  obtain ⟨F, rfl⟩ := h3.1 trivial
  have : F = f := funext h4
  subst this
  exact ⟨.diff c k, .fn (iteratedDeriv k F), by simp [print, h1], by simp [PyE.eval, h2],
    ⟨fun _ => ⟨_, rfl⟩, fun h => absurd trivial h⟩, fun y => rfl⟩

private lemma ok_int {a : Ex} {f : ℝ → ℝ} (ha : Ok M e m ev True f a) :
    Ok M e m ev False (fun _ => ∫ t in e.e0..e.e1, f t) (.int a false) := by
  obtain ⟨c, v, h1, h2, h3, h4⟩ := ha
  obtain ⟨F, rfl⟩ := h3.1 trivial
  have : F = f := funext h4
  subst this
  exact ⟨.sum c, .num (∫ t in e.e0..e.e1, F t), by simp [print, h1], by simp [PyE.eval, h2],
    ⟨fun h => h.elim, fun _ => ⟨_, rfl⟩⟩, fun y => rfl⟩

end

variable (M : Meaning) (hM : NoConflict M) (m : Settings) (hm : Proper M m) (P : List String) (glob : String → Option Val)
  (hg : Globals M P glob) (U : ℕ → ℝ → ℝ) (e : Ends)

private lemma print_fn (hM : NoConflict M) (hm : Proper M m) (s : String) (h : s ∈ M.names ∨ (M.cfun s).isSome) :
    print M.known m (.fn s) = some (.name s) := by
  have hk : M.known s = none := by
    rcases h with h | h
    · exact hM.known s h
    · exact hM.cknown s h
  rcases hm with rfl | ⟨cn, rfl, hc⟩
  · simp [print, hk, resSettings]
  · have : s ∈ (coefficients M.names cn).fnames := by
      rcases h with h | h
      · simp [coefficients, h]
      · simp [coefficients, hc s h]
    rw [print, if_neg (by simp [hk]), if_pos this]

private lemma env_arg {s : String} {j : ℕ} (h : M.names.idxOf? s = some j) (U : ℕ → ℝ → ℝ) :
    env M.names ((List.range M.names.length).map fun j => .fn (U j)) glob s = some (.fn (U j)) := by
  have hj : j < M.names.length := by
    have := List.of_findIdx?_eq_some h
    by_contra hn
    rw [List.getElem?_eq_none (by omega)] at this
    simp at this
  unfold env
  rw [h]
  simp [hj]

include hM hm hg in
private lemma ok_loc (a : Ex) (hs : Sensible a) (hP : ∀ s ∈ params a, s ∈ P) (l : Loc) (hl : M.loc a = some l) :
    Ok M e m (env M.names ((List.range M.names.length).map fun j => .fn (U j)) glob) (Varies a) (l.eval U) a := by
  induction a generalizing l with
  | x =>
    simp only [Meaning.loc, Option.some.injEq] at hl
    subst hl
    refine ⟨.name "x", .fn id, rfl, ?_, ⟨fun _ => ⟨_, rfl⟩, fun h => absurd trivial h⟩, fun y => rfl⟩
    have : M.names.idxOf? "x" = none := by simpa using hM.x.1
    simp [PyE.eval, env, this, hg.x]
  | num q =>
    simp only [Meaning.loc, Option.some.injEq] at hl
    subst hl
    exact ⟨.lit q, .num q, rfl, rfl, ⟨fun h => h.elim, fun _ => ⟨_, rfl⟩⟩, fun y => rfl⟩
  | par s =>
    simp only [Meaning.loc, Option.some.injEq] at hl
    subst hl
    have h := hg.pars s (hP s (by simp [params]))
    have hi : M.names.idxOf? s = none := by simpa using h.1
    exact ⟨.name s, .num (M.pars s), rfl, by simp [PyE.eval, env, hi, h.2], ⟨fun h => h.elim, fun _ => ⟨_, rfl⟩⟩, fun y => rfl⟩
  | fn s =>
    simp only [Meaning.loc] at hl
    cases hi : M.names.idxOf? s with
    | some j =>
      rw [hi] at hl
      simp only [Option.some.injEq] at hl
      subst hl
      have hmem : s ∈ M.names := by
        by_contra hn
        have : M.names.idxOf? s = none := by simpa using hn
        rw [this] at hi
        simp at hi
      refine ⟨.name s, .fn (U j), print_fn M m hM hm s (Or.inl hmem), ?_, ⟨fun _ => ⟨_, rfl⟩, fun h => absurd trivial h⟩, fun y => ?_⟩
      · rw [PyE.eval, env_arg M glob hi]
      · simp [Val.at, Loc.eval]
    | none =>
      rw [hi] at hl
      simp only [Option.map_eq_some_iff] at hl
      obtain ⟨g, hc, rfl⟩ := hl
      refine ⟨.name s, .fn g, print_fn M m hM hm s (Or.inr (by simp [hc])), ?_, ⟨fun _ => ⟨_, rfl⟩, fun h => absurd trivial h⟩,
        fun y => rfl⟩
      simp [PyE.eval, env, hi, hg.cfun s g hc]
  | known s a ih =>
    simp only [Meaning.loc, Option.bind_eq_some_iff, Option.map_eq_some_iff] at hl
    obtain ⟨g, hk, l', hl', rfl⟩ := hl
    exact ok_known s g hk (ih hs hP l' hl')
  | add a b iha ihb =>
    simp only [Meaning.loc, Option.bind_eq_some_iff, Option.map_eq_some_iff] at hl
    obtain ⟨p, hp, q, hq, rfl⟩ := hl
    exact ok_add (iha hs.1 (fun s h => hP s (by simp [params, h])) p hp) (ihb hs.2 (fun s h => hP s (by simp [params, h])) q hq)
  | mul a b iha ihb =>
    simp only [Meaning.loc, Option.bind_eq_some_iff, Option.map_eq_some_iff] at hl
    obtain ⟨p, hp, q, hq, rfl⟩ := hl
    exact ok_mul (iha hs.1 (fun s h => hP s (by simp [params, h])) p hp) (ihb hs.2 (fun s h => hP s (by simp [params, h])) q hq)
  | pow a n ih =>
    simp only [Meaning.loc, Option.map_eq_some_iff] at hl
    obtain ⟨p, hp, rfl⟩ := hl
    exact ok_pow n (ih hs hP p hp)
  | der a k ih =>
    simp only [Meaning.loc, Option.map_eq_some_iff] at hl
    obtain ⟨p, hp, rfl⟩ := hl
    have h := ih hs.2 hP p hp
    have hv : Varies a = True := eq_true hs.1
    rw [hv] at h
    have := ok_der k h
    have hv' : Varies (.der a k) = True := eq_true hs.1
    rw [hv']
    convert this using 1
    split
    · funext y
      simp only [Loc.eval, iteratedDeriv_zero]
    · exact der_iter U _ k
  | int a b => simp [Meaning.loc] at hl

/-- C113: the code printed for an expression (as a residual or as a coefficient of the linearised operator), called with the unknown
functions `U`, evaluates without an error to a number or function whose values are those of the expression. -/
theorem C113_code (hM : NoConflict M) (hm : Proper M m) (hg : Globals M P glob) (a : Ex) (hs : Sensible a)
    (hP : ∀ s ∈ params a, s ∈ P) (o : Op) (ho : M.op a = some o) :
    ∃ c v, print M.known m a = some c ∧
      c.eval M.known e (env M.names ((List.range M.names.length).map fun j => .fn (U j)) glob) = some v ∧
      ∀ y, v.at y = o.eval e U y := by
  suffices h : Ok M e m (env M.names ((List.range M.names.length).map fun j => .fn (U j)) glob) (Varies a) (o.eval e U) a by
    obtain ⟨c, v, h1, h2, _, h4⟩ := h
    exact ⟨c, v, h1, h2, h4⟩
  induction a generalizing o with
  | x | num _ | par _ | fn _ | der a k _ =>
    simp only [Meaning.op, Option.map_eq_some_iff] at ho
    obtain ⟨l, hl, rfl⟩ := ho
    exact ok_loc M hM m hm P glob hg U e _ hs hP l hl
  | known s a ih =>
    simp only [Meaning.op, Option.bind_eq_some_iff, Option.map_eq_some_iff] at ho
    obtain ⟨g, hk, l', hl', rfl⟩ := ho
    exact ok_known s g hk (ih hs hP l' hl')
  | add a b iha ihb =>
    simp only [Meaning.op, Option.bind_eq_some_iff, Option.map_eq_some_iff] at ho
    obtain ⟨p, hp, q, hq, rfl⟩ := ho
    exact ok_add (iha hs.1 (fun s h => hP s (by simp [params, h])) p hp) (ihb hs.2 (fun s h => hP s (by simp [params, h])) q hq)
  | mul a b iha ihb =>
    simp only [Meaning.op, Option.bind_eq_some_iff, Option.map_eq_some_iff] at ho
    obtain ⟨p, hp, q, hq, rfl⟩ := ho
    exact ok_mul (iha hs.1 (fun s h => hP s (by simp [params, h])) p hp) (ihb hs.2 (fun s h => hP s (by simp [params, h])) q hq)
  | pow a n ih =>
    simp only [Meaning.op, Option.map_eq_some_iff] at ho
    obtain ⟨p, hp, rfl⟩ := ho
    exact ok_pow n (ih hs hP p hp)
  | int a b ih =>
    cases b with
    | true => simp [Meaning.op] at ho
    | false =>
      simp only [Meaning.op, Option.map_eq_some_iff] at ho
      obtain ⟨p, hp, rfl⟩ := ho
      have h := ok_loc M hM m hm P glob hg U e a hs.2 hP p hp
      have hv : Varies a = True := eq_true hs.1
      rw [hv] at h
      exact ok_int h

/-- C113: in the coefficients of operators a function that is neither known nor listed is printed with its argument, in residuals as a bare name. -/
theorem C113_unlisted (K : String → Option (ℝ → ℝ)) (names cnames : List String) (s : String) (hk : K s = none) (hs : s ∉ names ++ cnames) :
    print K (coefficients names cnames) (.fn s) = some (.call s (.name "x")) ∧ print K resSettings (.fn s) = some (.name s) := by
  constructor
  · rw [print, hk, if_neg (by simp), if_neg (by simpa [coefficients] using hs), if_pos (by simp [coefficients])]
  · rw [print, hk, if_neg (by simp), if_neg (by simp [resSettings]), if_neg (by simp [resSettings])]

/-- C113, failure: an unknown function whose name is that of a function known to sympy's printer (`gamma`, `beta`, `zeta`, …) is printed
as that function of `x`: the generated code ignores the unknown. -/
theorem C113_names_fails (s : String) (g : ℝ → ℝ) (hk : M.known s = some g) (_hs : s ∈ M.names) (hx : "x" ∉ M.names)
    (hgx : glob "x" = some (.fn id)) (V : List Val) :
    ∃ c, print M.known m (.fn s) = some c ∧ c.eval M.known e (env M.names V glob) = some (.fn g) := by
  refine ⟨.np s (.name "x"), by simp [print, hk], ?_⟩
  have : M.names.idxOf? "x" = none := by simpa using hx
  simp [PyE.eval, env, this, hgx, hk, Val.op₁]

/-- C113, failure: an integral with limits is not a number but the antiderivative (the limits are ignored): for `u = 1` on `[-1, 1]` the code printed for
`∫_{-1}^{1} u` has at `0` the value `1` instead of `2`. -/
theorem C113_limits_fails :
    let M : Meaning := ⟨fun _ => none, ["u"], fun _ => none, fun _ => 0⟩
    ∃ c v, print M.known resSettings (.int (.fn "u") true) = some c ∧
      c.eval M.known ⟨-1, 1⟩ (env M.names [.fn fun _ => 1] fun _ => none) = some v ∧ v.at 0 = 1 ∧ (∫ _t in (-1 : ℝ)..1, (1 : ℝ)) = 2 := by
  refine ⟨.cumsum (.name "u"), .fn fun y => ∫ _t in (-1 : ℝ)..y, (1 : ℝ), ?_, rfl, ?_, ?_⟩
  · have : (Ex.fn "u").functions.dedup.length = 1 := by decide
    rw [print, this]
    rfl
  · norm_num [Val.at]
  · norm_num

/-- C113, failure: with limits and a nonlinear integrand the code calls `adhesion` (a convolution) with kernel `None`; with three functions
no code is printed at all. -/
theorem C113_limits_nonlinear_fails (K : String → Option (ℝ → ℝ)) (g : ℝ → ℝ) (hK : K "exp" = some g) (h1 : K "u" = none)
    (h2 : K "v" = none) :
    print K resSettings (.int (.known "exp" (.fn "u")) true) = some (.adhesion (.np "exp" (.name "u")) (.name "None")) ∧
    print K resSettings (.int (.mul (.fn "v") (.known "exp" (.fn "u"))) true) = none := by
  have h1' : (Ex.known "exp" (.fn "u")).functions.dedup.length = 2 := by decide
  have h2' : (Ex.mul (.fn "v") (.known "exp" (.fn "u"))).functions.dedup.length = 3 := by decide
  constructor
  · rw [print, h1']
    simp [print, hK, h1, resSettings]
  · rw [print, h2']
    rfl

/-- Non-vacuity: `diff(u, x, 2) + p*exp(u)*v + sum(u*v)` with unknowns `u`, `v`, a parameter `p` -/
example : ∃ (M : Meaning) (glob : String → Option Val) (o : Op), NoConflict M ∧ Globals M ["p"] glob ∧ Proper M resSettings ∧
    Proper M (coefficients M.names []) ∧
    let a : Ex := .add (.der (.fn "u") 2) (.add (.mul (.par "p") (.mul (.known "exp" (.fn "u")) (.fn "v"))) (.int (.mul (.fn "u") (.fn "v")) false))
    Sensible a ∧ (∀ s ∈ params a, s ∈ ["p"]) ∧ M.op a = some o ∧ M.names = ["u", "v"] := by
  refine ⟨⟨fun s => if s = "exp" then some Real.exp else none, ["u", "v"], fun _ => none, fun _ => 3⟩,
    fun s => if s = "x" then some (.fn id) else if s = "p" then some (.num 3) else none, _,
    ⟨by simp, by simp, by simp⟩, ⟨by simp, by simp, by simp⟩, Or.inl rfl, Or.inr ⟨[], rfl, by simp⟩, ?_, ?_, rfl, rfl⟩
  · simp [Sensible, Varies]
  · simp [params]

end Funpy.Props
