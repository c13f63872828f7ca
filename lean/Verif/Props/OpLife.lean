import Verif.Model.OpLife

/-!
# C117: the discretisation belongs to the current problem
-/

namespace Funpy.Props
open OpLife

variable {E P : Type} (ok : E → Bool) (known : P → Bool)

/-- Actions that do not assign attributes and do not ask for bifurcation systems. -/
def PlainAct : Act E P → Prop
  | .setDisc _ => True
  | .compile _ _ b => b = false
  | .discretize _ _ b => b = false
  | .setEqn _ => False
  | .setCpar _ => False

/-- Specification: the number of coefficients after a history: the last one asked for, but at least the minimum. -/
def discSize (nMin : ℕ) : ℕ → List (Act E P) → ℕ
  | n, [] => n
  | _, .setDisc k :: l => discSize nMin (max k nMin) l
  | n, _ :: l => discSize nMin n l

private def Inv (e : E) (cpar : List P) (nMin : ℕ) (o : Op E P) : Prop :=
  o.eqn = e ∧ o.cpar = cpar ∧ o.nMin = nMin ∧ (o.prepared = true → ∃ s, o.linSys = some s ∧ s.src.eqn = e ∧
    (o.parSet = true → s.derivs = cpar) ∧ (cpar = [] → s.derivs = []))

private lemma compileSrc_ok {e : E} {cpar : List P} (he : ok e = true) (hk : ∀ p ∈ cpar, known p = true) (par fold : Bool) :
    ∃ s, compileSrc ok known e cpar par fold false = some s ∧ s.eqn = e ∧ (par = true → s.dp = cpar) ∧ (cpar = [] → s.dp = []) := by
  unfold compileSrc
  rw [if_pos he]
  by_cases h : ((par || fold) && !cpar.isEmpty) = true
  · rw [if_pos h, if_pos (by simpa using hk)]
    exact ⟨_, rfl, rfl, fun _ => rfl, fun h => h⟩
  · rw [if_neg h, if_neg (by simp)]
    refine ⟨_, rfl, rfl, fun hp => ?_, fun _ => rfl⟩
    subst hp
    simp at h
    exact h.symm

private lemma compile_inv {e : E} {cpar : List P} {nMin : ℕ} (he : ok e = true) (hk : ∀ p ∈ cpar, known p = true) {o : Op E P}
    (h : Inv e cpar nMin o) (par fold : Bool) :
    Inv e cpar nMin (compile ok known o par fold false).1 ∧ (compile ok known o par fold false).2 = true ∧
    (compile ok known o par fold false).1.prepared = true ∧ (compile ok known o par fold false).1.n = o.n ∧
    (par = true → (compile ok known o par fold false).1.parSet = true) := by
  obtain ⟨h1, h2, h3, h4⟩ := h
  unfold compile
  by_cases hp : (o.prepared && (o.parSet || par == o.parSet)) = true
  · rw [if_pos hp]
    rw [Bool.and_eq_true] at hp
    refine ⟨⟨h1, h2, h3, h4⟩, rfl, hp.1, rfl, fun hpar => ?_⟩
    subst hpar
    have := hp.2
    show o.parSet = true
    revert this
    cases o.parSet <;> simp
  · rw [if_neg hp]
    obtain ⟨s, hs, hs1, hs2, hs3⟩ := compileSrc_ok ok known he hk par fold
    rw [h1, h2, hs]
    refine ⟨⟨rfl, rfl, h3, fun _ => ⟨_, rfl, hs1, fun hq => ?_, fun hc => ?_⟩⟩, rfl, rfl, rfl, fun h => h⟩
    · simp only [LinSys.derivs]
      simp only at hq
      rw [if_pos hq, hs2 hq]
    · simp only [LinSys.derivs, hs3 hc]
      split <;> rfl

private lemma act_inv {e : E} {cpar : List P} {nMin : ℕ} (he : ok e = true) (hk : ∀ p ∈ cpar, known p = true) {o : Op E P}
    (h : Inv e cpar nMin o) (a : Act E P) (ha : PlainAct a) (l : List (Act E P)) :
    Inv e cpar nMin (act ok known o a) ∧ discSize nMin (act ok known o a).n l = discSize nMin o.n (a :: l) := by
  cases a with
  | setDisc k =>
    refine ⟨h, ?_⟩
    simp only [act, OpLife.setDisc, discSize, h.2.2.1]
  | compile p f b =>
    have hb : b = false := ha
    subst hb
    obtain ⟨h1, -, -, h4, -⟩ := compile_inv ok known he hk h p f
    refine ⟨h1, ?_⟩
    simp only [act, discSize, h4]
  | discretize s f b =>
    have hb : b = false := ha
    subst hb
    obtain ⟨h1, h2, -, h4, -⟩ := compile_inv ok known he hk h (!o.cpar.isEmpty) f
    have : (act ok known o (.discretize s f false)) = (compile ok known o (!o.cpar.isEmpty) f false).1 := by
      simp only [act, OpLife.discretize, h2, if_true]
      cases s <;> rfl
    rw [this, h4]
    exact ⟨h1, rfl⟩
  | setEqn _ => exact ha.elim
  | setCpar _ => exact ha.elim

/-- C117: after every history of compilations, discretisations and changes of the number of coefficients, discretising the linearised operator succeeds and gives a
system for the equations of the operator, differentiable with respect to its continuation parameters, with the number of coefficients asked for last. -/
theorem C117_history_partial (e : E) (cpar : List P) (n nMin : ℕ) (he : ok e = true) (hk : ∀ p ∈ cpar, known p = true)
    (l : List (Act E P)) (hl : ∀ a ∈ l, PlainAct a) (fold : Bool) :
    ∃ d, (discretize ok known (run ok known (new e cpar n nMin) l) .linear fold false).2 = some d ∧ d.sys.src.eqn = e ∧ d.sys.derivs = cpar ∧
      d.dim = discSize nMin n l ∧ (d.isReal = true ↔ d.dim = 1) := by
  have key : ∀ (l : List (Act E P)) (o : Op E P), (∀ a ∈ l, PlainAct a) → Inv e cpar nMin o →
      Inv e cpar nMin (run ok known o l) ∧ (run ok known o l).n = discSize nMin o.n l := by
    intro l
    induction l with
    | nil => exact fun o _ h => ⟨h, rfl⟩
    | cons a l ih =>
      intro o hl h
      obtain ⟨h1, h2⟩ := act_inv ok known he hk h a (hl a (by simp)) l
      obtain ⟨h3, h4⟩ := ih _ (fun b hb => hl b (by simp [hb])) h1
      exact ⟨h3, h4.trans h2⟩
  obtain ⟨h, hn⟩ := key l (new e cpar n nMin) hl ⟨rfl, rfl, rfl, fun h => by simp [new] at h⟩
  generalize run ok known (new e cpar n nMin) l = o at h hn
  obtain ⟨h1, h2, h3, h4, h5⟩ := compile_inv ok known he hk h (!o.cpar.isEmpty) fold
  obtain ⟨s, hs, hs1, hs2, hs3⟩ := h1.2.2.2 h3
  refine ⟨discretizeSystem (compile ok known o (!o.cpar.isEmpty) fold false).1 s, ?_, hs1, ?_, ?_, ?_⟩
  · rw [discretize]
    simp only [h2, if_true, hs, Option.map_some]
  · by_cases hc : cpar = []
    · rw [hc]; exact hs3 hc
    · apply hs2
      apply h5
      rw [h.2.1]
      simpa using hc
  · show (compile ok known o (!o.cpar.isEmpty) fold false).1.n = _
    rw [h4, hn]
    rfl
  · simp [discretizeSystem]

/-- C117: a continuation parameter named after the first discretisation is taken into account, together with all equations assigned until then. -/
theorem C117_add_parameter (e e' : E) (n nMin : ℕ) (p : P) (ps : List P) (he' : ok e' = true) (hk : ∀ q ∈ p :: ps, known q = true)
    (f : Bool) :
    let o := run ok known (new e [] n nMin) [.discretize .linear false false, .setEqn e', .setCpar (p :: ps)]
    ∃ d, (discretize ok known o .linear f false).2 = some d ∧ d.sys.src.eqn = e' ∧ d.sys.derivs = p :: ps := by
  obtain ⟨s, hs, hs1, hs2, -⟩ := compileSrc_ok ok known (cpar := p :: ps) he' hk true f
  have hgen : ∀ o : Op E P, o.eqn = e' → o.cpar = p :: ps → o.parSet = false →
      ∃ d, (discretize ok known o .linear f false).2 = some d ∧ d.sys.src.eqn = e' ∧ d.sys.derivs = p :: ps := by
    intro o h1 h2 h3
    have : compile ok known o (!o.cpar.isEmpty) f false =
        ({ o with parSet := true, linSys := some ⟨s, true⟩, prepared := true }, true) := by
      rw [compile, if_neg (by rw [h2, h3]; simp), h1, h2]
      simp only [List.isEmpty_cons, Bool.not_false, hs]
    refine ⟨_, by rw [discretize, this]; rfl, hs1, ?_⟩
    simp [discretizeSystem, LinSys.derivs, hs2]
  apply hgen
  · rfl
  · rfl
  · simp only [run, List.foldl_cons, List.foldl_nil, act, discretize, compile, new, List.isEmpty_nil, Bool.not_true, Bool.false_and, Bool.false_eq_true, if_false]
    cases compileSrc ok known e [] false false false <;> rfl

/-- C117 fails for fold and bifurcation points: these systems can never be discretised. -/
theorem C117_systems_fails (o : Op E P) (sys : System) (hs : sys ≠ .linear) (f b : Bool) : (discretize ok known o sys f b).2 = none := by
  unfold discretize
  cases sys with
  | linear => exact absurd rfl hs
  | fold => simp only []; split <;> rfl
  | bifurcation => simp only []; split <;> rfl

/-- C117 fails when attributes are assigned: once an operator with a continuation parameter has been discretised, nothing the user does (new equations, other parameters, compilations)
changes the system that is discretised. -/
theorem C117_stale_fails (o : Op E P) (hc : o.cpar ≠ []) (f b : Bool) (d : Disc E P)
    (h : (discretize ok known o .linear f b).2 = some d) (l : List (Act E P)) (f' b' : Bool) :
    ∃ d', (discretize ok known (run ok known (discretize ok known o .linear f b).1 l) .linear f' b').2 = some d' ∧ d'.sys = d.sys := by
  have hfix : ∀ (o : Op E P) (p f b : Bool), o.prepared = true → o.parSet = true → compile ok known o p f b = (o, true) := by
    intro o p f b h1 h2
    rw [compile, if_pos (by simp [h1, h2])]
  have hdisc : ∀ (o : Op E P) (s : System) (f b : Bool), o.prepared = true → o.parSet = true → (discretize ok known o s f b).1 = o := by
    intro o s f b h1 h2
    unfold discretize
    rw [hfix o _ f b h1 h2]
    cases s <;> rfl
  have hrun : ∀ (l : List (Act E P)) (o : Op E P), o.prepared = true → o.parSet = true →
      (run ok known o l).prepared = true ∧ (run ok known o l).parSet = true ∧ (run ok known o l).linSys = o.linSys := by
    intro l
    induction l with
    | nil => exact fun o h1 h2 => ⟨h1, h2, rfl⟩
    | cons a l ih =>
      intro o h1 h2
      have h3 : (act ok known o a).prepared = true ∧ (act ok known o a).parSet = true ∧ (act ok known o a).linSys = o.linSys := by
        cases a with
        | setDisc k => exact ⟨h1, h2, rfl⟩
        | compile p f b => rw [show act ok known o (.compile p f b) = o by simp only [act, hfix o p f b h1 h2]]; exact ⟨h1, h2, rfl⟩
        | discretize s f b => rw [show act ok known o (.discretize s f b) = o by simp only [act, hdisc o s f b h1 h2]]; exact ⟨h1, h2, rfl⟩
        | setEqn e => exact ⟨h1, h2, rfl⟩
        | setCpar l => exact ⟨h1, h2, rfl⟩
      obtain ⟨h4, h5, h6⟩ := ih _ h3.1 h3.2.1
      exact ⟨h4, h5, h6.trans h3.2.2⟩
  have hpar : (!o.cpar.isEmpty) = true := by simpa using hc
  -- the state after the first discretisation
  have h0 : (discretize ok known o .linear f b).1.prepared = true ∧ (discretize ok known o .linear f b).1.parSet = true ∧
      (discretize ok known o .linear f b).1.linSys = some d.sys := by
    rw [discretize, hpar] at h ⊢
    rw [compile] at h ⊢
    by_cases hp : (o.prepared && (o.parSet || true == o.parSet)) = true
    · rw [if_pos hp] at h ⊢
      simp only [if_true] at h ⊢
      obtain ⟨s, hs, rfl⟩ := Option.map_eq_some_iff.1 h
      rw [Bool.and_eq_true] at hp
      refine ⟨hp.1, ?_, hs⟩
      have := hp.2
      revert this
      cases o.parSet <;> simp
    · rw [if_neg hp] at h ⊢
      cases hs : compileSrc ok known o.eqn o.cpar true f b with
      | none => rw [hs] at h; simp at h
      | some s =>
        rw [hs] at h
        simp only [if_true, Option.map_some, Option.some.injEq] at h ⊢
        subst h
        exact ⟨trivial, trivial, rfl⟩
  obtain ⟨h1, h2, h3⟩ := hrun l _ h0.1 h0.2.1
  generalize run ok known (discretize ok known o .linear f b).1 l = q at h1 h2 h3
  refine ⟨discretizeSystem q d.sys, ?_, rfl⟩
  rw [discretize, hfix q _ f' b' h1 h2]
  simp only [if_true, h3, h0.2.2, Option.map_some]

/-- C117 fails after an exception: an operator discretised without continuation parameter and then given an unknown one raises once; the second attempt returns the old system,
without the derivative with respect to the parameter. -/
theorem C117_exception_fails (e : E) (n nMin : ℕ) (p : P) (he : ok e = true) (hp : known p = false) :
    let o := run ok known (new e [] n nMin) [.discretize .linear false false, .setCpar [p]]
    (discretize ok known o .linear false false).2 = none ∧
    ∃ d, (discretize ok known (discretize ok known o .linear false false).1 .linear false false).2 = some d ∧ d.sys.derivs = [] := by
  have h1 : compileSrc ok known e [] false false false = some ⟨e, [], false⟩ := by simp [compileSrc, he]
  have h2 : compileSrc ok known e [p] true false false = none := by simp [compileSrc, he, hp]
  have ho : run ok known (new e [] n nMin) [.discretize .linear false false, .setCpar [p]] =
      ⟨e, [p], n, nMin, true, false, some ⟨⟨e, [], false⟩, false⟩⟩ := by
    simp [run, act, discretize, compile, new, h1]
  rw [ho]
  have h3 : discretize ok known ⟨e, [p], n, nMin, true, false, some ⟨⟨e, [], false⟩, false⟩⟩ .linear false false =
      (⟨e, [p], n, nMin, true, true, some ⟨⟨e, [], false⟩, false⟩⟩, none) := by
    simp [discretize, compile, h2]
  refine ⟨by rw [h3], ?_⟩
  rw [h3]
  refine ⟨⟨⟨⟨e, [], false⟩, false⟩, n, n == 1⟩, ?_, rfl⟩
  simp [discretize, compile, discretizeSystem]

/-- non-vacuity: a history that changes the size, compiles without the parameter and asks for a fold system. -/
example : let l : List (Act String String) := [.setDisc 3, .compile false true false, .discretize .fold true false, .setDisc 40]
    (∀ a ∈ l, PlainAct a) ∧ discSize 9 15 l = 40 ∧ discSize 9 15 (l.take 3) = 9 := by
  refine ⟨?_, rfl, rfl⟩
  intro a ha
  simp only [List.mem_cons, List.not_mem_nil, or_false] at ha
  rcases ha with rfl | rfl | rfl | rfl <;> simp [PlainAct]

end Funpy.Props
