import Verif.Props.OpEval

/-!
# C104: the life of an operator object
-/

namespace Funpy.Props
open Funpy.OpEval Funpy.Cheb Spec Finset Mapping

/-- The program a linear system was compiled from. -/
def prog (L : LinSys) : List Eqn × Option (List Eqn) × List Bc := (L.rhs.rhs, L.cRhs.map (·.rhs), L.bcs)

theorem residual_update {r r' : Residual} {env : Env} {cols : List ChebFun} (h : r.update env cols = some r') :
    r'.rhs = r.rhs ∧ r'.nDisc = r.nDisc := by
  simp only [Residual.update, Option.bind_eq_bind, Option.bind_eq_some_iff, Option.some.injEq] at h
  obtain ⟨v, -, rfl⟩ := h
  exact ⟨rfl, rfl⟩

theorem updatePartial_frame {L L' : LinSys} {u : Arg} (h : L.updatePartial u = some L') :
    prog L' = prog L ∧ L'.env = assign L.env u.updateItems ∧ L'.nDisc = L.nDisc ∧ L'.rhs.nDisc = L.rhs.nDisc := by
  obtain ⟨env, nD, rhs, cRhs, bcs, ctsRes⟩ := L
  simp only [LinSys.updatePartial, LinSys.setParameters, Option.bind_eq_bind, Option.bind_eq_some_iff] at h
  obtain ⟨f, -, cols, -, r, hr, h⟩ := h
  have hr' := residual_update hr
  cases cRhs with
  | none =>
    simp only [Option.bind_some, Option.bind_eq_some_iff, Option.some.injEq] at h
    obtain ⟨cr, -, rfl⟩ := h
    exact ⟨by simp [prog, hr'.1], rfl, rfl, hr'.2⟩
  | some c =>
    simp only [Option.bind_some, Option.bind_eq_some_iff, Option.some.injEq] at h
    obtain ⟨c', hc', a, -, b, -, cr, -, rfl⟩ := h
    have := residual_update hc'
    exact ⟨by simp [prog, hr'.1, this.1], rfl, rfl, hr'.2⟩

theorem setDisc_frame (L : LinSys) (n : ℕ) : prog (L.setDisc n) = prog L ∧ (L.setDisc n).env = L.env ∧ (L.setDisc n).nDisc = n ∧
    (L.setDisc n).rhs.nDisc = n := by
  refine ⟨?_, rfl, rfl, rfl⟩
  simp only [prog, LinSys.setDisc]
  cases L.cRhs <;> rfl

theorem call_frame {eps : ℝ} {op op' : Op} {u : Arg} {v : ChebFun} (h : op.call eps u = some (v, op')) :
    ∃ L L' f, op.linSys = some L ∧ u.func = some f ∧ op' = { op with linSys := some L' } ∧ prog L' = prog L ∧
      L'.env = assign L.env u.updateItems ∧ L'.rhs.nDisc = f.onefun.coeffs.n := by
  simp only [Op.call, Option.bind_eq_bind, Option.bind_eq_some_iff, Option.some.injEq, Prod.mk.injEq] at h
  obtain ⟨L, hL, f, hf, L', hL', a, -, t, -, -, rfl⟩ := h
  obtain ⟨h1, h2, h3, h4⟩ := updatePartial_frame hL'
  obtain ⟨k1, k2, k3, k4⟩ := setDisc_frame L f.onefun.coeffs.n
  exact ⟨L, L', f, hL, hf, rfl, by rw [h1, k1], by rw [h2, k2], by rw [h4, k4]⟩

theorem residualFun_frame {eps : ℝ} {op op' : Op} {u : Arg} {v : ChebFun} (h : op.residualFun eps u = some (v, op')) :
    ∃ L L', op.linSys = some L ∧ op' = { op with linSys := some L' } ∧ prog L' = prog L ∧ L'.env = assign L.env u.updateItems ∧
      L'.rhs.nDisc = L.rhs.nDisc := by
  simp only [Op.residualFun, Option.bind_eq_bind, Option.bind_eq_some_iff, Option.some.injEq, Prod.mk.injEq] at h
  obtain ⟨L, hL, f, -, L', hL', a, -, t, -, -, rfl⟩ := h
  obtain ⟨h1, h2, -, h4⟩ := updatePartial_frame hL'
  exact ⟨L, L', hL, rfl, h1, h2, h4⟩

theorem discretize_frame {op op' : Op} {u : Arg} (h : op.discretize u = some op') :
    ∃ L L', (op.compile (!op.cpar.isEmpty)).linSys = some L ∧ op' = { op.compile (!op.cpar.isEmpty) with linSys := some L' } ∧
      prog L' = prog L ∧ L'.env = assign (assign L.env u.items) u.updateItems ∧ L'.rhs.nDisc = (op.compile (!op.cpar.isEmpty)).nDisc := by
  simp only [Op.discretize, Option.bind_eq_bind, Option.bind_eq_some_iff] at h
  obtain ⟨f, -, h⟩ := h
  split_ifs at h
  simp only [Option.bind_eq_some_iff, Option.some.injEq] at h
  obtain ⟨L, hL, L', hL', rfl⟩ := h
  obtain ⟨h1, h2, -, h4⟩ := updatePartial_frame (L := (L.setDisc _).setParameters u.items) hL'
  obtain ⟨k1, k2, k3, k4⟩ := setDisc_frame L (op.compile (!op.cpar.isEmpty)).nDisc
  refine ⟨L, L', hL, rfl, ?_, ?_, ?_⟩
  · rw [h1, ← k1]; rfl
  · rw [h2]; rfl
  · rw [h4, ← k4]; rfl

theorem compile_cases (op : Op) (par : Bool) :
    (op.prepared = true ∧ (op.parSet = true ∨ par = op.parSet) ∧ op.compile par = op) ∨
    ((op.prepared = false ∨ (op.parSet = false ∧ par = true)) ∧ ∃ L, op.compile par = { op with parSet := par, linSys := some L, prepared := true, compiles := op.compiles + 1 } ∧
      prog L = (op.eqn, (if op.cts = [] then none else some op.cts), op.bcs) ∧ L.env = assign (fun _ => none) op.params ∧ L.rhs.nDisc = op.nDisc) := by
  rw [Op.compile]
  by_cases h : (op.prepared && (op.parSet || par == op.parSet)) = true
  · rw [if_pos h]
    left
    simp only [Bool.and_eq_true, Bool.or_eq_true, beq_iff_eq] at h
    exact ⟨h.1, h.2, rfl⟩
  · rw [if_neg h]
    right
    refine ⟨?_, ⟨assign (fun _ => none) op.params, op.nDisc, ⟨op.nDisc, op.eqn, none⟩,
      if op.cts = [] then none else some ⟨op.nDisc, op.cts, none⟩, op.bcs, []⟩, rfl, ?_, rfl, rfl⟩
    · cases hp : op.prepared <;> cases hs : op.parSet <;> cases par <;> simp_all
    · simp only [prog]
      split_ifs <;> rfl

/-! ### Invariants of histories -/

/-- A compiled operator. -/
structure Wf (op : Op) : Prop where
  /-- prepared exactly if there is a system -/
  prep : op.prepared = true ↔ op.linSys.isSome
  /-- number of compilations -/
  count : op.compiles = if op.prepared then (if op.parSet then op.compiles else 1) else 0
  /-- at most two -/
  two : op.compiles ≤ 2
  /-- nothing is set before the first compilation -/
  unset : op.prepared = false → op.parSet = false

theorem wf_compile {op : Op} (h : Wf op) (par : Bool) : Wf (op.compile par) := by
  rcases compile_cases op par with ⟨-, -, he⟩ | ⟨hc, L, he, -⟩
  · rwa [he]
  · rw [he]
    have hcount := h.count
    refine ⟨by simp, ?_, ?_, by simp⟩
    · rcases hc with hc | ⟨hc, hp⟩
      · simp [hc] at hcount; cases par <;> simp [hcount]
      · simp [hp]
    · rcases hc with hc | ⟨hc, hp⟩
      · simp [hc] at hcount; simp [hcount]
      · cases hq : op.prepared <;> simp [hq, hc] at hcount <;> simp [hcount]

theorem wf_sys {op : Op} (h : Wf op) (L : LinSys) (hL : op.linSys.isSome) : Wf { op with linSys := some L } :=
  ⟨by simpa using h.prep.mpr hL, h.count, h.two, h.unset⟩

theorem wf_step {eps : ℝ} {op op' : Op} {e : Event} (h : Wf op) (hs : op.step eps e = some op') : Wf op' := by
  cases e with
  | setEqn l => simp only [Op.step, Option.some.injEq] at hs; subst hs; exact ⟨h.prep, h.count, h.two, h.unset⟩
  | setParams l => simp only [Op.step, Option.some.injEq] at hs; subst hs; exact ⟨h.prep, h.count, h.two, h.unset⟩
  | setCpar l => simp only [Op.step, Option.some.injEq] at hs; subst hs; exact ⟨h.prep, h.count, h.two, h.unset⟩
  | setDisc n =>
    simp only [Op.step, Option.some.injEq] at hs; subst hs
    exact ⟨by simpa [Op.setDisc] using h.prep, h.count, h.two, h.unset⟩
  | compile par => simp only [Op.step, Option.some.injEq] at hs; subst hs; exact wf_compile h par
  | discretize u =>
    obtain ⟨L, L', hL, rfl, -⟩ := discretize_frame hs
    exact wf_sys (wf_compile h _) L' (by rw [hL]; rfl)
  | call u =>
    simp only [Op.step, Option.map_eq_some_iff] at hs
    obtain ⟨⟨v, o⟩, hv, rfl⟩ := hs
    obtain ⟨L, L', f, hL, -, rfl, -⟩ := call_frame hv
    exact wf_sys h L' (by rw [hL]; rfl)
  | residual u =>
    simp only [Op.step, Option.map_eq_some_iff] at hs
    obtain ⟨⟨v, o⟩, hv, rfl⟩ := hs
    obtain ⟨L, L', hL, rfl, -⟩ := residualFun_frame hv
    exact wf_sys h L' (by rw [hL]; rfl)

theorem wf_run {eps : ℝ} : ∀ (es : List Event) {op op' : Op}, Wf op → op.run eps es = some op' → Wf op'
  | [], _, _, h, hr => by simp only [Op.run, Option.some.injEq] at hr; rwa [← hr]
  | e :: es, _, _, h, hr => by
    simp only [Op.run, Option.bind_eq_some_iff] at hr
    obtain ⟨o, h1, h2⟩ := hr
    exact wf_run es (wf_step h h1) h2

theorem wf_new (eqn cts : List Eqn) (bcs : List Bc) (params : List (String × ℝ)) (cpar : List String) (dom : Ends) (n nMin : ℕ) :
    Wf (Op.new eqn cts bcs params cpar dom n nMin) := ⟨by simp [Op.new], by simp [Op.new], by simp [Op.new], by simp [Op.new]⟩

/-- C104: in the whole life of an operator code is generated at most twice. -/
theorem C104_at_most_two (eps : ℝ) (eqn cts : List Eqn) (bcs : List Bc) (params : List (String × ℝ)) (cpar : List String) (dom : Ends)
    (n nMin : ℕ) (es : List Event) (op : Op) (h : (Op.new eqn cts bcs params cpar dom n nMin).run eps es = some op) : op.compiles ≤ 2 :=
  (wf_run es (wf_new ..) h).two

/-- C104: before anything was compiled, evaluating the operator raises. -/
theorem C104_uncompiled (eps : ℝ) (eqn cts : List Eqn) (bcs : List Bc) (params : List (String × ℝ)) (cpar : List String) (dom : Ends)
    (n nMin : ℕ) (u : Arg) : (Op.new eqn cts bcs params cpar dom n nMin).call eps u = none ∧
      (Op.new eqn cts bcs params cpar dom n nMin).residualFun eps u = none := ⟨rfl, rfl⟩

/-! ### Which equations are evaluated -/

/-- The events that assign equations. -/
def Event.assignsEqn : Event → Bool
  | .setEqn _ => true
  | _ => false

/-- The operator evaluates its current equations. -/
def Current (op : Op) : Prop :=
  ∀ L, op.linSys = some L → prog L = (op.eqn, (if op.cts = [] then none else some op.cts), op.bcs)

theorem current_compile {op : Op} (h : Current op) (par : Bool) : Current (op.compile par) := by
  rcases compile_cases op par with ⟨-, -, he⟩ | ⟨-, L, he, hp, -⟩
  · rwa [he]
  · rw [he]
    intro L' hL'
    simp only [Option.some.injEq] at hL'
    rw [← hL', hp]

theorem compile_fields (op : Op) (par : Bool) : (op.compile par).eqn = op.eqn ∧ (op.compile par).cts = op.cts ∧
    (op.compile par).bcs = op.bcs ∧ (op.compile par).nDisc = op.nDisc ∧ (op.compile par).params = op.params := by
  rcases compile_cases op par with ⟨-, -, he⟩ | ⟨-, L, he, -⟩ <;> rw [he] <;> exact ⟨rfl, rfl, rfl, rfl, rfl⟩

theorem current_step {eps : ℝ} {op op' : Op} {e : Event} (h : Current op) (he : Event.assignsEqn e = false ∨ op.linSys = none)
    (hs : op.step eps e = some op') : Current op' := by
  cases e with
  | setEqn l =>
    simp only [Op.step, Option.some.injEq] at hs; subst hs
    intro L hL
    rcases he with he | he
    · simp [Event.assignsEqn] at he
    · simp [he] at hL
  | setParams l => simp only [Op.step, Option.some.injEq] at hs; subst hs; exact h
  | setCpar l => simp only [Op.step, Option.some.injEq] at hs; subst hs; exact h
  | setDisc n =>
    simp only [Op.step, Option.some.injEq] at hs; subst hs
    intro L hL
    simp only [Op.setDisc, Option.map_eq_some_iff] at hL
    obtain ⟨L0, h0, rfl⟩ := hL
    rw [(setDisc_frame L0 n).1, h L0 h0]; rfl
  | compile par => simp only [Op.step, Option.some.injEq] at hs; subst hs; exact current_compile h par
  | discretize u =>
    obtain ⟨L, L', hL, rfl, hp, -⟩ := discretize_frame hs
    intro L2 hL2
    simp only [Option.some.injEq] at hL2
    rw [← hL2, hp, current_compile h _ L hL]
  | call u =>
    simp only [Op.step, Option.map_eq_some_iff] at hs
    obtain ⟨⟨v, o⟩, hv, rfl⟩ := hs
    obtain ⟨L, L', f, hL, -, rfl, hp, -⟩ := call_frame hv
    intro L2 hL2
    simp only [Option.some.injEq] at hL2
    rw [← hL2, hp, h L hL]
  | residual u =>
    simp only [Op.step, Option.map_eq_some_iff] at hs
    obtain ⟨⟨v, o⟩, hv, rfl⟩ := hs
    obtain ⟨L, L', hL, rfl, hp, -⟩ := residualFun_frame hv
    intro L2 hL2
    simp only [Option.some.injEq] at hL2
    rw [← hL2, hp, h L hL]

theorem current_run {eps : ℝ} : ∀ (es : List Event) {op op' : Op}, Current op →
    (∀ e ∈ es, Event.assignsEqn e = false) → op.run eps es = some op' → Current op'
  | [], _, _, h, _, hr => by simp only [Op.run, Option.some.injEq] at hr; rwa [← hr]
  | e :: es, _, _, h, he, hr => by
    simp only [Op.run, Option.bind_eq_some_iff] at hr
    obtain ⟨o, h1, h2⟩ := hr
    exact current_run es (current_step h (.inl (he e (by simp))) h1) (fun e' h' => he e' (by simp [h'])) h2

/-- C104 (partial): if the equations are not assigned after the operator was first used, every evaluation uses the current equations,
constraints and boundary conditions, whatever happened in between. -/
theorem C104_equations_partial (eps : ℝ) (eqn cts : List Eqn) (bcs : List Bc) (params : List (String × ℝ)) (cpar : List String) (dom : Ends)
    (n nMin : ℕ) (eqn' : List Eqn) (es : List Event) (hes : ∀ e ∈ es, Event.assignsEqn e = false) (op : Op) (L : LinSys)
    (h : (Op.new eqn cts bcs params cpar dom n nMin).run eps (.setEqn eqn' :: es) = some op) (hL : op.linSys = some L) :
    prog L = (eqn', (if cts = [] then none else some cts), bcs) := by
  simp only [Op.run, Op.step, Option.bind_some] at h
  have hc := current_run (eps := eps) es (op := { Op.new eqn cts bcs params cpar dom n nMin with eqn := eqn' })
    (by intro L hL; simp [Op.new] at hL) hes h L hL
  have hfix : ∀ (es : List Event) (o o' : Op), (∀ e ∈ es, Event.assignsEqn e = false) → o.run eps es = some o' →
      o'.eqn = o.eqn ∧ o'.cts = o.cts ∧ o'.bcs = o.bcs := by
    intro es
    induction es with
    | nil => intro o o' _ hr; simp only [Op.run, Option.some.injEq] at hr; rw [← hr]; exact ⟨rfl, rfl, rfl⟩
    | cons e es ih =>
      intro o o' he hr
      simp only [Op.run, Option.bind_eq_some_iff] at hr
      obtain ⟨o1, h1, h2⟩ := hr
      have h3 := ih o1 o' (fun e' h' => he e' (by simp [h'])) h2
      have h4 : o1.eqn = o.eqn ∧ o1.cts = o.cts ∧ o1.bcs = o.bcs := by
        cases e with
        | setEqn l => exact absurd (he (.setEqn l) (by simp)) (by simp [Event.assignsEqn])
        | setParams l => simp only [Op.step, Option.some.injEq] at h1; subst h1; exact ⟨rfl, rfl, rfl⟩
        | setCpar l => simp only [Op.step, Option.some.injEq] at h1; subst h1; exact ⟨rfl, rfl, rfl⟩
        | setDisc n => simp only [Op.step, Option.some.injEq] at h1; subst h1; exact ⟨rfl, rfl, rfl⟩
        | compile par =>
          simp only [Op.step, Option.some.injEq] at h1; subst h1
          exact ⟨(compile_fields o par).1, (compile_fields o par).2.1, (compile_fields o par).2.2.1⟩
        | discretize u =>
          obtain ⟨L, L', hL, rfl, -⟩ := discretize_frame h1
          have := compile_fields o (!o.cpar.isEmpty)
          exact ⟨this.1, this.2.1, this.2.2.1⟩
        | call u =>
          simp only [Op.step, Option.map_eq_some_iff] at h1
          obtain ⟨⟨v, o2⟩, hv, rfl⟩ := h1
          obtain ⟨L, L', f, hL, -, rfl, -⟩ := call_frame hv
          exact ⟨rfl, rfl, rfl⟩
        | residual u =>
          simp only [Op.step, Option.map_eq_some_iff] at h1
          obtain ⟨⟨v, o2⟩, hv, rfl⟩ := h1
          obtain ⟨L, L', hL, rfl, -⟩ := residualFun_frame hv
          exact ⟨rfl, rfl, rfl⟩
      exact ⟨h3.1.trans h4.1, h3.2.1.trans h4.2.1, h3.2.2.trans h4.2.2⟩
  obtain ⟨h1, h2, h3⟩ := hfix es _ _ hes h
  rw [hc, h1, h2, h3]
  rfl

/-- C104 fails in general: once the operator was compiled with a continuation parameter, the compiled equations never change again, whatever is
assigned and however often the operator is compiled or discretised. -/
theorem C104_frozen_fails (eps : ℝ) : ∀ (es : List Event) (op op' : Op) (L : LinSys), op.prepared = true → op.parSet = true →
    op.linSys = some L → op.run eps es = some op' → ∃ L', op'.linSys = some L' ∧ prog L' = prog L := by
  intro es
  induction es with
  | nil => intro op op' L _ _ hL hr; simp only [Op.run, Option.some.injEq] at hr; exact ⟨L, by rw [← hr, hL], rfl⟩
  | cons e es ih =>
    intro op op' L hp hs hL hr
    simp only [Op.run, Option.bind_eq_some_iff] at hr
    obtain ⟨o, h1, h2⟩ := hr
    have hcomp : ∀ par, op.compile par = op := by
      intro par
      rcases compile_cases op par with ⟨-, -, he⟩ | ⟨hc, -⟩
      · exact he
      · rcases hc with hc | ⟨hc, -⟩
        · simp [hp] at hc
        · simp [hs] at hc
    have key : ∃ L1, o.linSys = some L1 ∧ prog L1 = prog L ∧ o.prepared = true ∧ o.parSet = true := by
      cases e with
      | setEqn l => simp only [Op.step, Option.some.injEq] at h1; subst h1; exact ⟨L, hL, rfl, hp, hs⟩
      | setParams l => simp only [Op.step, Option.some.injEq] at h1; subst h1; exact ⟨L, hL, rfl, hp, hs⟩
      | setCpar l => simp only [Op.step, Option.some.injEq] at h1; subst h1; exact ⟨L, hL, rfl, hp, hs⟩
      | setDisc n =>
        simp only [Op.step, Option.some.injEq] at h1; subst h1
        exact ⟨L.setDisc n, by simp [Op.setDisc, hL], (setDisc_frame L n).1, hp, hs⟩
      | compile par => simp only [Op.step, Option.some.injEq] at h1; subst h1; rw [hcomp]; exact ⟨L, hL, rfl, hp, hs⟩
      | discretize u =>
        obtain ⟨L1, L', hL1, rfl, hq, -⟩ := discretize_frame h1
        rw [hcomp] at hL1 ⊢
        rw [hL] at hL1
        simp only [Option.some.injEq] at hL1
        exact ⟨L', rfl, by rw [hq, ← hL1], hp, hs⟩
      | call u =>
        simp only [Op.step, Option.map_eq_some_iff] at h1
        obtain ⟨⟨v, o2⟩, hv, rfl⟩ := h1
        obtain ⟨L1, L', f, hL1, -, rfl, hq, -⟩ := call_frame hv
        rw [hL] at hL1
        simp only [Option.some.injEq] at hL1
        exact ⟨L', rfl, by rw [hq, ← hL1], hp, hs⟩
      | residual u =>
        simp only [Op.step, Option.map_eq_some_iff] at h1
        obtain ⟨⟨v, o2⟩, hv, rfl⟩ := h1
        obtain ⟨L1, L', hL1, rfl, hq, -⟩ := residualFun_frame hv
        rw [hL] at hL1
        simp only [Option.some.injEq] at hL1
        exact ⟨L', rfl, by rw [hq, ← hL1], hp, hs⟩
    obtain ⟨L1, hL1, hq, hp1, hs1⟩ := key
    obtain ⟨L', h3, h4⟩ := ih o op' L1 hp1 hs1 hL1 h2
    exact ⟨L', h3, by rw [h4, hq]⟩

/-- An equation that has the value `c` everywhere. -/
noncomputable def constEqn (eps c : ℝ) : Eqn := fun _ _ => some (colFun eps [c])

/-- C104 fails: after `op.eqn = ['2']` and `op.compile()`, an operator that had been compiled with the equation `1` still evaluates to `1`. -/
theorem C104_eqn_fails (eps : ℝ) : ∃ op : Op,
    (Op.new [constEqn eps 1] [] [] [] [] ⟨-1, 1⟩ 15 1).run eps [.compile false, .setEqn [constEqn eps 2], .compile false] = some op ∧
    op.eqn = [constEqn eps 2] ∧ ∃ v op', op.call eps (.fn (colFun eps [0, 1])) = some (v, op') ∧ ∀ x, vals v x = [1] := by
  refine ⟨{ plainOp [constEqn eps 1] 15 with eqn := [constEqn eps 2] }, rfl, rfl, ?_⟩
  obtain ⟨cols, hc, hl⟩ := columns_exist (colFun eps [0, 1]) (colFun_proper eps _ (by simp))
  have hl1 : cols.length = 1 := by rw [hl]; rfl
  have S : Setting { plainOp [constEqn eps 1] 15 with eqn := [constEqn eps 2] }
      ⟨assign (fun _ => none) [], 15, ⟨15, [constEqn eps 1], none⟩, none, [], []⟩
      (.fn (colFun eps [0, 1])) (colFun eps [0, 1]) cols [colFun eps [1]] [] :=
    ⟨rfl, rfl, rfl, colFun_proper eps _ (by simp), hc, by simp [Evaluates, constEqn], by simp [hl1], rfl⟩
  obtain ⟨v, op', h1, -, h3⟩ := C99_exact eps S
    (by simp only [List.mem_singleton, forall_eq]; exact ⟨rfl, colFun_proper eps [1] (by simp), rfl⟩) (by simp [colFun])
  refine ⟨v, op', h1, fun x => ?_⟩
  rw [h3]
  simp only [List.flatMap_cons, List.flatMap_nil, colFun_vals, List.append_nil]
  simp [chebEval]

/-! ### Which parameter values are used -/

theorem assign_eq (env : Env) (l : List (String × ℝ)) (name : String) :
    assign env l name = (VS.lookup l name).or (env name) := by
  induction l generalizing env with
  | nil => simp [assign, VS.lookup]
  | cons p l ih =>
    have h : assign env (p :: l) = assign (fun name => if name = p.1 then some p.2 else env name) l := rfl
    rw [h, ih]
    simp only [VS.lookup, List.reverse_cons, List.find?_append]
    cases hf : l.reverse.find? (fun e => decide (e.1 = name)) with
    | some e => simp
    | none =>
      by_cases hn : p.1 = name
      · simp [hn]
      · have hn' : ¬ name = p.1 := fun h => hn h.symm
        simp [hn, hn']

theorem lookup_append (l m : List (String × ℝ)) (name : String) : VS.lookup (l ++ m) name = (VS.lookup m name).or (VS.lookup l name) := by
  simp only [VS.lookup, List.reverse_append, List.find?_append]
  cases m.reverse.find? (fun e => decide (e.1 = name)) <;> simp

/-- C104: `op.discretize(s)`, the first step of every Newton iteration, sets every parameter the state knows (free or not) to the
value the state has for it. -/
theorem C104_discretize_params {op op' : Op} {s : VS.State ChebFun ℝ} (h : op.discretize (.st s) = some op') :
    ∃ L, op'.linSys = some L ∧ ∀ name v, VS.lookup (VS.items s) name = some v → L.env name = some v := by
  obtain ⟨L, L', -, rfl, -, he, -⟩ := discretize_frame h
  refine ⟨L', rfl, fun name v hv => ?_⟩
  rw [he, assign_eq, assign_eq]
  simp only [Arg.items, Arg.updateItems]
  rw [hv]
  simp only [VS.items, lookup_append] at hv
  cases hr : VS.lookup (s.reals.map fun p => (p.name, p.value)) name with
  | none => simp
  | some w => rw [hr] at hv; simpa using hv

/-- C104: `op(s)` and `op.residual(s)` use the values of the free parameters of `s`. -/
theorem C104_call_free {eps : ℝ} {op op' : Op} {s : VS.State ChebFun ℝ} {v : ChebFun}
    (h : op.call eps (.st s) = some (v, op') ∨ op.residualFun eps (.st s) = some (v, op')) :
    ∃ L, op'.linSys = some L ∧ ∀ name w, VS.lookup (s.reals.map fun p => (p.name, p.value)) name = some w → L.env name = some w := by
  rcases h with h | h
  · obtain ⟨L, L', f, -, -, rfl, -, he, -⟩ := call_frame h
    exact ⟨L', rfl, fun name w hw => by rw [he, assign_eq, Arg.updateItems, hw]; rfl⟩
  · obtain ⟨L, L', -, rfl, -, he, -⟩ := residualFun_frame h
    exact ⟨L', rfl, fun name w hw => by rw [he, assign_eq, Arg.updateItems, hw]; rfl⟩

/-- The events after which the parameter `name` keeps its value. -/
def Event.keeps (name : String) : Event → Prop
  | .setEqn _ | .setParams _ | .setCpar _ | .setDisc _ => True
  | .compile _ | .discretize _ => False
  | .call u | .residual u => VS.lookup u.updateItems name = none

/-- C104: a parameter keeps the value it got from the last discretisation or evaluation with a state that mentions it, through any
history of evaluations with other arguments, changes of the resolution and assignments. -/
theorem C104_param_kept (eps : ℝ) (name : String) : ∀ (es : List Event) (op op' : Op) (L : LinSys), op.linSys = some L →
    (∀ e ∈ es, Event.keeps name e) → op.run eps es = some op' → ∃ L', op'.linSys = some L' ∧ L'.env name = L.env name := by
  intro es
  induction es with
  | nil => intro op op' L hL _ hr; simp only [Op.run, Option.some.injEq] at hr; exact ⟨L, by rw [← hr, hL], rfl⟩
  | cons e es ih =>
    intro op op' L hL hk hr
    simp only [Op.run, Option.bind_eq_some_iff] at hr
    obtain ⟨o, h1, h2⟩ := hr
    have hke := hk e (by simp)
    have key : ∃ L1, o.linSys = some L1 ∧ L1.env name = L.env name := by
      cases e with
      | setEqn l => simp only [Op.step, Option.some.injEq] at h1; subst h1; exact ⟨L, hL, rfl⟩
      | setParams l => simp only [Op.step, Option.some.injEq] at h1; subst h1; exact ⟨L, hL, rfl⟩
      | setCpar l => simp only [Op.step, Option.some.injEq] at h1; subst h1; exact ⟨L, hL, rfl⟩
      | setDisc n =>
        simp only [Op.step, Option.some.injEq] at h1; subst h1
        exact ⟨L.setDisc n, by simp [Op.setDisc, hL], rfl⟩
      | compile par => exact hke.elim
      | discretize u => exact hke.elim
      | call u =>
        simp only [Op.step, Option.map_eq_some_iff] at h1
        obtain ⟨⟨v, o2⟩, hv, rfl⟩ := h1
        obtain ⟨L1, L', f, hL1, -, rfl, -, he, -⟩ := call_frame hv
        rw [hL] at hL1
        simp only [Option.some.injEq] at hL1
        refine ⟨L', rfl, ?_⟩
        simp only [Event.keeps] at hke
        rw [he, assign_eq, hke, hL1]; rfl
      | residual u =>
        simp only [Op.step, Option.map_eq_some_iff] at h1
        obtain ⟨⟨v, o2⟩, hv, rfl⟩ := h1
        obtain ⟨L1, L', hL1, rfl, -, he, -⟩ := residualFun_frame hv
        rw [hL] at hL1
        simp only [Option.some.injEq] at hL1
        refine ⟨L', rfl, ?_⟩
        simp only [Event.keeps] at hke
        rw [he, assign_eq, hke, hL1]; rfl
    obtain ⟨L1, hL1, hq⟩ := key
    obtain ⟨L', h3, h4⟩ := ih o op' L1 hL1 (fun e' h' => hk e' (by simp [h'])) h2
    exact ⟨L', h3, by rw [h4, hq]⟩

/-- The equation `p`, the value of a parameter. -/
noncomputable def paramEqn (eps : ℝ) : Eqn := fun env _ => (env "p").map fun c => colFun eps [c]

/-- C104 fails: `op(s)` ignores the parameters of the state that are not free.  The operator `F(u; p) = p` was compiled with `p = 1`; the state says
`p = 2`; `op(s)` is `1`.  Changing `op.parameter_names` does not help either. -/
theorem C104_stale_fails (eps : ℝ) : ∃ (op : Op) (s : VS.State ChebFun ℝ),
    (Op.new [paramEqn eps] [] [] [("p", 1)] [] ⟨-1, 1⟩ 15 1).run eps [.compile false, .setParams [("p", 2)]] = some op ∧
    VS.lookup (VS.items s) "p" = some 2 ∧ s.funcs = [colFun eps [0, 1]] ∧
    ∃ v op', op.call eps (.st s) = some (v, op') ∧ ∀ x, vals v x = [1] := by
  set s : VS.State ChebFun ℝ := ⟨[colFun eps [0, 1]], [], [1], [("p", 2)]⟩ with hs
  set op : Op := { (Op.new [paramEqn eps] [] [] [("p", 1)] [] ⟨-1, 1⟩ 15 1).compile false with params := [("p", 2)] } with hop
  refine ⟨op, s, rfl, by simp [hs, VS.items, VS.lookup], rfl, ?_⟩
  obtain ⟨cols, hc, hl⟩ := columns_exist (colFun eps [0, 1]) (colFun_proper eps _ (by simp))
  have hl1 : cols.length = 1 := by rw [hl]; rfl
  have S : Setting op ⟨assign (fun _ => none) [("p", 1)], 15, ⟨15, [paramEqn eps], none⟩, none, [], []⟩
      (.st s) (colFun eps [0, 1]) cols [colFun eps [1]] [] :=
    ⟨rfl, rfl, rfl, colFun_proper eps _ (by simp), hc, by simp [Evaluates, paramEqn, assign, Arg.updateItems, hs], by simp [hl1], rfl⟩
  obtain ⟨v, op', h1, -, h3⟩ := C99_exact eps S
    (by simp only [List.mem_singleton, forall_eq]; exact ⟨rfl, colFun_proper eps [1] (by simp), rfl⟩) (by simp [colFun])
  refine ⟨v, op', h1, fun x => ?_⟩
  rw [h3]
  simp only [List.flatMap_cons, List.flatMap_nil, colFun_vals, List.append_nil]
  simp [chebEval]

/-! ### The residual depends on the history -/

/-- The residual function, the boundary residuals kept by the system. -/
theorem residualFun_full (eps : ℝ) {op : Op} {L : LinSys} {u : Arg} {f : ChebFun} {cols gs : List ChebFun} {br : List ℝ}
    (S : Setting op L u f cols gs br) (hL : L.rhs.nDisc = L.nDisc) (hn : 0 < L.nDisc) :
    ∃ v op', op.residualFun eps u = some (v, op') ∧ (∃ L', op'.linSys = some L' ∧ L'.bcs = L.bcs ∧ L'.ctsRes = br) ∧ v.dom = f.dom ∧
      (v.onefun.coeffs = ⟨L.nDisc, gs.map fun g => prolongCol (coef g) L.nDisc⟩ ∨
        v.onefun.coeffs = simplifyCoeffs ⟨L.nDisc, gs.map fun g => prolongCol (coef g) L.nDisc⟩ eps) := by
  have hlen := columns_length S.columns
  have hm : 0 < f.onefun.coeffs.m := Nat.pos_of_ne_zero S.proper.m_ne
  have hself : L.setDisc L.nDisc = L := by
    obtain ⟨env, nD, ⟨rn, rr, rv⟩, cRhs, bcs, ctsRes⟩ := L
    have := S.noCts
    simp only at hL this
    subst this hL
    rfl
  have hup := updatePartial_eq S L.nDisc
  rw [hself] at hup
  set A : Arr ℝ := ⟨L.nDisc, gs.map fun g => prolongCol (coef g) L.nDisc⟩ with hA
  have hz : A.n * A.m ≠ 0 := by
    have h2 : 0 < A.m := by simp only [hA, Arr.m, List.length_map]; rw [S.count, hlen]; exact hm
    exact (Nat.mul_pos hn h2).ne'
  obtain ⟨t, ht, -, -, -, -, hc⟩ := mk'_some A hz eps false true (ChebFun.hscale f.dom) (1 + 2 ^ 14)
  refine ⟨⟨f.dom, t⟩, { op with linSys := some { L with
      env := assign L.env u.updateItems
      rhs := ⟨L.nDisc, L.rhs.rhs, some A⟩
      ctsRes := br } }, ?_, ⟨_, rfl, rfl, rfl⟩, rfl, ?_⟩
  · simp only [Op.residualFun, S.sys, S.func, Option.bind_eq_bind, Option.bind_some, hup, ht]
  · simp only [hc]
    split_ifs
    · right; rfl
    · left; rfl

/-- What `residual(u)` measures: the leading coefficients of the values of the equations, as many as the system was last set to, simplified. -/
theorem residualFun_eq (eps : ℝ) {op : Op} {L : LinSys} {u : Arg} {f : ChebFun} {cols gs : List ChebFun} {br : List ℝ}
    (S : Setting op L u f cols gs br) (hL : L.rhs.nDisc = L.nDisc) (hn : 0 < L.nDisc) :
    ∃ v op', op.residualFun eps u = some (v, op') ∧ v.dom = f.dom ∧
      (v.onefun.coeffs = ⟨L.nDisc, gs.map fun g => prolongCol (coef g) L.nDisc⟩ ∨
        v.onefun.coeffs = simplifyCoeffs ⟨L.nDisc, gs.map fun g => prolongCol (coef g) L.nDisc⟩ eps) := by
  obtain ⟨v, op', h1, -, h2⟩ := residualFun_full eps S hL hn
  exact ⟨v, op', h1, h2⟩

/-- C99: `residual(u)` is the 2-norm of the residual function plus the Euclidean norm of the residuals of the boundary conditions; it is
returned whenever the norm of the residual function can be computed. -/
theorem C99_residual (eig : List ℝ → List ℂ) (fuel : ℕ) (eps : ℝ) {op : Op} {L : LinSys} {u : Arg} {f : ChebFun} {cols gs : List ChebFun} {br : List ℝ}
    (S : Setting op L u f cols gs br) (hL : L.rhs.nDisc = L.nDisc) (hn : 0 < L.nDisc) :
    ∃ v op', op.residualFun eps u = some (v, op') ∧
      op.residual eig fuel eps u = (v.norm eig fuel (.fin 2) false).map fun a => (a + √((br.map fun r => r ^ 2).sum), op') := by
  obtain ⟨v, op', h1, ⟨L', h2, h3, h4⟩, -⟩ := residualFun_full eps S hL hn
  refine ⟨v, op', h1, ?_⟩
  simp only [Op.residual, h1, Option.bind_eq_bind, Option.bind_some, h2, h3, h4]
  have hz : ¬ L.bcs.length > 0 → br = [] := by
    intro h
    have hl := allSome_length _ _ S.bcs
    simp only [List.length_map] at hl
    exact List.length_eq_zero_iff.mp (by omega)
  cases hv : v.norm eig fuel (.fin 2) false with
  | none => rfl
  | some a =>
    simp only [Option.bind_some, Option.map_some]
    split_ifs with h
    · rfl
    · rw [hz h]; simp

/-- C99: the boundary part alone: where the residual function is zero (here: its norm is zero), `residual(u)` vanishes exactly when all boundary conditions are met. -/
theorem C99_residual_zero (eig : List ℝ → List ℂ) (fuel : ℕ) (eps : ℝ) {op : Op} {L : LinSys} {u : Arg} {f : ChebFun} {cols gs : List ChebFun} {br : List ℝ}
    (S : Setting op L u f cols gs br) (hL : L.rhs.nDisc = L.nDisc) (hn : 0 < L.nDisc) (r : ℝ) (op' : Op)
    (hr : op.residual eig fuel eps u = some (r, op')) (v : ChebFun) (o : Op) (hv : op.residualFun eps u = some (v, o))
    (hz : v.norm eig fuel (.fin 2) false = some 0) : r = 0 ↔ ∀ b ∈ br, b = 0 := by
  obtain ⟨v', o', h1, h2⟩ := C99_residual eig fuel eps S hL hn
  rw [hv] at h1
  simp only [Option.some.injEq, Prod.mk.injEq] at h1
  rw [← h1.1, hz, hr] at h2
  simp only [Option.map_some, Option.some.injEq, Prod.mk.injEq, zero_add] at h2
  rw [h2.1, Real.sqrt_eq_zero (List.sum_nonneg (by intro x hx; obtain ⟨y, -, rfl⟩ := List.mem_map.mp hx; positivity))]
  constructor
  · intro h b hb
    have := List.single_le_sum (by intro x hx; obtain ⟨y, -, rfl⟩ := List.mem_map.mp hx; positivity) (b ^ 2) (List.mem_map_of_mem (f := fun r : ℝ => r ^ 2) hb)
    rw [h] at this
    exact pow_eq_zero_iff (by norm_num) |>.mp (le_antisymm this (sq_nonneg b))
  · intro h
    apply List.sum_eq_zero
    intro x hx
    obtain ⟨y, hy, rfl⟩ := List.mem_map.mp hx
    rw [h y hy]; norm_num

/-- C104: the size set by `setDisc(n)`: a discretisation uses `max(n, n_min)` coefficients. -/
theorem C104_size (eps : ℝ) (op op' : Op) (n : ℕ) (u : Arg) (h : op.run eps [.setDisc n, .discretize u] = some op') :
    ∃ L, op'.linSys = some L ∧ L.rhs.nDisc = max n op.nMin ∧ op'.nDisc = max n op.nMin := by
  simp only [Op.run, Op.step, Option.bind_some, Option.bind_eq_some_iff, Option.some.injEq] at h
  obtain ⟨o, ho, rfl⟩ := h
  obtain ⟨L, L', -, he, -, -, hn⟩ := discretize_frame ho
  obtain ⟨-, -, -, hc, -⟩ := compile_fields (op.setDisc n) (!(op.setDisc n).cpar.isEmpty)
  refine ⟨L', by rw [he], by rw [hn, hc]; rfl, by rw [he]; exact hc⟩

/-- C104 fails: after `setDisc(n)` with `n` below `n_min`, `residual(u)` on a compiled operator uses `n` coefficients, not `n_min`. -/
theorem C104_size_residual_fails (eps : ℝ) (op op' : Op) (n : ℕ) (u : Arg) (h : op.run eps [.setDisc n, .residual u] = some op') :
    ∃ L, op'.linSys = some L ∧ L.rhs.nDisc = n ∧ op'.nDisc = max n op.nMin := by
  simp only [Op.run, Op.step, Option.bind_some, Option.bind_eq_some_iff, Option.some.injEq, Option.map_eq_some_iff] at h
  obtain ⟨o, ⟨⟨v, o'⟩, ho, rfl⟩, rfl⟩ := h
  obtain ⟨L, L', hL, he, -, -, hn⟩ := residualFun_frame ho
  refine ⟨L', by rw [he], ?_, by rw [he]; rfl⟩
  rw [hn]
  simp only [Op.setDisc, Option.map_eq_some_iff] at hL
  obtain ⟨L0, -, rfl⟩ := hL
  rfl

/-- The history can happen: an operator with `n_min = 3`, set to one coefficient, then asked for its residual. -/
example (eps : ℝ) : ∃ op', ((Op.new [squareEqn eps] [] [] [] [] ⟨-1, 1⟩ 15 3).compile false).run eps
    [.setDisc 1, .residual (.fn (colFun eps [0, 1, 0]))] = some op' := by
  obtain ⟨cols, hc, hl⟩ := columns_exist (colFun eps [0, 1, 0]) (colFun_proper eps _ (by simp))
  have hl1 : cols.length = 1 := by rw [hl]; rfl
  have S : Setting (((Op.new [squareEqn eps] [] [] [] [] ⟨-1, 1⟩ 15 3).compile false).setDisc 1)
      ⟨assign (fun _ => none) [], 1, ⟨1, [squareEqn eps], none⟩, none, [], []⟩
      (.fn (colFun eps [0, 1, 0])) (colFun eps [0, 1, 0]) cols [colFun eps [0, 0, 1/2]] [] :=
    ⟨rfl, rfl, rfl, colFun_proper eps _ (by simp), hc, by simp [Evaluates, squareEqn], by simp [hl1], rfl⟩
  obtain ⟨v, op', h, -⟩ := residualFun_full eps S rfl (by norm_num)
  exact ⟨op', by simp only [Op.run, Op.step, Option.bind_some, h, Option.map_some]⟩

theorem prefix_vals (eps : ℝ) (h0 : 0 < eps) (h1 : eps < 1) (a c : List ℝ) (n : ℕ) (hn : a.length = n) (v : ChebFun) (hd : v.dom = ⟨-1, 1⟩)
    (hv : v.onefun.coeffs = ⟨n, [a]⟩ ∨ v.onefun.coeffs = simplifyCoeffs ⟨n, [a]⟩ eps)
    (hac : ∀ k, a.getD k 0 = c.getD k 0) (hbig : ∀ k, c.getD k 0 ≠ 0 → eps ^ ((1 : ℝ) / 3) < |c.getD k 0|) (x : ℝ) : vals v x = [chebEval c x] := by
  have hb : bwd (⟨-1, 1⟩ : Ends) x = x := by simp only [bwd, Mapping.diff]; ring
  rcases hv with hv | hv
  · simp only [vals, hv, hd, hb, List.map_cons, List.map_nil]
    rw [chebEval_congr_getD a c hac]
  · obtain ⟨k, -, -, -, hlen, hcol⟩ := C22_prefix ⟨n, [a]⟩ (by simp [Arr.WF, hn]) eps h0 h1
    obtain ⟨d, hd', hdl, hsame, hdrop⟩ := hcol 0 (by simp)
    have hcols : (simplifyCoeffs ⟨n, [a]⟩ eps).cols = [d] := by
      have hl1 : (simplifyCoeffs ⟨n, [a]⟩ eps).cols.length = 1 := by simpa using hlen
      obtain ⟨e, he⟩ := List.length_eq_one_iff.mp hl1
      rw [he] at hd' ⊢
      simpa using hd'
    simp only [vals, hv, hd, hb, hcols, List.map_cons, List.map_nil]
    congr 1
    apply chebEval_congr_getD
    intro i
    by_cases hi : i < k
    · rw [hsame i hi]; exact hac i
    · rw [getD_ge d i (by omega)]
      have h := hdrop i (by omega)
      by_contra hne
      have h2 := hbig i (Ne.symm hne)
      have h3 : ([a] : List (List ℝ))[0] = a := rfl
      simp only [h3, hac i] at h
      linarith

/-- C104 fails: `residual(u)` depends on earlier evaluations.  For `F(u) = u² - 1/2` and `u(x) = x`, the residual function is `x² - 1/2` on a new system,
but zero if the operator was evaluated at a constant function before. -/
theorem C104_residual_fails (eps : ℝ) (h0 : 0 < eps) (h1 : eps < 1 / 8) : ∃ (op op1 : Op),
    (Op.new [squareEqn eps] [] [] [] [] ⟨-1, 1⟩ 15 1).run eps [.compile false] = some op ∧
    op.run eps [.call (.fn (colFun eps [1]))] = some op1 ∧
    (∃ v o, op.residualFun eps (.fn (colFun eps [0, 1, 0])) = some (v, o) ∧ ∀ x, vals v x = [x ^ 2 - 1 / 2]) ∧
    (∃ v o, op1.residualFun eps (.fn (colFun eps [0, 1, 0])) = some (v, o) ∧ ∀ x, vals v x = [0]) := by
  have hT2 : ∀ x : ℝ, chebEval [0, 0, 1/2] x = x ^ 2 - 1 / 2 := by
    intro x
    simp [chebEval, Finset.sum_range_succ, Polynomial.Chebyshev.T_two]
    ring
  have h18 : eps ^ ((1 : ℝ) / 3) < 1 / 2 := by
    have h8 : ((1 : ℝ) / 8) ^ ((1 : ℝ) / 3) = 1 / 2 := by
      rw [show (1 : ℝ) / 8 = (1 / 2) ^ (3 : ℝ) by norm_num, ← Real.rpow_mul (by norm_num)]
      norm_num
    rw [← h8]
    exact Real.rpow_lt_rpow h0.le h1 (by norm_num)
  obtain ⟨cols0, hc0, hl0⟩ := columns_exist (colFun eps [1]) (colFun_proper eps _ (by simp))
  have hl01 : cols0.length = 1 := by rw [hl0]; rfl
  obtain ⟨cols, hc, hl⟩ := columns_exist (colFun eps [0, 1, 0]) (colFun_proper eps _ (by simp))
  have hl1 : cols.length = 1 := by rw [hl]; rfl
  have S0 : Setting (plainOp [squareEqn eps] 15) ⟨assign (fun _ => none) [], 15, ⟨15, [squareEqn eps], none⟩, none, [], []⟩
      (.fn (colFun eps [1])) (colFun eps [1]) cols0 [colFun eps [0, 0, 1/2]] [] :=
    ⟨rfl, rfl, rfl, colFun_proper eps _ (by simp), hc0, by simp [Evaluates, squareEqn], by simp [hl01], rfl⟩
  obtain ⟨v0, op1, hcall, -⟩ := C99_call eps S0
  obtain ⟨L, L1, f, hL, hf, hop1, hprog, henv, hnd⟩ := call_frame hcall
  have hcall' := hcall
  simp only [Op.call, Option.bind_eq_bind, Option.bind_eq_some_iff, Option.some.injEq, Prod.mk.injEq] at hcall'
  obtain ⟨L0, hL0, f0, hf0, L2, hL2, -, -, -, -, -, hop⟩ := hcall'
  have hL2n := updatePartial_frame hL2
  have hL12 : L2 = L1 := by
    rw [hop1] at hop
    simpa using congrArg Op.linSys hop
  have hf1 : f0 = colFun eps [1] := by simpa [Arg.func] using hf0.symm
  have hn1 : L1.nDisc = 1 := by rw [← hL12, hL2n.2.2.1, hf1]; rfl
  have hr1 : L1.rhs.nDisc = 1 := by rw [← hL12, hL2n.2.2.2, hf1]; rfl
  have hLp : prog L = ([squareEqn eps], none, []) := by
    have : L = ⟨assign (fun _ => none) [], 15, ⟨15, [squareEqn eps], none⟩, none, [], []⟩ := by
      have := S0.sys
      rw [hL] at this
      simpa using this
    rw [this]; rfl
  rw [hLp] at hprog
  simp only [prog, Prod.mk.injEq, Option.map_eq_none_iff] at hprog
  refine ⟨plainOp [squareEqn eps] 15, op1, rfl, ?_, ?_, ?_⟩
  · simp only [Op.run, Op.step, hcall, Option.map_some, Option.bind_some]
  · have S : Setting (plainOp [squareEqn eps] 15) ⟨assign (fun _ => none) [], 15, ⟨15, [squareEqn eps], none⟩, none, [], []⟩
        (.fn (colFun eps [0, 1, 0])) (colFun eps [0, 1, 0]) cols [colFun eps [0, 0, 1/2]] [] :=
      ⟨rfl, rfl, rfl, colFun_proper eps _ (by simp), hc, by simp [Evaluates, squareEqn], by simp [hl1], rfl⟩
    obtain ⟨v, o, h3, h4, h5⟩ := residualFun_eq eps S rfl (by norm_num)
    refine ⟨v, o, h3, fun x => ?_⟩
    rw [prefix_vals eps h0 (by linarith) (prolongCol [0, 0, 1/2] ((15 : ℕ) : ℤ)) [0, 0, 1/2] 15 (by rw [prolongCol_length]; rfl) v h4 h5, hT2]
    · intro k
      rw [prolongCol_getD]
      split_ifs with hk
      · rfl
      · rw [getD_ge _ k (by simp; omega)]
    · intro k hk
      rcases k with _ | _ | _ | k
      · simp at hk
      · simp at hk
      · simpa [abs_of_pos] using h18
      · simp at hk
  · have S : Setting op1 L1 (.fn (colFun eps [0, 1, 0])) (colFun eps [0, 1, 0]) cols [colFun eps [0, 0, 1/2]] [] :=
      ⟨by rw [hop1], hprog.2.1, rfl, colFun_proper eps _ (by simp), hc, by rw [hprog.1]; simp [Evaluates, squareEqn], by simp [hl1],
        by rw [hprog.2.2]; rfl⟩
    obtain ⟨v, o, h3, h4, h5⟩ := residualFun_eq eps S (by rw [hn1, hr1]) (by omega)
    refine ⟨v, o, h3, fun x => ?_⟩
    rw [hn1] at h5
    rw [prefix_vals eps h0 (by linarith) (prolongCol [0, 0, 1/2] ((1 : ℕ) : ℤ)) [0] 1 (by rw [prolongCol_length]; rfl) v h4 h5]
    · simp [chebEval]
    · intro k
      rw [prolongCol_getD]
      rcases k with _ | k
      · simp
      · rw [if_neg (by push_cast; omega)]; simp
    · intro k hk
      rcases k with _ | k <;> simp at hk

end Funpy.Props
