import Verif.Model.OpIO
import Mathlib.Tactic.NormNum

/-!
# C116: copies and files of operators
-/

namespace Funpy.Props
open OpIO

variable {V : Type}

/-- Specification: two operators pose the same problem: same unknowns, constant functions, non-local operators, kernels, parameters, domain, equations, constraints
and boundary conditions. -/
def SameProblem (a b : ChebOp V) : Prop :=
  a.functions = b.functions ∧ a.constants = b.constants ∧ a.operators = b.operators ∧ a.kernels = b.kernels ∧ a.pars = b.pars ∧
  a.domain = b.domain ∧ a.eqn = b.eqn ∧ a.cts = b.cts ∧ a.bcs = b.bcs

/-- Specification: the same numerical options. -/
def SameOptions (a b : ChebOp V) : Prop :=
  a.nDisc = b.nDisc ∧ a.nMin = b.nMin ∧ a.eps = b.eps ∧ a.linTol = b.linTol ∧ a.diffOrder = b.diffOrder ∧ a.linear = b.linear

/-- C116: a deep copy of an operator without non-local operators poses the same problem, with the same discretisation, function type, continuation
parameter, linear tolerance, order and linearity. -/
theorem C116_copy_partial (o : ChebOp V) (ho : o.operators = []) (hc : o.collocType = Colloc.ofName o.colloc) :
    SameProblem (deepcopy o) o ∧ (deepcopy o).colloc = o.colloc ∧ (deepcopy o).collocType = o.collocType ∧ (deepcopy o).ftype = o.ftype ∧
    (deepcopy o).cpar = o.cpar ∧ (deepcopy o).linTol = o.linTol ∧ (deepcopy o).diffOrder = o.diffOrder ∧ (deepcopy o).linear = o.linear ∧
    (deepcopy o).debug = o.debug := by
  refine ⟨⟨rfl, rfl, ho.symm, rfl, rfl, rfl, rfl, rfl, rfl⟩, rfl, hc.symm, rfl, rfl, rfl, rfl, rfl, rfl⟩

/-- C116: a deep copy has the same numerical options exactly if these are the defaults: 15 coefficients, at least 1 of them for Chebyshev and 9 for periodic
functions, `eps` two thousand times the machine precision. -/
theorem C116_copy_options (o : ChebOp V) :
    SameOptions (deepcopy o) o ↔ o.nDisc = 15 ∧ o.nMin = (if o.ftype = .str "cheb" then 1 else 9) ∧ o.eps = 2000 / 2 ^ 52 := by
  have hd : defaultEps = 2000 / 2 ^ 52 := by norm_num [defaultEps]
  rw [← hd]
  constructor
  · rintro ⟨h1, h2, h3, -⟩
    exact ⟨h1.symm, h2.symm, h3.symm⟩
  · rintro ⟨h1, h2, h3⟩
    exact ⟨h1.symm, h2.symm, h3.symm, rfl, rfl, rfl⟩

/-- C116 fails for deep copies: the non-local operators are lost, the number of coefficients is always 15. -/
theorem C116_copy_fails (o : ChebOp V) : (deepcopy o).operators = [] ∧ (deepcopy o).nDisc = 15 ∧ (deepcopy o).eps = defaultEps ∧
    (o.operators ≠ [] → ¬ SameProblem (deepcopy o) o) :=
  ⟨rfl, rfl, rfl, fun h hs => h hs.2.2.1.symm⟩

private lemma fixed_of_le (k : ℕ) (s : String) (h : s.length ≤ k) : fixed k s = s := by
  rw [fixed, List.take_of_length_le (by rw [String.length_toList]; exact h), String.ofList_toList]

private lemma map_fixed (k : ℕ) (l : List String) (h : ∀ s ∈ l, s.length ≤ k) : l.map (fixed k) = l := by
  conv_rhs => rw [← List.map_id l]
  exact List.map_congr_left fun s hs => fixed_of_le k s (h s hs)

/-- Texts short enough for the file format. -/
def Short (o : ChebOp V) : Prop :=
  (∀ s ∈ o.functions, s.length ≤ 30) ∧ (∀ s ∈ o.kernels, s.length ≤ 30) ∧ (∀ s ∈ o.operators, s.length ≤ 30) ∧
  (∀ s ∈ o.eqn, s.length ≤ 250) ∧ (∀ s ∈ o.cts, s.length ≤ 250) ∧ ∀ s ∈ o.bcs, s.length ≤ 250

/-- C116: an operator without constant functions and non-local operators, with short texts and a continuation parameter, is read back from the file as the same problem
with the same options. -/
theorem C116_file_partial (o : ChebOp V) (c ft p : String) (hc : o.colloc = .str c) (hf : o.ftype = .str ft) (hp : o.cpar = [.str p])
    (hs : Short o) (hk : o.constants = []) (hop : o.operators = []) (c' : PyName) :
    ∃ g r, store o = some g ∧ load (fresh V c') g = some r ∧ SameProblem r o ∧ SameOptions r o ∧ r.debug = o.debug ∧
      r.solverDebug = o.solverDebug := by
  obtain ⟨h1, h2, h3, h4, h5, h6⟩ := hs
  refine ⟨record o c ft p, loadWith (fresh V c') (record o c ft p) [], by rw [store, hc, hf, hp]; rfl, ?_, ?_, ?_, rfl, rfl⟩
  · rw [load, show opNames (record o c ft p) = some [] by simp [opNames, record, hop]]; rfl
  · refine ⟨?_, hk.symm, hop.symm, ?_, ?_, rfl, ?_, ?_, ?_⟩
    · simp only [loadWith, record, fresh, List.nil_append]; exact map_fixed 30 _ h1
    · simp only [loadWith, record, fresh, List.nil_append]; exact map_fixed 30 _ h2
    · funext q; simp only [loadWith, record, fresh, Option.or_none]
    · simp only [loadWith, record, fresh, List.nil_append]; exact map_fixed 250 _ h4
    · simp only [loadWith, record, fresh, List.nil_append]; exact map_fixed 250 _ h5
    · simp only [loadWith, record, fresh, List.nil_append]; exact map_fixed 250 _ h6
  · exact ⟨rfl, rfl, rfl, rfl, rfl, rfl⟩

/-- C116 fails: an operator without continuation parameter cannot be written. -/
theorem C116_no_parameter_fails (o : ChebOp V) (h : o.cpar = []) : store o = none := by
  rw [store, h]
  cases o.colloc.encode <;> cases o.ftype.scalar <;> rfl

/-- C116 fails: whatever is read, the class of the discretisation stays that of the reading object; `colloc` is not a string any more, so that the object cannot be
written again; the continuation parameter is not a string any more; constant functions are lost. -/
theorem C116_types_fails (o r : ChebOp V) (g : Group) (h : load o g = some r) :
    r.collocType = o.collocType ∧ (∀ s, r.colloc ≠ .str s) ∧ (∀ s, r.ftype ≠ .str s) ∧ (∀ s, .str s ∉ r.cpar) ∧ r.constants = o.constants ∧
    store r = none := by
  rw [load, Option.map_eq_some_iff] at h
  obtain ⟨ops, -, rfl⟩ := h
  exact ⟨rfl, by simp [loadWith], by simp [loadWith], by simp [loadWith], rfl, rfl⟩

/-- C116 fails: an operator of the Fourier discretisation read by `ChebOp()` is discretised by `ultraS`. -/
theorem C116_colloc_fails (o : ChebOp V) (g : Group) (r : ChebOp V) (hc : o.collocType = .trigspec) (_hw : store o = some g)
    (hr : load (fresh V (.str "ultraS")) g = some r) : r.collocType = .ultraS ∧ r.collocType ≠ o.collocType := by
  have := (C116_types_fails _ r g hr).1
  rw [this, hc]
  exact ⟨rfl, by simp [fresh, Colloc.ofName]⟩

/-- C116 fails: the names of non-local operators are replaced by the name of the last function, and without function names reading raises. -/
theorem C116_operators_fails (o : ChebOp V) (g : Group) (hw : store o = some g) (hne : o.operators ≠ []) (hs : Short o) (c' : PyName) :
    (∀ f, o.functions.getLast? = some f → ∃ r, load (fresh V c') g = some r ∧ r.operators = o.operators.map fun _ => f) ∧
    (o.functions = [] → load (fresh V c') g = none) := by
  obtain ⟨c, -, hw⟩ := Option.bind_eq_some_iff.1 hw
  obtain ⟨ft, -, hw⟩ := Option.bind_eq_some_iff.1 hw
  obtain ⟨p, -, hw⟩ := Option.bind_eq_some_iff.1 hw
  obtain ⟨cp, -, rfl⟩ := Option.map_eq_some_iff.1 hw
  obtain ⟨a, l, hl⟩ := List.exists_cons_of_ne_nil hne
  constructor
  · intro f hf
    have h : opNames (record o c ft cp) = some (o.operators.map fun _ => f) := by
      simp only [opNames, record, hl, map_fixed 30 _ hs.1, hf, List.map_cons, List.map_map]; rfl
    exact ⟨_, by rw [load, h]; rfl, rfl⟩
  · intro hf
    simp [load, opNames, record, hl, hf]

/-- C116 fails: reading does not replace but append: an object that already has unknowns, equations or boundary conditions, for example because the same file has
been read before, does not get the stored problem but both. -/
theorem C116_append_fails (o o' r : ChebOp V) (g : Group) (hw : store o = some g) (hs : Short o) (hr : load o' g = some r) :
    r.functions = o'.functions ++ o.functions ∧ r.kernels = o'.kernels ++ o.kernels ∧ r.eqn = o'.eqn ++ o.eqn ∧ r.cts = o'.cts ++ o.cts ∧
    r.bcs = o'.bcs ++ o.bcs ∧ (o'.functions ≠ [] ∨ o'.kernels ≠ [] ∨ o'.eqn ≠ [] ∨ o'.cts ≠ [] ∨ o'.bcs ≠ [] → ¬ SameProblem r o) := by
  obtain ⟨c, -, hw⟩ := Option.bind_eq_some_iff.1 hw
  obtain ⟨ft, -, hw⟩ := Option.bind_eq_some_iff.1 hw
  obtain ⟨p, -, hw⟩ := Option.bind_eq_some_iff.1 hw
  obtain ⟨cp, -, rfl⟩ := Option.map_eq_some_iff.1 hw
  rw [load, Option.map_eq_some_iff] at hr
  obtain ⟨ops, -, rfl⟩ := hr
  obtain ⟨h1, h2, h3, h4, h5, h6⟩ := hs
  simp only [SameProblem, loadWith, record, map_fixed 30 _ h1, map_fixed 30 _ h2, map_fixed 250 _ h4, map_fixed 250 _ h5, map_fixed 250 _ h6,
    List.append_left_eq_self, true_and]
  rintro h ⟨a, -, -, b, -, c, d, e⟩
  rcases h with h | h | h | h | h
  exacts [h a, h b, h c, h d, h e]

/-- C116 fails: an equation with more than 250 characters is cut. -/
theorem C116_long_fails (o r : ChebOp V) (g : Group) (hw : store o = some g) (c' : PyName) (hr : load (fresh V c') g = some r)
    (hlong : ∃ s ∈ o.eqn, 250 < s.length) : r.eqn ≠ o.eqn ∧ ∀ s ∈ r.eqn, s.length ≤ 250 := by
  obtain ⟨c, -, hw⟩ := Option.bind_eq_some_iff.1 hw
  obtain ⟨ft, -, hw⟩ := Option.bind_eq_some_iff.1 hw
  obtain ⟨p, -, hw⟩ := Option.bind_eq_some_iff.1 hw
  obtain ⟨cp, -, rfl⟩ := Option.map_eq_some_iff.1 hw
  rw [load, Option.map_eq_some_iff] at hr
  obtain ⟨ops, -, rfl⟩ := hr
  have h2 : ∀ s ∈ o.eqn.map (fixed 250), s.length ≤ 250 := by
    intro s hs
    obtain ⟨t, -, rfl⟩ := List.mem_map.1 hs
    rw [fixed, String.length_ofList, List.length_take]
    exact min_le_left _ _
  simp only [loadWith, record, fresh, List.nil_append]
  refine ⟨fun h => ?_, h2⟩
  rw [h] at h2
  obtain ⟨s, hs, hl⟩ := hlong
  exact absurd (h2 s hs) (by omega)

/-- non-vacuity: a heat equation with a parameter. -/
noncomputable def exampleOp : ChebOp Unit :=
  { fresh Unit (.str "ultraS") with
    functions := ["u"], pars := fun p => if p = "a" then some 2 else none, eqn := ["a * diff(u, x, 2) + u"], bcs := ["u(-1)", "u(1)"],
    cpar := [.str "a"], nDisc := 32 }

example : exampleOp.colloc = .str "ultraS" ∧ exampleOp.ftype = .str "cheb" ∧ exampleOp.cpar = [.str "a"] ∧ Short exampleOp ∧
    exampleOp.constants = [] ∧ exampleOp.operators = [] ∧ exampleOp.collocType = Colloc.ofName exampleOp.colloc ∧
    (deepcopy exampleOp).nDisc ≠ exampleOp.nDisc := by
  refine ⟨rfl, by simp [exampleOp, fresh], rfl, ⟨?_, ?_, ?_, ?_, ?_, ?_⟩, rfl, rfl, rfl, by simp [exampleOp, deepcopy, fresh]⟩ <;>
    intro s hs <;> simp [exampleOp, fresh] at hs
  · subst hs; decide
  · subst hs; decide
  · rcases hs with rfl | rfl <;> decide

end Funpy.Props
