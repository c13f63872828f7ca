import Verif.Model.State
import Verif.Props.ChebObj
import Verif.Props.ChebInner
import Verif.Props.ChebArith

/-!
# C49 – C51, C78 – C80: states
-/

namespace Funpy.Props
open VS Cheb Finset Spec

variable {F V : Type}

/-- The shape of the states of class `k`: the numbers of functions, parameters and weights given by
the signature, and different names for the two parameters. -/
structure StateWF (k : Kind) (s : State F V) : Prop where
  /-- functions -/
  nf : s.funcs.length = k.nf
  /-- parameters -/
  nr : s.reals.length = k.nr
  /-- weights -/
  nw : s.weights.length = k.nf + k.nr
  /-- different parameter names -/
  names : (s.reals.map Param.name).Nodup

/-- No name is both a parameter and a namespace entry. -/
def Synced (s : State F V) : Prop := ∀ p ∈ s.reals, p.name ∉ s.ns.map Prod.fst

/-! ### Loops -/

private lemma collect_some {α : Type} (n : ℕ) (f : ℕ → Option α) (l : List α) (hl : l.length = n)
    (h : ∀ i, (hi : i < n) → f i = some (l[i]'(by omega))) : collect n f = some l := by
  induction n generalizing l with
  | zero =>
    have : l = [] := List.length_eq_zero_iff.mp hl
    simp [collect, this]
  | succ n ih =>
    have h1 := ih (l.take n) (by simp [hl]) (fun i hi => by rw [h i (by omega)]; simp)
    simp only [collect, h1, h n (by omega), Option.bind_eq_bind, Option.bind_some]
    congr 1
    have h2 := List.take_append_drop n l
    conv_rhs => rw [← h2]
    congr 1
    rw [List.drop_eq_getElem_cons (by omega), List.drop_eq_nil_of_le (by omega)]

private lemma collect_none {α : Type} (n : ℕ) (f : ℕ → Option α) (i : ℕ) (hi : i < n)
    (h : f i = none) : collect n f = none := by
  induction n with
  | zero => omega
  | succ n ih =>
    simp only [collect, Option.bind_eq_bind]
    by_cases hin : i = n
    · subst hin
      cases collect i f <;> simp [h]
    · rw [ih (by omega)]; rfl

private lemma sumLoop_some (n : ℕ) (f : ℕ → Option ℝ) (g : ℕ → ℝ) (acc : ℝ)
    (h : ∀ i < n, f i = some (g i)) : sumLoop n f acc = some (acc + ∑ i ∈ range n, g i) := by
  induction n with
  | zero => simp [sumLoop]
  | succ n ih =>
    simp only [sumLoop, ih (fun i hi => h i (by omega)), h n (by omega), Option.bind_eq_bind,
      Option.bind_some, sum_range_succ, add_assoc]

private lemma sumLoop_none (n : ℕ) (f : ℕ → Option ℝ) (acc : ℝ) (i : ℕ) (hi : i < n) (h : f i = none) :
    sumLoop n f acc = none := by
  induction n with
  | zero => omega
  | succ n ih =>
    simp only [sumLoop, Option.bind_eq_bind]
    by_cases hin : i = n
    · subst hin
      cases sumLoop i f acc <;> simp [h]
    · rw [ih (by omega)]; rfl

private lemma allSome_map {α : Type} (l : List α) : allSome (l.map some) = some l := by
  induction l with
  | nil => rfl
  | cons a l ih => simp [allSome, ih]

private lemma syncNs_synced (rs : List (Param V)) (ns : NS V) (h : ∀ p ∈ rs, p.name ∉ ns.map Prod.fst) :
    syncNs rs ns = ns := by
  cases rs with
  | nil => rfl
  | cons r rs => rw [syncNs, if_neg (h r (by simp))]

private lemma construct_ok (k : Kind) (fs : List F) (rs : List (Param V)) (ns : NS V)
    (w : Option (List ℝ)) (hr : rs.length = k.nr) (hn : (rs.map Param.name).Nodup) :
    construct k fs rs ns w
      = some ⟨fs, rs, w.getD (List.replicate (k.nf + k.nr) 1), syncNs rs ns⟩ := by
  unfold construct
  cases k with
  | cont => rfl
  | defl => rfl
  | tpCont =>
    match rs, hr with
    | [r0, r1], _ =>
      have : r0.name ≠ r1.name := by simpa using hn
      simp [Kind.twoPar, this]
  | tp =>
    match rs, hr with
    | [r0, r1], _ =>
      have : r0.name ≠ r1.name := by simpa using hn
      simp [Kind.twoPar, this]

/-! ## C49 -/

private lemma names_zip (rs : List (Param V)) (vs : List V) (h : rs.length = vs.length) :
    (List.zipWith (fun p v => (⟨p.name, v⟩ : Param V)) rs vs).map Param.name = rs.map Param.name := by
  rw [List.map_zipWith]
  induction rs generalizing vs with
  | nil => simp
  | cons r rs ih =>
    cases vs with
    | nil => simp at h
    | cons v vs => simp [ih vs (by simpa using h)]

private lemma syncNs_names (rs rs' : List (Param V)) (ns : NS V)
    (h : rs.map Param.name = rs'.map Param.name) : syncNs rs ns = syncNs rs' ns := by
  induction rs generalizing rs' ns with
  | nil =>
    cases rs' with
    | nil => rfl
    | cons _ _ => simp at h
  | cons r rs ih =>
    cases rs' with
    | nil => simp at h
    | cons r' rs' =>
      simp only [List.map_cons, List.cons.injEq] at h
      simp only [syncNs, h.1, ih rs' _ h.2]

/-- The common part of all ufunc theorems: `args` are the arguments of the component operations. -/
private lemma ufunc_core (k : Kind) (opF : List (F ⊕ V) → Option F) (opR : List V → Option V)
    (inputs : List (Operand F V)) (s : State F V) (hself : VS.self inputs = some s)
    (hs : StateWF k s) (hy : Synced s) (fs : List F) (vs : List V)
    (hfl : fs.length = k.nf) (hvl : vs.length = k.nr)
    (hf : ∀ i, (hi : i < k.nf) →
      (allSome (inputs.map (Operand.func i))).bind opF = some (fs[i]'(by omega)))
    (hv : ∀ i, (hi : i < k.nr) →
      (allSome (inputs.map (Operand.real i))).bind opR = some (vs[i]'(by omega))) :
    ufunc k opF opR inputs
      = some ⟨fs, List.zipWith (fun p v => ⟨p.name, v⟩) s.reals vs,
          List.replicate (k.nf + k.nr) 1, s.ns⟩ := by
  have hnr := hs.nr
  have hnf := hs.nf
  have h1 := collect_some s.reals.length (fun i => do
    let args ← allSome (inputs.map (Operand.real i))
    let p ← s.reals[i]?
    let v ← opR args
    some (⟨p.name, v⟩ : Param V)) (List.zipWith (fun p v => ⟨p.name, v⟩) s.reals vs)
    (by simp; omega) (by
      intro i hi
      have := hv i (by omega)
      obtain ⟨args, ha, hb⟩ := Option.bind_eq_some_iff.mp this
      simp [ha, hb, List.getElem?_eq_getElem hi])
  have h2 := collect_some s.funcs.length (fun i => do
    let args ← allSome (inputs.map (Operand.func i))
    opF args) fs (by omega) (by
      intro i hi
      exact hf i (by omega))
  simp only [ufunc, hself, Option.bind_eq_bind, Option.bind_some] at h1 h2 ⊢
  rw [h1]
  simp only [Option.bind_some]
  rw [h2]
  simp only [Option.bind_some]
  have hnm := names_zip s.reals vs (by omega)
  rw [construct_ok k fs _ s.ns none (by simp; omega) (by rw [hnm]; exact hs.names)]
  simp only [Option.getD_none]
  rw [syncNs_names _ s.reals s.ns hnm, syncNs_synced s.reals s.ns hy]

private lemma zip_some {A B C : Type} (f : A → B → Option C) (l1 : List A) (l2 : List B) (r : List C)
    (hl : l1.length = l2.length) (h : List.zipWith f l1 l2 = r.map some) :
    r.length = l1.length ∧ ∀ i, (h1 : i < l1.length) → (h2 : i < r.length) →
      f l1[i] (l2[i]'(by omega)) = some r[i] := by
  have hlen : r.length = l1.length := by
    have := congrArg List.length h
    simp at this
    omega
  refine ⟨hlen, fun i h1 h2 => ?_⟩
  have : (List.zipWith f l1 l2)[i]? = (r.map some)[i]? := by rw [h]
  rw [List.getElem?_eq_getElem (by simp; omega), List.getElem?_eq_getElem (by simp; omega)] at this
  simpa using this

/-- C49: a binary operation on two states of the same class combines the functions and the parameter
values position by position; names and namespace are those of the left state (its weights are *not*
kept: the result has unit weights). -/
theorem C49_binary (k : Kind) (opF : List (F ⊕ V) → Option F) (opR : List V → Option V)
    (s t : State F V) (hs : StateWF k s) (ht : StateWF k t) (hy : Synced s) (fs : List F) (vs : List V)
    (hf : List.zipWith (fun f g => opF [.inl f, .inl g]) s.funcs t.funcs = fs.map some)
    (hv : List.zipWith (fun p q => opR [p.value, q.value]) s.reals t.reals = vs.map some) :
    ufunc k opF opR [.state s, .state t]
      = some ⟨fs, List.zipWith (fun p v => ⟨p.name, v⟩) s.reals vs,
          List.replicate (k.nf + k.nr) 1, s.ns⟩ := by
  have e1 := hs.nf
  have e2 := ht.nf
  have e3 := hs.nr
  have e4 := ht.nr
  obtain ⟨l1, g1⟩ := zip_some _ _ _ _ (by omega) hf
  obtain ⟨l2, g2⟩ := zip_some _ _ _ _ (by omega) hv
  refine ufunc_core k opF opR _ s rfl hs hy fs vs (by omega) (by omega) ?_ ?_
  · intro i hi
    have := g1 i (by omega) (by omega)
    simp [Operand.func, allSome, List.getElem?_eq_getElem (show i < s.funcs.length by omega),
      List.getElem?_eq_getElem (show i < t.funcs.length by omega), this]
  · intro i hi
    have := g2 i (by omega) (by omega)
    simp [Operand.real, allSome, List.getElem?_eq_getElem (show i < s.reals.length by omega),
      List.getElem?_eq_getElem (show i < t.reals.length by omega), this]

/-- C49: an operation of a state with a number (on either side) applies the operation with that
number to every component; a unary operation is applied to every component. -/
theorem C49_scalar (k : Kind) (opF : List (F ⊕ V) → Option F) (opR : List V → Option V)
    (s : State F V) (hs : StateWF k s) (hy : Synced s) (x : V) (fs : List F) (vs : List V) :
    (s.funcs.map (fun f => opF [.inl f, .inr x]) = fs.map some →
      s.reals.map (fun p => opR [p.value, x]) = vs.map some →
      ufunc k opF opR [.state s, .num x]
        = some ⟨fs, List.zipWith (fun p v => ⟨p.name, v⟩) s.reals vs,
          List.replicate (k.nf + k.nr) 1, s.ns⟩) ∧
    (s.funcs.map (fun f => opF [.inr x, .inl f]) = fs.map some →
      s.reals.map (fun p => opR [x, p.value]) = vs.map some →
      ufunc k opF opR [.num x, .state s]
        = some ⟨fs, List.zipWith (fun p v => ⟨p.name, v⟩) s.reals vs,
          List.replicate (k.nf + k.nr) 1, s.ns⟩) ∧
    (s.funcs.map (fun f => opF [.inl f]) = fs.map some →
      s.reals.map (fun p => opR [p.value]) = vs.map some →
      ufunc k opF opR [.state s]
        = some ⟨fs, List.zipWith (fun p v => ⟨p.name, v⟩) s.reals vs,
          List.replicate (k.nf + k.nr) 1, s.ns⟩) := by
  have e1 := hs.nf
  have e3 := hs.nr
  have key : ∀ {A C : Type} (f : A → Option C) (l : List A) (r : List C),
      l.map f = r.map some → r.length = l.length ∧ ∀ i, (h1 : i < l.length) → (h2 : i < r.length) →
        f l[i] = some r[i] := by
    intro A C f l r h
    have hlen : r.length = l.length := by
      have := congrArg List.length h
      simp at this
      omega
    refine ⟨hlen, fun i h1 h2 => ?_⟩
    have : (l.map f)[i]? = (r.map some)[i]? := by rw [h]
    rw [List.getElem?_eq_getElem (by simp; omega), List.getElem?_eq_getElem (by simp; omega)] at this
    simpa using this
  refine ⟨?_, ?_, ?_⟩ <;> intro hf hv <;> obtain ⟨l1, g1⟩ := key _ _ _ hf <;>
    obtain ⟨l2, g2⟩ := key _ _ _ hv
  all_goals
    refine ufunc_core k opF opR _ s rfl hs hy fs vs (by omega) (by omega) ?_ ?_
    · intro i hi
      have := g1 i (by omega) (by omega)
      simp [Operand.func, allSome, List.getElem?_eq_getElem (show i < s.funcs.length by omega), this]
    · intro i hi
      have := g2 i (by omega) (by omega)
      simp [Operand.real, allSome, List.getElem?_eq_getElem (show i < s.reals.length by omega), this]

/-- C49: an exception in one component operation is an exception of the operation on states. -/
theorem C49_raises (k : Kind) (opF : List (F ⊕ V) → Option F) (opR : List V → Option V)
    (s t : State F V) (i : ℕ)
    (h : (∃ f g, s.funcs[i]? = some f ∧ t.funcs[i]? = some g ∧ opF [.inl f, .inl g] = none) ∨
      ∃ p q, s.reals[i]? = some p ∧ t.reals[i]? = some q ∧ opR [p.value, q.value] = none) :
    ufunc k opF opR [.state s, .state t] = none := by
  simp only [ufunc, VS.self, Option.bind_eq_bind, Option.bind_some]
  rcases h with ⟨f, g, hf, hg, ho⟩ | ⟨p, q, hp, hq, ho⟩
  · have hi : i < s.funcs.length := (List.getElem?_eq_some_iff.mp hf).1
    rw [Option.bind_eq_none_iff]
    intro nreals _
    rw [collect_none s.funcs.length _ i hi]
    · rfl
    · simp [Operand.func, hf, hg, allSome, ho]
  · have hi : i < s.reals.length := (List.getElem?_eq_some_iff.mp hp).1
    rw [collect_none s.reals.length _ i hi]
    · rfl
    · simp [Operand.real, hp, hq, allSome, ho]

/-- C49: in-place operations (`s += t`, `s *= x`, the method `flip`): the components of the target
are overwritten, its parameter names, weights and (synchronised) namespace stay. -/
theorem C49_inplace (k : Kind) (opF : F → List (F ⊕ V) → Option F) (opR : List V → Option V)
    (s t : State F V) (hs : StateWF k s) (ht : StateWF k t) (hy : Synced s) (fs : List F) (vs : List V)
    (hf : List.zipWith (fun f g => opF f [.inl f, .inl g]) s.funcs t.funcs = fs.map some)
    (hv : List.zipWith (fun p q => opR [p.value, q.value]) s.reals t.reals = vs.map some) :
    ufuncOut opF opR [.state s, .state t] s
      = some ⟨fs, List.zipWith (fun p v => ⟨p.name, v⟩) s.reals vs, s.weights, s.ns⟩ := by
  have e1 := hs.nf
  have e2 := ht.nf
  have e3 := hs.nr
  have e4 := ht.nr
  obtain ⟨l1, g1⟩ := zip_some _ _ _ _ (by omega) hf
  obtain ⟨l2, g2⟩ := zip_some _ _ _ _ (by omega) hv
  simp only [ufuncOut, VS.self, Option.bind_eq_bind, Option.bind_some]
  rw [collect_some s.reals.length _ (List.zipWith (fun p v => ⟨p.name, v⟩) s.reals vs)
    (by simp; omega) (by
      intro i hi
      have := g2 i (by omega) (by omega)
      simp [Operand.real, allSome, List.getElem?_eq_getElem (show i < s.reals.length by omega),
        List.getElem?_eq_getElem (show i < t.reals.length by omega), this])]
  simp only [Option.bind_some]
  rw [collect_some s.funcs.length _ fs (by omega) (by
      intro i hi
      have := g1 i (by omega) (by omega)
      simp [Operand.func, allSome, List.getElem?_eq_getElem (show i < s.funcs.length by omega),
        List.getElem?_eq_getElem (show i < t.funcs.length by omega), this])]
  simp only [Option.bind_some]
  have hnm := names_zip s.reals vs (by omega)
  have d1 : s.reals.drop (List.zipWith (fun p v => (⟨p.name, v⟩ : Param V)) s.reals vs).length = [] := by
    rw [List.drop_eq_nil_iff]; simp; omega
  have d2 : s.funcs.drop fs.length = [] := by rw [List.drop_eq_nil_iff]; omega
  rw [d1, d2, List.append_nil, List.append_nil, syncNs_names _ s.reals s.ns hnm,
    syncNs_synced s.reals s.ns hy]

/-- C49: the same for a number on the right, e.g. `flip` is `s *= -1.0`. -/
theorem C49_inplace_scalar (k : Kind) (opF : F → List (F ⊕ V) → Option F) (opR : List V → Option V)
    (s : State F V) (hs : StateWF k s) (hy : Synced s) (x : V) (fs : List F) (vs : List V)
    (hf : List.zipWith (fun f g => opF f [.inl g, .inr x]) s.funcs s.funcs = fs.map some)
    (hv : List.zipWith (fun p _ => opR [p.value, x]) s.reals s.reals = vs.map some) :
    ufuncOut opF opR [.state s, .num x] s
      = some ⟨fs, List.zipWith (fun p v => ⟨p.name, v⟩) s.reals vs, s.weights, s.ns⟩ := by
  have e1 := hs.nf
  have e3 := hs.nr
  obtain ⟨l1, g1⟩ := zip_some _ _ _ _ (by omega) hf
  obtain ⟨l2, g2⟩ := zip_some _ _ _ _ (by omega) hv
  simp only [ufuncOut, VS.self, Option.bind_eq_bind, Option.bind_some]
  rw [collect_some s.reals.length _ (List.zipWith (fun p v => ⟨p.name, v⟩) s.reals vs)
    (by simp; omega) (by
      intro i hi
      have := g2 i (by omega) (by omega)
      simp [Operand.real, allSome, List.getElem?_eq_getElem (show i < s.reals.length by omega), this])]
  simp only [Option.bind_some]
  rw [collect_some s.funcs.length _ fs (by omega) (by
      intro i hi
      have := g1 i (by omega) (by omega)
      simp [Operand.func, allSome, List.getElem?_eq_getElem (show i < s.funcs.length by omega), this])]
  simp only [Option.bind_some]
  have hnm := names_zip s.reals vs (by omega)
  have d1 : s.reals.drop (List.zipWith (fun p v => (⟨p.name, v⟩ : Param V)) s.reals vs).length = [] := by
    rw [List.drop_eq_nil_iff]; simp; omega
  have d2 : s.funcs.drop fs.length = [] := by rw [List.drop_eq_nil_iff]; omega
  rw [d1, d2, List.append_nil, List.append_nil, syncNs_names _ s.reals s.ns hnm,
    syncNs_synced s.reals s.ns hy]

/-- Two states over functions represented by numbers, used to see that the hypotheses can be met. -/
def exState (f a w0 w1 : ℝ) : State ℝ ℝ := ⟨[f], [⟨"a", a⟩], [w0, w1], [("b", 7)]⟩

lemma exState_wf (f a w0 w1 : ℝ) : StateWF .cont (exState f a w0 w1) ∧ Synced (exState f a w0 w1) := by
  refine ⟨⟨rfl, rfl, rfl, by simp [exState]⟩, ?_⟩
  intro p hp
  simp only [exState, List.mem_singleton] at hp
  subst hp
  simp [exState]

/-- Addition of numbers as a component operation. -/
noncomputable def addF : List (ℝ ⊕ ℝ) → Option ℝ
  | [.inl f, .inl g] => some (f + g)
  | _ => none

/-- Addition of parameter values. -/
noncomputable def addR : List ℝ → Option ℝ
  | [x, y] => some (x + y)
  | _ => none

example : ufunc .cont addF addR [.state (exState 1 2 3 4), .state (exState 10 20 5 6)]
    = some (exState (1 + 10) (2 + 20) 1 1) :=
  C49_binary .cont addF addR _ _ (exState_wf 1 2 3 4).1 (exState_wf 10 20 5 6).1 (exState_wf 1 2 3 4).2
    [1 + 10] [2 + 20] rfl rfl

/-- C49: `np.dot(s, t)` is the weighted sum of the inner products of the functions and of the
products of the parameters, with the weights of `s` (functions first). -/
theorem C49_dot (k : Kind) (dotF : F → F → Option ℝ) (s t : State F ℝ) (hs : StateWF k s)
    (ht : StateWF k t) (ds : List ℝ) (hd : List.zipWith dotF s.funcs t.funcs = ds.map some) :
    VS.dot dotF s t = some (∑ i ∈ range k.nf, s.weights.getD i 0 * ds.getD i 0
      + ∑ i ∈ range k.nr, s.weights.getD (k.nf + i) 0 *
          (((s.reals.map Param.value).getD i 0) * ((t.reals.map Param.value).getD i 0))) := by
  have e1 := hs.nf
  have e2 := ht.nf
  have e3 := hs.nr
  have e4 := ht.nr
  have e5 := hs.nw
  obtain ⟨l1, g1⟩ := zip_some _ _ _ _ (by omega) hd
  simp only [VS.dot, Option.bind_eq_bind]
  rw [sumLoop_some s.funcs.length _ (fun i => s.weights.getD i 0 * ds.getD i 0) 0 (by
    intro i hi
    have := g1 i hi (by omega)
    rw [getD_lt' _ _ _ (show i < s.weights.length by omega), getD_lt' _ _ _ (show i < ds.length by omega)]
    simp [List.getElem?_eq_getElem (show i < s.weights.length by omega),
      List.getElem?_eq_getElem hi, List.getElem?_eq_getElem (show i < t.funcs.length by omega), this])]
  simp only [Option.bind_some]
  rw [sumLoop_some s.reals.length _ (fun i => s.weights.getD (k.nf + i) 0 *
          (((s.reals.map Param.value).getD i 0) * ((t.reals.map Param.value).getD i 0))) _ (by
    intro i hi
    rw [getD_lt' _ _ _ (show k.nf + i < s.weights.length by omega),
      getD_lt' _ _ _ (show i < (s.reals.map Param.value).length by simpa using hi),
      getD_lt' _ _ _ (show i < (t.reals.map Param.value).length by simp; omega)]
    simp [List.getElem?_eq_getElem (show i + s.funcs.length < s.weights.length by omega),
      List.getElem?_eq_getElem hi, List.getElem?_eq_getElem (show i < t.reals.length by omega)]
    left
    congr 1
    omega)]
  rw [e1, e3, zero_add]

/-- C49: for states with the same weights (in particular the default ones) `np.dot` is symmetric as
soon as the inner product of the functions is. -/
theorem C49_dot_symm_partial (k : Kind) (dotF : F → F → Option ℝ) (s t : State F ℝ) (hs : StateWF k s)
    (ht : StateWF k t) (hw : s.weights = t.weights) (ds : List ℝ)
    (hd : List.zipWith dotF s.funcs t.funcs = ds.map some)
    (hsym : ∀ f g, dotF f g = dotF g f) : VS.dot dotF s t = VS.dot dotF t s := by
  have hd' : List.zipWith dotF t.funcs s.funcs = ds.map some := by
    rw [← hd, List.zipWith_comm]
    congr 1
    funext f g
    exact hsym _ _
  rw [C49_dot k dotF s t hs ht ds hd, C49_dot k dotF t s ht hs ds hd', hw]
  congr 2
  apply sum_congr rfl
  intro i _
  ring

/-- C49: without custom weights `np.dot` is additive in the first argument: for `r = s + s'`,
`np.dot(r, t) = np.dot(s, t) + np.dot(s', t)` as soon as the inner product of functions is additive on
the functions involved.  (Missing for the full property: states with custom weights, for which it is
false, see `C49_fails`.) -/
theorem C49_dot_additive_partial (k : Kind) (dotF : F → F → Option ℝ) (opF : List (F ⊕ ℝ) → Option F)
    (s s' t : State F ℝ) (hs : StateWF k s) (hs' : StateWF k s') (ht : StateWF k t) (hy : Synced s)
    (hw : s.weights = List.replicate (k.nf + k.nr) 1) (hw' : s'.weights = List.replicate (k.nf + k.nr) 1)
    (fs : List F) (hf : List.zipWith (fun f g => opF [.inl f, .inl g]) s.funcs s'.funcs = fs.map some)
    (ds ds' : List ℝ) (hd : List.zipWith dotF s.funcs t.funcs = ds.map some)
    (hd' : List.zipWith dotF s'.funcs t.funcs = ds'.map some)
    (hadd : List.zipWith dotF fs t.funcs = (List.zipWith (· + ·) ds ds').map some) :
    ∃ r a b, ufunc k opF addR [.state s, .state s'] = some r ∧
      VS.dot dotF s t = some a ∧ VS.dot dotF s' t = some b ∧ VS.dot dotF r t = some (a + b) := by
  have e1 := hs.nf
  have e2 := hs'.nf
  have e2' := ht.nf
  have e3 := hs.nr
  have e4 := hs'.nr
  have e6 := ht.nr
  obtain ⟨l1, -⟩ := zip_some _ _ _ _ (by omega) hf
  obtain ⟨l2, -⟩ := zip_some _ _ _ _ (by omega) hd
  obtain ⟨l3, -⟩ := zip_some _ _ _ _ (by omega) hd'
  have hr := C49_binary k opF addR s s' hs hs' hy fs
    (List.zipWith (fun p q => p.value + q.value) s.reals s'.reals) hf
    (by rw [List.map_zipWith]; rfl)
  have hnm := names_zip s.reals (List.zipWith (fun p q => p.value + q.value) s.reals s'.reals)
    (by simp; omega)
  have hwf : StateWF k (⟨fs, List.zipWith (fun p v => ⟨p.name, v⟩) s.reals
      (List.zipWith (fun p q => p.value + q.value) s.reals s'.reals),
      List.replicate (k.nf + k.nr) 1, s.ns⟩ : State F ℝ) :=
    ⟨by simp only; omega, by simp; omega, by simp, by rw [hnm]; exact hs.names⟩
  refine ⟨_, _, _, hr, C49_dot k dotF s t hs ht ds hd, C49_dot k dotF s' t hs' ht ds' hd', ?_⟩
  rw [C49_dot k dotF _ t hwf ht _ hadd]
  congr 1
  have hr1 : ∀ i < k.nf + k.nr, (List.replicate (k.nf + k.nr) (1 : ℝ)).getD i 0 = 1 := by
    intro i hi
    rw [getD_lt' _ _ _ (by simpa using hi), List.getElem_replicate]
  have A : ∑ i ∈ range k.nf, (List.replicate (k.nf + k.nr) (1 : ℝ)).getD i 0 *
      (List.zipWith (· + ·) ds ds').getD i 0
      = ∑ i ∈ range k.nf, s.weights.getD i 0 * ds.getD i 0
        + ∑ i ∈ range k.nf, s'.weights.getD i 0 * ds'.getD i 0 := by
    rw [← sum_add_distrib]
    apply sum_congr rfl
    intro i hi
    rw [mem_range] at hi
    rw [hw, hw', hr1 i (by omega), getD_lt' _ _ _ (show i < (List.zipWith (· + ·) ds ds').length by simp; omega),
      getD_lt' _ _ _ (show i < ds.length by omega), getD_lt' _ _ _ (show i < ds'.length by omega),
      List.getElem_zipWith]
    ring
  have B : ∑ i ∈ range k.nr, (List.replicate (k.nf + k.nr) (1 : ℝ)).getD (k.nf + i) 0 *
      ((((List.zipWith (fun p v => (⟨p.name, v⟩ : Param ℝ)) s.reals
        (List.zipWith (fun p q => p.value + q.value) s.reals s'.reals)).map Param.value).getD i 0) *
          ((t.reals.map Param.value).getD i 0))
      = ∑ i ∈ range k.nr, s.weights.getD (k.nf + i) 0 *
          (((s.reals.map Param.value).getD i 0) * ((t.reals.map Param.value).getD i 0))
        + ∑ i ∈ range k.nr, s'.weights.getD (k.nf + i) 0 *
          (((s'.reals.map Param.value).getD i 0) * ((t.reals.map Param.value).getD i 0)) := by
    rw [← sum_add_distrib]
    apply sum_congr rfl
    intro i hi
    rw [mem_range] at hi
    rw [hw, hw', hr1 _ (by omega)]
    rw [getD_lt' _ _ _ (show i < (s.reals.map Param.value).length by simp; omega),
      getD_lt' _ _ _ (show i < (s'.reals.map Param.value).length by simp; omega),
      getD_lt' _ _ _ (show i < ((List.zipWith (fun p v => (⟨p.name, v⟩ : Param ℝ)) s.reals
        (List.zipWith (fun p q => p.value + q.value) s.reals s'.reals)).map Param.value).length by
          simp; omega)]
    simp only [List.getElem_map, List.getElem_zipWith]
    ring
  simp only [A, B]
  ring

/-- The product as an inner product of "functions" represented by numbers. -/
noncomputable def exDot : ℝ → ℝ → Option ℝ := fun f g => some (f * g)

/-- C49 is false with custom weights: `np.dot` is then neither symmetric nor additive, because the
sum of two states has unit weights, whatever the weights of the summands. -/
theorem C49_fails :
    VS.dot exDot (exState 1 0 2 1) (exState 1 0 1 1) ≠ VS.dot exDot (exState 1 0 1 1) (exState 1 0 2 1) ∧
    ∃ r, ufunc .cont addF addR [.state (exState 1 0 2 1), .state (exState 1 0 2 1)] = some r ∧
      VS.dot exDot r (exState 1 0 2 1) = some 2 ∧
      VS.dot exDot (exState 1 0 2 1) (exState 1 0 2 1) = some 2 := by
  have w := fun a b c d => (exState_wf a b c d).1
  have h := C49_dot .cont exDot
  refine ⟨?_, _, C49_binary .cont addF addR _ _ (w 1 0 2 1) (w 1 0 2 1) (exState_wf 1 0 2 1).2
    [1 + 1] [0 + 0] rfl rfl, ?_, ?_⟩
  · rw [h (exState 1 0 2 1) _ (w _ _ _ _) (w _ _ _ _) [1 * 1] rfl,
      h (exState 1 0 1 1) _ (w _ _ _ _) (w _ _ _ _) [1 * 1] rfl]
    simp [Kind.nf, Kind.nr, exState]
  · refine (h (exState (1 + 1) (0 + 0) 1 1) (exState 1 0 2 1) (w _ _ _ _) (w _ _ _ _)
      [(1 + 1) * 1] rfl).trans ?_
    simp [Kind.nf, Kind.nr, exState]
    norm_num
  · rw [h (exState 1 0 2 1) _ (w _ _ _ _) (w _ _ _ _) [1 * 1] rfl]
    simp [Kind.nf, Kind.nr, exState]

/-- C49, for functions given by Chebyshev coefficients: `np.dot` of two continuation states
`(u, a)`, `(v, b)` on the interval `[e₀, e₁]` is `w₀ ∑_j ∫ u_j v_j + w₁ a b`. -/
theorem C49_dot_integral (u v : ChebFun) (hu : u.onefun.Proper) (hv : v.onefun.Proper)
    (hd : u.dom = v.dom) (hlt : u.dom.e0 < u.dom.e1) (hm : u.onefun.coeffs.m = v.onefun.coeffs.m)
    (p q : Param ℝ) (w0 w1 : ℝ) (wt : List ℝ) (hwt : wt.length = 2) (ns ns' : NS ℝ) :
    VS.dot ChebFun.dot ⟨[u], [p], [w0, w1], ns⟩ ⟨[v], [q], wt, ns'⟩
      = some (w0 * (List.zipWith (fun c d => ∫ x in u.dom.e0..u.dom.e1,
            chebEval c (Mapping.bwd u.dom x) * chebEval d (Mapping.bwd v.dom x))
          u.onefun.coeffs.cols v.onefun.coeffs.cols).sum + w1 * (p.value * q.value)) := by
  have hfun := (C17_fun u v hu hv hlt).2 hd
  have hdot : ChebFun.dot u v = some ((List.zipWith (fun c d => ∫ x in u.dom.e0..u.dom.e1,
            chebEval c (Mapping.bwd u.dom x) * chebEval d (Mapping.bwd v.dom x))
          u.onefun.coeffs.cols v.onefun.coeffs.cols).sum) := by
    rw [ChebFun.inner, if_pos hd] at hfun
    rw [ChebFun.dot, if_pos hd, C17_dot _ _ hu hv hm]
    rw [C17_tech _ _ hu hv] at hfun
    simp only [Option.some.injEq, List.map_map] at hfun ⊢
    have hsm : ∀ (l : List ℝ) (r : ℝ), l.sum * r = (l.map (· * r)).sum := by
      intro l r
      induction l with
      | nil => simp
      | cons a l ih => simp [add_mul, ih]
    rw [hsm, List.map_zipWith]
    congr 1
    rw [List.map_inj_left] at hfun
    simp only [Function.comp, List.map_map, List.map_inj_left] at hfun
    apply List.ext_getElem (by simp)
    intro i h1 h2
    rw [List.getElem_zipWith, List.getElem_zipWith]
    exact hfun _ (List.getElem_mem _) _ (List.getElem_mem _)
  have := C49_dot .cont ChebFun.dot (⟨[u], [p], [w0, w1], ns⟩ : State ChebFun ℝ)
    ⟨[v], [q], wt, ns'⟩ ⟨rfl, rfl, rfl, by simp⟩ ⟨rfl, rfl, hwt, by simp⟩
    [(List.zipWith (fun c d => ∫ x in u.dom.e0..u.dom.e1,
            chebEval c (Mapping.bwd u.dom x) * chebEval d (Mapping.bwd v.dom x))
          u.onefun.coeffs.cols v.onefun.coeffs.cols).sum] (by simp [hdot])
  rw [this]
  simp [Kind.nf, Kind.nr]

private lemma normSum_eq (k : Kind) (norm2 : F → ℕ → ℝ) (p : ℕ) (s : State F ℝ) (hs : StateWF k s) :
    normSum norm2 p s = some (∑ i ∈ range k.nf, s.weights.getD i 0 * (s.funcs.map (norm2 · p)).getD i 0
      + ∑ i ∈ range k.nr, s.weights.getD (k.nf + i) 0 * (s.reals.map Param.value).getD i 0 ^ p) := by
  have e1 := hs.nf
  have e3 := hs.nr
  have e5 := hs.nw
  simp only [normSum, Option.bind_eq_bind]
  rw [sumLoop_some s.funcs.length _
    (fun i => s.weights.getD i 0 * (s.funcs.map (norm2 · p)).getD i 0) 0 (by
    intro i hi
    rw [getD_lt' _ _ _ (show i < s.weights.length by omega),
      getD_lt' _ _ _ (show i < (s.funcs.map (norm2 · p)).length by simpa using hi)]
    simp [List.getElem?_eq_getElem (show i < s.weights.length by omega),
      List.getElem?_eq_getElem hi])]
  simp only [Option.bind_some]
  rw [sumLoop_some s.reals.length _ (fun i => s.weights.getD (k.nf + i) 0 *
          (s.reals.map Param.value).getD i 0 ^ p) _ (by
    intro i hi
    rw [getD_lt' _ _ _ (show k.nf + i < s.weights.length by omega),
      getD_lt' _ _ _ (show i < (s.reals.map Param.value).length by simpa using hi)]
    simp [List.getElem?_eq_getElem (show i + s.funcs.length < s.weights.length by omega),
      List.getElem?_eq_getElem hi]
    left
    congr 1
    omega)]
  rw [e1, e3, zero_add]

/-- C49: for non-negative weights the 2-norm of a state is the square root of `np.dot(s, s)`,
provided `norm2(f, 2)` is the inner product of `f` with itself. -/
theorem C49_norm (k : Kind) (norm2 : F → ℕ → ℝ) (dotF : F → F → Option ℝ) (s : State F ℝ)
    (hs : StateWF k s) (hw : ∀ w ∈ s.weights, 0 ≤ w) (hn : ∀ f ∈ s.funcs, 0 ≤ norm2 f 2)
    (hd : ∀ f ∈ s.funcs, dotF f f = some (norm2 f 2)) :
    ∃ d, 0 ≤ d ∧ VS.dot dotF s s = some d ∧ VS.norm norm2 2 s = some (√d) := by
  have hz : List.zipWith dotF s.funcs s.funcs = (s.funcs.map (norm2 · 2)).map some := by
    rw [List.zipWith_self, List.map_map]
    exact List.map_congr_left fun f hf => hd f hf
  have e5 := hs.nw
  have e1 := hs.nf
  have h1 := C49_dot k dotF s s hs hs _ hz
  have h2 := normSum_eq k norm2 2 s hs
  have hwi : ∀ i, 0 ≤ s.weights.getD i 0 := by
    intro i
    by_cases h : i < s.weights.length
    · rw [getD_lt' _ _ _ h]; exact hw _ (List.getElem_mem _)
    · rw [getD_ge' _ _ _ (by omega)]
  have hni : ∀ i, 0 ≤ (s.funcs.map (norm2 · 2)).getD i 0 := by
    intro i
    by_cases h : i < (s.funcs.map (norm2 · 2)).length
    · rw [getD_lt' _ _ _ h, List.getElem_map]; exact hn _ (List.getElem_mem _)
    · rw [getD_ge' _ _ _ (by omega)]
  refine ⟨_, ?_, h1, ?_⟩
  · exact add_nonneg (sum_nonneg fun i _ => mul_nonneg (hwi i) (hni i))
      (sum_nonneg fun i _ => mul_nonneg (hwi _) (mul_self_nonneg _))
  · rw [VS.norm, h2]
    simp only [Option.bind_some]
    rw [if_neg (by norm_num), if_neg, Real.sqrt_eq_rpow]
    · simp only [sq]
      norm_num
    · rw [not_lt]
      exact add_nonneg (sum_nonneg fun i _ => mul_nonneg (hwi i) (hni i))
        (sum_nonneg fun i _ => mul_nonneg (hwi _) (sq_nonneg _))

/-- C49: after `normalize(p)` of a state of norm `> 1e-14` the norm is one, for every `p ≥ 1` for
which `norm2` is homogeneous of degree `p`; otherwise the state is unchanged. -/
theorem C49_normalize (k : Kind) (norm2 : F → ℕ → ℝ) (divF : F → ℝ → F) (p : ℕ) (hp : 1 ≤ p)
    (s : State F ℝ) (hs : StateWF k s) (c : ℝ) (hc : VS.norm norm2 p s = some c)
    (hom : ∀ f ∈ s.funcs, norm2 (divF f c) p = norm2 f p / c ^ p) :
    (1e-14 < c → ∃ r, VS.normalize norm2 divF p s = some r ∧ VS.norm norm2 p r = some 1 ∧
      r.funcs = s.funcs.map (divF · c) ∧ r.reals = s.reals.map (fun q => ⟨q.name, q.value / c⟩) ∧
      r.weights = s.weights ∧ r.ns = s.ns) ∧
    (c ≤ 1e-14 → VS.normalize norm2 divF p s = some s) := by
  have h2 := normSum_eq k norm2 p s hs
  constructor
  · intro hlt
    have hc0 : (0 : ℝ) < c := lt_trans (by norm_num) hlt
    refine ⟨⟨s.funcs.map (divF · c), s.reals.map (fun r => ⟨r.name, r.value / c⟩), s.weights, s.ns⟩, ?_, ?_, rfl, rfl, rfl, rfl⟩
    · rw [VS.normalize, h2]
      simp only [Option.bind_some, hc, if_pos hlt]
    · have hwf : StateWF k (⟨s.funcs.map (divF · c), s.reals.map (fun r => ⟨r.name, r.value / c⟩), s.weights, s.ns⟩ : State F ℝ) := by
        refine ⟨by simpa using hs.nf, by simpa using hs.nr, hs.nw, ?_⟩
        simp only [List.map_map]
        exact hs.names
      have h3 := normSum_eq k norm2 p _ hwf
      have hS : ∀ x, normSum norm2 p s = some x →
          normSum norm2 p (⟨s.funcs.map (divF · c), s.reals.map (fun r => ⟨r.name, r.value / c⟩), s.weights, s.ns⟩ : State F ℝ)
            = some (x / c ^ p) := by
        intro x hx
        rw [h2] at hx
        rw [h3, ← Option.some.inj hx, add_div, sum_div, sum_div]
        congr 2
        · apply sum_congr rfl
          intro i hi
          rw [mem_range, ← hs.nf] at hi
          rw [getD_lt' (List.map _ _) _ _ (by simpa using hi), getD_lt' (List.map _ s.funcs) _ _ (by simpa using hi),
            mul_div_assoc]
          simp only [List.getElem_map]
          rw [hom _ (List.getElem_mem _)]
        · apply sum_congr rfl
          intro i hi
          rw [mem_range, ← hs.nr] at hi
          rw [getD_lt' (List.map _ _) _ _ (by simpa using hi), getD_lt' (List.map _ s.reals) _ _ (by simpa using hi),
            mul_div_assoc]
          simp only [List.getElem_map, div_pow]
      rw [VS.norm] at hc
      obtain ⟨x, hx, hc⟩ := Option.bind_eq_some_iff.mp hc
      rw [VS.norm, hS x hx]
      simp only [Option.bind_some]
      split_ifs at hc with hp1 hneg
      · rw [if_pos hp1, ← Option.some.inj hc, hp1, pow_one, div_self]
        rw [← Option.some.inj hc] at hc0
        exact hc0.ne'
      · have hx0 : 0 ≤ x := not_lt.mp hneg
        have hcx : c ^ p = x := by
          rw [← Option.some.inj hc, ← Real.rpow_natCast, ← Real.rpow_mul hx0]
          rw [one_div, inv_mul_cancel₀ (by positivity), Real.rpow_one]
        have hxp : 0 < x := by rw [← hcx]; positivity
        rw [if_neg hp1, hcx, div_self hxp.ne', if_neg (by norm_num), Real.one_rpow]
  · intro hle
    rw [VS.normalize, h2]
    simp only [Option.bind_some, hc, if_neg (not_lt.mpr hle)]

/-- For odd exponents `norm` is not a norm: the parameters enter with their sign (no absolute value
is taken).  With `p = 1` the state `(0, -1)` has "norm" `-1`, with `p = 3` it has none (`nan`). -/
theorem C49_norm_odd_fails (norm2 : ℝ → ℕ → ℝ) (h1 : norm2 0 1 = 0) (h3 : norm2 0 3 = 0) :
    VS.norm norm2 1 (exState 0 (-1) 1 1) = some (-1) ∧ VS.norm norm2 3 (exState 0 (-1) 1 1) = none := by
  have w := (exState_wf 0 (-1) 1 1).1
  constructor
  · rw [VS.norm, normSum_eq .cont norm2 1 _ w]
    simp [Kind.nf, Kind.nr, exState, h1]
  · rw [VS.norm, normSum_eq .cont norm2 3 _ w]
    simp [Kind.nf, Kind.nr, exState, h3]
    norm_num

/-- `innerw` of two states with at least one function always raises (the function it needs is
shadowed by itself). -/
theorem C49_innerw_fails (s t : State F ℝ) (h : s.funcs ≠ []) : VS.innerw s t = none := by
  simp only [VS.innerw, Option.bind_eq_bind]
  rw [sumLoop_none s.funcs.length _ 0 0 (List.length_pos_iff.mpr h) rfl]
  rfl

/-! ## C50 -/

private lemma fill_some {α : Type} (m : ℕ) (f : ℕ → Option α) (l : List α) (n : ℕ) (hn : n ≤ m)
    (hl : l.length = m) (h : ∀ i, (hi : i < m) → f i = some (l[i]'(by omega))) :
    fill m f n = some ((l.take n).map some ++ List.replicate (m - n) none) := by
  induction n with
  | zero => simp [fill]
  | succ n ih =>
    simp only [fill, ih (by omega) h, h n (by omega), Option.bind_eq_bind, Option.bind_some]
    rw [if_pos (by omega)]
    congr 1
    apply List.ext_getElem
    · simp; omega
    intro i h1 h2
    rw [List.getElem_set]
    split_ifs with hi
    · subst hi
      rw [List.getElem_append_left (by simp; omega)]
      simp
    · rw [List.getElem_append, List.getElem_append]
      split_ifs with h3 h4 h4
      · simp
      · simp at h3 h4; omega
      · simp at h3 h4; omega
      · simp

private lemma fill_none {α : Type} (m : ℕ) (f : ℕ → Option α) (n i : ℕ) (hi : i < n)
    (h : f i = none ∨ m ≤ i) : fill m f n = none := by
  induction n with
  | zero => omega
  | succ n ih =>
    simp only [fill, Option.bind_eq_bind]
    by_cases hin : i = n
    · subst hin
      rcases h with h | h
      · cases fill m f i <;> simp [h]
      · cases fill m f i with
        | none => rfl
        | some a =>
          cases f i with
          | none => rfl
          | some b => simp [not_lt.mpr h]
    · rw [ih (by omega)]; rfl

/-- C50: with equally many functions and parameters (`ContinuationState`, `TwoParameterState`)
`np.real` and `np.imag` act on every component. -/
theorem C50_componentwise_partial (k : Kind) (hk : k.nf = k.nr) (partF : F → F) (partV : V → V)
    (s : State F V) (hs : StateWF k s) (hy : Synced s) :
    VS.part k partF partV s = some ⟨s.funcs.map partF, s.reals.map (fun p => ⟨p.name, partV p.value⟩),
      List.replicate (k.nf + k.nr) 1, s.ns⟩ := by
  have e1 := hs.nf
  have e3 := hs.nr
  simp only [VS.part, Option.bind_eq_bind]
  rw [fill_some s.reals.length _ (s.reals.map fun p => ⟨p.name, partV p.value⟩) s.funcs.length
    (by omega) (by simp) (by intro i hi; simp [List.getElem?_eq_getElem hi])]
  simp only [Option.bind_some]
  rw [fill_some s.funcs.length _ (s.funcs.map partF) s.reals.length
    (by omega) (by simp) (by intro i hi; simp [List.getElem?_eq_getElem hi])]
  simp only [Option.bind_some]
  rw [List.take_of_length_le (by simp; omega), List.take_of_length_le (by simp; omega),
    show s.reals.length - s.funcs.length = 0 by omega, show s.funcs.length - s.reals.length = 0 by omega]
  simp only [List.replicate_zero, List.append_nil, allSome_map, Option.bind_some]
  have hnm : (s.reals.map fun p => (⟨p.name, partV p.value⟩ : Param V)).map Param.name
      = s.reals.map Param.name := by rw [List.map_map]; rfl
  rw [construct_ok k _ _ s.ns none (by simpa using e3) (by rw [hnm]; exact hs.names),
    syncNs_names _ s.reals s.ns hnm, syncNs_synced s.reals s.ns hy]
  rfl

/-- C50 is false for the other classes: with different numbers of functions and parameters
(`DeflationState`, `TwoParContState`) `np.real` and `np.imag` always raise an `IndexError`. -/
theorem C50_fails (k : Kind) (hk : k.nf ≠ k.nr) (partF : F → F) (partV : V → V) (s : State F V)
    (hs : StateWF k s) : VS.part k partF partV s = none := by
  have e1 := hs.nf
  have e3 := hs.nr
  simp only [VS.part, Option.bind_eq_bind]
  by_cases h : s.reals.length < s.funcs.length
  · rw [fill_none s.reals.length _ s.funcs.length s.reals.length h (Or.inr le_rfl)]
    rfl
  · rw [Option.bind_eq_none_iff]
    intro nreals _
    rw [fill_none s.funcs.length _ s.reals.length s.funcs.length (by omega) (Or.inr le_rfl)]
    rfl

/-- Which classes are affected. -/
theorem C50_classes : Kind.nf .cont = Kind.nr .cont ∧ Kind.nf .tp = Kind.nr .tp ∧
    Kind.nf .defl ≠ Kind.nr .defl ∧ Kind.nf .tpCont ≠ Kind.nr .tpCont := by decide

/-- C50: `np.conj` is a ufunc and therefore never reaches the handler with the exchanged bounds: for
every class it acts on every component. -/
theorem C50_conj (k : Kind) (conjF : F → F) (conjV : V → V) (opF : List (F ⊕ V) → Option F)
    (opR : List V → Option V) (hF : ∀ f, opF [.inl f] = some (conjF f)) (hR : ∀ x, opR [x] = some (conjV x))
    (s : State F V) (hs : StateWF k s) (hy : Synced s) :
    ufunc k opF opR [.state s] = some ⟨s.funcs.map conjF,
      s.reals.map (fun p => ⟨p.name, conjV p.value⟩), List.replicate (k.nf + k.nr) 1, s.ns⟩ := by
  have e3 := hs.nr
  by_cases hr : s.reals = []
  · have h1 := ufunc_core k opF opR [.state s] s rfl hs hy (s.funcs.map conjF) [] (by simp [hs.nf])
      (by simp [← e3, hr]) (by
        intro i hi
        have : i < s.funcs.length := by rw [hs.nf]; exact hi
        simp [Operand.func, allSome, List.getElem?_eq_getElem this, hF])
      (by intro i hi; rw [← e3, hr] at hi; simp at hi)
    rw [h1, hr]; rfl
  · obtain ⟨p, hp⟩ := List.exists_mem_of_ne_nil _ hr
    have := (C49_scalar k opF opR s hs hy p.value (s.funcs.map conjF)
      (s.reals.map fun q => conjV q.value)).2.2
      (by rw [List.map_map]; exact List.map_congr_left fun f _ => hF f)
      (by rw [List.map_map]; exact List.map_congr_left fun q _ => hR _)
    rw [this]
    congr 2
    rw [List.zipWith_map_right, List.zipWith_self]

/-! ## C51 -/

private lemma zip_names (ps : List (Param ℝ)) :
    List.zipWith (fun n x => (⟨n, x⟩ : Param ℝ)) (ps.map Param.name) (ps.map Param.value) = ps := by
  rw [List.zipWith_map, List.zipWith_self]
  exact List.map_id _

private lemma fromCoeffs_core (k : Kind) (eps : ℝ) (u : ChebFun) (hu : u.onefun.Proper)
    (ps : List (Param ℝ)) :
    ∃ f, f.onefun.coeffs = u.onefun.coeffs ∧ f.dom = u.dom ∧
      VS.fromCoeffs k eps u.dom (u.flatten ++ ps.map Param.value) (ps.map Param.name)
        u.onefun.coeffs.m
      = (match k with
        | .tp => (zerosLikeFun eps f).bind fun z => construct k [f, z] ps []
        | _ => construct k [f] ps []) := by
  obtain ⟨g, hg, hgc, hgd⟩ := C19_from_flatten u hu eps
  have hz : g.onefun.coeffs.n * g.onefun.coeffs.m ≠ 0 := by rw [hgc]; exact hu.size
  obtain ⟨t, ht, -, -, -, -, htc⟩ := mk'_false g.onefun.coeffs hz g.onefun.eps g.onefun.ishappy
    g.onefun.hscale g.onefun.maxLength
  have hz2 : t.coeffs.n * t.coeffs.m ≠ 0 := by rw [htc]; exact hz
  obtain ⟨t2, ht2, -, -, -, -, ht2c⟩ := mk'_false t.coeffs hz2 t.eps t.ishappy t.eps t.maxLength
  have hlen : (u.flatten ++ ps.map Param.value).length - (ps.map Param.name).length
      = u.flatten.length := by simp
  have hmod : u.flatten.length % u.onefun.coeffs.m = 0 := by
    by_contra hne
    have := C19_refused eps u.dom u.flatten u.onefun.coeffs.m
      (Or.inl fun h => hne (Nat.mod_eq_zero_of_dvd h))
    rw [this] at hg
    simp at hg
  refine ⟨⟨g.dom, t2⟩, by rw [ht2c, htc, hgc], hgd, ?_⟩
  have hreal : realFun g = some ⟨g.dom, t⟩ := by simp [realFun, realTech, ht]
  have hdeep : ChebFun.deepcopy ⟨g.dom, t⟩ = some ⟨g.dom, t2⟩ := by
    simp [ChebFun.deepcopy, Tech.deepcopy, ht2]
  simp only [VS.fromCoeffs, hlen, List.take_left', List.drop_left', zip_names]
  rw [if_neg hu.m_ne, if_neg (by simp), if_neg (by rw [hmod]; simp), hg]
  simp only [Option.bind_eq_bind, Option.bind_some, hreal, hdeep]
  cases k <;> rfl

/-- C51: for continuation, deflation and two-parameter continuation states, rebuilding a state from
its flattened coefficients (with its parameter names, number of columns and domain) gives back the
coefficients of the function, the domain and the parameters.  Missing: the namespace and custom
weights are not part of the vector (the result has an empty namespace and unit weights), and
`TwoParameterState`, for which the property is false, see `C51_fails`. -/
theorem C51_roundtrip_partial (k : Kind) (hk : k ≠ .tp) (eps : ℝ) (u : ChebFun) (hu : u.onefun.Proper)
    (ps : List (Param ℝ)) (hps : ps.length = k.nr) (hn : (ps.map Param.name).Nodup) (w : List ℝ)
    (ns : NS ℝ) :
    ∃ v r f, VS.flatten (⟨[u], ps, w, ns⟩ : State ChebFun ℝ) = some v ∧
      VS.fromCoeffs k eps u.dom v (ps.map Param.name) u.onefun.coeffs.m = some r ∧
      r.funcs = [f] ∧ f.onefun.coeffs = u.onefun.coeffs ∧ f.dom = u.dom ∧ r.reals = ps ∧
      r.ns = [] ∧ r.weights = List.replicate (k.nf + k.nr) 1 := by
  obtain ⟨f, hf1, hf2, hf3⟩ := fromCoeffs_core k eps u hu ps
  refine ⟨u.flatten ++ ps.map Param.value, ⟨[f], ps, List.replicate (k.nf + k.nr) 1, []⟩, f, rfl, ?_,
    rfl, hf1, hf2, rfl, rfl, rfl⟩
  rw [hf3]
  have hc := construct_ok k [f] ps [] none hps hn
  have hsy : syncNs ps ([] : NS ℝ) = [] := syncNs_synced ps [] (by simp)
  rw [hsy] at hc
  cases k with
  | tp => exact absurd rfl hk
  | cont => exact hc
  | defl => exact hc
  | tpCont => exact hc

private lemma polyfit_zero (n : ℕ) (hn : 0 < n) :
    polyfitCol (List.replicate n 0) = List.replicate n 0 := by
  have hne : (List.replicate n (0 : ℝ)) ≠ [] := by
    intro h
    have := congrArg List.length h
    simp at this
    omega
  have h0 : polyvalCol (List.replicate n 0) = List.replicate n 0 := by
    rw [polyvalCol_eq _ hne, List.length_replicate]
    have : chebEval (List.replicate n (0 : ℝ)) = fun _ => 0 := by
      funext x
      unfold chebEval
      apply sum_eq_zero
      intro k hk
      rw [mem_range, List.length_replicate] at hk
      rw [getD_lt' _ _ _ (by simpa using hk), List.getElem_replicate, zero_mul]
    rw [this, List.map_const', chebpts2_length]
  have := polyfit_polyval_col _ hne
  rwa [h0] at this

/-- C51 is false for `TwoParameterState`: `flatten` omits the second function, and the rebuilt state
has the zero function in its place, whatever it was. -/
theorem C51_fails (eps : ℝ) (u phi : ChebFun) (hu : u.onefun.Proper)
    (p q : Param ℝ) (hn : p.name ≠ q.name) (w : List ℝ) (ns : NS ℝ) :
    ∃ v r f z, VS.flatten (⟨[u, phi], [p, q], w, ns⟩ : State ChebFun ℝ) = some v ∧
      VS.fromCoeffs .tp eps u.dom v [p.name, q.name] u.onefun.coeffs.m = some r ∧
      r.funcs = [f, z] ∧ f.onefun.coeffs = u.onefun.coeffs ∧ r.reals = [p, q] ∧
      ∀ c ∈ z.onefun.coeffs.cols, ∀ x ∈ c, x = 0 := by
  obtain ⟨f, hf1, hf2, hf3⟩ := fromCoeffs_core .tp eps u hu [p, q]
  set a : Arr ℝ := ⟨f.onefun.coeffs.n, List.replicate f.onefun.coeffs.m
    (List.replicate f.onefun.coeffs.n 0)⟩ with ha
  have hwf : a.WF := by
    intro c hc
    rw [ha] at hc
    simp only [List.mem_replicate] at hc
    rw [hc.2, List.length_replicate]
  have hzero : ∀ c ∈ (polyfit a).cols, ∀ x ∈ c, x = 0 := by
    intro c hc x hx
    simp only [polyfit, Arr.mapCols, ha, List.map_replicate, List.mem_replicate] at hc
    have hpos : 0 < f.onefun.coeffs.n := by rw [hf1]; exact hu.n_pos
    rw [hc.2, polyfit_zero _ hpos] at hx
    exact (List.mem_replicate.mp hx).2
  have hz : (polyfit a).n * (polyfit a).m ≠ 0 := by
    have := hu.size
    rw [← hf1] at this
    simpa [polyfit, Arr.mapCols, Arr.m, ha] using this
  obtain ⟨t, ht, -, -, -, -, htc⟩ := mk'_false _ hz eps false (ChebFun.hscale f.dom) (1 + 2 ^ 14)
  refine ⟨u.flatten ++ [p, q].map Param.value, ⟨[f, ⟨f.dom, t⟩], [p, q], List.replicate 4 1, []⟩, f,
    ⟨f.dom, t⟩, rfl, ?_, rfl, hf1, rfl, ?_⟩
  · refine hf3.trans ?_
    have : zerosLikeFun eps f = some ⟨f.dom, t⟩ := by
      simp only [zerosLikeFun, ← ha, ht]; rfl
    simp only [this, Option.bind_some]
    rw [construct_ok .tp _ _ [] none rfl (by simpa using hn)]
    rw [syncNs_synced [p, q] [] (by simp)]
    rfl
  · simp only [htc]; exact hzero

/-! ## C78: parameter environment -/

private lemma lookup_snoc (l : List (String × V)) (e : String × V) (n : String) :
    VS.lookup (l ++ [e]) n = if e.1 = n then some e.2 else VS.lookup l n := by
  unfold VS.lookup
  rw [List.reverse_append, List.reverse_singleton, List.singleton_append, List.find?_cons]
  by_cases h : e.1 = n <;> simp [h]

private lemma lookup_append (l m : List (String × V)) (n : String) :
    VS.lookup (l ++ m) n = (VS.lookup m n).or (VS.lookup l n) := by
  unfold VS.lookup
  rw [List.reverse_append, List.find?_append]
  cases m.reverse.find? _ <;> simp

private lemma lookup_none (l : List (String × V)) (n : String) :
    VS.lookup l n = none ↔ n ∉ l.map Prod.fst := by
  unfold VS.lookup
  simp only [Option.map_eq_none_iff, List.find?_eq_none, List.mem_reverse, decide_eq_true_eq,
    List.mem_map, not_exists, not_and]

private lemma lookup_map (l : List (String × V)) (g : String × V → String × V)
    (hg : ∀ x, (g x).1 = x.1) (n : String) :
    VS.lookup (l.map g) n = ((l.reverse.find? fun e => e.1 = n).map g).map Prod.snd := by
  unfold VS.lookup
  rw [← List.map_reverse, List.find?_map]
  congr 3
  funext e
  simp [hg]

private lemma toDict_snoc (l : List (String × V)) (e : String × V) :
    toDict (l ++ [e]) = if e.1 ∈ (toDict l).map Prod.fst
      then (toDict l).map (fun x => if x.1 = e.1 then e else x) else toDict l ++ [e] := by
  simp only [toDict, List.foldl_append, List.foldl_cons, List.foldl_nil]
  rfl

private lemma toDict_lookup (l : List (String × V)) (n : String) :
    VS.lookup (toDict l) n = VS.lookup l n := by
  induction l using List.reverseRecOn with
  | nil => rfl
  | append_singleton l e ih =>
    rw [toDict_snoc, lookup_snoc, ← ih]
    split_ifs with h1 h2 h2
    · rw [lookup_map _ _ (by intro x; split_ifs with h <;> simp [h])]
      subst h2
      cases hf : (toDict l).reverse.find? fun x => decide (x.1 = e.1) with
      | none =>
        have : VS.lookup (toDict l) e.1 = none := by rw [VS.lookup, hf]; rfl
        exact absurd h1 ((lookup_none _ _).mp this)
      | some x =>
        have := List.find?_some hf
        simp only [decide_eq_true_eq] at this
        simp [this]
    · rw [lookup_map _ _ (by intro x; split_ifs with h <;> simp [h])]
      rw [VS.lookup]
      cases hf : (toDict l).reverse.find? fun x => decide (x.1 = n) with
      | none => rfl
      | some x =>
        have := List.find?_some hf
        simp only [decide_eq_true_eq] at this
        have hx : x.1 ≠ e.1 := by rw [this]; exact fun hh => h2 hh.symm
        simp [hx]
    · rw [lookup_snoc, if_pos h2]
    · rw [lookup_snoc, if_neg h2]

private lemma lookup_erase (ns : NS V) (m n : String) (h : m ≠ n) :
    VS.lookup (NS.erase ns m) n = VS.lookup ns n := by
  induction ns using List.reverseRecOn with
  | nil => rfl
  | append_singleton l e ih =>
    have : NS.erase (l ++ [e]) m = NS.erase l m ++ (if e.1 ≠ m then [e] else []) := by
      simp only [NS.erase, List.filter_append]
      congr 1
      simp only [List.filter_singleton]
      by_cases he : e.1 = m <;> simp [he]
    rw [this, lookup_snoc]
    by_cases he : e.1 = m
    · rw [if_neg (by simpa using he), List.append_nil, ih, if_neg (by rw [he]; exact h)]
    · rw [if_pos he, lookup_snoc, ih]

private lemma lookup_syncNs (rs : List (Param V)) (ns : NS V) (n : String)
    (h : n ∉ rs.map Param.name) : VS.lookup (syncNs rs ns) n = VS.lookup ns n := by
  induction rs generalizing ns with
  | nil => rfl
  | cons r rs ih =>
    simp only [List.map_cons, List.mem_cons, not_or] at h
    rw [syncNs]
    split_ifs
    · rw [ih _ h.2, lookup_erase _ _ _ (fun hh => h.1 hh.symm)]
    · rfl

private lemma lookup_params (ps : List (Param V)) (hn : (ps.map Param.name).Nodup) :
    (∀ p ∈ ps, VS.lookup (ps.map fun p => (p.name, p.value)) p.name = some p.value) ∧
    ∀ n ∉ ps.map Param.name, VS.lookup (ps.map fun p => (p.name, p.value)) n = none := by
  constructor
  · induction ps using List.reverseRecOn with
    | nil => simp
    | append_singleton l e ih =>
      rw [List.map_append, List.nodup_append] at hn
      intro p hp
      rw [List.map_append, List.map_singleton, lookup_snoc]
      split_ifs with h
      · rw [List.mem_append, List.mem_singleton] at hp
        rcases hp with hp | hp
        · exact absurd h.symm (hn.2.2 _ (List.mem_map_of_mem hp) _ (by simp))
        · rw [hp]
      · rw [List.mem_append, List.mem_singleton] at hp
        rcases hp with hp | hp
        · exact ih hn.1 p hp
        · exact absurd (by rw [hp]) h
  · intro n h
    rw [lookup_none]
    rw [List.map_map]
    exact h

private lemma env_of (fs : List F) (ps : List (Param V)) (w : List ℝ) (ns : NS V)
    (hn : (ps.map Param.name).Nodup) :
    (∀ p ∈ ps, VS.lookup (items (⟨fs, ps, w, syncNs ps ns⟩ : State F V)) p.name = some p.value) ∧
    ∀ n ∉ ps.map Param.name,
      VS.lookup (items (⟨fs, ps, w, syncNs ps ns⟩ : State F V)) n = VS.lookup ns n := by
  obtain ⟨h1, h2⟩ := lookup_params ps hn
  constructor
  · intro p hp
    rw [items, lookup_append, h1 p hp]
    rfl
  · intro n h
    rw [items, lookup_append, h2 n h, Option.none_or, lookup_syncNs _ _ _ h]

/-- C78: `from_state` keeps the value of every parameter of the old state that is not one of the new
free parameters, and the new free parameters have the given values — provided no parameter of the old
state has the name of one of the constructor's own arguments (`a`, `u`, `p1`, `p2`). -/
theorem C78_from_state_partial (k : Kind) (u : F) (extra : List F) (other : State F V)
    (ps : List (Param V)) (hps : ps.length = k.nr) (hn : (ps.map Param.name).Nodup)
    (hres : ∀ n ∈ k.reserved, n ∉ (items other).map Prod.fst) :
    ∃ r, fromState k u extra other ps = some r ∧ r.reals = ps ∧ r.funcs = u :: extra ∧
      (∀ p ∈ ps, VS.lookup (items r) p.name = some p.value) ∧
      ∀ n ∉ ps.map Param.name, VS.lookup (items r) n = VS.lookup (items other) n := by
  have hc := construct_ok k (u :: extra) ps (toDict (items other)) none hps hn
  obtain ⟨h1, h2⟩ := env_of (u :: extra) ps (List.replicate (k.nf + k.nr) 1) (toDict (items other)) hn
  refine ⟨_, ?_, rfl, rfl, h1, fun n h => (h2 n h).trans (toDict_lookup _ _)⟩
  rw [fromState, if_neg]
  · exact hc
  · intro hany
    rw [List.any_eq_true] at hany
    obtain ⟨e, he, hr⟩ := hany
    simp only [decide_eq_true_eq] at hr
    have h3 := hres _ hr
    rw [← lookup_none, ← toDict_lookup, lookup_none] at h3
    exact h3 (List.mem_map_of_mem he)

/-- C78 is false in general: a state with a parameter (free or not) named like a constructor argument
cannot be converted; `from_state` always raises a `TypeError`. -/
theorem C78_fails (k : Kind) (u : F) (extra : List F) (other : State F V) (ps : List (Param V))
    (n : String) (hn : n ∈ k.reserved) (ho : n ∈ (items other).map Prod.fst) :
    fromState k u extra other ps = none := by
  rw [fromState, if_pos]
  rw [List.any_eq_true]
  by_contra hne
  push Not at hne
  have : n ∉ (toDict (items other)).map Prod.fst := by
    intro hm
    obtain ⟨e, he, rfl⟩ := List.mem_map.mp hm
    exact hne e he (by simpa using hn)
  rw [← lookup_none, toDict_lookup, lookup_none] at this
  exact this ho

/-- The continuation states used in the project's own tests have a free parameter called `a`: they
are examples of the failure, while a parameter called `d` is fine. -/
example (u : F) (w : List ℝ) :
    fromState .cont u [] (⟨[u], [⟨"a", 1⟩], w, []⟩ : State F ℝ) [⟨"b", 2⟩] = none :=
  C78_fails .cont u [] _ _ "a" (by decide) (by simp [items])

example (u : F) (w : List ℝ) :
    ∃ r, fromState .cont u [] (⟨[u], [⟨"d", 1⟩], w, [("b", 5)]⟩ : State F ℝ) [⟨"b", 2⟩] = some r ∧
      VS.lookup (items r) "b" = some 2 ∧ VS.lookup (items r) "d" = some 1 := by
  obtain ⟨r, h1, -, -, h2, h3⟩ := C78_from_state_partial .cont u []
    (⟨[u], [⟨"d", 1⟩], w, [("b", 5)]⟩ : State F ℝ) [⟨"b", 2⟩] rfl (by simp)
    (by simp [Kind.reserved, items])
  refine ⟨r, h1, h2 ⟨"b", 2⟩ (by simp), ?_⟩
  rw [h3 "d" (by simp)]
  simp [items, VS.lookup]

/-- C78: arithmetic keeps the values of all parameters that are not free. -/
theorem C78_arithmetic (k : Kind) (opF : List (F ⊕ V) → Option F) (opR : List V → Option V)
    (s t r : State F V) (hs : StateWF k s) (ht : StateWF k t) (hy : Synced s) (fs : List F) (vs : List V)
    (hf : List.zipWith (fun f g => opF [.inl f, .inl g]) s.funcs t.funcs = fs.map some)
    (hv : List.zipWith (fun p q => opR [p.value, q.value]) s.reals t.reals = vs.map some)
    (h : ufunc k opF opR [.state s, .state t] = some r) :
    ∀ n ∉ s.reals.map Param.name, VS.lookup (items r) n = VS.lookup (items s) n := by
  have e3 := hs.nr
  have e4 := ht.nr
  obtain ⟨l2, -⟩ := zip_some _ _ _ _ (by omega) hv
  rw [C49_binary k opF opR s t hs ht hy fs vs hf hv] at h
  intro n hn
  rw [← Option.some.inj h]
  have hnm := names_zip s.reals vs (by omega)
  rw [items, lookup_append, (lookup_params _ (by rw [hnm]; exact hs.names)).2 n (by rw [hnm]; exact hn),
    items, lookup_append, (lookup_params _ hs.names).2 n hn]

/-- C78: the constructors of the classes with at most one parameter leave no free parameter in the
namespace. -/
theorem C78_synced_partial (k : Kind) (hk : k.nr ≤ 1) (fs : List F) (ps : List (Param V)) (ns : NS V)
    (w : Option (List ℝ)) (hps : ps.length = k.nr) (hn : (ps.map Param.name).Nodup) :
    ∃ r, construct k fs ps ns w = some r ∧ Synced r ∧ r.reals = ps := by
  refine ⟨_, construct_ok k fs ps ns w hps hn, ?_, rfl⟩
  match ps, hps with
  | [], _ => intro p hp; simp at hp
  | [p], _ =>
    intro q hq
    simp only [List.mem_singleton] at hq
    subst hq
    simp only [syncNs]
    split_ifs with h
    · simp [NS.erase]
    · exact h
  | _ :: _ :: _, h => simp at h; omega

/-- With two parameters the synchronisation is incomplete: if the first name is not in the namespace,
the second one is left there, with its old value (it is then listed twice by `items`). -/
theorem C78_synced_fails (fs : List F) :
    ∃ r, construct .tpCont fs [⟨"b", (1 : ℝ)⟩, ⟨"c", 2⟩] [("c", 5)] = some r ∧ ¬ Synced r ∧
      items r = [("c", 5), ("b", 1), ("c", 2)] := by
  refine ⟨_, construct_ok .tpCont fs _ _ none rfl (by simp), ?_, ?_⟩
  · intro h
    exact h ⟨"c", 2⟩ (by simp) (by simp [syncNs])
  · simp [items, syncNs]

/-- C78: the namespace is shared between an operand and the result of an operation: assigning a
parameter of the result (`r[key] = x`) changes that parameter of the left operand. -/
theorem C78_alias_fails (k : Kind) (opF : List (F ⊕ V) → Option F) (opR : List V → Option V)
    (h h' : NSHeap V) (s t r : ObjState F V) (hr : s.ufunc2 k opF opR h t = some (h', r))
    (key : String) (x : V) :
    ∃ v, s.view (r.setItem h' key x) = some v ∧ VS.lookup v.ns key = some x := by
  simp only [ObjState.ufunc2, Option.bind_eq_bind, Option.bind_eq_some_iff] at hr
  obtain ⟨vs, hvs, vt, hvt, q, hq, he⟩ := hr
  simp only [Option.some.injEq, Prod.mk.injEq] at he
  obtain ⟨rfl, rfl⟩ := he
  simp only [ObjState.view, Option.map_eq_some_iff] at hvs
  obtain ⟨ns, hns, -⟩ := hvs
  have hlt := (List.getElem?_eq_some_iff.mp hns).1
  refine ⟨{ s.st with ns := toDict (((h.set s.addr q.ns)[s.addr]?.getD []) ++ [(key, x)]) }, ?_, ?_⟩
  · simp only [ObjState.view, ObjState.setItem]
    rw [List.getElem?_set_self (by simpa using hlt)]
    rfl
  · rw [toDict_lookup, lookup_snoc, if_pos rfl]

/-- C78: deep copies are independent: assigning a parameter of the copy changes no other state. -/
theorem C78_deepcopy_independent (k : Kind) (copyF : F → F) (h h' : NSHeap V) (s r t : ObjState F V)
    (hr : s.deepcopy k copyF h = some (h', r)) (v : State F V) (ht : t.view h = some v) (key : String)
    (x : V) : t.view (r.setItem h' key x) = some v := by
  simp only [ObjState.deepcopy, Option.bind_eq_bind, Option.bind_eq_some_iff] at hr
  obtain ⟨vs, hvs, q, hq, he⟩ := hr
  simp only [Option.some.injEq, Prod.mk.injEq] at he
  obtain ⟨rfl, rfl⟩ := he
  simp only [ObjState.view, ObjState.setItem, Option.map_eq_some_iff] at ht ⊢
  obtain ⟨ns, hns, hv⟩ := ht
  have hlt := (List.getElem?_eq_some_iff.mp hns).1
  refine ⟨ns, ?_, hv⟩
  rw [List.getElem?_set_ne (by omega), List.getElem?_append_left hlt, hns]

/-! ## C79: HDF5 -/

/-- C79: a continuation state read back from an HDF5 file is the state that was written (functions
with their settings, parameter, weights, namespace). -/
theorem C79_roundtrip (u : ChebFun) (hu : u.onefun.Proper) (hr : Recorded u.onefun) (p : Param ℝ)
    (w : List ℝ) (ns : NS ℝ) (hy : p.name ∉ ns.map Prod.fst) :
    contFromHDF5 (writeHDF5 (⟨[u], [p], w, ns⟩ : State ChebFun ℝ)) = some ⟨[u], [p], w, ns⟩ := by
  simp only [contFromHDF5, writeHDF5, List.map_singleton, List.getLast?_singleton,
    Option.bind_eq_bind, Option.bind_some, C27_roundtrip u hu hr]
  rw [construct_ok .cont _ _ _ _ rfl (by simp)]
  rw [syncNs_synced [p] ns (by intro q hq; rw [List.mem_singleton] at hq; rw [hq]; exact hy)]
  rfl

/-! ## C80: Moore–Penrose states -/

/-- C80: an operation on two Moore–Penrose states acts on the main parts as on ordinary states, the
tangent of the result is the combination of the tangents, normalised: its norm is one (if the
combination has norm above `1e-14`), and inner products only see the main parts. -/
theorem C80_mp (k : Kind) (norm2 : F → ℕ → ℝ) (divF : F → ℝ → F)
    (op : State F ℝ → State F ℝ → Option (State F ℝ)) (x y : MP (State F ℝ)) (nu nv : State F ℝ)
    (hu : op x.u y.u = some nu) (hv : op x.v y.v = some nv) (hw : StateWF k nv) (c : ℝ)
    (hc : VS.norm norm2 2 nv = some c) (hlt : 1e-14 < c)
    (hom : ∀ f ∈ nv.funcs, norm2 (divF f c) 2 = norm2 f 2 / c ^ 2)
    (dotF : F → F → Option ℝ) (z : MP (State F ℝ)) :
    ∃ r, MP.ufunc2 op (VS.normalize norm2 divF 2) x y = some r ∧ r.u = nu ∧
      VS.norm norm2 2 r.v = some 1 ∧ r.v.funcs = nv.funcs.map (divF · c) ∧
      MP.dot (VS.dot dotF) r z = VS.dot dotF nu z.u := by
  obtain ⟨q, hq, h1, h2, -⟩ := (C49_normalize k norm2 divF 2 (by norm_num) nv hw c hc hom).1 hlt
  refine ⟨⟨nu, q⟩, ?_, rfl, h1, h2, rfl⟩
  simp only [MP.ufunc2, hu, hv, Option.bind_eq_bind, Option.bind_some, hq]

end Funpy.Props
