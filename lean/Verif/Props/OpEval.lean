import Verif.Model.OpEval
import Verif.Props.ChebObj
import Verif.Props.ChebChop
import Verif.Props.ChebCompose
import Verif.Lemmas.Tech
import Verif.Lemmas.ListAux

/-!
# C99: evaluating an operator; C104: the life of an operator object
-/

namespace Funpy.Props
open Funpy.OpEval Funpy.Cheb Spec Finset Mapping

/-! ## C99 -/

/-- `eqs` evaluate to the functions `gs`. -/
def Evaluates (eqs : List Eqn) (env : Env) (cols gs : List ChebFun) : Prop :=
  List.Forall₂ (fun r g => r env cols = some g) eqs gs

/-- The coefficients of the (first column of the) value of an equation. -/
def coef (g : ChebFun) : List ℝ := g.onefun.coeffs.cols.getD 0 []

theorem fillLoop_eq (env : Env) (cols : List ChebFun) (n : ℕ) :
    ∀ (eqs : List Eqn) (gs : List ChebFun), Evaluates eqs env cols gs → ∀ (i : ℕ) (v : List (List ℝ)),
      i + gs.length ≤ v.length →
      fillLoop env cols n eqs i v = some (v.take i ++ gs.map (fun g => prolongCol (coef g) n) ++ v.drop (i + gs.length)) := by
  intro eqs gs h
  induction h with
  | nil => intro i v hi; simp [fillLoop]
  | @cons r g eqs gs hr hrest ih =>
    intro i v hi
    simp only [List.length_cons] at hi
    rw [fillLoop, hr]
    simp only [Option.bind_eq_bind, Option.bind_some]
    rw [if_pos (by omega), ih (i + 1) _ (by simp; omega)]
    congr 1
    have h1 : (v.set i (prolongCol (coef g) n)).take (i + 1) = v.take i ++ [prolongCol (coef g) n] := by
      apply List.ext_getElem?
      intro j
      rw [List.getElem?_take, List.getElem?_set]
      rcases lt_trichotomy j i with hj | hj | hj
      · rw [if_pos (by omega), if_neg (by omega), List.getElem?_append_left (by simp; omega), List.getElem?_take, if_pos hj]
      · subst hj
        rw [if_pos (by omega), if_pos rfl, if_pos (by omega), List.getElem?_append_right (by simp)]
        simp [show min j v.length = j by omega]
      · rw [if_neg (by omega), List.getElem?_eq_none (by simp; omega)]
    have h2 : (v.set i (prolongCol (coef g) n)).drop (i + 1 + gs.length) = v.drop (i + 1 + gs.length) := by
      rw [List.drop_set, if_pos (by omega)]
    change List.take (i + 1) (v.set i (prolongCol (coef g) n)) ++ _ ++ List.drop (i + 1 + gs.length) (v.set i (prolongCol (coef g) n)) = _
    rw [h1, h2]
    simp only [List.map_cons, List.length_cons, List.append_assoc, List.cons_append, List.nil_append]
    rw [show i + 1 + gs.length = i + (gs.length + 1) by omega]

theorem fillLoop_none (env : Env) (cols : List ChebFun) (n : ℕ) :
    ∀ (eqs : List Eqn) (gs : List ChebFun), Evaluates eqs env cols gs → ∀ (i : ℕ) (v : List (List ℝ)),
      v.length < i + gs.length → i ≤ v.length → fillLoop env cols n eqs i v = none := by
  intro eqs gs h
  induction h with
  | nil => intro i v hi hi'; simp at hi; omega
  | @cons r g eqs gs hr hrest ih =>
    intro i v hi hi'
    simp only [List.length_cons] at hi
    rw [fillLoop, hr]
    simp only [Option.bind_eq_bind, Option.bind_some]
    split_ifs with h
    · exact ih (i + 1) _ (by simp; omega) (by simp; omega)
    · rfl

/-- The array `Residual.update` leaves behind. -/
theorem update_eq (r : Residual) (env : Env) (cols gs : List ChebFun) (h : Evaluates r.rhs env cols gs)
    (hlen : gs.length ≤ cols.length) :
    r.update env cols = some { r with values := some ⟨r.nDisc, gs.map (fun g => prolongCol (coef g) r.nDisc) ++
      List.replicate (cols.length - gs.length) (List.replicate r.nDisc 0)⟩ } := by
  rw [Residual.update, fillLoop_eq env cols r.nDisc _ gs h 0 _ (by simpa using hlen)]
  simp

/-- C99: with more equations than columns, evaluation raises (`IndexError`). -/
theorem C99_too_many (r : Residual) (env : Env) (cols gs : List ChebFun) (h : Evaluates r.rhs env cols gs)
    (hlen : cols.length < gs.length) : r.update env cols = none := by
  rw [Residual.update, fillLoop_none env cols r.nDisc _ gs h 0 _ (by simpa using hlen) (by simp)]
  rfl

/-- The compiled system, the operands and the values of the equations, as needed by the theorems below: the operator was compiled
to `L`, the argument is the function `f` with the columns `cols`, and with the parameters of the namespace (updated by the free parameters
of the argument) the equations have the values `gs` and the boundary conditions the values `br`. -/
structure Setting (op : Op) (L : LinSys) (u : Arg) (f : ChebFun) (cols gs : List ChebFun) (br : List ℝ) : Prop where
  /-- compiled -/
  sys : op.linSys = some L
  /-- no integral constraints -/
  noCts : L.cRhs = none
  /-- the function -/
  func : u.func = some f
  /-- its shape -/
  proper : f.onefun.Proper
  /-- its columns -/
  columns : columns f = some cols
  /-- values of the equations -/
  eqs : Evaluates L.rhs.rhs (assign L.env u.updateItems) cols gs
  /-- one equation per column -/
  count : gs.length = cols.length
  /-- values of the boundary conditions -/
  bcs : VS.allSome (L.bcs.map fun b => b (assign L.env u.updateItems) cols) = some br

theorem allSome_length {α : Type} : ∀ (l : List (Option α)) (xs : List α), VS.allSome l = some xs → xs.length = l.length := by
  intro l
  induction l with
  | nil => intro xs h; simp only [VS.allSome, Option.some.injEq] at h; subst h; rfl
  | cons a l ih =>
    intro xs h
    simp only [VS.allSome, Option.bind_eq_bind, Option.bind_eq_some_iff] at h
    obtain ⟨y, -, r, hr, h⟩ := h
    simp only [Option.some.injEq] at h
    subst h
    simp [ih r hr]

/-- The columns exist. -/
theorem columns_exist (f : ChebFun) (hf : f.onefun.Proper) : ∃ cols, columns f = some cols ∧ cols.length = f.onefun.coeffs.m := by
  have key : ∀ l : List ℕ, (∀ i ∈ l, i < f.onefun.coeffs.m) → ∃ cols, VS.allSome (l.map fun i : ℕ => f.getItem i) = some cols := by
    intro l
    induction l with
    | nil => intro _; exact ⟨[], rfl⟩
    | cons i l ih =>
      intro h
      obtain ⟨cols, hc⟩ := ih fun j hj => h j (List.mem_cons_of_mem _ hj)
      obtain ⟨s, hs, -⟩ := (C18_getItem f.onefun hf i).1 ⟨by omega, by exact_mod_cast h i (by simp)⟩
      refine ⟨⟨f.dom, s⟩ :: cols, ?_⟩
      have hg : f.getItem i = some ⟨f.dom, s⟩ := by simp [ChebFun.getItem, hs]
      simp [VS.allSome, hc, hg]
  obtain ⟨cols, hc⟩ := key (List.range f.onefun.coeffs.m) (by simp)
  exact ⟨cols, hc, by simpa using allSome_length _ _ hc⟩

theorem columns_length {f : ChebFun} {cols : List ChebFun} (h : columns f = some cols) : cols.length = f.onefun.coeffs.m := by
  simpa using allSome_length _ _ h

/-- The system after `update_partial`. -/
theorem updatePartial_eq {op : Op} {L : LinSys} {u : Arg} {f : ChebFun} {cols gs : List ChebFun} {br : List ℝ}
    (S : Setting op L u f cols gs br) (n : ℕ) :
    (L.setDisc n).updatePartial u = some { L.setDisc n with
      env := assign L.env u.updateItems
      rhs := ⟨n, L.rhs.rhs, some ⟨n, gs.map fun g => prolongCol (coef g) n⟩⟩
      ctsRes := br } := by
  have h := update_eq ⟨n, L.rhs.rhs, L.rhs.values⟩ (assign L.env u.updateItems) cols gs S.eqs S.count.le
  simp only [S.count, Nat.sub_self, List.replicate_zero, List.append_nil] at h
  simp only [LinSys.updatePartial, LinSys.setDisc, LinSys.setParameters, S.func, S.columns, Option.bind_eq_bind, Option.bind_some,
    S.noCts, Option.map_none, h, S.bcs]

/-- C99: what `op(u)` returns: a function on the domain of `u` with one column per equation and as many coefficients as `u`; column `i` holds
the leading coefficients of the value of equation `i`. -/
theorem C99_call (eps : ℝ) {op : Op} {L : LinSys} {u : Arg} {f : ChebFun} {cols gs : List ChebFun} {br : List ℝ}
    (S : Setting op L u f cols gs br) :
    ∃ v op', op.call eps u = some (v, op') ∧ v.dom = f.dom ∧ v.onefun.coeffs.n = f.onefun.coeffs.n ∧ v.onefun.Proper ∧
      v.onefun.coeffs.cols = gs.map fun g => prolongCol (coef g) f.onefun.coeffs.n := by
  have hlen := columns_length S.columns
  have hm : 0 < f.onefun.coeffs.m := Nat.pos_of_ne_zero S.proper.m_ne
  set n := f.onefun.coeffs.n with hn
  have hz : (⟨n, gs.map fun g => prolongCol (coef g) n⟩ : Arr ℝ).n * (⟨n, gs.map fun g => prolongCol (coef g) n⟩ : Arr ℝ).m ≠ 0 := by
    have h1 : 0 < n := S.proper.n_pos
    have h2 : 0 < (gs.map fun g => prolongCol (coef g) n).length := by rw [List.length_map, S.count, hlen]; exact hm
    exact (Nat.mul_pos h1 h2).ne'
  obtain ⟨t, ht, -, -, -, -, hc⟩ := mk'_some ⟨n, gs.map fun g => prolongCol (coef g) n⟩ hz eps false false (ChebFun.hscale f.dom) (1 + 2 ^ 14)
  simp only [Bool.false_and, Bool.false_eq_true, if_false] at hc
  refine ⟨⟨f.dom, t⟩, { op with linSys := some { L.setDisc n with
      env := assign L.env u.updateItems
      rhs := ⟨n, L.rhs.rhs, some ⟨n, gs.map fun g => prolongCol (coef g) n⟩⟩
      ctsRes := br } }, ?_, rfl, ?_, ?_, ?_⟩
  rotate_left
  · simp [hc]
  · refine ⟨?_, ?_⟩
    · intro c hcm
      simp only [hc] at hcm ⊢
      simp only [List.mem_map] at hcm
      obtain ⟨g, -, rfl⟩ := hcm
      rw [prolongCol_length]; simp
    · simp only [hc]; exact hz
  · simp [hc]
  · simp only [Op.call, S.sys, S.func, Option.bind_eq_bind, Option.bind_some]
    rw [← hn, updatePartial_eq S n]
    simp only [Option.bind_some, ht]

/-- C99: `op(u)` is exactly `F(u)` if the value of no equation has more coefficients than `u`. -/
theorem C99_exact (eps : ℝ) {op : Op} {L : LinSys} {u : Arg} {f : ChebFun} {cols gs : List ChebFun} {br : List ℝ}
    (S : Setting op L u f cols gs br) (hg : ∀ g ∈ gs, g.dom = f.dom ∧ g.onefun.Proper ∧ g.onefun.coeffs.m = 1)
    (hfit : ∀ g ∈ gs, g.onefun.coeffs.n ≤ f.onefun.coeffs.n) :
    ∃ v op', op.call eps u = some (v, op') ∧ v.dom = f.dom ∧ ∀ x, vals v x = gs.flatMap fun g => vals g x := by
  obtain ⟨v, op', h1, h2, -, -, h5⟩ := C99_call eps S
  refine ⟨v, op', h1, h2, fun x => ?_⟩
  simp only [vals, h2, h5, List.map_map]
  rw [List.map_eq_flatMap]
  apply List.flatMap_congr
  intro g hgm
  obtain ⟨hd, hp, hm⟩ := hg g hgm
  obtain ⟨c, hc⟩ := List.length_eq_one_iff.mp (show g.onefun.coeffs.cols.length = 1 from hm)
  have hcl : c.length = g.onefun.coeffs.n := hp.wf c (by rw [hc]; simp)
  simp only [hc, hd, List.map_cons, List.map_nil, Function.comp, coef, List.getD_cons_zero]
  congr 1
  apply chebEval_congr_getD
  intro k
  rw [prolongCol_getD]
  split_ifs with hk
  · rfl
  · rw [getD_ge c k (by have := hfit g hgm; omega)]

/-- C99: in general the error of `op(u)` on the domain is at most the sum of the moduli of the coefficients beyond the length of `u`. -/
theorem C99_error (eps : ℝ) {op : Op} {L : LinSys} {u : Arg} {f : ChebFun} {cols gs : List ChebFun} {br : List ℝ}
    (S : Setting op L u f cols gs br) (hd : f.dom.e0 < f.dom.e1) (hg : ∀ g ∈ gs, g.dom = f.dom) :
    ∃ v op', op.call eps u = some (v, op') ∧ v.dom = f.dom ∧ ∀ x ∈ Set.Icc f.dom.e0 f.dom.e1, ∀ i (hi : i < gs.length),
      |(vals v x).getD i 0 - (vals gs[i] x).getD 0 0| ≤ (((coef gs[i]).drop f.onefun.coeffs.n).map abs).sum := by
  obtain ⟨v, op', h1, h2, -, -, h5⟩ := C99_call eps S
  refine ⟨v, op', h1, h2, fun x hx i hi => ?_⟩
  have hval : (vals v x).getD i 0 = chebEval (prolongCol (coef gs[i]) f.onefun.coeffs.n) (bwd f.dom x) := by
    rw [getD_lt' _ _ _ (by simp [vals, h5, hi])]
    simp [vals, h2, h5]
  have hval' : (vals gs[i] x).getD 0 0 = chebEval (coef gs[i]) (bwd f.dom x) := by
    rw [vals, hg gs[i] (List.getElem_mem hi), coef]
    cases gs[i].onefun.coeffs.cols <;> simp [chebEval]
  rw [hval, hval']
  generalize coef gs[i] = c
  set n := f.onefun.coeffs.n
  have hy : |bwd f.dom x| ≤ 1 := (bwd_mem f.dom hd x hx).1
  set y := bwd f.dom x
  set N := max n c.length
  rw [chebEval_eq_of_getD (prolongCol c n) N (by rw [prolongCol_length]; simp [N]) y,
    chebEval_eq_of_getD c N (le_max_right _ _) y, ← sum_sub_distrib]
  have hsum : ((c.drop n).map abs).sum = ∑ k ∈ Finset.range N, if k < n then 0 else |c.getD k 0| := by
    have h1 : ∀ (l : List ℝ), (l.map abs).sum = ∑ k ∈ Finset.range l.length, |l.getD k 0| := by
      intro l
      rw [list_sum_eq, List.length_map]
      apply sum_congr rfl
      intro k hk
      rw [getD_lt' _ _ _ (by simpa using hk), getD_lt' l _ _ (by simpa using hk), List.getElem_map]
    rw [h1]
    have h2 : N = n + (c.drop n).length := by simp [N]; omega
    rw [h2, Finset.sum_range_add, sum_eq_zero (s := Finset.range n)]
    · rw [zero_add]
      apply sum_congr rfl
      intro k _
      rw [if_neg (by omega)]
      simp only [List.getD_eq_getElem?_getD, List.getElem?_drop]
    · intro k hk
      rw [if_pos (by simpa using hk)]
  rw [hsum]
  refine (abs_sum_le_sum_abs _ _).trans (sum_le_sum fun k _ => ?_)
  rw [prolongCol_getD]
  by_cases hk : k < n
  · rw [if_pos (by exact_mod_cast hk), if_pos hk]; simp
  · rw [if_neg (by exact_mod_cast hk), if_neg hk, zero_mul, zero_sub, abs_neg, abs_mul]
    exact mul_le_of_le_one_right (abs_nonneg _) (Polynomial.Chebyshev.abs_eval_T_real_le_one _ hy)

/-- The function with one column of Chebyshev coefficients `c` on `[-1, 1]`. -/
noncomputable def colFun (eps : ℝ) (c : List ℝ) : ChebFun := ⟨⟨-1, 1⟩, { coeffs := ⟨c.length, [c]⟩, eps := eps }⟩

theorem colFun_proper (eps : ℝ) (c : List ℝ) (hc : c ≠ []) : (colFun eps c).onefun.Proper :=
  ⟨by simp [colFun, Arr.WF], by simp [colFun, Arr.m, hc]⟩

theorem colFun_vals (eps : ℝ) (c : List ℝ) (x : ℝ) : vals (colFun eps c) x = [chebEval c x] := by
  simp only [vals, colFun, List.map_cons, List.map_nil, bwd, Mapping.diff]
  congr 2
  ring

/-- The square of a linear function minus one half, as the Chebyshev code computes it (`T_1² - 1/2 = T_2 / 2`). -/
noncomputable def squareEqn (eps : ℝ) : Eqn := fun _ _ => some (colFun eps [0, 0, 1/2])

/-- A compiled operator with the given equations, all other things empty. -/
def plainOp (eqs : List Eqn) (n : ℕ) : Op := (Op.new eqs [] [] [] [] ⟨-1, 1⟩ n 1).compile false

/-- C99 fails: for `F(u) = u² - 1/2` and `u(x) = x` (two coefficients), `op(u)` is the zero function. -/
theorem C99_fails (eps : ℝ) : ∃ (op : Op) (u g : ChebFun), op = plainOp [squareEqn eps] 15 ∧ u = colFun eps [0, 1] ∧
    (∀ x, vals u x = [x]) ∧
    (∀ env cols, squareEqn eps env cols = some g) ∧ (∀ x, vals g x = [x ^ 2 - 1 / 2]) ∧
    ∃ v op', op.call eps (.fn u) = some (v, op') ∧ ∀ x, vals v x = [0] := by
  have hT2 : ∀ x : ℝ, chebEval [0, 0, 1/2] x = x ^ 2 - 1 / 2 := by
    intro x
    simp [chebEval, Finset.sum_range_succ, Polynomial.Chebyshev.T_two]
    ring
  refine ⟨plainOp [squareEqn eps] 15, colFun eps [0, 1], colFun eps [0, 0, 1/2], rfl, rfl, ?_, fun _ _ => rfl, ?_, ?_⟩
  · intro x; rw [colFun_vals]; simp [chebEval, Finset.sum_range_succ]
  · intro x; rw [colFun_vals, hT2]
  · obtain ⟨cols, hc, hl⟩ := columns_exist (colFun eps [0, 1]) (colFun_proper eps _ (by simp))
    have hl1 : cols.length = 1 := by rw [hl]; rfl
    have S : Setting (plainOp [squareEqn eps] 15) ⟨assign (fun _ => none) [], 15, ⟨15, [squareEqn eps], none⟩, none, [], []⟩
        (.fn (colFun eps [0, 1])) (colFun eps [0, 1]) cols [colFun eps [0, 0, 1/2]] [] :=
      ⟨rfl, rfl, rfl, colFun_proper eps _ (by simp), hc, by simp [Evaluates, squareEqn], by simp [hl1], rfl⟩
    obtain ⟨v, op', h1, h2, -, -, h5⟩ := C99_call eps S
    refine ⟨v, op', h1, fun x => ?_⟩
    simp only [vals, h2, h5]
    simp [coef, colFun, prolongCol, chebEval, Finset.sum_range_succ]

/-- The hypotheses of `C99_exact` are met: the same operator at a function with three coefficients. -/
example (eps : ℝ) : ∃ v op', (plainOp [squareEqn eps] 15).call eps (.fn (colFun eps [0, 1, 0])) = some (v, op') ∧
    ∀ x, vals v x = [x ^ 2 - 1 / 2] := by
  obtain ⟨cols, hc, hl⟩ := columns_exist (colFun eps [0, 1, 0]) (colFun_proper eps _ (by simp))
  have hl1 : cols.length = 1 := by rw [hl]; rfl
  have S : Setting (plainOp [squareEqn eps] 15) ⟨assign (fun _ => none) [], 15, ⟨15, [squareEqn eps], none⟩, none, [], []⟩
      (.fn (colFun eps [0, 1, 0])) (colFun eps [0, 1, 0]) cols [colFun eps [0, 0, 1/2]] [] :=
    ⟨rfl, rfl, rfl, colFun_proper eps _ (by simp), hc, by simp [Evaluates, squareEqn], by simp [hl1], rfl⟩
  obtain ⟨v, op', h1, -, h3⟩ := C99_exact eps S 
    (by simp only [List.mem_singleton, forall_eq]; exact ⟨rfl, colFun_proper eps [0, 0, 1/2] (by simp), rfl⟩) (by simp [colFun])
  refine ⟨v, op', h1, fun x => ?_⟩
  rw [h3]
  simp only [List.flatMap_cons, List.flatMap_nil, colFun_vals, List.append_nil]
  simp [chebEval, Finset.sum_range_succ, Polynomial.Chebyshev.T_two]
  ring

/-! ### Integral constraints and the arithmetic of residuals -/

/-- Entries of a residual: row `i` of column `j`. -/
def entry (r : Residual) (i j : ℕ) : Option ℝ := r.values.bind fun a => (a.cols[j]?).bind fun c => c[i]?

theorem entry_zip (op : ℝ → ℝ → ℝ) (n m : ℕ) (l₁ l₂ : List Eqn) (a b : Arr ℝ) (i j : ℕ) :
    entry ⟨n, l₁, some (resZip op a b)⟩ i j = Option.map₂ op (entry ⟨n, l₁, some a⟩ i j) (entry ⟨m, l₂, some b⟩ i j) := by
  simp only [entry, resZip, Option.bind_some, List.getElem?_zipWith]
  rcases a.cols[j]? with _ | c <;> rcases b.cols[j]? with _ | d
  · rfl
  · rfl
  · cases hc : c[i]? <;> simp [hc]
  · simp only [Option.bind_some, List.getElem?_zipWith]
    rcases c[i]? with _ | x <;> rcases d[i]? with _ | y <;> rfl

/-- C99: residual arithmetic acts entrywise and rejects operands of different shape. -/
theorem C99_arith (r s : Residual) (a b : Arr ℝ) (hr : r.values = some a) (hs : s.values = some b) (c : ℝ) :
    (∃ t, r.neg = some t ∧ ∀ i j, entry t i j = (entry r i j).map (- ·)) ∧
    (∃ t, r.mul c = some t ∧ ∀ i j, entry t i j = (entry r i j).map (c * ·)) ∧
    (a.n = b.n ∧ a.m = b.m → ∃ t, r.add s = some t ∧ ∀ i j, entry t i j = Option.map₂ (· + ·) (entry r i j) (entry s i j)) ∧
    (a.n = b.n ∧ a.m = b.m → ∃ t, r.sub s = some t ∧ ∀ i j, entry t i j = Option.map₂ (· - ·) (entry r i j) (entry s i j)) ∧
    (¬ (a.n = b.n ∧ a.m = b.m) → r.add s = none ∧ r.sub s = none) := by
  obtain ⟨rn, rr, rv⟩ := r
  obtain ⟨sn, sr, sv⟩ := s
  simp only at hr hs
  subst hr hs
  refine ⟨⟨_, rfl, fun i j => ?_⟩, ⟨_, rfl, fun i j => ?_⟩, fun h => ?_, fun h => ?_, fun h => ?_⟩
  · simp only [entry, Option.bind_some, List.getElem?_map]
    rcases a.cols[j]? with _ | d <;> simp
  · simp only [entry, Option.bind_some, List.getElem?_map]
    rcases a.cols[j]? with _ | d <;> simp
  · refine ⟨⟨rn, [], some (resZip (· + ·) a b)⟩, by simp [Residual.add, h], fun i j => entry_zip _ _ _ _ _ _ _ _ _⟩
  · refine ⟨⟨rn, [], some (resZip (· + ·) a ⟨b.n, b.cols.map fun c => c.map (- ·)⟩)⟩, ?_, fun i j => ?_⟩
    · have hm : a.m = (⟨b.n, b.cols.map fun c => c.map (- ·)⟩ : Arr ℝ).m := by simpa [Arr.m] using h.2
      simp [Residual.sub, Residual.neg, Residual.add, h.1, hm]
    · rw [entry_zip _ rn sn [] sr]
      simp only [entry, Option.bind_some, List.getElem?_map]
      rcases a.cols[j]? with _ | c <;> rcases b.cols[j]? with _ | d
      · rfl
      · rfl
      · cases hc : c[i]? <;> simp [hc]
      · simp only [Option.bind_some, Option.map_some, List.getElem?_map]
        rcases c[i]? with _ | x <;> rcases d[i]? with _ | y <;> simp [sub_eq_add_neg]
  · have h' : ¬ (a.n = b.n ∧ a.m = (⟨b.n, b.cols.map fun c => c.map (- ·)⟩ : Arr ℝ).m) := by simpa [Arr.m] using h
    constructor
    · simp only [Residual.add, Option.bind_eq_bind, Option.bind_some]; rw [if_neg h]
    · simp only [Residual.sub, Residual.neg, Residual.add, Option.bind_eq_bind, Option.bind_some]; rw [if_neg h']

/-- C99 fails: `c * r` never returns (unbounded recursion) although `r * c` is defined. -/
theorem C99_rmul_fails (r : Residual) (c : ℝ) (fuel : ℕ) : r.rmul c fuel = none := by
  induction fuel with
  | zero => rfl
  | succ n ih => exact ih

/-- C99 fails: a sum, difference, negative or multiple of residuals has no equations: updating it gives zero. -/
theorem C99_forgets_fails (r s t : Residual) (c : ℝ) (h : r.add s = some t ∨ r.sub s = some t ∨ r.neg = some t ∨ r.mul c = some t)
    (env : Env) (cols : List ChebFun) : ∃ t', t.update env cols = some t' ∧ ∀ i j, i < t.nDisc → j < cols.length → entry t' i j = some 0 := by
  have ht : t.rhs = [] := by
    rcases h with h | h | h | h
    · simp only [Residual.add, Option.bind_eq_bind, Option.bind_eq_some_iff] at h
      obtain ⟨a, -, b, -, h⟩ := h
      split_ifs at h
      simp only [Option.some.injEq] at h; rw [← h]
    · simp only [Residual.sub, Residual.add, Option.bind_eq_bind, Option.bind_eq_some_iff] at h
      obtain ⟨q, -, a, -, b, -, h⟩ := h
      split_ifs at h
      simp only [Option.some.injEq] at h; rw [← h]
    · simp only [Residual.neg, Option.bind_eq_bind, Option.bind_eq_some_iff] at h
      obtain ⟨a, -, h⟩ := h
      simp only [Option.some.injEq] at h; rw [← h]
    · simp only [Residual.mul, Option.bind_eq_bind, Option.bind_eq_some_iff] at h
      obtain ⟨a, -, h⟩ := h
      simp only [Option.some.injEq] at h; rw [← h]
  refine ⟨_, update_eq t env cols [] (by rw [ht]; exact .nil) (by simp), fun i j hi hj => ?_⟩
  simp [entry, hj, hi]

/-- The single value of a function with one column. -/
noncomputable def val1 (g : ChebFun) (x : ℝ) : ℝ := (vals g x).getD 0 0

theorem val1_eq (g : ChebFun) (x : ℝ) : val1 g x = chebEval (coef g) (bwd g.dom x) := by
  rw [val1, vals, coef]
  cases g.onefun.coeffs.cols <;> simp [chebEval]

theorem coef_length {g : ChebFun} (hg : g.onefun.Proper) : (coef g).length = g.onefun.coeffs.n := by
  have hm := hg.m_ne
  have hm' : 0 < g.onefun.coeffs.cols.length := Nat.pos_of_ne_zero hm
  rw [coef, getD_lt' _ _ _ hm']
  exact hg.wf _ (List.getElem_mem hm')

theorem eval_prolong {g : ChebFun} (hg : g.onefun.Proper) (n : ℕ) (hn : g.onefun.coeffs.n ≤ n) (y : ℝ) :
    chebEval (prolongCol (coef g) n) y = chebEval (coef g) y := by
  apply chebEval_congr_getD
  intro k
  rw [prolongCol_getD]
  split_ifs with hk
  · rfl
  · rw [getD_ge _ k (by rw [coef_length hg]; omega)]

theorem eval_zip_add (c d : List ℝ) (h : c.length = d.length) (y : ℝ) :
    chebEval (List.zipWith (· + ·) c d) y = chebEval c y + chebEval d y := by
  rw [chebEval, chebEval, chebEval, ← h, ← Finset.sum_add_distrib]
  have hl : (List.zipWith (· + ·) c d).length = c.length := by simp [h]
  rw [hl]
  apply sum_congr rfl
  intro k hk
  have hk' : k < c.length := by simpa using hk
  rw [getD_lt' _ _ _ (by rw [hl]; exact hk'), getD_lt' c _ _ hk', getD_lt' d _ _ (by omega), List.getElem_zipWith]
  ring

/-- C99: with integral constraints, the constraint with number `i` is added to equation `i`. -/
theorem C99_constraints (eps : ℝ) {op : Op} {L : LinSys} {u : Arg} {f : ChebFun} {cols gs hs : List ChebFun} {br : List ℝ} {c : Residual}
    (hsys : op.linSys = some L) (hc : L.cRhs = some c) (hf : u.func = some f) (hp : f.onefun.Proper) (hcols : columns f = some cols)
    (hgs : Evaluates L.rhs.rhs (assign L.env u.updateItems) cols gs) (hhs : Evaluates c.rhs (assign L.env u.updateItems) cols hs)
    (hbr : VS.allSome (L.bcs.map fun b => b (assign L.env u.updateItems) cols) = some br)
    (hlg : gs.length = cols.length) (hlh : hs.length ≤ cols.length)
    (hg : ∀ g ∈ gs ++ hs, g.dom = f.dom ∧ g.onefun.Proper ∧ g.onefun.coeffs.n ≤ f.onefun.coeffs.n) :
    ∃ v op', op.call eps u = some (v, op') ∧ v.dom = f.dom ∧ (∀ x, (vals v x).length = gs.length) ∧ ∀ x i (hi : i < gs.length),
      (vals v x).getD i 0 = val1 gs[i] x + if h : i < hs.length then val1 hs[i] x else 0 := by
  have hlen := columns_length hcols
  set n := f.onefun.coeffs.n with hn
  set E := assign L.env u.updateItems with hE
  have h1 := update_eq ⟨n, L.rhs.rhs, L.rhs.values⟩ E cols gs hgs hlg.le
  have h2 := update_eq ⟨n, c.rhs, c.values⟩ E cols hs hhs hlh
  simp only [hlg, Nat.sub_self, List.replicate_zero, List.append_nil] at h1 h2
  set A : Arr ℝ := ⟨n, gs.map fun g => prolongCol (coef g) n⟩ with hA
  set B : Arr ℝ := ⟨n, hs.map (fun g => prolongCol (coef g) n) ++ List.replicate (cols.length - hs.length) (List.replicate n 0)⟩ with hB
  have hu : (L.setDisc n).updatePartial u = some ⟨E, n, ⟨n, L.rhs.rhs, some (resZip (· + ·) A B)⟩,
      some ⟨n, c.rhs, some B⟩, L.bcs, br⟩ := by
    simp only [LinSys.updatePartial, LinSys.setDisc, LinSys.setParameters, hf, hcols, Option.bind_eq_bind, Option.bind_some,
      hc, Option.map_some, ← hE, h1, h2, hbr]
  have hBl : B.cols.length = gs.length := by simp [hB]; omega
  have hAl : A.cols.length = gs.length := by simp [hA]
  have hz : (resZip (· + ·) A B).n * (resZip (· + ·) A B).m ≠ 0 := by
    have e1 : 0 < n := hp.n_pos
    have e2 : 0 < f.onefun.coeffs.m := Nat.pos_of_ne_zero hp.m_ne
    have e3 : (resZip (· + ·) A B).m = gs.length := by simp [resZip, Arr.m, hAl, hBl]
    rw [e3, hlg, hlen]
    exact (Nat.mul_pos e1 e2).ne'
  obtain ⟨t, ht, -, -, -, -, htc⟩ := mk'_some _ hz eps false false (ChebFun.hscale f.dom) (1 + 2 ^ 14)
  simp only [Bool.false_and, Bool.false_eq_true, if_false] at htc
  refine ⟨⟨f.dom, t⟩, { op with linSys := some ⟨E, n, ⟨n, L.rhs.rhs, some (resZip (· + ·) A B)⟩, some ⟨n, c.rhs, some B⟩, L.bcs, br⟩ },
    ?_, rfl, fun x => ?_, fun x i hi => ?_⟩
  · simp only [Op.call, hsys, hf, Option.bind_eq_bind, Option.bind_some]
    rw [← hn, hu]
    simp only [Option.bind_some, ht]
  · simp [vals, htc, resZip, hAl, hBl]
  · have hiA : i < A.cols.length := by omega
    have hiB : i < B.cols.length := by omega
    have hv : (vals ⟨f.dom, t⟩ x).getD i 0 = chebEval (List.zipWith (· + ·) A.cols[i] B.cols[i]) (bwd f.dom x) := by
      rw [getD_lt' _ _ _ (by simp [vals, htc, resZip, hAl, hBl, hi])]
      simp [vals, htc, resZip]
    have hgi := hg gs[i] (by simp)
    have hAi : A.cols[i] = prolongCol (coef gs[i]) n := by simp [hA]
    have hAn : A.cols[i].length = n := by rw [hAi, prolongCol_length]; simp
    rw [hv]
    by_cases hih : i < hs.length
    · have hhi := hg hs[i] (by simp)
      have hBi : B.cols[i] = prolongCol (coef hs[i]) n := by
        simp only [hB]
        rw [List.getElem_append_left (by simpa using hih)]
        simp
      rw [dif_pos hih, eval_zip_add _ _ (by rw [hAn, hBi, prolongCol_length]; simp), hAi, hBi, eval_prolong hgi.2.1 n hgi.2.2,
        eval_prolong hhi.2.1 n hhi.2.2, val1_eq, val1_eq, hgi.1, hhi.1]
    · have hBi : B.cols[i] = List.replicate n 0 := by
        simp only [hB]
        rw [List.getElem_append_right (by simpa using hih)]
        simp
      rw [dif_neg hih, eval_zip_add _ _ (by rw [hAn, hBi]; simp), hAi, hBi, eval_prolong hgi.2.1 n hgi.2.2, val1_eq, hgi.1]
      congr 1
      rw [chebEval]
      apply sum_eq_zero
      intro k hk
      rw [getD_lt' _ _ _ (by simpa using hk)]
      simp

end Funpy.Props
