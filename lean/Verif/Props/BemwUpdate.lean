import Verif.Model.BemwUpdate
import Verif.Props.Bemw

/-!
# C149: updating the borders of a bordered solver
-/

namespace Funpy.Props

open Funpy.Bemw Funpy.BemwUpdate

variable {K : Type*} [Field K]

namespace BorderSpec

/-- Row `k` last given to object `o`, the initial one if there is none. -/
def lastRow (o k : ℕ) (init : ℕ → K) (h : List (Ev K)) : ℕ → K :=
  ((h.filterMap fun e => match e with
    | .row o' j b _ _ _ => if o' = o ∧ j = k then some b else none
    | .col .. => none).getLast?).getD init

/-- Column `k` last given to object `o`. -/
def lastCol (o k : ℕ) (init : ℕ → K) (h : List (Ev K)) : ℕ → K :=
  ((h.filterMap fun e => match e with
    | .col o' j c _ _ _ => if o' = o ∧ j = k then some c else none
    | .row .. => none).getLast?).getD init

/-- Corner `k` last given to object `o`, with a row or with a column. -/
def lastNum (o k : ℕ) (init : K) (h : List (Ev K)) : K :=
  ((h.filterMap fun e => match e with
    | .col o' j _ d _ _ => if o' = o ∧ j = k then some d else none
    | .row o' j _ d _ _ => if o' = o ∧ j = k then some d else none).getLast?).getD init

/-- The bordered matrix with core `A`, rows `b`, columns `c`, corners `d`. -/
def bordered (n : ℕ) (A : ℕ → ℕ → K) (b c : ℕ → ℕ → K) (d : ℕ → K) (i j : ℕ) : K :=
  if i < n ∧ j < n then A i j
  else if i < j then c (j - n) i else if j < i then b (i - n) j else d (i - n)

end BorderSpec

/-- The object an event belongs to. -/
def evObj : Ev K → ℕ
  | .row o .. => o
  | .col o .. => o

/-- The lists of `o` are three lists used by no other solver of the history. -/
def PrivateLists (w : World K) (o : ℕ) (h : List (Ev K)) : Prop :=
  (w.obj o).bs ≠ (w.obj o).cs ∧ ∀ e ∈ h, evObj e ≠ o →
    (w.obj (evObj e)).bs ≠ (w.obj o).bs ∧ (w.obj (evObj e)).bs ≠ (w.obj o).cs ∧
    (w.obj (evObj e)).cs ≠ (w.obj o).bs ∧ (w.obj (evObj e)).cs ≠ (w.obj o).cs ∧
    (w.obj (evObj e)).ds ≠ (w.obj o).ds

/-- Two objects agree but for the storage. -/
def SameFixed (x y : Obj K) : Prop :=
  x.n = y.n ∧ x.m = y.m ∧ x.core = y.core ∧ x.coreAdj = y.coreAdj ∧ x.singular = y.singular ∧
    x.bs = y.bs ∧ x.cs = y.cs ∧ x.ds = y.ds

theorem refresh_fixed (w : World K) (o : ℕ) (y0 st0) (p : ℕ) : SameFixed ((refresh w o y0 st0).obj p) (w.obj p) := by
  unfold refresh SameFixed
  split_ifs
  · simp
  · by_cases hp : p = o
    · subst hp; simp
    · simp [Function.update_of_ne hp]

theorem refresh_mem (w : World K) (o : ℕ) (y0 st0) :
    (refresh w o y0 st0).rows = w.rows ∧ (refresh w o y0 st0).nums = w.nums := by
  unfold refresh; split_ifs <;> simp

theorem step_fixed (w : World K) (e : Ev K) (p : ℕ) : SameFixed ((step w e).obj p) (w.obj p) := by
  cases e <;> simp only [step] <;> split_ifs
  · exact refresh_fixed _ _ _ _ p
  · simp [SameFixed]
  · exact refresh_fixed _ _ _ _ p
  · simp [SameFixed]

theorem SameFixed.trans {x y z : Obj K} (h : SameFixed x y) (h' : SameFixed y z) : SameFixed x z := by
  unfold SameFixed at *
  obtain ⟨a, b, c, d, e, f, g, i⟩ := h
  obtain ⟨a', b', c', d', e', f', g', i'⟩ := h'
  exact ⟨a.trans a', b.trans b', c.trans c', d.trans d', e.trans e', f.trans f', g.trans g', i.trans i'⟩

theorem run_fixed (w : World K) (h : List (Ev K)) (p : ℕ) : SameFixed ((run w h).obj p) (w.obj p) := by
  induction h using List.reverseRecOn with
  | nil => simp [run, SameFixed]
  | append_singleton h e ih =>
    have : run w (h ++ [e]) = step (run w h) e := by simp [run]
    rw [this]
    exact (step_fixed _ _ _).trans ih

/-- What the object currently uses is what its storage was computed from. -/
def Ready (w : World K) (o : ℕ) : Prop :=
  ∃ y0 st0, (w.obj o).storage = some (prepare (data w o) y0 st0)

theorem refresh_ready (w : World K) (o : ℕ) (y0 st0) (hs : (w.obj o).singular = false) :
    Ready (refresh w o y0 st0) o := by
  refine ⟨y0, st0, ?_⟩
  unfold refresh
  simp [hs, data]

theorem refresh_other (w : World K) (o p : ℕ) (y0 st0) (hp : p ≠ o) : (refresh w o y0 st0).obj p = w.obj p := by
  unfold refresh
  split_ifs
  · rfl
  · simp [Function.update_of_ne hp]

/-- One event: lists and readiness of `o`. -/
theorem step_inv (w : World K) (o : ℕ) (e : Ev K) (hs : (w.obj o).singular = false) (hr : Ready w o)
    (hp : PrivateLists w o [e]) (k : ℕ) :
    Ready (step w e) o ∧ (k < (w.obj o).m →
    (step w e).rows (w.obj o).bs k = BorderSpec.lastRow o k (w.rows (w.obj o).bs k) [e] ∧
    (step w e).rows (w.obj o).cs k = BorderSpec.lastCol o k (w.rows (w.obj o).cs k) [e] ∧
    (step w e).nums (w.obj o).ds k = BorderSpec.lastNum o k (w.nums (w.obj o).ds k) [e]) := by
  obtain ⟨hbc, hp⟩ := hp
  have hp := hp e (by simp)
  cases e with
  | row p j b d y0 st0 =>
    simp only [evObj] at hp
    simp only [step, BorderSpec.lastRow, BorderSpec.lastCol, BorderSpec.lastNum]
    by_cases hpo : p = o
    · subst hpo
      by_cases hj : j < (w.obj p).m
      · rw [if_pos hj]
        refine ⟨refresh_ready _ _ _ _ hs, fun hk => ?_⟩
        rw [(refresh_mem _ _ _ _).1, (refresh_mem _ _ _ _).2]
        by_cases hjk : j = k
        · subst hjk; simp [setAt, hbc.symm]
        · simp [setAt, hbc.symm, hjk, Ne.symm hjk]
      · rw [if_neg hj]
        refine ⟨hr, fun hk => ?_⟩
        have : j ≠ k := by omega
        exact ⟨by simp [this], by simp, by simp [this]⟩
    · obtain ⟨h1, h2, h3, h4, h5⟩ := hp hpo
      split_ifs with hj
      · refine ⟨?_, fun hk => ?_⟩
        · obtain ⟨a, c, hr⟩ := hr
          refine ⟨a, c, ?_⟩
          rw [refresh_other _ _ _ _ _ (Ne.symm hpo)]
          simp only [data] at hr ⊢
          rw [refresh_other _ _ _ _ _ (Ne.symm hpo), (refresh_mem _ _ _ _).1, (refresh_mem _ _ _ _).2]
          simp [Function.update_of_ne h1.symm, Function.update_of_ne h2.symm, Function.update_of_ne h5.symm, hr]
        · rw [(refresh_mem _ _ _ _).1, (refresh_mem _ _ _ _).2]
          simp [Function.update_of_ne h1.symm, Function.update_of_ne h2.symm, Function.update_of_ne h5.symm, hpo]
      · exact ⟨hr, fun hk => ⟨by simp [hpo], by simp, by simp [hpo]⟩⟩
  | col p j b d y0 st0 =>
    simp only [evObj] at hp
    simp only [step, BorderSpec.lastRow, BorderSpec.lastCol, BorderSpec.lastNum]
    by_cases hpo : p = o
    · subst hpo
      by_cases hj : j < (w.obj p).m
      · rw [if_pos hj]
        refine ⟨refresh_ready _ _ _ _ hs, fun hk => ?_⟩
        rw [(refresh_mem _ _ _ _).1, (refresh_mem _ _ _ _).2]
        by_cases hjk : j = k
        · subst hjk; simp [setAt, hbc]
        · simp [setAt, hbc, hjk, Ne.symm hjk]
      · rw [if_neg hj]
        refine ⟨hr, fun hk => ?_⟩
        have : j ≠ k := by omega
        exact ⟨by simp, by simp [this], by simp [this]⟩
    · obtain ⟨h1, h2, h3, h4, h5⟩ := hp hpo
      split_ifs with hj
      · refine ⟨?_, fun hk => ?_⟩
        · obtain ⟨a, c, hr⟩ := hr
          refine ⟨a, c, ?_⟩
          rw [refresh_other _ _ _ _ _ (Ne.symm hpo)]
          simp only [data] at hr ⊢
          rw [refresh_other _ _ _ _ _ (Ne.symm hpo), (refresh_mem _ _ _ _).1, (refresh_mem _ _ _ _).2]
          simp [Function.update_of_ne h3.symm, Function.update_of_ne h4.symm, Function.update_of_ne h5.symm, hr]
        · rw [(refresh_mem _ _ _ _).1, (refresh_mem _ _ _ _).2]
          simp [Function.update_of_ne h3.symm, Function.update_of_ne h4.symm, Function.update_of_ne h5.symm, hpo]
      · exact ⟨hr, fun hk => ⟨by simp, by simp [hpo], by simp [hpo]⟩⟩

theorem getLast_app {α : Type*} (l l' : List α) (x : α) :
    ((l ++ l').getLast?).getD x = (l'.getLast?).getD ((l.getLast?).getD x) := by
  rw [List.getLast?_append]
  cases l'.getLast? <;> simp

theorem lastRow_app (o k : ℕ) (x : ℕ → K) (h h' : List (Ev K)) :
    BorderSpec.lastRow o k x (h ++ h') = BorderSpec.lastRow o k (BorderSpec.lastRow o k x h) h' := by
  unfold BorderSpec.lastRow
  rw [List.filterMap_append, getLast_app]

theorem lastCol_app (o k : ℕ) (x : ℕ → K) (h h' : List (Ev K)) :
    BorderSpec.lastCol o k x (h ++ h') = BorderSpec.lastCol o k (BorderSpec.lastCol o k x h) h' := by
  unfold BorderSpec.lastCol
  rw [List.filterMap_append, getLast_app]

theorem lastNum_app (o k : ℕ) (x : K) (h h' : List (Ev K)) :
    BorderSpec.lastNum o k x (h ++ h') = BorderSpec.lastNum o k (BorderSpec.lastNum o k x h) h' := by
  unfold BorderSpec.lastNum
  rw [List.filterMap_append, getLast_app]

theorem PrivateLists.run {w : World K} {o : ℕ} {h h' : List (Ev K)} (hp : PrivateLists w o h') (w' : World K)
    (hw : w' = BemwUpdate.run w h) (g : List (Ev K)) (hg : ∀ e ∈ g, e ∈ h') : PrivateLists w' o g := by
  subst hw
  obtain ⟨-, -, -, -, -, a1, a2, a3⟩ := run_fixed w h o
  refine ⟨by rw [a1, a2]; exact hp.1, fun e he hne => ?_⟩
  obtain ⟨-, -, -, -, -, b1, b2, b3⟩ := run_fixed w h (evObj e)
  rw [a1, a2, a3, b1, b2, b3]
  exact hp.2 e (hg e he) hne

theorem run_inv (w : World K) (o : ℕ) (h : List (Ev K)) (hs : (w.obj o).singular = false) (hr : Ready w o)
    (hp : PrivateLists w o h) :
    Ready (run w h) o ∧ ∀ k < (w.obj o).m,
    (run w h).rows (w.obj o).bs k = BorderSpec.lastRow o k (w.rows (w.obj o).bs k) h ∧
    (run w h).rows (w.obj o).cs k = BorderSpec.lastCol o k (w.rows (w.obj o).cs k) h ∧
    (run w h).nums (w.obj o).ds k = BorderSpec.lastNum o k (w.nums (w.obj o).ds k) h := by
  induction h using List.reverseRecOn with
  | nil => exact ⟨hr, fun k _ => ⟨rfl, rfl, rfl⟩⟩
  | append_singleton h e ih =>
    obtain ⟨i1, i2⟩ := ih (hp.run w (h := []) rfl h (fun e he => by simp [he]))
    have hf := run_fixed w h o
    obtain ⟨-, f2, -, -, f5, f6, f7, f8⟩ := hf
    have hp' : PrivateLists (run w h) o [e] := hp.run (run w h) rfl [e] (fun e he => by simp_all)
    have key := fun k => step_inv (run w h) o e (by rw [f5]; exact hs) i1 hp' k
    have hrun : run w (h ++ [e]) = step (run w h) e := by simp [run]
    rw [hrun]
    refine ⟨(key 0).1, fun k hk => ?_⟩
    obtain ⟨k1, k2, k3⟩ := (key k).2 (by rw [f2]; exact hk)
    rw [f6] at k1
    rw [f7] at k2
    rw [f8] at k3
    obtain ⟨j1, j2, j3⟩ := i2 k hk
    rw [k1, k2, k3, j1, j2, j3, lastRow_app, lastCol_app, lastNum_app]
    exact ⟨rfl, rfl, rfl⟩

theorem create_fixed (w : World K) (o : ℕ) (x : Obj K) (y0 st0) : SameFixed ((create w o x y0 st0).obj o) x := by
  unfold create
  refine (refresh_fixed _ _ _ _ o).trans ?_
  simp [SameFixed]

theorem create_mem (w : World K) (o : ℕ) (x : Obj K) (y0 st0) :
    (create w o x y0 st0).rows = w.rows ∧ (create w o x y0 st0).nums = w.nums := by
  unfold create
  exact refresh_mem _ _ _ _

/-- **C149** After any history of `update_row` and `update_col`, of the solver and of other solvers, a solver with a
nonsingular core and lists of its own solves the system with the borders last given (`solve`, `solve_adj`); only the
final matrix and its leading blocks have to be nonsingular, not those in between. -/
theorem C149_history (w : World K) (o : ℕ) (x : Obj K) (y0 : ℕ → K) (st0 : ℕ → ℕ → K) (hs : x.singular = false)
    (h : List (Ev K)) (hp : PrivateLists (create w o x y0 st0) o h) (A : ℕ → ℕ → K)
    (hA : ∀ f, ∀ i < x.n, ∑ l ∈ Finset.range x.n, A i l * x.core f l = f i)
    (hAT : ∀ f, ∀ i < x.n, ∑ l ∈ Finset.range x.n, A l i * x.coreAdj f l = f i)
    (M : ℕ → ℕ → K)
    (hM : M = BorderSpec.bordered x.n A (fun k => BorderSpec.lastRow o k (w.rows x.bs k) h)
      (fun k => BorderSpec.lastCol o k (w.rows x.cs k) h) (fun k => BorderSpec.lastNum o k (w.nums x.ds k) h))
    (hdet : ∀ k, 1 ≤ k → k ≤ x.m → (Matrix.of fun i j : Fin (x.n + k) => M i j).det ≠ 0)
    (y1 f : ℕ → K) :
    ∃ u v, solveObj (run (create w o x y0 st0) h) o y1 f = some u ∧
      solveAdjObj (run (create w o x y0 st0) h) o y1 f = some v ∧
      (∀ i < x.n + x.m, ∑ l ∈ Finset.range (x.n + x.m), M i l * u l = f i) ∧
      ∀ i < x.n + x.m, ∑ l ∈ Finset.range (x.n + x.m), M l i * v l = f i := by
  obtain ⟨c1, c2, c3, c4, c5, c6, c7, c8⟩ := create_fixed w o x y0 st0
  obtain ⟨m1, m2⟩ := create_mem w o x y0 st0
  set w1 := create w o x y0 st0 with hw1
  have hr1 : Ready w1 o := refresh_ready _ _ _ _ (by simpa using hs)
  obtain ⟨⟨ya, sa, hst⟩, hl⟩ := run_inv w1 o h (by rw [c5]; exact hs) hr1 hp
  obtain ⟨f1, f2, f3, f4, f5, f6, f7, f8⟩ := run_fixed w1 h o
  set w2 := run w1 h
  set D := data w2 o with hD
  have dn : D.n = x.n := f1.trans c1
  have dm : D.m = x.m := f2.trans c2
  have hmat : ∀ i < x.n + x.m, ∀ j < x.n + x.m, mat D A i j = M i j := by
    intro i hi j hj
    rw [hM]
    unfold mat BorderSpec.bordered
    have hb : ∀ k < x.m, D.b k = BorderSpec.lastRow o k (w.rows x.bs k) h ∧
        D.c k = BorderSpec.lastCol o k (w.rows x.cs k) h ∧ D.d k = BorderSpec.lastNum o k (w.nums x.ds k) h := by
      intro k hk
      obtain ⟨l1, l2, l3⟩ := hl k (by rw [c2]; exact hk)
      simp only [hD, data]
      rw [f6, f7, f8, l1, l2, l3, c6, c7, c8, m1, m2]
      exact ⟨rfl, rfl, rfl⟩
    rw [dn]
    split_ifs with h1 h2 h3
    · rfl
    · rw [(hb (j - x.n) (by omega)).2.1]
    · rw [(hb (i - x.n) (by omega)).1]
    · rw [(hb (i - x.n) (by omega)).2.2]
  have hS : SolverOk D A := by
    constructor
    · intro g i hi
      have : D.solve = x.core := f3.trans c3
      rw [dn, this]; exact hA g i (dn ▸ hi)
    · intro g i hi
      have : D.solveAdj = x.coreAdj := f4.trans c4
      rw [dn, this]; exact hAT g i (dn ▸ hi)
  have hB : BlocksOk D A := by
    intro k hk1 hk2
    rw [dm] at hk2
    have := hdet k hk1 hk2
    have e : leadingBlock D A k = (Matrix.of fun i j : Fin (D.n + k) => M i j) := by
      ext i j
      exact hmat i (by have := i.2; omega) j (by have := j.2; omega)
    rw [e, dn]
    exact this
  refine ⟨_, _, by rw [solveObj, hst]; rfl, by rw [solveAdjObj, hst]; rfl, ?_, ?_⟩
  · intro i hi
    have := solveDetail_solves D A hS hB _ D.m le_rfl (prepare_good D A hS hB ya sa) y1 f i (by rw [dn, dm]; exact hi)
    rw [← this, dn, dm]
    apply Finset.sum_congr rfl
    intro l hl'
    rw [hmat i hi l (by simpa using hl')]
    rw [show (w2.obj o).m = x.m from dm]
  · intro i hi
    have := solveAdjDetail_solves D A hS hB _ D.m le_rfl (prepare_good D A hS hB ya sa) y1 f i (by rw [dn, dm]; exact hi)
    rw [← this, dn, dm]
    apply Finset.sum_congr rfl
    intro l hl'
    rw [hmat l (by simpa using hl') i hi]
    rw [show (w2.obj o).m = x.m from dm]

/-- **C149** An index out of range changes nothing. -/
theorem C149_range (w : World K) (o j : ℕ) (b : ℕ → K) (d : K) (y0 : ℕ → K) (st0 : ℕ → ℕ → K)
    (hj : (w.obj o).m ≤ j) : step w (.row o j b d y0 st0) = w ∧ step w (.col o j b d y0 st0) = w := by
  simp [step, hj]

/-- **C149** For a singular core nothing is prepared: every solve raises, after any history. -/
theorem C149_singular (w : World K) (o : ℕ) (x : Obj K) (y0 : ℕ → K) (st0 : ℕ → ℕ → K) (hs : x.singular = true)
    (h : List (Ev K)) (y1 f : ℕ → K) : solveObj (run (create w o x y0 st0) h) o y1 f = none := by
  have key : ((run (create w o x y0 st0) h).obj o).storage = none := by
    induction h using List.reverseRecOn with
    | nil => simp [run, create, refresh, hs]
    | append_singleton h e ih =>
      have hrun : run (create w o x y0 st0) (h ++ [e]) = step (run (create w o x y0 st0) h) e := by simp [run]
      have hsing : ((run (create w o x y0 st0) h).obj o).singular = true := by
        rw [(run_fixed _ h o).2.2.2.2.1, (create_fixed w o x y0 st0).2.2.2.2.1, hs]
      have aux : ∀ (w' : World K) (p : ℕ) (y s), (w'.obj o).singular = true → (w'.obj o).storage = none →
          ((refresh w' p y s).obj o).storage = none := by
        intro w' p y s h1 h2
        unfold refresh
        split_ifs with h3
        · exact h2
        · by_cases hpo : o = p
          · subst hpo; exact absurd h1 h3
          · simp [Function.update_of_ne hpo, h2]
      rw [hrun]
      cases e <;> simp only [step] <;> split_ifs
      · exact aux _ _ _ _ hsing ih
      · exact ih
      · exact aux _ _ _ _ hsing ih
      · exact ih
  simp [solveObj, key]

/-- A solver for the `1 × 1` core `1` with one border, all lists at the addresses given. -/
def exObj (bs cs ds : ℕ) : Obj ℚ :=
  { n := 1, m := 1, core := id, coreAdj := id, singular := false, bs := bs, cs := cs, ds := ds, storage := none }

/-- All rows and columns are `1`, all corners `2`. -/
def exWorld : World ℚ := { rows := fun _ _ _ => 1, nums := fun _ _ => 2, obj := fun _ => exObj 0 1 0 }

/-- **C149** Two solvers built from the same lists: `update_row(0, 0, 3)` of the first makes the second solve neither
the old system `(1 1; 1 2)` nor the new one `(1 1; 0 3)`. -/
theorem C149_shared_fails : ∃ (w : World ℚ) (e : Ev ℚ) (f : ℕ → ℚ) (u : ℕ → ℚ),
    w = create (create exWorld 0 (exObj 0 1 0) 0 0) 1 (exObj 0 1 0) 0 0 ∧
    e = .row 0 0 0 3 0 0 ∧ solveObj (step w e) 1 0 f = some u ∧
    ¬ (u 0 + u 1 = f 0 ∧ u 0 + 2 * u 1 = f 1) ∧ ¬ (u 0 + u 1 = f 0 ∧ 0 * u 0 + 3 * u 1 = f 1) := by
  refine ⟨_, _, fun i => if i = 0 then 0 else 1, _, rfl, rfl, rfl, ?_, ?_⟩ <;>
    norm_num [step, create, refresh, exWorld, exObj, data, prepare, prepareStep, solveDetail, solveAdjDetail, downStep,
      upStep, coreStep, subHead, setAt, dot, stW, stV, stEps, stDelta, Function.update, List.range_succ]

/-- **C149** The lists of the caller are changed: after `update_row` of a solver the list it was built from contains the
new row. -/
theorem C149_caller_fails (w : World K) (o : ℕ) (x : Obj K) (y0 : ℕ → K) (st0 : ℕ → ℕ → K) (j : ℕ) (hj : j < x.m)
    (b : ℕ → K) (d : K) :
    (step (create w o x y0 st0) (.row o j b d y0 st0)).rows x.bs j = b ∧
    (step (create w o x y0 st0) (.row o j b d y0 st0)).nums x.ds j = d := by
  obtain ⟨c1, c2, c3, c4, c5, c6, c7, c8⟩ := create_fixed w o x y0 st0
  simp only [step]
  rw [if_pos (by rw [c2]; exact hj), (refresh_mem _ _ _ _).1, (refresh_mem _ _ _ _).2, c6, c8]
  simp [setAt]

/-- A history meeting the hypotheses of `C149_history`: two solvers with lists of their own, updated alternately; the
matrix in between is singular. -/
example : ∃ u v, solveObj (run (create exWorld 0 (exObj 2 3 4) 0 0)
      [.row 0 0 (fun _ => 1) 1 0 0, .row 1 0 (fun _ => 7) 7 0 0, .col 0 0 (fun _ => 5) 3 0 0]) 0 0 (fun _ => 1) = some u ∧
    solveAdjObj (run (create exWorld 0 (exObj 2 3 4) 0 0)
      [.row 0 0 (fun _ => 1) 1 0 0, .row 1 0 (fun _ => 7) 7 0 0, .col 0 0 (fun _ => 5) 3 0 0]) 0 0 (fun _ => 1) = some v ∧
    (u 0 + 5 * u 1 = 1 ∧ u 0 + 3 * u 1 = 1) ∧ (v 0 + v 1 = 1 ∧ 5 * v 0 + 3 * v 1 = 1) := by
  obtain ⟨u, v, h1, h2, h3, h4⟩ := C149_history exWorld 0 (exObj 2 3 4) 0 0 rfl
    [.row 0 0 (fun _ => 1) 1 0 0, .row 1 0 (fun _ => 7) 7 0 0, .col 0 0 (fun _ => 5) 3 0 0]
    (by
      obtain ⟨-, -, -, -, -, c6, c7, c8⟩ := create_fixed exWorld 0 (exObj 2 3 4) 0 0
      refine ⟨by rw [c6, c7]; decide, fun e he hne => ?_⟩
      rw [c6, c7, c8]
      have : evObj e = 1 := by
        simp only [List.mem_cons, List.not_mem_nil, or_false] at he
        rcases he with rfl | rfl | rfl <;> simp_all [evObj]
      rw [this]
      simp [create, refresh, exWorld, exObj, Function.update])
    (fun _ _ => 1) (by intro f i hi; simp [exObj] at hi ⊢; rw [hi]) (by intro f i hi; simp [exObj] at hi ⊢; rw [hi])
    _ rfl
    (by
      intro k h1 h2
      have : k = 1 := le_antisymm h2 h1
      subst this
      have e : ∀ M : ℕ → ℕ → ℚ, (Matrix.of fun i j : Fin ((exObj 2 3 4).n + 1) => M i j).det =
          M 0 0 * M 1 1 - M 0 1 * M 1 0 := by
        intro M
        exact Matrix.det_fin_two _
      rw [e]
      norm_num [BorderSpec.bordered, BorderSpec.lastRow, BorderSpec.lastCol, BorderSpec.lastNum, exObj])
    0 (fun _ => 1)
  refine ⟨u, v, h1, h2, ?_, ?_⟩
  · have a := h3 0 (by decide)
    have b := h3 1 (by decide)
    norm_num [exObj, Finset.sum_range_succ, BorderSpec.bordered, BorderSpec.lastRow, BorderSpec.lastCol,
      BorderSpec.lastNum] at a b
    exact ⟨a, b⟩
  · have a := h4 0 (by decide)
    have b := h4 1 (by decide)
    norm_num [exObj, Finset.sum_range_succ, BorderSpec.bordered, BorderSpec.lastRow, BorderSpec.lastCol,
      BorderSpec.lastNum] at a b
    exact ⟨a, b⟩

end Funpy.Props
