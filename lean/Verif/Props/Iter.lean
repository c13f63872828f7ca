import Verif.Model.Iter
import Verif.Props.ChebObj
import Verif.Lemmas.ListAux

/-!
# C106: iterating over the columns of functions and states
-/

namespace Funpy.Props
open Funpy.Iter Funpy.Cheb

/-- The items of an object, as the English property has it: `obj[0], …, obj[m-1]`. -/
def Items {α : Type} (o : Seq α) (xs : List α) : Prop :=
  xs.length = o.len ∧ ∀ i (h : i < xs.length), o.item i = some xs[i]

theorem iter_next_val {α : Type} {o : Seq α} {xs : List α} (hx : Items o xs) (a : ℕ) (mem : Mem) (p : ℕ)
    (hp : p < xs.length) (hm : mem a = some p) :
    next o a mem = .val xs[p] (Function.update mem a (some (p + 1))) := by
  unfold next
  rw [hm]
  have h : ¬ o.len ≤ p := by rw [← hx.1]; omega
  simp only [if_neg h, hx.2 p hp]

theorem iter_next_stop {α : Type} {o : Seq α} {xs : List α} (hx : Items o xs) (a : ℕ) (mem : Mem) (p : ℕ)
    (hp : xs.length ≤ p) (hm : mem a = some p) : next o a mem = .stop := by
  unfold next
  rw [hm]
  have h : o.len ≤ p := by rw [← hx.1]; omega
  simp only [if_pos h]

theorem iter_loop_from {α β : Type} {o : Seq α} {xs : List α} (hx : Items o xs) (a : ℕ)
    (body : α → Mem → List β → Res β) (h : α → List β)
    (hb : ∀ x ∈ xs, ∀ mem out, ∃ mem', body x mem out = .done mem' (out ++ h x) ∧ mem' a = mem a) :
    ∀ (k p : ℕ) (fuel : ℕ) (mem : Mem) (out : List β), p + k = xs.length → k < fuel → mem a = some p →
      ∃ mem', loop o a body fuel mem out = .done mem' (out ++ (xs.drop p).flatMap h) ∧ mem' a = some xs.length := by
  intro k
  induction k with
  | zero =>
    intro p fuel mem out hp hf hm
    obtain ⟨f, rfl⟩ : ∃ f, fuel = f + 1 := ⟨fuel - 1, by omega⟩
    refine ⟨mem, ?_, by rw [hm]; congr 1⟩
    rw [loop, iter_next_stop hx a mem p (by omega) hm]
    simp [List.drop_eq_nil_of_le (show xs.length ≤ p by omega)]
  | succ k ih =>
    intro p fuel mem out hp hf hm
    obtain ⟨f, rfl⟩ : ∃ f, fuel = f + 1 := ⟨fuel - 1, by omega⟩
    have hlt : p < xs.length := by omega
    obtain ⟨mem', hb', hma⟩ := hb xs[p] (List.getElem_mem hlt) (Function.update mem a (some (p + 1))) out
    obtain ⟨mem'', hl, hl'⟩ := ih (p + 1) f mem' (out ++ h xs[p]) (by omega) (by omega) (by rw [hma]; simp)
    refine ⟨mem'', ?_, hl'⟩
    rw [loop, iter_next_val hx a mem p hlt hm]
    simp only [hb', hl]
    rw [List.drop_eq_getElem_cons hlt, List.flatMap_cons, List.append_assoc]

/-- C106: a `for` loop over an object whose body does not iterate over the same object runs its body once for every
item, in order, and ends. -/
theorem C106_loop {α β : Type} {o : Seq α} {xs : List α} (hx : Items o xs) (a : ℕ)
    (body : α → Mem → List β → Res β) (h : α → List β)
    (hb : ∀ x ∈ xs, ∀ mem out, ∃ mem', body x mem out = .done mem' (out ++ h x) ∧ mem' a = mem a)
    (fuel : ℕ) (hf : xs.length < fuel) (mem : Mem) (out : List β) :
    ∃ mem', forLoop fuel o a body mem out = .done mem' (out ++ xs.flatMap h) := by
  obtain ⟨mem', h1, _⟩ := iter_loop_from hx a body h hb xs.length 0 fuel (iter a mem) out (by omega) hf (by simp [iter])
  exact ⟨mem', by simpa [forLoop] using h1⟩

theorem iter_append_loop {α β : Type} {o : Seq α} {xs : List α} (hx : Items o xs) (a : ℕ) (g : α → β) :
    ∀ (k p fuel : ℕ) (mem : Mem) (out : List β), p + k = xs.length → k < fuel → mem a = some p →
      loop o a (append g) fuel mem out = .done (Function.update mem a (some xs.length)) (out ++ (xs.drop p).map g) := by
  intro k
  induction k with
  | zero =>
    intro p fuel mem out hp hf hm
    obtain ⟨f, rfl⟩ : ∃ f, fuel = f + 1 := ⟨fuel - 1, by omega⟩
    have hmem : Function.update mem a (some xs.length) = mem := by
      rw [show xs.length = p by omega, ← hm]; simp
    rw [loop, iter_next_stop hx a mem p (by omega) hm, hmem]
    simp [List.drop_eq_nil_of_le (show xs.length ≤ p by omega)]
  | succ k ih =>
    intro p fuel mem out hp hf hm
    obtain ⟨f, rfl⟩ : ∃ f, fuel = f + 1 := ⟨fuel - 1, by omega⟩
    have hlt : p < xs.length := by omega
    rw [loop, iter_next_val hx a mem p hlt hm]
    simp only [append]
    rw [ih (p + 1) f _ _ (by omega) (by omega) (by simp)]
    rw [List.drop_eq_getElem_cons hlt, List.map_cons, List.append_assoc, Function.update_idem]
    rfl

/-- C106: `list(obj)` and `*obj` give all items in order, whatever iterations were started before. -/
theorem C106_list {α : Type} {o : Seq α} {xs : List α} (hx : Items o xs) (a : ℕ) (fuel : ℕ) (hf : xs.length < fuel)
    (mem : Mem) : ∃ mem', toList fuel o a mem = .done mem' xs := by
  refine ⟨Function.update (iter a mem) a (some xs.length), ?_⟩
  rw [toList, forLoop, iter_append_loop hx a id xs.length 0 fuel _ _ (by omega) hf (by simp [iter])]
  simp only [List.drop_zero, List.map_id, List.nil_append]

/-- C106: nested loops over two different objects visit every pair. -/
theorem C106_nested {α β : Type} {o1 : Seq α} {o2 : Seq β} {xs : List α} {ys : List β} (hx : Items o1 xs)
    (hy : Items o2 ys) (a1 a2 : ℕ) (ha : a1 ≠ a2) (fuel : ℕ) (hf1 : xs.length < fuel) (hf2 : ys.length < fuel) (mem : Mem) :
    ∃ mem', nested fuel o1 a1 o2 a2 mem = .done mem' (xs.flatMap fun x => ys.map fun y => (x, y)) := by
  obtain ⟨mem', h⟩ := C106_loop (o := o1) hx a1
    (fun x mem out => forLoop fuel o2 a2 (append fun y => (x, y)) mem out) (fun x => ys.map fun y => (x, y))
    (fun x _ mem out => ⟨Function.update (iter a2 mem) a2 (some ys.length), by
      rw [forLoop, iter_append_loop hy a2 (fun y => (x, y)) ys.length 0 fuel _ _ (by omega) hf2 (by simp [iter])]; simp,
      by simp [iter, Function.update_of_ne ha]⟩) fuel hf1 mem []
  exact ⟨mem', by simpa [nested] using h⟩

/-- C106 fails when the body of the loop iterates over the same object (to the end): it runs only for the first item. -/
theorem C106_exhausted_fails {α β : Type} {o : Seq α} {xs : List α} (hx : Items o xs) (hne : 0 < xs.length) (a : ℕ)
    (body : α → Mem → List β → Res β) (h : α → List β)
    (hb : ∀ x ∈ xs, ∀ mem out, ∃ mem', body x mem out = .done mem' (out ++ h x) ∧ mem' a = some xs.length)
    (fuel : ℕ) (hf : 1 < fuel) (mem : Mem) (out : List β) :
    ∃ mem', forLoop fuel o a body mem out = .done mem' (out ++ h xs[0]) := by
  obtain ⟨f, rfl⟩ : ∃ f, fuel = f + 2 := ⟨fuel - 2, by omega⟩
  obtain ⟨mem', hb', hma⟩ := hb xs[0] (List.getElem_mem hne) (Function.update (iter a mem) a (some (0 + 1))) out
  refine ⟨mem', ?_⟩
  rw [forLoop, loop, iter_next_val hx a _ 0 hne (by simp [iter])]
  simp only [hb']
  rw [loop, iter_next_stop hx a mem' _ le_rfl hma]

/-- C106 fails: nested loops over the same object visit `(x₀, y)` only. -/
theorem C106_nested_fails {α : Type} {o : Seq α} {xs : List α} (hx : Items o xs) (hne : 0 < xs.length) (a : ℕ)
    (fuel : ℕ) (hf : xs.length < fuel) (mem : Mem) :
    ∃ mem', nested fuel o a o a mem = .done mem' (xs.map fun y => (xs[0], y)) := by
  obtain ⟨mem', h⟩ := C106_exhausted_fails (o := o) hx hne a
    (fun x mem out => forLoop fuel o a (append fun y => (x, y)) mem out) (fun x => xs.map fun y => (x, y))
    (fun x _ mem out => ⟨Function.update (iter a mem) a (some xs.length), by
      rw [forLoop, iter_append_loop hx a (fun y => (x, y)) xs.length 0 fuel _ _ (by omega) hf (by simp [iter])]; simp,
      by simp⟩) fuel (by omega) mem []
  exact ⟨mem', by simpa [nested] using h⟩

/-- C106 fails: leaving an inner loop over the same object with `break` makes the outer loop run for ever (two or more
items). -/
theorem C106_break_fails {α : Type} {o : Seq α} {xs : List α} (hx : Items o xs) (h2 : 2 ≤ xs.length) (a : ℕ) (fuel : ℕ)
    (mem : Mem) : nestedBreak fuel o a o a mem = .running := by
  cases fuel with
  | zero => rfl
  | succ fuel =>
    have key : ∀ (f : ℕ) (mem : Mem) (out : List (α × α)) (p : ℕ), p < 2 → mem a = some p →
        loop o a (fun x mem out => forLoop (fuel + 1) o a (appendBreak fun y => (x, y)) mem out) f mem out
          = .running := by
      intro f
      induction f with
      | zero => intros; rfl
      | succ f ih =>
        intro mem out p hp hm
        have hlt : p < xs.length := by omega
        rw [loop, iter_next_val hx a mem p hlt hm]
        have hin : ∀ mem' (out' : List (α × α)) (x : α), forLoop (fuel + 1) o a (appendBreak fun y => (x, y)) mem' out'
            = .done (Function.update (iter a mem') a (some (0 + 1))) (out' ++ [(x, xs[0])]) := by
          intro mem' out' x
          rw [forLoop, loop, iter_next_val hx a _ 0 (by omega) (by simp [iter])]
          simp [appendBreak]
        refine Eq.trans ?_ (ih (Function.update (iter a (Function.update mem a (some (p + 1)))) a (some (0 + 1)))
          (out ++ [(xs[p], xs[0])]) 1 (by omega) (by simp))
        simp only [hin]
    rw [nestedBreak, forLoop]
    exact key _ _ _ 0 (by omega) (by simp [iter])

/-- C106: `zip` of two different objects pairs the items up. -/
theorem C106_zip {α β : Type} {o1 : Seq α} {o2 : Seq β} {xs : List α} {ys : List β} (hx : Items o1 xs)
    (hy : Items o2 ys) (a1 a2 : ℕ) (ha : a1 ≠ a2) (fuel : ℕ) (hf : xs.length < fuel) (mem : Mem) :
    ∃ mem', zip fuel o1 a1 o2 a2 mem = .done mem' (xs.zip ys) := by
  have key : ∀ (k p fuel : ℕ) (mem : Mem) (out : List (α × β)), p + k = xs.length → k < fuel → mem a1 = some p →
      mem a2 = some p → ∃ mem', zipLoop o1 a1 o2 a2 fuel mem out = .done mem' (out ++ (xs.drop p).zip (ys.drop p)) := by
    intro k
    induction k with
    | zero =>
      intro p fuel mem out hp hf h1 h2
      obtain ⟨f, rfl⟩ : ∃ f, fuel = f + 1 := ⟨fuel - 1, by omega⟩
      refine ⟨mem, ?_⟩
      rw [zipLoop, iter_next_stop hx a1 mem p (by omega) h1]
      simp [List.drop_eq_nil_of_le (show xs.length ≤ p by omega)]
    | succ k ih =>
      intro p fuel mem out hp hf h1 h2
      obtain ⟨f, rfl⟩ : ∃ f, fuel = f + 1 := ⟨fuel - 1, by omega⟩
      have hlt : p < xs.length := by omega
      rw [zipLoop, iter_next_val hx a1 mem p hlt h1]
      have h2' : (Function.update mem a1 (some (p + 1))) a2 = some p := by
        rw [Function.update_of_ne (Ne.symm ha), h2]
      by_cases hy' : p < ys.length
      · simp only [iter_next_val hy a2 _ p hy' h2']
        obtain ⟨mem', h⟩ := ih (p + 1) f (Function.update (Function.update mem a1 (some (p + 1))) a2 (some (p + 1)))
          (out ++ [(xs[p], ys[p])]) (by omega) (by omega)
          (by rw [Function.update_of_ne ha]; simp) (by simp)
        refine ⟨mem', ?_⟩
        rw [h, List.drop_eq_getElem_cons hlt, List.drop_eq_getElem_cons hy', List.zip_cons_cons, List.append_assoc]
        rfl
      · simp only [iter_next_stop hy a2 _ p (by omega) h2']
        refine ⟨Function.update mem a1 (some (p + 1)), ?_⟩
        rw [List.drop_eq_nil_of_le (show ys.length ≤ p by omega)]
        simp
  obtain ⟨mem', h⟩ := key xs.length 0 fuel (iter a2 (iter a1 mem)) [] (by omega) hf
    (by simp [iter, Function.update_of_ne ha]) (by simp [iter])
  exact ⟨mem', by simpa [zip] using h⟩

/-- C106 fails: `zip(f, f)` pairs neighbouring columns, `(x₀, x₁), (x₂, x₃), …`, instead of every column with itself. -/
theorem C106_zip_fails {α : Type} {o : Seq α} {xs : List α} (hx : Items o xs) (a : ℕ) (fuel : ℕ)
    (hf : xs.length / 2 < fuel) (mem : Mem) (d : α) :
    ∃ mem', zip fuel o a o a mem
      = .done mem' ((List.range (xs.length / 2)).map fun i => (xs.getD (2 * i) d, xs.getD (2 * i + 1) d)) := by
  have key : ∀ (k i fuel : ℕ) (mem : Mem) (out : List (α × α)), i + k = xs.length / 2 → k < fuel →
      mem a = some (2 * i) → ∃ mem', zipLoop o a o a fuel mem out = .done mem'
        (out ++ (List.range' i k).map fun i => (xs.getD (2 * i) d, xs.getD (2 * i + 1) d)) := by
    intro k
    induction k with
    | zero =>
      intro i fuel mem out hi hf hm
      obtain ⟨f, rfl⟩ : ∃ f, fuel = f + 1 := ⟨fuel - 1, by omega⟩
      by_cases hlt : 2 * i < xs.length
      · refine ⟨Function.update mem a (some (2 * i + 1)), ?_⟩
        rw [zipLoop, iter_next_val hx a mem _ hlt hm]
        simp only [iter_next_stop hx a (Function.update mem a (some (2 * i + 1))) (2 * i + 1) (by omega) (by simp)]
        simp
      · refine ⟨mem, ?_⟩
        rw [zipLoop, iter_next_stop hx a mem _ (by omega) hm]
        simp
    | succ k ih =>
      intro i fuel mem out hi hf hm
      obtain ⟨f, rfl⟩ : ∃ f, fuel = f + 1 := ⟨fuel - 1, by omega⟩
      have hlt : 2 * i < xs.length := by omega
      have hlt' : 2 * i + 1 < xs.length := by omega
      rw [zipLoop, iter_next_val hx a mem _ hlt hm]
      simp only [iter_next_val hx a (Function.update mem a (some (2 * i + 1))) (2 * i + 1) hlt' (by simp)]
      obtain ⟨mem', h⟩ := ih (i + 1) f
        (Function.update (Function.update mem a (some (2 * i + 1))) a (some (2 * i + 1 + 1)))
        (out ++ [(xs[2 * i], xs[2 * i + 1])]) (by omega) (by omega) (by simp; ring)
      refine ⟨mem', ?_⟩
      rw [h, List.range'_succ]
      rw [List.map_cons, getD_lt' _ d _ hlt, getD_lt' _ d _ hlt', List.append_assoc]
      rfl
  obtain ⟨mem', h⟩ := key (xs.length / 2) 0 fuel (iter a (iter a mem)) [] (by omega) hf (by simp [iter])
  exact ⟨mem', by simpa [zip, List.range_eq_range'] using h⟩

/-- C106: the items of a function exist and are its columns. -/
theorem C106_fun (f : ChebFun) (hf : f.onefun.Proper) :
    ∃ xs, Items (ofFun f) xs ∧ ∀ x, xs.map (fun g => vals g x) = (vals f x).map fun v => [v] := by
  have hex : ∀ i : ℕ, i < f.onefun.coeffs.m → ∃ g, f.getItem i = some g ∧ ∀ x, vals g x = [(vals f x).getD i 0] := by
    intro i hi
    obtain ⟨s, h1, _, h3⟩ := (C18_getItem f.onefun hf i).1 ⟨by omega, by exact_mod_cast hi⟩
    exact ⟨⟨f.dom, s⟩, by simp [ChebFun.getItem, h1], fun x => by simpa [vals, tv] using h3 (Mapping.bwd f.dom x)⟩
  refine ⟨(List.range f.onefun.coeffs.m).pmap (fun i h => (hex i h).choose) (fun i hi => by simpa using hi), ⟨by simp [ofFun], ?_⟩, ?_⟩
  · intro i hi
    have hi' : i < f.onefun.coeffs.m := by simpa using hi
    simp only [List.getElem_pmap, List.getElem_range, ofFun]
    exact (hex i hi').choose_spec.1
  · intro x
    have hlen : (vals f x).length = f.onefun.coeffs.m := by simp [vals, Arr.m]
    apply List.ext_getElem
    · simp [hlen]
    · intro i h1 h2
      have hi' : i < f.onefun.coeffs.m := by simpa using h1
      simp only [List.getElem_map, List.getElem_pmap, List.getElem_range]
      rw [(hex i hi').choose_spec.2 x, getD_lt' _ _ _ (by omega)]

/-- C106: if all functions of a state have the same number of columns, iterating over the state gives the columns of the
first function, then those of the second one, and so on. -/
theorem C106_state {V : Type} (s : VS.State ChebFun V) (m : ℕ) (hp : ∀ f ∈ s.funcs, f.onefun.Proper)
    (hm : ∀ f ∈ s.funcs, f.onefun.coeffs.m = m) :
    ∃ xs, Items (ofState s) xs ∧
      ∀ x, xs.map (fun g => vals g x) = s.funcs.flatMap fun f => (vals f x).map fun v => [v] := by
  choose! cols hc1 hc2 using fun f (hf : f ∈ s.funcs) => C106_fun f (hp f hf)
  have hlen : ∀ f ∈ s.funcs, (cols f).length = m := fun f hf => by rw [(hc1 f hf).1]; exact hm f hf
  refine ⟨s.funcs.flatMap cols, ⟨?_, ?_⟩, ?_⟩
  · rw [List.length_flatMap]
    simp only [ofState]
    congr 1
    exact List.map_congr_left fun f hf => (hc1 f hf).1
  · intro i hi
    -- items of a concatenation of lists of equal length
    have hget : ∀ (l : List ChebFun) (_ : ∀ f ∈ l, f ∈ s.funcs) (i : ℕ) (hi : i < (l.flatMap cols).length),
        ∃ f, l[i / m]? = some f ∧ f ∈ s.funcs ∧ ∃ h : i % m < (cols f).length, (l.flatMap cols)[i] = (cols f)[i % m] := by
      intro l
      induction l with
      | nil => intro _ i hi; simp at hi
      | cons f l ih =>
        intro hl i hi
        have hf := hl f (by simp)
        have hfl := hlen f hf
        by_cases him : i < m
        · refine ⟨f, by simp [Nat.div_eq_of_lt him], hf, by rw [Nat.mod_eq_of_lt him]; omega, ?_⟩
          simp only [List.flatMap_cons, Nat.mod_eq_of_lt him]
          rw [List.getElem_append_left]
        · have hm0 : 0 < m := by
            rcases Nat.eq_zero_or_pos m with h | h
            · exfalso
              have hall : ((f :: l).flatMap cols).length = 0 := by
                rw [List.length_flatMap]
                apply List.sum_eq_zero
                intro n hn
                rw [List.mem_map] at hn
                obtain ⟨g, hg, rfl⟩ := hn
                rw [hlen g (hl g hg), h]
              omega
            · exact h
          have hi2 : i - m < (l.flatMap cols).length := by
            rw [List.flatMap_cons, List.length_append, hfl] at hi
            omega
          obtain ⟨g, h1, h2, h3, h4⟩ := ih (fun g hg => hl g (List.mem_cons_of_mem _ hg)) (i - m) hi2
          have hmod : (i - m) % m = i % m := (Nat.mod_eq_sub_mod (by omega)).symm
          have hdiv : i / m = (i - m) / m + 1 := Nat.div_eq_sub_div hm0 (by omega)
          refine ⟨g, by rw [hdiv]; simpa using h1, h2, by rw [← hmod]; exact h3, ?_⟩
          simp only [← hmod]
          rw [← h4]
          simp only [List.flatMap_cons]
          rw [List.getElem_append_right (by omega)]
          simp only [hfl]
    obtain ⟨f, h1, h2, h3, h4⟩ := hget s.funcs (fun _ h => h) i hi
    have hne : s.funcs ≠ [] := by rintro h; rw [h] at hi; simp at hi
    obtain ⟨u, rest, hs⟩ := List.exists_cons_of_ne_nil hne
    have hu : u.onefun.coeffs.m = m := hm u (by rw [hs]; simp)
    have hit := (hc1 f h2).2 (i % m) h3
    simp only [ofFun] at hit
    simp only [ofState]
    rw [h4, ← hit]
    rw [show s.funcs[0]? = some u by rw [hs]; rfl]
    simp only [Option.bind_eq_bind, Option.bind_some, hu, h1]
  · intro x
    rw [List.map_flatMap]
    apply List.flatMap_congr
    intro f hf
    exact hc2 f hf x

/-- C106 fails for states whose functions have different numbers of columns: iterating over the state `(u, phi)` with one
column in `u` and two in `phi` raises an exception after two columns. -/
theorem C106_state_fails {V : Type} (u phi : ChebFun) (hu : u.onefun.Proper) (hphi : phi.onefun.Proper)
    (hu1 : u.onefun.coeffs.m = 1) (hphi2 : phi.onefun.coeffs.m = 2) (reals : List (VS.Param V)) (w : List ℝ) (ns : VS.NS V)
    (a fuel : ℕ) (hf : 3 < fuel) (mem : Mem) : toList fuel (ofState ⟨[u, phi], reals, w, ns⟩) a mem = .raised := by
  obtain ⟨xs, hx, _⟩ := C106_fun u hu
  obtain ⟨ys, hy, _⟩ := C106_fun phi hphi
  have hxl : xs.length = 1 := by rw [hx.1]; exact hu1
  have hyl : ys.length = 2 := by rw [hy.1]; exact hphi2
  have h0 := hx.2 0 (by omega)
  have h1 := hy.2 0 (by omega)
  simp only [ofFun] at h0 h1
  set o := ofState ⟨[u, phi], reals, w, ns⟩ with ho
  have hlen : o.len = 3 := by simp [ho, ofState, hu1, hphi2]
  have i0 : o.item 0 = some xs[0] := by simp [ho, ofState, hu1, ← h0]
  have i1 : o.item 1 = some ys[0] := by simp [ho, ofState, hu1, ← h1]
  have i2 : o.item 2 = none := by simp [ho, ofState, hu1]
  obtain ⟨f, rfl⟩ : ∃ f, fuel = f + 3 := ⟨fuel - 3, by omega⟩
  simp [toList, forLoop, loop, next, iter, append, hlen, i0, i1, i2]

/-- The column object `[(0, …), …]` used as a witness below. -/
def tenths (m : ℕ) : Seq ℕ := ⟨m, fun i => if i < m then some (10 * i) else none⟩

theorem tenths_items (m : ℕ) : Items (tenths m) ((List.range m).map (10 * ·)) := by
  refine ⟨by simp [tenths], fun i hi => ?_⟩
  have : i < m := by simpa using hi
  simp [tenths, this]

/-- The hypotheses are met: three columns. -/
example : Items (tenths 3) [0, 10, 20] ∧ (∃ mem', nested 4 (tenths 3) 7 (tenths 3) 7 (fun _ => none)
      = .done mem' [(0, 0), (0, 10), (0, 20)]) ∧ nestedBreak 1000 (tenths 3) 7 (tenths 3) 7 (fun _ => none) = .running :=
  ⟨tenths_items 3, C106_nested_fails (tenths_items 3) (by simp) 7 4 (by simp) (fun _ => none),
    C106_break_fails (tenths_items 3) (by simp) 7 1000 _⟩

end Funpy.Props
