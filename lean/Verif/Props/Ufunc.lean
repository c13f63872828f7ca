import Verif.Model.Ufunc
import Mathlib.Tactic.NormNum
import Mathlib.Analysis.SpecialFunctions.Sqrt

/-!
# C148: operators and numpy functions on functions: powers, signs, comparisons
-/

namespace Funpy.Props
namespace Uf
end Uf
open Ufunc Uf

/-! ### Specification -/

/-- If the result of an operation is a new object, its values approximate `g`. -/
def Uf.Computes {T V : Type} (K : Kind T V) (Appr : (ℝ → V) → (ℝ → V) → Prop) (r : Res T) (g : ℝ → V) : Prop :=
  ∀ t, r = .new t → Appr g (K.call t)

/-- The result is independent of all objects in use: binding it and changing it in place leaves them as they are. -/
def Uf.Independent {T : Type} (s : Store T) (r : Res T) : Prop :=
  ∀ s' a, s.bind r = some (s', a) → ∀ (φ : T → T), ∀ b < s.top, (s'.inplace φ a).mem b = s.mem b

/-! ### Proofs -/

variable {T V : Type} (K : Kind T V) (mem : ℕ → T)

lemma Uf.construct_new {K : Kind T V} {op : ℝ → V} {t : T} (h : construct K op = .new t) : K.build op = some t := by
  unfold construct at h
  cases hb : K.build op with
  | none => rw [hb] at h; cases h
  | some t' =>
    rw [hb] at h
    cases h
    rfl

lemma Uf.construct_indep (K : Kind T V) (op : ℝ → V) (s : Store T) : Independent s (construct K op) := by
  intro s' a h φ b hb
  unfold construct at h
  cases hk : K.build op with
  | none => rw [hk] at h; cases h
  | some t =>
    rw [hk] at h
    simp only [Store.bind, Option.some.injEq, Prod.mk.injEq] at h
    obtain ⟨rfl, rfl⟩ := h
    simp only [Store.inplace]
    rw [Function.update_of_ne (by omega), Function.update_of_ne (by omega)]

/-- C148: what functions of numpy and powers return represents the pointwise image as well as the constructor represents a callable (in any sense `Appr`). -/
theorem C148_pointwise_partial [One V] (Appr : (ℝ → V) → (ℝ → V) → Prop) (hb : ∀ op t, K.build op = some t → Appr op (K.call t)) :
    (∀ u a, Computes K Appr (default1 K mem u a) fun x => u (K.call (mem a) x)) ∧
    (∀ u a b, Computes K Appr (default2 K mem u (.fn a) (.fn b)) fun x => u (K.call (mem a) x) (K.call (mem b) x)) ∧
    (∀ a p, Computes K Appr (chebPower K mem (.fn a) (.num p)) fun x => K.pow (K.call (mem a) x) p) ∧
    (∀ a p, Computes K Appr (trigPower K mem (.fn a) (.num p)) fun x => K.pow (K.call (mem a) x) p) := by
  refine ⟨fun u a t h => hb _ t (construct_new h), fun u a b t h => hb _ t (construct_new h), fun a p t h => ?_, fun a p t h => hb _ t (construct_new h)⟩
  simp only [chebPower] at h
  split_ifs at h
  exact hb _ t (construct_new h)

/-- C148: they raise only if the constructor raises. -/
theorem C148_succeeds_partial [One V] (hb : ∀ op, (K.build op).isSome) :
    (∀ u a, default1 K mem u a ≠ .raises) ∧ (∀ u a b, default2 K mem u (.fn a) (.fn b) ≠ .raises) ∧ (∀ a, positive (T := T) a ≠ .raises) ∧
    (∀ a p, chebPower K mem (.fn a) (.num p) ≠ .raises) ∧ (∀ a p, trigPower K mem (.fn a) (.num p) ≠ .raises) := by
  have key : ∀ op, construct K op ≠ .raises := by
    intro op h
    obtain ⟨t, ht⟩ := Option.isSome_iff_exists.mp (hb op)
    simp [construct, ht] at h
  refine ⟨fun u a => key _, fun u a b => key _, fun a h => (by cases h), fun a p => ?_, fun a p => key _⟩
  simp only [chebPower]
  split_ifs
  · intro h
    cases h
  · exact key _

/-- C148: the results are new objects, which share nothing with the functions in use, but for the power one and the sign `+`. -/
theorem C148_independent_partial [One V] (s : Store T) :
    (∀ u a, Independent s (default1 K s.mem u a)) ∧ (∀ u a b, Independent s (default2 K s.mem u (.fn a) (.fn b))) ∧
    (∀ a p, p ≠ 1 → Independent s (chebPower K s.mem (.fn a) (.num p))) ∧ (∀ a p, Independent s (trigPower K s.mem (.fn a) (.num p))) := by
  refine ⟨fun u a => construct_indep K _ s, fun u a b => construct_indep K _ s, fun a p hp => ?_, fun a p => construct_indep K _ s⟩
  simp only [chebPower]
  rw [if_neg hp]
  exact construct_indep K _ s

/-- C148, failure: `g = +f` and, for type `cheb`, `g = f**1` are `f` itself: whatever is then done to `g` in place is done to `f`. -/
theorem C148_alias_fails [One V] (s : Store T) (a : ℕ) (φ : T → T) :
    ∀ r ∈ [positive a, chebPower K s.mem (.fn a) (.num 1)], ∃ s' b, s.bind r = some (s', b) ∧ (s'.inplace φ b).mem a = φ (s.mem a) := by
  intro r hr
  have : r = .same a := by
    simp only [List.mem_cons, List.not_mem_nil, or_false] at hr
    rcases hr with rfl | rfl
    · rfl
    · simp [chebPower]
  subst this
  exact ⟨s, a, rfl, by simp [Store.inplace]⟩

/-- C148, failure: a number to the power of a function: for type `trig` it is the function to the power of the number; for type `cheb` a `TypeError`. -/
theorem C148_rpower_fails [One V] (s : V) (a : ℕ) :
    trigPower K mem (.num s) (.fn a) = trigPower K mem (.fn a) (.num s) ∧ chebPower K mem (.num s) (.fn a) = .raises := ⟨rfl, rfl⟩

/-- C148, failure: `2**f` for the periodic function `f = 3` has the value `9`. -/
theorem C148_rpower_value_fails : ∃ (K : Kind (ℝ → ℝ) ℝ) (mem : ℕ → ℝ → ℝ), (∀ op, K.build op = some op) ∧ (∀ f x, K.call f x = f x) ∧ (∀ x y, K.pow x y = x ^ ⌊y⌋₊) ∧
    mem 0 = (fun _ => 3) ∧ trigPower K mem (.num 2) (.fn 0) = .new (fun _ => 9) := by
  refine ⟨⟨fun f x => f x, some, fun _ => 1, fun x y => x ^ ⌊y⌋₊⟩, fun _ _ => 3, fun _ => rfl, fun _ _ => rfl, fun _ _ => rfl, rfl, ?_⟩
  have : ⌊(2 : ℝ)⌋₊ = 2 := by
    simp
  simp only [trigPower, construct, this]
  norm_num

/-- C148, failure: a function of numpy with a function and a number (`np.maximum(f, 0.5)`, `f >= 0.5`) raises. -/
theorem C148_number_fails (u : V → V → V) (a : ℕ) (s : V) :
    default2 K mem u (.fn a) (.num s) = .raises ∧ default2 K mem u (.num s) (.fn a) = .raises := ⟨rfl, rfl⟩

open Classical in
/-- C148, failure: `f == g` is never true, also not for the same object: it is false for different domains and raises for equal ones. -/
theorem C148_eq_fails {D : Type} (eq : V → V → V) (d d' : D) (a b : ℕ) :
    funEq K mem eq d d' a b = if d ≠ d' then some false else none := by
  unfold funEq
  split_ifs
  · rfl
  · split <;> rfl

/-- C148, failure: `f != g` is true whenever it does not raise, also for the same object (constructed functions have at least one coefficient). -/
theorem C148_ne_fails (hlen : ∀ op t, K.build op = some t → 0 < K.len t) (ne : V → V → V) (ok : Bool) (a b : ℕ) (r : Bool)
    (h : funNe K mem ne ok a b = some r) : r = true := by
  unfold funNe at h
  split_ifs at h
  cases hd : default2 K mem ne (.fn a) (.fn b) with
  | new t =>
    rw [hd] at h
    simp only [Option.some.injEq] at h
    rw [← h]
    simpa using hlen _ t (construct_new hd)
  | same c =>
    exfalso
    simp only [default2, construct] at hd
    split at hd <;> cases hd
  | raises =>
    rw [hd] at h
    cases h

/-- Non-vacuity: functions represented exactly -/
example : ∃ (K : Kind (ℝ → ℝ) ℝ) (mem : ℕ → ℝ → ℝ), (∀ op, (K.build op).isSome) ∧ (∀ op t, K.build op = some t → op = K.call t ∧ 0 < K.len t) ∧
    default1 K mem Real.sqrt 0 = .new (fun x => Real.sqrt (x ^ 2)) ∧ chebPower K mem (.fn 0) (.num 2) = .new (fun x => (x ^ 2) ^ 2) ∧
    funNe K mem (fun _ _ => 0) true 0 0 = some true := by
  refine ⟨⟨fun f x => f x, some, fun _ => 1, fun x y => x ^ ⌊y⌋₊⟩, fun _ x => x ^ 2, fun _ => rfl, fun op t h => ⟨Option.some.inj h, one_pos⟩, rfl, ?_, rfl⟩
  have : ⌊(2 : ℝ)⌋₊ = 2 := by
    simp
  simp [chebPower, construct]

end Funpy.Props
