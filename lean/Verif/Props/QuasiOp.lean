import Verif.Model.QuasiOp
import Verif.Lemmas.ListAux
import Mathlib.Tactic.Linarith
import Mathlib.Tactic.Ring
import Mathlib.Analysis.Calculus.IteratedDeriv.Lemmas
import Mathlib.Analysis.SpecialFunctions.Integrals.Basic

/-!
# C95: the algebra of linear operators
-/

namespace Funpy.Props
open QuasiOp

variable {F : Type}

/-- The functions are added and negated pointwise (C12). -/
structure Pointwise (R : Arith F) : Prop where
  /-- sums -/
  add : ∀ f g y, R.val (R.add f g) y = R.val f y + R.val g y
  /-- negatives -/
  neg : ∀ f y, R.val (R.neg f) y = -R.val f y

/-- What the flags of a block mean: there is one per derivative and one for the integrals; a term whose flag is not set is zero. -/
structure Flags (R : Arith F) (a : Block F) : Prop where
  /-- one flag per derivative and one for the integrals -/
  len : a.info.length = a.coeffs.length + 1
  /-- skipped terms vanish -/
  zero : ∀ j (h : j < a.coeffs.length), a.info.getD j false = false → ∀ y, R.val a.coeffs[j] y = 0
  /-- without integral terms the last flag is not set; there is one integrand per coefficient; skipped integral terms vanish -/
  nl : match a.nl with
    | .none => a.info.getLastD false = false
    | .arr c d => c.length = d.length ∧ (a.info.getLastD false = false → ∀ f ∈ c, ∀ y, R.val f y = 0)
    | .fn _ _ => False

/-- Specification: `∑_j a_j u^{(j)} + ∑_i c_i ∫ d_i u` with all terms. -/
noncomputable def applyAll (R : Arith F) (e : Ends) (coeffs c d : List F) (u : ℝ → ℝ) (y : ℝ) : ℝ :=
  (coeffs.mapIdx fun j f => R.val f y * iteratedDeriv j u y).sum
    + (List.zipWith (fun c d => R.val c y * ∫ t in e.e0..e.e1, R.val d t * u t) c d).sum

private lemma sum_mapIdx_congr (l : List F) (f g : ℕ → F → ℝ) (h : ∀ j (hj : j < l.length), f j l[j] = g j l[j]) :
    (l.mapIdx f).sum = (l.mapIdx g).sum := by
  congr 1
  apply List.ext_getElem (by simp)
  intro j h1 h2
  rw [List.getElem_mapIdx, List.getElem_mapIdx]
  exact h j (by simpa using h1)

private lemma sum_mapIdx_add (l m : List F) (op : F → F → F) (f g k : ℕ → F → ℝ) (hlm : l.length = m.length)
    (h : ∀ j a b, k j (op a b) = f j a + g j b) :
    ((List.zipWith op l m).mapIdx k).sum = (l.mapIdx f).sum + (m.mapIdx g).sum := by
  induction l generalizing m f g k with
  | nil =>
    obtain rfl : m = [] := List.length_eq_zero_iff.mp hlm.symm
    simp
  | cons a l ih =>
    cases m with
    | nil => simp at hlm
    | cons b m =>
      simp only [List.zipWith_cons_cons, List.mapIdx_cons, List.sum_cons, h]
      rw [ih m (fun i => f (i + 1)) (fun i => g (i + 1)) (fun i => k (i + 1)) (by simpa using hlm) (fun j a b => h (j + 1) a b)]
      ring

private lemma sum_mapIdx_neg (l : List F) (op : F → F) (f g : ℕ → F → ℝ) (h : ∀ j a, g j (op a) = -f j a) :
    ((l.map op).mapIdx g).sum = -(l.mapIdx f).sum := by
  induction l generalizing f g with
  | nil => simp
  | cons a l ih =>
    simp only [List.map_cons, List.mapIdx_cons, List.sum_cons, h]
    rw [ih (fun i => f (i + 1)) (fun i => g (i + 1)) (fun j a => h (j + 1) a)]
    ring

private lemma loc_eq (R : Arith F) (a : Block F) (h : Flags R a) (u : ℝ → ℝ) (y : ℝ) :
    (a.coeffs.mapIdx fun j f => if a.info.getD j false then R.val f y * iteratedDeriv j u y else 0).sum
      = (a.coeffs.mapIdx fun j f => R.val f y * iteratedDeriv j u y).sum := by
  apply sum_mapIdx_congr
  intro j hj
  cases hb : a.info.getD j false with
  | true => simp
  | false => simp [h.zero j hj hb y]

/-- With truthful flags nothing is lost: the discretised operator is the operator with all its terms. -/
theorem C95_flags (R : Arith F) (e : Ends) (a : Block F) (h : Flags R a) (u : ℝ → ℝ) (y : ℝ) :
    a.apply R e u y = some (applyAll R e a.coeffs a.nl.entries.1 a.nl.entries.2 u y) := by
  unfold Block.apply applyAll
  simp only [loc_eq R a h]
  have hn := h.nl
  cases hl : a.nl with
  | none =>
    rw [hl] at hn
    have hn' : a.info.getLastD false = false := hn
    rw [hn']
    simp [Nonlocal.entries]
  | arr c d =>
    rw [hl] at hn
    simp only [Nonlocal.entries]
    split_ifs with hb
    · rfl
    · have hz : (List.zipWith (fun c d => R.val c y * ∫ t in e.e0..e.e1, R.val d t * u t) c d).sum = 0 := by
        apply List.sum_eq_zero
        intro z hz
        obtain ⟨i, hi, rfl⟩ := List.mem_iff_getElem.mp hz
        rw [List.getElem_zipWith, hn.2 (by simpa using hb) _ (List.getElem_mem _), zero_mul]
      rw [hz, add_zero]
  | fn c d => rw [hl] at hn; exact hn.elim

private lemma zipWith_or_getD (l m : List Bool) (h : l.length = m.length) (j : ℕ) :
    (List.zipWith (· || ·) l m).getD j false = (l.getD j false || m.getD j false) := by
  induction l generalizing m j with
  | nil =>
    obtain rfl : m = [] := List.length_eq_zero_iff.mp h.symm
    simp
  | cons a l ih =>
    cases m with
    | nil => simp at h
    | cons b m =>
      cases j with
      | zero => simp
      | succ j => simpa using ih m (by simpa using h) j

private lemma getLastD_getD (l : List Bool) : l.getLastD false = l.getD (l.length - 1) false := by
  cases l with
  | nil => simp
  | cons a l => rw [List.getLastD_eq_getLast?, List.getLast?_eq_getElem?, List.getD_eq_getElem?_getD]

private lemma zipWith_or_last (l m : List Bool) (h : l.length = m.length) :
    (List.zipWith (· || ·) l m).getLastD false = (l.getLastD false || m.getLastD false) := by
  rw [getLastD_getD, getLastD_getD, getLastD_getD, zipWith_or_getD l m h]
  simp [h]

/-- **C95** (sum): for blocks with the same number of derivatives, at most one of which has integral terms, `a + b` is the sum of the
operators, and its flags are truthful again. -/
theorem C95_add (R : Arith F) (hR : Pointwise R) (e : Ends) (a b : Block F) (ha : Flags R a) (hb : Flags R b)
    (hlen : a.coeffs.length = b.coeffs.length) (hnl : a.nl = .none ∨ b.nl = .none) :
    ∃ s, a.add R b = some s ∧ Flags R s ∧ ∀ u y p q, a.apply R e u y = some p → b.apply R e u y = some q →
      s.apply R e u y = some (p + q) := by
  have hil : a.info.length = b.info.length := by rw [ha.len, hb.len, hlen]
  obtain ⟨nl, h1, h2, h3⟩ : ∃ nl, addNl R a.nl b.nl = some nl ∧
      (match nl with
        | .none => (a.info.getLastD false || b.info.getLastD false) = false
        | .arr c d => c.length = d.length ∧ ((a.info.getLastD false || b.info.getLastD false) = false → ∀ f ∈ c, ∀ y, R.val f y = 0)
        | .fn _ _ => False) ∧
      (∀ x y, applyAll R e [] nl.entries.1 nl.entries.2 x y = applyAll R e [] a.nl.entries.1 a.nl.entries.2 x y
        + applyAll R e [] b.nl.entries.1 b.nl.entries.2 x y) := by
    have hna := ha.nl
    have hnb := hb.nl
    rcases hnl with h | h
    · rw [h] at hna ⊢
      refine ⟨b.nl, rfl, ?_, fun x y => by simp [Nonlocal.entries, applyAll]⟩
      simp only at hna
      rw [hna, Bool.false_or]
      exact hnb
    · rw [h] at hnb ⊢
      refine ⟨a.nl, by cases a.nl <;> rfl, ?_, fun x y => by simp [Nonlocal.entries, applyAll]⟩
      simp only at hnb
      rw [hnb, Bool.or_false]
      exact hna
  refine ⟨⟨List.zipWith (· || ·) a.info b.info, List.zipWith R.add a.coeffs b.coeffs, nl⟩, ?_, ?_, ?_⟩
  · unfold Block.add addList
    rw [if_pos hlen.le, h1]
    simp [hil]
  · refine ⟨?_, ?_, ?_⟩
    · simp [ha.len, hb.len, hlen]
    · intro j hj hf y
      simp only [zipWith_or_getD _ _ hil, Bool.or_eq_false_iff] at hf
      have hj' : j < a.coeffs.length ∧ j < b.coeffs.length := by
        simp only [List.length_zipWith] at hj; omega
      simp only [List.getElem_zipWith]
      rw [hR.add, ha.zero j hj'.1 hf.1 y, hb.zero j hj'.2 hf.2 y, add_zero]
    · simp only [zipWith_or_last _ _ hil]
      exact h2
  · intro u y p q hp hq
    rw [C95_flags R e a ha] at hp
    rw [C95_flags R e b hb] at hq
    rw [C95_flags]
    · have hh := h3 u y
      simp only [applyAll, List.mapIdx_nil, List.sum_nil, zero_add] at hh
      rw [← Option.some.inj hp, ← Option.some.inj hq]
      congr 1
      simp only [applyAll]
      rw [hh, sum_mapIdx_add a.coeffs b.coeffs R.add (fun j f => R.val f y * iteratedDeriv j u y)
        (fun j f => R.val f y * iteratedDeriv j u y) _ hlen (fun j f g => by rw [hR.add]; ring)]
      ring
    · refine ⟨?_, ?_, ?_⟩
      · simp [ha.len, hb.len, hlen]
      · intro j hj hf y
        simp only [zipWith_or_getD _ _ hil, Bool.or_eq_false_iff] at hf
        have hj' : j < a.coeffs.length ∧ j < b.coeffs.length := by
          simp only [List.length_zipWith] at hj; omega
        simp only [List.getElem_zipWith]
        rw [hR.add, ha.zero j hj'.1 hf.1 y, hb.zero j hj'.2 hf.2 y, add_zero]
      · simp only [zipWith_or_last _ _ hil]
        exact h2

/-- **C95** (negation and difference) of differential operators without integral terms. -/
theorem C95_neg (R : Arith F) (hR : Pointwise R) (e : Ends) (a : Block F) (ha : Flags R a) (hnl : a.nl = .none) :
    ∃ s, a.neg R = some s ∧ Flags R s ∧ s.coeffs.length = a.coeffs.length ∧ s.nl = .none ∧
      ∀ u y p, a.apply R e u y = some p → s.apply R e u y = some (-p) := by
  have hn := ha.nl
  rw [hnl] at hn
  have hF : Flags R (⟨a.info, a.coeffs.map R.neg, .none⟩ : Block F) := by
    refine ⟨by simp [ha.len], ?_, hn⟩
    intro j hj hf y
    simp only [List.getElem_map]
    rw [hR.neg, ha.zero j (by simpa using hj) hf y, neg_zero]
  refine ⟨⟨a.info, a.coeffs.map R.neg, .none⟩, by unfold Block.neg; rw [hnl], hF, by simp, rfl, ?_⟩
  intro u y p hp
  rw [C95_flags R e a ha] at hp
  rw [C95_flags R e _ hF, ← Option.some.inj hp]
  congr 1
  simp only [applyAll, hnl, Nonlocal.entries, List.zipWith_nil_left, List.sum_nil, add_zero]
  exact sum_mapIdx_neg a.coeffs R.neg _ _ (fun j f => by rw [hR.neg]; ring)

/-- **C95** (difference) of differential operators without integral terms. -/
theorem C95_sub (R : Arith F) (hR : Pointwise R) (e : Ends) (a b : Block F) (ha : Flags R a) (hb : Flags R b)
    (hlen : a.coeffs.length = b.coeffs.length) (hnl : b.nl = .none) :
    ∃ s, a.sub R b = some s ∧ Flags R s ∧ ∀ u y p q, a.apply R e u y = some p → b.apply R e u y = some q →
      s.apply R e u y = some (p - q) := by
  obtain ⟨b', h1, h2, h3, h4, h5⟩ := C95_neg R hR e b hb hnl
  obtain ⟨s, g1, g2, g3⟩ := C95_add R hR e a b' ha h2 (by rw [h3, hlen]) (Or.inr h4)
  refine ⟨s, by unfold Block.sub; rw [h1]; exact g1, g2, fun u y p q hp hq => ?_⟩
  rw [g3 u y p (-q) hp (h5 u y q hq), sub_eq_add_neg]

/-- **C95 fails for sums of operators with integral terms**: coefficients and integrands are added separately, so that
`c ∫ d u + c' ∫ d' u` becomes `(c + c') ∫ (d + d') u`. -/
theorem C95_add_fails (R : Arith F) (hR : Pointwise R) (e : Ends) (i j : List Bool) (f g : List F) (c d c' d' : F)
    (ha : Flags R ⟨i, f, .arr [c] [d]⟩) (hb : Flags R ⟨j, g, .arr [c'] [d']⟩) (hlen : f.length = g.length) :
    ∃ s, Block.add R ⟨i, f, .arr [c] [d]⟩ ⟨j, g, .arr [c'] [d']⟩ = some s ∧ s.nl = .arr [R.add c' c] [R.add d' d] ∧
      ((i.getLastD false || j.getLastD false) = true → ∀ u y, s.apply R e u y
        = some ((f.mapIdx fun k h => R.val h y * iteratedDeriv k u y).sum + (g.mapIdx fun k h => R.val h y * iteratedDeriv k u y).sum
          + (R.val c y + R.val c' y) * ∫ t in e.e0..e.e1, (R.val d t + R.val d' t) * u t)) := by
  have hil : i.length = j.length := by
    have h1 := ha.len; have h2 := hb.len
    simp only at h1 h2
    rw [h1, h2, hlen]
  refine ⟨⟨List.zipWith (· || ·) i j, List.zipWith R.add f g, .arr [R.add c' c] [R.add d' d]⟩, ?_, rfl, fun hl u y => ?_⟩
  · unfold Block.add addNl addList
    simp [hlen, hil, Nonlocal.entries]
  · have hl' : (List.zipWith (· || ·) i j).getLastD false = true := by rw [zipWith_or_last i j hil]; exact hl
    have h1 := sum_mapIdx_add f g R.add (fun k h => if i.getD k false || j.getD k false then R.val h y * iteratedDeriv k u y else 0)
        (fun k h => if i.getD k false || j.getD k false then R.val h y * iteratedDeriv k u y else 0)
        (fun k h => if i.getD k false || j.getD k false then R.val h y * iteratedDeriv k u y else 0) hlen
        (fun k x z => by rw [hR.add]; split_ifs <;> ring)
    have h2 : (f.mapIdx fun k h => if i.getD k false || j.getD k false then R.val h y * iteratedDeriv k u y else 0).sum
        = (f.mapIdx fun k h => R.val h y * iteratedDeriv k u y).sum := by
      apply sum_mapIdx_congr
      intro k hk
      cases hb' : i.getD k false with
      | true => simp
      | false =>
        have := ha.zero k hk hb' y
        simp only at this
        simp [this]
    have h3 : (g.mapIdx fun k h => if i.getD k false || j.getD k false then R.val h y * iteratedDeriv k u y else 0).sum
        = (g.mapIdx fun k h => R.val h y * iteratedDeriv k u y).sum := by
      apply sum_mapIdx_congr
      intro k hk
      cases hb' : j.getD k false with
      | true => simp
      | false =>
        have := hb.zero k hk hb' y
        simp only at this
        simp [this]
    unfold Block.apply
    simp only [hl', if_true, List.zipWith_cons_cons, List.zipWith_nil_left, List.sum_cons, List.sum_nil, add_zero,
      zipWith_or_getD i j hil]
    rw [h1, h2, h3]
    simp only [hR.add]
    congr 2
    rw [add_comm (R.val c' y)]
    congr 1
    congr 1
    funext t
    ring

/-- **C95 fails for the negation of an operator with an integral term**: if the coefficient is a constant (one Chebyshev coefficient), the
integral term comes back with its sign unchanged, because coefficient and integrand are both negated; otherwise the result cannot be
discretised; it cannot be negated again. -/
theorem C95_neg_fails (R : Arith F) (hR : Pointwise R) (hnc : ∀ f, R.ncoef (R.neg f) = R.ncoef f) (e : Ends) (i : List Bool) (f : List F)
    (c d : F) (ha : Flags R ⟨i, f, .arr [c] [d]⟩) (hi : i.getLastD false = true) :
    ∃ s, Block.neg R ⟨i, f, .arr [c] [d]⟩ = some s ∧ s.neg R = none ∧
      ∀ u y, s.apply R e u y = if R.ncoef c = 1 then
        some (-(f.mapIdx fun k h => R.val h y * iteratedDeriv k u y).sum + R.val c y * ∫ t in e.e0..e.e1, R.val d t * u t) else none := by
  refine ⟨⟨i, f.map R.neg, .fn (R.neg c) (R.neg d)⟩, rfl, rfl, fun u y => ?_⟩
  have h2 : ((f.map R.neg).mapIdx fun k h => if i.getD k false then R.val h y * iteratedDeriv k u y else 0).sum
      = -(f.mapIdx fun k h => R.val h y * iteratedDeriv k u y).sum := by
    rw [sum_mapIdx_neg f R.neg (fun k h => if i.getD k false then R.val h y * iteratedDeriv k u y else 0) _
      (fun k h => by rw [hR.neg]; split_ifs <;> ring)]
    congr 1
    apply sum_mapIdx_congr
    intro k hk
    cases hb' : i.getD k false with
    | true => simp
    | false =>
      have := ha.zero k hk hb' y
      simp only at this
      simp [this]
  unfold Block.apply
  simp only [hi, if_true, hnc]
  split_ifs with h
  · rw [h2]
    congr 2
    have : (fun t => R.val (R.neg d) t * u t) = fun t => -(R.val d t * u t) := by
      funext t; rw [hR.neg]; ring
    rw [this, intervalIntegral.integral_neg, hR.neg]
    ring
  · rfl

/-- **C95 fails for operators of different order**: the derivatives which only the right operand has are dropped, and if the left operand
has more, the sum raises. -/
theorem C95_order_fails (R : Arith F) (a b : Block F) :
    (a.coeffs.length ≤ b.coeffs.length → ∀ s, a.add R b = some s → s.coeffs.length = a.coeffs.length) ∧
    (b.coeffs.length < a.coeffs.length → a.add R b = none) := by
  constructor
  · intro h s hs
    unfold Block.add addList at hs
    rw [if_pos h] at hs
    simp only [Option.bind_eq_bind, Option.bind_some, Option.bind_eq_some_iff] at hs
    obtain ⟨nl, -, h2⟩ := hs
    split_ifs at h2
    · rw [← Option.some.inj h2]
      simp [h]
  · intro h
    unfold Block.add addList
    rw [if_neg (by omega)]
    rfl

/-- **C95 fails for products**: `A * B` of two operators is their sum, and a block cannot be multiplied by a number. -/
theorem C95_mul_fails (R : Arith F) {m n : ℕ} (a b : Fin m → Fin n → Block F) (c : Block F) (s : ℝ) :
    mulOp R a b = addOp R a b ∧ c.mul s = none := ⟨rfl, rfl⟩

/-! ### The hypotheses are met -/

/-- Real polynomials in one variable would do; constants are enough. -/
private def constArith : Arith ℝ := ⟨(· + ·), (- ·), fun c _ => c, fun _ => 1⟩

private lemma const_pointwise : Pointwise constArith := ⟨fun _ _ _ => rfl, fun _ _ => rfl⟩

/-- `2 u + 3 u''` plus `5 u - u'' + 7 ∫ 4 u` on `[0, 1]`. -/
example : ∃ s, Block.add constArith ⟨[true, false, true, false], [2, 0, 3], .none⟩ ⟨[true, false, true, true], [5, 0, -1], .arr [7] [4]⟩
    = some s ∧ Flags constArith s ∧ ∀ u y p q,
      Block.apply constArith ⟨0, 1⟩ ⟨[true, false, true, false], [2, 0, 3], .none⟩ u y = some p →
      Block.apply constArith ⟨0, 1⟩ ⟨[true, false, true, true], [5, 0, -1], .arr [7] [4]⟩ u y = some q →
      s.apply constArith ⟨0, 1⟩ u y = some (p + q) := by
  refine C95_add constArith const_pointwise ⟨0, 1⟩ _ _ ⟨rfl, ?_, rfl⟩ ⟨rfl, ?_, ⟨rfl, by simp⟩⟩ rfl (Or.inl rfl)
  · intro j hj hf y
    have : j < 3 := hj
    interval_cases j <;> simp_all [constArith]
  · intro j hj hf y
    have : j < 3 := hj
    interval_cases j <;> simp_all [constArith]

/-- The failure of sums is real: `∫ u + ∫ u` on `[0, 1]` becomes `4 ∫ u`, which is not `2 ∫ u`. -/
example : ∃ s, Block.add constArith ⟨[true, true], [0], .arr [1] [1]⟩ ⟨[true, true], [0], .arr [1] [1]⟩ = some s ∧
    s.apply constArith ⟨0, 1⟩ (fun _ => 1) 0 = some 4 ∧
    Block.apply constArith ⟨0, 1⟩ ⟨[true, true], [0], .arr [1] [1]⟩ (fun _ => 1) 0 = some 1 := by
  obtain ⟨s, h1, -, h3⟩ := C95_add_fails constArith const_pointwise ⟨0, 1⟩ [true, true] [true, true] [0] [0] 1 1 1 1
    ⟨rfl, fun j hj _ y => by have : j < 1 := hj; interval_cases j; rfl, ⟨rfl, by simp⟩⟩
    ⟨rfl, fun j hj _ y => by have : j < 1 := hj; interval_cases j; rfl, ⟨rfl, by simp⟩⟩ rfl
  refine ⟨s, h1, ?_, ?_⟩
  · rw [h3 rfl]
    simp [constArith]
    norm_num
  · unfold Block.apply
    simp [constArith]

end Funpy.Props
