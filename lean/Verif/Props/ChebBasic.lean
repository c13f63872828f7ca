import Verif.Model.Mapping
import Verif.Lemmas.ChebEval
import Verif.Lemmas.ListAux
import Mathlib.Analysis.Calculus.Deriv.Add
import Mathlib.Analysis.Calculus.Deriv.Mul
import Mathlib.Analysis.Calculus.Deriv.Pow
import Mathlib.Tactic.NormNum
import Mathlib.Tactic.Linarith

/-!
# C01 – C05: domain map, evaluation, end-point values, flips, prolongation
-/

namespace Funpy.Props
open Spec Cheb Mapping

/-! ## C01 -/

/-- C01: on a non-degenerate domain `fwd` and `bwd` are mutually inverse. -/
theorem C01_inverse (e : Ends) (h : e.e0 < e.e1) :
    Function.LeftInverse (bwd e) (fwd e) ∧ Function.RightInverse (bwd e) (fwd e) := by
  have : e.e1 - e.e0 ≠ 0 := by linarith
  constructor
  · intro y; simp only [fwd, bwd, Mapping.diff]; field_simp; ring
  · intro x; simp only [fwd, bwd, Mapping.diff]; field_simp; ring

/-- C01: `fwd` maps `[-1,1]` onto the domain, increasing, end points to end points. -/
theorem C01_onto (e : Ends) (h : e.e0 < e.e1) :
    fwd e (-1) = e.e0 ∧ fwd e 1 = e.e1 ∧ StrictMono (fwd e) ∧
      fwd e '' Set.Icc (-1) 1 = Set.Icc e.e0 e.e1 := by
  have hmono : StrictMono (fwd e) := by
    intro a b hab
    simp only [fwd]
    nlinarith [mul_pos (sub_pos.mpr h) (sub_pos.mpr hab)]
  have h1 : fwd e (-1) = e.e0 := by simp only [fwd]; ring
  have h2 : fwd e 1 = e.e1 := by simp only [fwd]; ring
  refine ⟨h1, h2, hmono, ?_⟩
  ext x
  constructor
  · rintro ⟨y, ⟨hy1, hy2⟩, rfl⟩
    exact ⟨h1 ▸ hmono.monotone hy1, h2 ▸ hmono.monotone hy2⟩
  · rintro ⟨hx1, hx2⟩
    refine ⟨bwd e x, ?_, (C01_inverse e h).2 x⟩
    have hx := (C01_inverse e h).2 x
    constructor
    · rw [← hmono.le_iff_le, hx, h1]; exact hx1
    · rw [← hmono.le_iff_le, hx, h2]; exact hx2

/-- C01: `der` is the derivative of `fwd`. -/
theorem C01_der (e : Ends) (y : ℝ) : HasDerivAt (fwd e) (der e y) y := by
  have := (((hasDerivAt_id y).add_const (1 : ℝ)).const_mul e.e1).add
    (((hasDerivAt_id y).const_sub (1 : ℝ)).const_mul e.e0) |>.div_const 2
  refine this.congr_deriv ?_
  simp only [der, Mapping.diff]; ring

/-- C01: evaluating a `Fun` succeeds exactly on (non-empty vectors of) points of its domain, and
then evaluates the function on `[-1,1]` at the preimages under `fwd`. -/
theorem C01_call {β : Type} (e : Ends) (h : e.e0 < e.e1) (feval : List ℝ → β) (xs : List ℝ) :
    (∃ v, funCall e feval xs = some v) ↔ xs ≠ [] ∧ ∀ x ∈ xs, e.e0 ≤ x ∧ x ≤ e.e1 := by
  have hpos : 0 < e.e1 - e.e0 := by linarith
  have key : ∀ x, (-1 ≤ bwd e x ↔ e.e0 ≤ x) ∧ (bwd e x ≤ 1 ↔ x ≤ e.e1) := by
    intro x
    simp only [bwd, Mapping.diff]
    rw [le_div_iff₀ hpos, div_le_iff₀ hpos]
    constructor <;> constructor <;> intro h <;> linarith
  simp only [funCall]
  constructor
  · rintro ⟨v, hv⟩
    split_ifs at hv with hc
    obtain ⟨hne, h1, h2⟩ := hc
    refine ⟨by simpa using hne, fun x hx => ?_⟩
    exact ⟨(key x).1.mp (h1 _ (List.mem_map_of_mem hx)), (key x).2.mp (h2 _ (List.mem_map_of_mem hx))⟩
  · rintro ⟨hne, hx⟩
    rw [if_pos]
    · exact ⟨_, rfl⟩
    · refine ⟨by simpa using hne, ?_, ?_⟩ <;> intro w hw <;>
        obtain ⟨x, hx', rfl⟩ := List.mem_map.mp hw
      · exact (key x).1.mpr (hx x hx').1
      · exact (key x).2.mpr (hx x hx').2

/-- C01: the value returned for an in-domain vector of points `fwd y_i` is the value of the
function on the reference interval at the `y_i`. -/
theorem C01_call_value {β : Type} (e : Ends) (h : e.e0 < e.e1) (feval : List ℝ → β)
    (ys : List ℝ) (hne : ys ≠ []) (hy : ∀ y ∈ ys, -1 ≤ y ∧ y ≤ 1) :
    funCall e feval (ys.map (fwd e)) = some (feval ys) := by
  have hz : (ys.map (fwd e)).map (bwd e) = ys := by
    rw [List.map_map, (C01_inverse e h).1.comp_eq_id, List.map_id]
  simp only [funCall, hz]
  exact if_pos ⟨hne, fun w hw => (hy w hw).1, fun w hw => (hy w hw).2⟩

example : (⟨0, 3⟩ : Ends).e0 < (⟨0, 3⟩ : Ends).e1 := by norm_num
example : funCall ⟨0, 4⟩ (fun z => z) [1] = some [-1/2] := by
  have := C01_call_value ⟨0, 4⟩ (by norm_num) (fun z => z) [-1/2] (by simp) (by simp; norm_num)
  have hf : fwd ⟨0, 4⟩ (-1/2) = 1 := by simp [fwd]; norm_num
  simpa [hf] using this

/-! ## C02 -/

/-- C02: evaluation returns, for every abscissa, the row of the values of all columns of the
Chebyshev series `∑ c_k T_k`; every column length `n ≥ 1`, any number of columns. -/
theorem C02_eval {R : Type*} [Field R] (h2 : (2 : R) ≠ 0) (a : Arr R) (hw : a.WF) (hn : 0 < a.n)
    (xs : List R) :
    clenshaw xs a = xs.map fun x => a.cols.map fun c => chebEval c x := by
  have hne : ∀ c ∈ a.cols, c ≠ [] := by
    intro c hc h
    have := hw c hc
    rw [h] at this
    simp at this
    omega
  have hvec : ∀ x, clenshawVector x a = a.cols.map fun c => chebEval c x := by
    intro x
    rw [clenshawVector_eq x a hw]
    exact List.map_congr_left fun c hc => clenshawScalar_eq h2 x c (hne c hc)
  unfold clenshaw
  split
  · rename_i c heq
    apply List.map_congr_left
    intro x _
    simp [clenshawScalar_eq h2 x c (hne c (by simp [heq])), heq]
  · exact List.map_congr_left fun x _ => hvec x

/-- C02: the scalar and the array-valued paths agree column by column. -/
theorem C02_paths_agree {R : Type*} [Field R] (a : Arr R) (hw : a.WF) (x : R) :
    clenshawVector x a = a.cols.map (clenshawScalar x) := clenshawVector_eq x a hw

example : (⟨3, [[1, 2, 3], [0, 1, 0]]⟩ : Arr ℚ).WF ∧ 0 < (⟨3, [[1, 2, 3], [0, 1, 0]]⟩ : Arr ℚ).n := by
  simp [Arr.WF]
example : clenshaw [2] (⟨4, [[1, 2, 3, 1], [0, 1, 0, 0]]⟩ : Arr ℚ) = [[52, 2]] := by
  norm_num [clenshaw, clenshawVector, clenshawVecLoop]

/-! ## C03 -/

/-- C03: `lval` is the vector of values at `-1`. -/
theorem C03_lval {R : Type*} [CommRing R] (a : Arr R) :
    lval a = a.cols.map fun c => chebEval c (-1) := by
  unfold lval
  apply List.map_congr_left
  intro c _
  rw [← chebEval_one, chebEval_negOdd]

/-- C03: `rval` is the vector of values at `1`. -/
theorem C03_rval {R : Type*} [CommRing R] (a : Arr R) :
    rval a = a.cols.map fun c => chebEval c 1 := by
  unfold rval
  apply List.map_congr_left
  intro c _
  rw [chebEval_one]

example : lval (⟨3, [[1, 2, 3]]⟩ : Arr ℤ) = [2] ∧ rval (⟨3, [[1, 2, 3]]⟩ : Arr ℤ) = [6] := by
  constructor <;> decide

/-! ## C04 -/

/-- C04: `flipud` represents `x ↦ f(-x)`, column by column. -/
theorem C04_flipud {R : Type*} [CommRing R] (a : Arr R) (x : R) :
    (flipud a).cols.map (fun c => chebEval c x) = a.cols.map fun c => chebEval c (-x) := by
  simp only [flipud, Arr.mapCols, List.map_map]
  apply List.map_congr_left
  intro c _
  exact chebEval_negOdd c x

/-- C04: `flipud` keeps the shape and is an involution. -/
theorem C04_flipud_involutive {R : Type*} [CommRing R] (a : Arr R) (hw : a.WF) :
    flipud (flipud a) = a ∧ (flipud a).WF ∧ (flipud a).n = a.n ∧ (flipud a).m = a.m := by
  refine ⟨?_, ?_, rfl, ?_⟩
  · obtain ⟨n, cols⟩ := a
    simp only [flipud, Arr.mapCols, List.map_map, Arr.mk.injEq, true_and]
    conv_rhs => rw [← List.map_id cols]
    exact List.map_congr_left fun c _ => negOdd_negOdd c
  · intro c hc
    obtain ⟨d, hd, rfl⟩ := List.mem_map.mp hc
    rw [negOdd_length, hw d hd]; rfl
  · simp [flipud, Arr.m, Arr.mapCols]

/-- C04: `fliplr` reverses the order of the functions and keeps them and the shape otherwise. -/
theorem C04_fliplr {R : Type*} [CommRing R] (a : Arr R) :
    (fliplr a).n = a.n ∧ (fliplr a).m = a.m ∧
    ∀ j (hj : j < a.m) (x : R), ((fliplr a).cols.getD j []) = a.cols.getD (a.m - 1 - j) [] ∧
      chebEval ((fliplr a).cols.getD j []) x = chebEval (a.cols.getD (a.m - 1 - j) []) x := by
  have h : ∀ j (_ : j < a.m), ((fliplr a).cols.getD j []) = a.cols.getD (a.m - 1 - j) [] := by
    intro j hj
    simp only [fliplr, Arr.m] at hj ⊢
    rw [getD_lt' _ _ _ (by simpa using hj), List.getElem_reverse, getD_lt' _ _ _ (by omega)]
  exact ⟨rfl, by simp [fliplr, Arr.m], fun j hj x => ⟨h j hj, by rw [h j hj]⟩⟩

example : (fliplr (⟨2, [[1, 2], [3, 4]]⟩ : Arr ℤ)).cols = [[3, 4], [1, 2]] := by decide

example : (flipud (⟨3, [[1, 2, 3]]⟩ : Arr ℤ)).cols = [[1, -2, 3]] := by decide

/-! ## C05 -/

/-- C05: the result has exactly `max(N,0)` rows and the same number of columns. -/
theorem C05_shape {R : Type*} [Zero R] (a : Arr R) (N : ℤ) :
    (prolong a N).n = (max N 0).toNat ∧ (prolong a N).m = a.m ∧ (prolong a N).WF := by
  refine ⟨rfl, by simp [prolong, Arr.m, Arr.mapCols], ?_⟩
  intro c hc
  obtain ⟨d, _, rfl⟩ := List.mem_map.mp hc
  exact prolongCol_length d N

/-- C05: padding never changes the represented functions. -/
theorem C05_pad_preserves {R : Type*} [CommRing R] (a : Arr R) (hw : a.WF) (N : ℤ)
    (hN : (a.n : ℤ) ≤ N) (x : R) :
    (prolong a N).cols.map (fun c => chebEval c x) = a.cols.map fun c => chebEval c x := by
  simp only [prolong, Arr.mapCols, List.map_map]
  apply List.map_congr_left
  intro c hc
  apply chebEval_congr_getD
  intro k
  rw [prolongCol_getD]
  split_ifs with h
  · rfl
  · rw [getD_ge c k]
    have := hw c hc
    omega

/-- C05: truncation keeps exactly the first `N` coefficients of every column. -/
theorem C05_truncate {R : Type*} [Zero R] (a : Arr R) (hw : a.WF) (N : ℕ) (hN : N ≤ a.n) :
    (prolong a N).cols = a.cols.map fun c => c.take N := by
  simp only [prolong, Arr.mapCols]
  apply List.map_congr_left
  intro c hc
  have := hw c hc
  simp only [prolongCol]
  split_ifs with h1 h2
  · rw [List.take_of_length_le (by omega)]
  · omega
  · congr 1; omega

/-- C05: prolonging up and back down restores the array. -/
theorem C05_roundtrip {R : Type*} [Zero R] (a : Arr R) (hw : a.WF) (N : ℤ) (hN : (a.n : ℤ) ≤ N) :
    prolong (prolong a N) a.n = a := by
  obtain ⟨n, cols⟩ := a
  simp only [prolong, Arr.mapCols, List.map_map, Arr.mk.injEq]
  refine ⟨by omega, ?_⟩
  conv_rhs => rw [← List.map_id cols]
  apply List.map_congr_left
  intro c hc
  have hlen : c.length = n := hw c hc
  simp only [id, Function.comp]
  have h1 : (prolongCol (prolongCol c N) n).length = c.length := by
    rw [prolongCol_length]; omega
  refine ext_getD 0 h1 fun k hk => ?_
  simp only at hN
  rw [prolongCol_getD, if_pos (by omega), prolongCol_getD c, if_pos (by omega)]

/-- C05: prolonging to the current length does nothing. -/
theorem C05_same {R : Type*} [Zero R] (a : Arr R) (hw : a.WF) : prolong a a.n = a := by
  obtain ⟨n, cols⟩ := a
  simp only [prolong, Arr.mapCols, Arr.mk.injEq]
  refine ⟨by omega, ?_⟩
  conv_rhs => rw [← List.map_id cols]
  apply List.map_congr_left
  intro c hc
  have hlen : c.length = n := hw c hc
  rw [← hlen, prolongCol_self]; rfl

example : (prolong (⟨2, [[1, 2]]⟩ : Arr ℤ) 4).cols = [[1, 2, 0, 0]] ∧
    (prolong (⟨3, [[1, 2, 3]]⟩ : Arr ℤ) 2).cols = [[1, 2]] ∧
    (prolong (⟨3, [[1, 2, 3]]⟩ : Arr ℤ) (-1)).cols = [[]] := by decide

end Funpy.Props
