import Verif.Model.ChebOut
import Verif.Props.ChebArith

/-!
# C77: in-place arithmetic and `out` arguments
-/

namespace Funpy.Props
open Spec Cheb Finset

/-- C77: `multiply` with `out` leaves in the target exactly the coefficients (and tolerance) that the
product without `out` has, for every target, and raises exactly when the latter does. -/
theorem C77_mul_out (f g out : Tech) (hf : f.Proper) (hg : g.Proper) (hm : f.coeffs.m = g.coeffs.m) :
    (∀ r, f.mul g = some r → ∃ o, f.mulOut g out = some o ∧ o.coeffs = r.coeffs ∧ o.eps = r.eps) ∧
    (f.mul g = none → f.mulOut g out = none) := by
  have hzf := hf.size
  have hzg := hg.size
  have arr : ∀ (t b : Tech), t.Proper → b.Proper →
      (∀ r, t.mulArr b.coeffs = some r →
        ∃ o, t.mulArrOut b.coeffs out = some o ∧ o.coeffs = r.coeffs ∧ o.eps = r.eps) ∧
      (t.mulArr b.coeffs = none → t.mulArrOut b.coeffs out = none) := by
    intro t b ht hb
    have hzt := ht.size
    have hzb := hb.size
    simp only [Tech.mulArr, Tech.mulArrOut]
    split_ifs with h1 h2
    · obtain ⟨r, hr, e1, -, -, -, e5⟩ := mk'_false (t.coeffs.mapCols t.coeffs.n
        fun c => c.map (· * (b.coeffs.cols.headD []).getD 0 0))
        (by simpa [Arr.mapCols, Arr.m] using hzt) t.eps t.ishappy 1 (1 + 2 ^ 14)
      refine ⟨?_, ?_⟩
      · intro r' hr'
        rw [Tech.mulNum, hr] at hr'
        obtain rfl := Option.some.inj hr'
        exact ⟨_, rfl, by rw [e5]; rfl, by rw [e1]; rfl⟩
      · intro h
        rw [Tech.mulNum, hr] at h
        simp at h
    · obtain ⟨r, hr, e1, -, -, -, e5⟩ := mk'_false (zipArr (· * ·) t.coeffs b.coeffs)
        (by
          have : t.coeffs.cols.length = b.coeffs.cols.length := h2.2
          simp only [zipArr, Arr.m, List.length_zipWith, ← this, min_self]
          exact hzt) t.eps t.ishappy 1 (1 + 2 ^ 14)
      refine ⟨?_, ?_⟩
      · intro r' hr'
        rw [hr] at hr'
        obtain rfl := Option.some.inj hr'
        exact ⟨_, rfl, by rw [e5], by rw [e1]⟩
      · intro h
        rw [hr] at h
        simp at h
    · exact ⟨fun r h => by simp at h, fun _ => rfl⟩
  simp only [Tech.mul, Tech.mulOut]
  by_cases h1 : f.coeffs.n = 1
  · simp only [if_pos h1]; exact arr g f hg hf
  by_cases h2 : g.coeffs.n = 1
  · simp only [if_neg h1, if_pos h2]; exact arr f g hf hg
  simp only [if_neg h1, if_neg h2]
  have key : ∀ c : Arr ℝ, (∀ r, Tech.mk' c (max f.eps g.eps) (f.ishappy && g.ishappy) false = some r →
      ∃ o, (some { out with coeffs := c, ishappy := f.ishappy && g.ishappy, eps := max f.eps g.eps } :
        Option Tech) = some o ∧ o.coeffs = r.coeffs ∧ o.eps = r.eps) ∧
      (c.n * c.m ≠ 0 → Tech.mk' c (max f.eps g.eps) (f.ishappy && g.ishappy) false ≠ none) := by
    intro c
    by_cases hz : c.n * c.m = 0
    · refine ⟨fun r h => ?_, fun h => absurd hz h⟩
      rw [Tech.mk', if_pos hz] at h
      simp at h
    · obtain ⟨r, hr, e1, -, -, -, e5⟩ := mk'_false c hz (max f.eps g.eps) (f.ishappy && g.ishappy) 1
        (1 + 2 ^ 14)
      refine ⟨fun r' h => ?_, fun _ h => ?_⟩
      · rw [hr] at h
        obtain rfl := Option.some.inj h
        exact ⟨_, rfl, by rw [e5], by rw [e1]⟩
      · rw [hr] at h
        simp at h
  refine ⟨(key _).1, fun h => absurd h ((key _).2 ?_)⟩
  have hmm : ∀ a : Arr ℝ, (polyfit ((polyval a).mapCols a.n fun v => v.map abs)).n = a.n ∧
      (polyfit ((polyval a).mapCols a.n fun v => v.map abs)).m = a.m := by
    intro a
    simp [polyfit, polyval, Arr.mapCols, Arr.m]
  have hn0 := simplify_n_pos (coeffTimesMain f.coeffs g.coeffs).1 (max f.eps g.eps)
  have hm0 : (simplifyCoeffs (coeffTimesMain f.coeffs g.coeffs).1 (max f.eps g.eps)).m ≠ 0 := by
    rw [simplify_m]
    have h1 := hf.m_ne
    simp only [coeffTimesMain, Arr.mapCols, Arr.m, List.length_zipWith, List.length_map] at hm h1 ⊢
    omega
  split_ifs
  · rw [(hmm _).1, (hmm _).2]; exact Nat.mul_ne_zero (by omega) hm0
  · exact Nat.mul_ne_zero (by omega) hm0

/-- C77: `f *= g` (target `f`) is the product. -/
theorem C77_imul (f g r : Tech) (hf : f.Proper) (hg : g.Proper) (hm : f.coeffs.m = g.coeffs.m)
    (h : f.mul g = some r) : ∃ o, f.mulOut g f = some o ∧ ∀ x, tv o x = tv r x := by
  obtain ⟨o, ho, hc, -⟩ := (C77_mul_out f g f hf hg hm).1 r h
  exact ⟨o, ho, fun x => by rw [tv, tv, hc]⟩

/-- C77: `f *= s` and `np.multiply(f, s, out=h)` give `s f`, for every number and every target. -/
theorem C77_mul_num (f out : Tech) (s x : ℝ) : tv (f.mulNumOut s out) x = (tv f x).map (· * s) := by
  simp only [Tech.mulNumOut, tv, Arr.mapCols, List.map_map]
  apply List.map_congr_left
  intro c _
  simp only [Function.comp, chebEval, List.length_map, sum_mul]
  apply sum_congr rfl
  intro k hk
  rw [mem_range] at hk
  rw [getD_lt' _ _ _ (by simpa using hk), getD_lt' _ _ _ hk, List.getElem_map]
  ring

/-- C77: `f /= s` is `f / s` at every point (no simplification takes place). -/
theorem C77_idiv (f : Tech) (s x : ℝ) : tv (f.divNumOut s f) x = (tv f x).map (· / s) := by
  simp only [Tech.divNumOut, tv, Arr.mapCols, List.map_map]
  apply List.map_congr_left
  intro c _
  simp only [Function.comp, chebEval, List.length_map, sum_div]
  apply sum_congr rfl
  intro k hk
  rw [mem_range] at hk
  rw [getD_lt' _ _ _ (by simpa using hk), getD_lt' _ _ _ hk, List.getElem_map]
  ring

/-- C77: `f += s` for a number per column adds it. -/
theorem C77_iadd_const (f : Tech) (hf : f.Proper) (s : List ℝ) (hs : s.length = f.coeffs.m) (x : ℝ) :
    tv (f.addConstOut s f) x = List.zipWith (· + ·) (tv f x) s := by
  obtain ⟨r, hr, hx⟩ := C12_addConst f hf s hs
  rw [← hx x]
  rw [Tech.addConst] at hr
  obtain ⟨q, hq, -, -, -, -, e5⟩ := mk'_false
    ⟨f.coeffs.n, List.zipWith (fun c x => c.set 0 (c.getD 0 0 + x)) f.coeffs.cols s⟩
    (by
      have := hf.2
      simp only [Arr.m, List.length_zipWith] at *
      rw [hs, min_self]; exact this) f.eps f.ishappy 1 (1 + 2 ^ 14)
  rw [hq] at hr
  obtain rfl := Option.some.inj hr
  rw [tv, tv, e5]
  rfl

/-- The constant function `c` with one column. -/
noncomputable def cst (c : ℝ) : Tech := ⟨⟨1, [[c]]⟩, 1 / 2 ^ 52, 1, 1 + 2 ^ 14, true⟩

/-- C77 is false for a target that is not the left operand: `np.add(f, g, out=h)` leaves `h + g` in
`h`, `np.add(f, s, out=h)` leaves `h + s`, `np.divide(f, s, out=h)` leaves `h / s` (the value of `f` is
not used at all), and `np.negative(f, out=h)` does not change `h`. -/
theorem C77_fails (a b c s x : ℝ) :
    (∃ o, (cst a).addOut (cst b) (cst c) = some o ∧ tv o x = [c + b]) ∧
    tv ((cst a).addConstOut [s] (cst c)) x = [c + s] ∧
    tv ((cst a).divNumOut s (cst c)) x = [c / s] ∧
    ((cst a).negOut (cst c)).2 = cst c := by
  refine ⟨?_, ?_, ?_, rfl⟩
  · simp [cst, tv, Tech.addOut, zipArr, chebEval, Arr.m]
  · simp [cst, tv, Tech.addConstOut, chebEval]
  · simp [cst, tv, Tech.divNumOut, Arr.mapCols, chebEval]

/-- C77: more generally `np.add(f, g, out=h)` for a target of the right shape adds `g` to the old
value of the target. -/
theorem C77_add_out_actual (f g h o : Tech) (hg : g.Proper) (hh : h.Proper)
    (ho : f.addOut g h = some o) (x : ℝ) : tv o x = List.zipWith (· + ·) (tv h x) (tv g x) := by
  simp only [Tech.addOut] at ho
  split_ifs at ho with h1 h2 h3
  · obtain rfl := Option.some.inj ho
    have hp := C05_pad_preserves g.coeffs hg.1 (f.coeffs.n : ℤ) (by omega)
    have hwf : ∀ c ∈ (prolong g.coeffs (f.coeffs.n : ℤ)).cols, c.length = h.coeffs.n := by
      intro c hc; rw [(C05_shape g.coeffs _).2.2 c hc, h2.1]
    simp only [tv, zipArr]
    rw [map_zip_add' _ _ h.coeffs.n hh.1 hwf, hp]
  · obtain rfl := Option.some.inj ho
    simp only [tv, zipArr]
    rw [map_zip_add' _ _ h.coeffs.n hh.1 (fun c hc => by rw [hg.1 c hc, h3.1])]

/-- The hypotheses are met by ordinary functions. -/
example : (cst 2).Proper ∧ (cst 3).Proper := by
  constructor <;> constructor <;> simp [cst, Arr.WF, Arr.m]

end Funpy.Props
