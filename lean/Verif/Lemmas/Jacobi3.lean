import Verif.Lemmas.Jacobi2
import Mathlib.Algebra.BigOperators.Group.Finset.Basic
import Mathlib.Analysis.SpecialFunctions.Gamma.Basic

/-! # The downward conversions, the loops and `ultra2ultra` -/

namespace Funpy.Jac
open Spec Finset

/-- signed top row -/
noncomputable def top (a b : ℝ) (j : ℕ) : ℝ := (-1) ^ j * ∏ i ∈ range j, ((a + 1 + i) / (a + b + 2 + i))

theorem top_zero (a b : ℝ) : top a b 0 = 1 := by simp [top]
theorem top_succ (a b : ℝ) (j : ℕ) : top a b (j + 1) = -(top a b j * ((a + 1 + j) / (a + b + 2 + j))) := by
  unfold top; rw [prod_range_succ, pow_succ]; ring

theorem top_ne {a b : ℝ} (ha : -1 < a) (hb : -2 < a + b) (j : ℕ) : top a b j ≠ 0 := by
  unfold top
  apply mul_ne_zero (pow_ne_zero _ (by norm_num))
  apply prod_ne_zero_iff.mpr
  intro i _
  have hi : (0 : ℝ) ≤ i := Nat.cast_nonneg i
  apply div_ne_zero <;> linarith

theorem D1_ne {a b : ℝ} (hb : -2 < a + b) (k : ℕ) : D1 a b k ≠ 0 := by
  unfold D1
  split_ifs with h
  · norm_num
  · have : (1 : ℝ) ≤ k := by exact_mod_cast Nat.one_le_iff_ne_zero.mpr h
    apply div_ne_zero <;> linarith

theorem cumprod_getD (g : ℕ → ℝ) (n k : ℕ) (h : k < n) :
    (cumprod ((List.range n).map g)).getD k 0 = ∏ i ∈ range (k + 1), g i := by
  unfold cumprod
  rw [List.length_map, List.length_range, gmr _ h, ← List.map_take, List.take_range, Nat.min_eq_left (by omega)]
  generalize k + 1 = m
  induction m with
  | zero => simp
  | succ m ih => rw [List.range_succ, List.map_append, List.prod_append, ih, prod_range_succ]; simp

theorem cumprod_length (l : List ℝ) : (cumprod l).length = l.length := by simp [cumprod]

theorem drop_sum (l : List ℝ) (k : ℕ) : (l.drop k).sum = l.getD k 0 + (l.drop (k + 1)).sum := by
  rcases Nat.lt_or_ge k l.length with h | h
  · rw [List.drop_eq_getElem_cons h, List.sum_cons, List.getD_eq_getElem _ _ h]
  · rw [List.drop_eq_nil_of_le h, List.drop_eq_nil_of_le (by omega), gge h]; simp

theorem down_spec {a b : ℝ} (ha : -1 < a) (hb : -2 < a + b) (v : List ℝ) (hn : 2 ≤ v.length) :
    down v a b = some ((List.range v.length).map fun k => 1 / (D1 a b k * top a b k) *
      (((List.range v.length).map fun j => top a b j * v.getD j 0).drop k).sum) := by
  unfold down
  have hn1 : 1 ≤ v.length := by omega
  simp only []
  rw [arange_n2 (a + 2) (a + v.length) v.length (by ring) hn1,
    arange_n2 (a + b + 3) (a + b + v.length + 1) v.length (by ring) hn1,
    arange_n2' (a + b + 5) (a + b + 2 * v.length) v.length (by ring) hn1, bcast_map_range, bcast_map_range]
  simp only [Option.bind_some]
  have e1 : (1 :: (a + 1) / (a + b + 2) :: (cumprod ((List.range (v.length - 2)).map
        fun (k : ℕ) => (a + 2 + (k : ℝ)) / (a + b + 3 + (k : ℝ)))).map fun y => (a + 1) / (a + b + 2) * y)
      = (List.range v.length).map fun j => ∏ i ∈ range j, ((a + 1 + (i : ℝ)) / (a + b + 2 + i)) := by
    apply extG
    · simp [cumprod_length]; omega
    · intro k
      rcases Nat.lt_or_ge k v.length with h | h
      · rw [gmr _ h]
        match k with
        | 0 => simp
        | 1 => simp
        | k + 2 =>
          rw [List.getD_cons_succ, List.getD_cons_succ]
          have := Funpy.getD_map' (fun y => (a + 1) / (a + b + 2) * y) (0 : ℝ)
            (cumprod ((List.range (v.length - 2)).map fun (k : ℕ) => (a + 2 + (k : ℝ)) / (a + b + 3 + (k : ℝ)))) k
          rw [mul_zero] at this
          rw [this, cumprod_getD _ _ _ (by omega), prod_range_succ' _ (k + 1), mul_comm]
          congr 1
          · apply prod_congr rfl
            intro i _
            push_cast
            congr 1 <;> ring
          · simp
      · rw [gge (by simp [cumprod_length]; omega), gge (by simpa using h)]
  rw [e1, bcast_map_range]
  simp only [Option.bind_some]
  have e2 : ∀ (g : ℕ → ℝ), bcast (fun x1 x2 => x1 * x2) ((List.range v.length).map g) v
      = some ((List.range v.length).map fun j => g j * v.getD j 0) := by
    intro g
    conv_lhs => rw [list_eq_map_range v]
    simp only [List.length_map, List.length_range]
    rw [bcast_map_range]
  rw [e2]
  simp only [Option.bind_some]
  have e3 : (((List.range v.length).map fun k => (-1 : ℝ) ^ k *
      ∏ i ∈ range k, ((a + 1 + (i : ℝ)) / (a + b + 2 + i))).drop 2).map (fun t => 1 / t)
      = (List.range (v.length - 2)).map fun k => 1 / top a b (k + 2) := by
    apply extG
    · simp
    · intro k
      rcases Nat.lt_or_ge k (v.length - 2) with h | h
      · rw [gmr _ h, List.getD_eq_getElem _ _ (by simp; omega)]
        simp [top, add_comm]
      · rw [gge (by simp; omega), gge (by simpa using h)]
  rw [e3, bcast_map_range]
  simp only [Option.bind_some]
  have e4 : (1 :: -(a + b + 3) / (a + 1) :: (List.range (v.length - 2)).map
        fun (k : ℕ) => (a + b + 5 + (k : ℝ) * 2) / (a + b + 3 + k) * (1 / top a b (k + 2)))
      = (List.range v.length).map fun k => 1 / (D1 a b k * top a b k) := by
    apply extG
    · simp; omega
    · intro k
      rcases Nat.lt_or_ge k v.length with h | h
      · rw [gmr _ h]
        match k with
        | 0 => simp [D1, top]
        | 1 =>
          have h1 : a + b + 2 ≠ 0 := by linarith
          have h2 : a + 1 ≠ 0 := by linarith
          have h3 : a + b + 3 ≠ 0 := by linarith
          rw [List.getD_cons_succ, List.getD_cons_zero, top_succ, top_zero]
          simp only [D1, one_ne_zero, if_false, Nat.cast_one, Nat.cast_zero]
          rw [show a + b + 1 + 1 = a + b + 2 by ring, show a + b + 1 + 2 * 1 = a + b + 3 by ring]
          simp only [add_zero]
          field_simp
        | k + 2 =>
          rw [List.getD_cons_succ, List.getD_cons_succ, gmr _ (by omega)]
          simp only [D1, Nat.succ_ne_zero, if_false]
          push_cast
          rw [show a + b + 1 + ((k : ℝ) + 2) = a + b + 3 + k by ring,
            show a + b + 1 + 2 * ((k : ℝ) + 2) = a + b + 5 + k * 2 by ring, one_div (_ * _), mul_inv, inv_div, one_div]
      · rw [gge (by simp; omega), gge (by simpa using h)]
  rw [e4]
  unfold tailSums
  rw [List.length_map, List.length_range, bcast_map_range]
  rfl

theorem down_inv {a b : ℝ} (ha : -1 < a) (hb : -2 < a + b) (v : List ℝ) (hn : 2 ≤ v.length) :
    ∃ u, down v a b = some u ∧ u.length = v.length ∧ up u a b = some v := by
  refine ⟨_, down_spec ha hb v hn, by simp, ?_⟩
  set tmp := (List.range v.length).map fun j => top a b j * v.getD j 0 with htmp
  rw [up_spec _ _ _ (by simp; omega)]
  congr 1
  rw [List.length_map, List.length_range]
  conv_rhs => rw [list_eq_map_range v]
  apply List.map_congr_left
  intro k hk
  have hk' := List.mem_range.mp hk
  have hk0 : (0 : ℝ) ≤ k := Nat.cast_nonneg k
  rw [gmr _ hk']
  have hu : ((List.range v.length).map fun k => 1 / (D1 a b k * top a b k) * (tmp.drop k).sum).getD (k + 1) 0
      = 1 / (D1 a b (k + 1) * top a b (k + 1)) * (tmp.drop (k + 1)).sum := by
    rcases Nat.lt_or_ge (k + 1) v.length with h | h
    · rw [gmr _ h]
    · rw [gge (by simpa using h), List.drop_eq_nil_of_le (by simpa [htmp] using h)]; simp
  rw [hu, drop_sum tmp k]
  have ht : tmp.getD k 0 = top a b k * v.getD k 0 := by rw [htmp, gmr _ hk']
  rw [ht, top_succ]
  have h1 := top_ne ha hb k
  have h2 := D1_ne hb k
  have h3 : a + 1 + (k : ℝ) ≠ 0 := by linarith
  have h4 : a + b + 2 + (k : ℝ) ≠ 0 := by linarith
  have h5 : a + b + 3 + 2 * (k : ℝ) ≠ 0 := by linarith
  have h6 : D1 a b (k + 1) = (a + b + 2 + k) / (a + b + 3 + 2 * k) := by
    simp only [D1, Nat.succ_ne_zero, if_false]; push_cast; congr 1 <;> ring
  rw [h6]
  unfold D2
  generalize top a b k = t at *
  generalize D1 a b k = d at *
  generalize (tmp.drop (k + 1)).sum = S at *
  generalize v.getD k 0 = y at *
  generalize a + b + 3 + 2 * (k : ℝ) = A at *
  generalize a + b + 2 + (k : ℝ) = B at *
  generalize a + 1 + (k : ℝ) = C at *
  field_simp
  ring

theorem down_series {a b : ℝ} (ha : -1 < a) (hb : -2 < a + b) (v : List ℝ) (hn : 2 ≤ v.length) :
    ∃ u, down v a b = some u ∧ u.length = v.length ∧ ∀ x, jacobiSeries a b u x = jacobiSeries a (b + 1) v x := by
  obtain ⟨u, h1, h2, h3⟩ := down_inv ha hb v hn
  obtain ⟨w, h4, _, h5⟩ := up_series hb u (by omega)
  rw [h3] at h4
  obtain rfl := Option.some.inj h4
  exact ⟨u, h1, h2, fun x => (h5 x).symm⟩

theorem left_series {a b : ℝ} (hb1 : -1 < b) (hb : -2 < a + b) (v : List ℝ) (hn : 2 ≤ v.length) :
    ∃ u, left v a b = some u ∧ u.length = v.length ∧ ∀ x, jacobiSeries a b u x = jacobiSeries (a + 1) b v x := by
  obtain ⟨u, h1, h2, h3⟩ := down_inv (a := b) (b := a) hb1 (by linarith) (negOdd v) (by simpa [negOdd_length] using hn)
  have h2' : u.length = v.length := by rw [h2, negOdd_length]
  refine ⟨negOdd u, by simp [left, h1], by rw [negOdd_length, h2'], fun x => ?_⟩
  obtain ⟨w, h4, _, h5⟩ := right_series (a := a) (b := b) hb (negOdd u) (by rw [negOdd_length]; omega)
  unfold right at h4
  rw [negOdd_negOdd, h3, Option.map_some, negOdd_negOdd] at h4
  obtain rfl := Option.some.inj h4
  exact (h5 x).symm

/-! ### Loops -/

theorem loop_inc (step : List ℝ → ℝ → Option (List ℝ)) (q : ℝ) (Inv : ℝ → List ℝ → Prop)
    (hstep : ∀ c p, Inv p c → p ≤ q - 1 → ∃ c', step c p = some c' ∧ Inv (p + 1) c') (d : ℕ) :
    ∀ (fuel : ℕ) (c : List ℝ) (p : ℝ), q - p = d → d + 1 ≤ fuel → Inv p c →
      ∃ c', loop (fun p => p ≤ q - 1) step 1 fuel c p = some (c', q) ∧ Inv q c' := by
  induction d with
  | zero =>
    intro fuel c p hd hf hI
    obtain ⟨f, rfl⟩ : ∃ f, fuel = f + 1 := ⟨fuel - 1, by omega⟩
    have : p = q := by push_cast at hd; linarith
    subst this
    exact ⟨c, by rw [loop, if_neg (by linarith)], hI⟩
  | succ d ih =>
    intro fuel c p hd hf hI
    obtain ⟨f, rfl⟩ : ∃ f, fuel = f + 1 := ⟨fuel - 1, by omega⟩
    have hd0 : (0 : ℝ) ≤ d := Nat.cast_nonneg d
    have hle : p ≤ q - 1 := by push_cast at hd; linarith
    obtain ⟨c', h1, h2⟩ := hstep c p hI hle
    obtain ⟨c'', h3, h4⟩ := ih f c' (p + 1) (by push_cast at hd; linarith) (by omega) h2
    exact ⟨c'', by rw [loop, if_pos hle, h1, Option.bind_some, h3], h4⟩

theorem loop_dec (step : List ℝ → ℝ → Option (List ℝ)) (q : ℝ) (Inv : ℝ → List ℝ → Prop)
    (hstep : ∀ c p, Inv p c → q + 1 ≤ p → ∃ c', step c p = some c' ∧ Inv (p + -1) c') (d : ℕ) :
    ∀ (fuel : ℕ) (c : List ℝ) (p : ℝ), p - q = d → d + 1 ≤ fuel → Inv p c →
      ∃ c', loop (fun p => q + 1 ≤ p) step (-1) fuel c p = some (c', q) ∧ Inv q c' := by
  induction d with
  | zero =>
    intro fuel c p hd hf hI
    obtain ⟨f, rfl⟩ : ∃ f, fuel = f + 1 := ⟨fuel - 1, by omega⟩
    have : p = q := by push_cast at hd; linarith
    subst this
    exact ⟨c, by rw [loop, if_neg (by linarith)], hI⟩
  | succ d ih =>
    intro fuel c p hd hf hI
    obtain ⟨f, rfl⟩ : ∃ f, fuel = f + 1 := ⟨fuel - 1, by omega⟩
    have hd0 : (0 : ℝ) ≤ d := Nat.cast_nonneg d
    have hle : q + 1 ≤ p := by push_cast at hd; linarith
    obtain ⟨c', h1, h2⟩ := hstep c p hI hle
    obtain ⟨c'', h3, h4⟩ := ih f c' (p + -1) (by push_cast at hd; linarith) (by omega) h2
    exact ⟨c'', by rw [loop, if_pos hle, h1, Option.bind_some, h3], h4⟩

theorem loop_skip {g : ℝ → Prop} {step : List ℝ → ℝ → Option (List ℝ)} {inc : ℝ} {fuel : ℕ} {c : List ℝ} {p : ℝ}
    (h : ¬ g p) (hf : 0 < fuel) : loop g step inc fuel c p = some (c, p) := by
  obtain ⟨f, rfl⟩ : ∃ f, fuel = f + 1 := ⟨fuel - 1, by omega⟩
  rw [loop, if_neg h]

theorem loop_int {g : ℝ → Prop} {step : List ℝ → ℝ → Option (List ℝ)} (inc : ℤ) :
    ∀ (fuel : ℕ) (c : List ℝ) (p : ℝ) (r : List ℝ × ℝ), loop g step inc fuel c p = some r → ∃ m : ℤ, r.2 = p + m := by
  intro fuel
  induction fuel with
  | zero => intro c p r h; simp [loop] at h
  | succ f ih =>
    intro c p r h
    rw [loop] at h
    split_ifs at h with hg
    · obtain ⟨c', _, h2⟩ := Option.bind_eq_some_iff.mp h
      obtain ⟨m, hm⟩ := ih _ _ _ h2
      exact ⟨inc + m, by rw [hm]; push_cast; ring⟩
    · obtain rfl := Option.some.inj h
      exact ⟨0, by simp⟩

theorem fuel_ok {p q : ℝ} {d : ℕ} (h : |q - p| = d) : d + 1 ≤ fuelFor p q := by
  unfold fuelFor; rw [h]; simp


/-- The two loops for one parameter, raising or lowering it to `q`. -/
theorem both_loops (stepU stepD : List ℝ → ℝ → Option (List ℝ)) (q : ℝ) (Inv : ℝ → List ℝ → Prop)
    (hU : ∀ c p, Inv p c → p ≤ q - 1 → ∃ c', stepU c p = some c' ∧ Inv (p + 1) c')
    (hD : ∀ c p, Inv p c → q + 1 ≤ p → ∃ c', stepD c p = some c' ∧ Inv (p + -1) c')
    (c : List ℝ) (p : ℝ) (hz : ∃ m : ℤ, q - p = m) (hI : Inv p c) :
    ∃ r1 c', loop (fun p => p ≤ q - 1) stepU 1 (fuelFor p q) c p = some r1 ∧
      loop (fun p => q + 1 ≤ p) stepD (-1) (fuelFor r1.2 q) r1.1 r1.2 = some (c', q) ∧ Inv q c' := by
  obtain ⟨m, hm⟩ := hz
  rcases le_total 0 m with h | h
  · obtain ⟨d, rfl⟩ := Int.eq_ofNat_of_zero_le h
    have hm' : q - p = (d : ℝ) := by simpa using hm
    obtain ⟨c', h1, h2⟩ := loop_inc stepU q Inv hU d (fuelFor p q) c p hm'
      (fuel_ok (by rw [hm', abs_of_nonneg (Nat.cast_nonneg d)])) hI
    exact ⟨(c', q), c', h1, loop_skip (by simp) (by simp [fuelFor]), h2⟩
  · obtain ⟨d, hd⟩ := Int.eq_ofNat_of_zero_le (by omega : 0 ≤ -m)
    have hm' : p - q = (d : ℝ) := by
      have : ((-m : ℤ) : ℝ) = (d : ℝ) := by rw [hd]; simp
      push_cast at this
      linarith
    have hd0 : (0 : ℝ) ≤ d := Nat.cast_nonneg d
    obtain ⟨c', h1, h2⟩ := loop_dec stepD q Inv hD d (fuelFor p q) c p hm'
      (fuel_ok (by rw [abs_sub_comm, hm', abs_of_nonneg hd0])) hI
    exact ⟨(c, p), c', loop_skip (by linarith) (by simp [fuelFor]), h1, h2⟩

theorem jac2jac_series {alpha beta gam delta : ℝ} (ha : -1 < alpha) (hb : -1 < beta) (hg : -1 < gam)
    (hd : -1 < delta) (hz1 : ∃ m : ℤ, gam - alpha = m) (hz2 : ∃ m : ℤ, delta - beta = m) (c : List ℝ)
    (hc : 2 ≤ c.length ∨ (1 ≤ c.length ∧ alpha ≤ gam ∧ beta ≤ delta)) :
    ∃ c', jac2jac c alpha beta gam delta = some c' ∧ c'.length = c.length ∧
      ∀ x, jacobiSeries gam delta c' x = jacobiSeries alpha beta c x := by
  have hc1 : 1 ≤ c.length := by omega
  obtain ⟨r1, c2, h1, h2, hl2, _, _, hs2⟩ := both_loops (fun c al => right c al beta) (fun c al => left c (al - 1) beta)
    gam (fun p w => w.length = c.length ∧ -1 < p ∧ (alpha ≤ gam → p ≤ gam) ∧
      ∀ x, jacobiSeries p beta w x = jacobiSeries alpha beta c x)
    (by
      rintro w p ⟨hl, hp, _, hs⟩ hle
      obtain ⟨u, e1, e2, e3⟩ := right_series (a := p) (b := beta) (by linarith) w (by omega)
      exact ⟨u, e1, by omega, by linarith, fun _ => by linarith, fun x => by rw [e3, hs]⟩)
    (by
      rintro w p ⟨hl, hp, hle2, hs⟩ hle
      have hn2 : 2 ≤ w.length := by
        rcases hc with h | ⟨_, h, _⟩
        · omega
        · have := hle2 h; linarith
      obtain ⟨u, e1, e2, e3⟩ := left_series (a := p - 1) (b := beta) hb (by linarith) w hn2
      refine ⟨u, e1, by omega, by linarith, fun h => by linarith [hle2 h], fun x => ?_⟩
      rw [show p + -1 = p - 1 by ring, e3, show p - 1 + 1 = p by ring, hs])
    c alpha hz1 ⟨rfl, ha, fun h => h, fun _ => rfl⟩
  obtain ⟨r3, c4, h3, h4, hl4, _, _, hs4⟩ := both_loops (fun c be => up c gam be) (fun c be => down c gam (be - 1))
    delta (fun p w => w.length = c.length ∧ -1 < p ∧ (beta ≤ delta → p ≤ delta) ∧
      ∀ x, jacobiSeries gam p w x = jacobiSeries alpha beta c x)
    (by
      rintro w p ⟨hl, hp, _, hs⟩ hle
      obtain ⟨u, e1, e2, e3⟩ := up_series (a := gam) (b := p) (by linarith) w (by omega)
      exact ⟨u, e1, by omega, by linarith, fun _ => by linarith, fun x => by rw [e3, hs]⟩)
    (by
      rintro w p ⟨hl, hp, hle2, hs⟩ hle
      have hn2 : 2 ≤ w.length := by
        rcases hc with h | ⟨_, _, h⟩
        · omega
        · have := hle2 h; linarith
      obtain ⟨u, e1, e2, e3⟩ := down_series (a := gam) (b := p - 1) hg (by linarith) w hn2
      refine ⟨u, e1, by omega, by linarith, fun h => by linarith [hle2 h], fun x => ?_⟩
      rw [show p + -1 = p - 1 by ring, e3, show p - 1 + 1 = p by ring, hs])
    c2 beta hz2 ⟨hl2, hb, fun h => h, hs2⟩
  refine ⟨c4, ?_, hl4, hs4⟩
  unfold jac2jac jacobiIntegerConversion
  rw [h1, Option.bind_some, h2, Option.bind_some]
  simp only [] at h3 h4 ⊢
  rw [h3, Option.bind_some, h4, Option.bind_some, Option.bind_some]
  simp

theorem jac2jac_none {alpha beta gam delta : ℝ} (c : List ℝ)
    (h : (∀ m : ℤ, 1 / 10 ^ 15 < |alpha + m - gam|) ∨ (∀ m : ℤ, 1 / 10 ^ 15 < |beta + m - delta|)) :
    jac2jac c alpha beta gam delta = none := by
  unfold jac2jac
  rw [Option.bind_eq_none_iff]
  intro r hr
  unfold jacobiIntegerConversion at hr
  obtain ⟨r1, h1, hr⟩ := Option.bind_eq_some_iff.mp hr
  obtain ⟨r2, h2, hr⟩ := Option.bind_eq_some_iff.mp hr
  obtain ⟨r3, h3, hr⟩ := Option.bind_eq_some_iff.mp hr
  obtain ⟨r4, h4, hr⟩ := Option.bind_eq_some_iff.mp hr
  obtain rfl := Option.some.inj hr
  obtain ⟨m1, e1⟩ := loop_int 1 _ _ _ _ (by simpa using h1)
  obtain ⟨m2, e2⟩ := loop_int (-1) _ _ _ _ (by simpa using h2)
  obtain ⟨m3, e3⟩ := loop_int 1 _ _ _ _ (by simpa using h3)
  obtain ⟨m4, e4⟩ := loop_int (-1) _ _ _ _ (by simpa using h4)
  simp only []
  rcases h with h | h
  · rw [if_pos]
    have := h (m1 + m2)
    rw [e2, e1]
    push_cast at this
    rwa [← add_assoc] at this
  · split_ifs with g1 g2
    · rfl
    · rfl
    · exfalso
      apply g2
      have := h (m3 + m4)
      rw [e4, e3]
      push_cast at this
      rwa [← add_assoc] at this

/-! ### Scaling factors -/

theorem Gamma_rising {s : ℝ} (hs : 0 < s) (k : ℕ) : Real.Gamma (s + k) = rising s k * Real.Gamma s := by
  induction k with
  | zero => simp [rising_zero]
  | succ k ih =>
    have : s + (k : ℝ) ≠ 0 := by positivity
    push_cast
    rw [← add_assoc, Real.Gamma_add_one this, ih, rising_succ]; ring

theorem scl_length (lam : ℝ) (n : ℕ) : (scl lam n).length = n + 1 := by
  unfold scl; split_ifs <;> simp [cumprod_length]

/-- Ratio between Jacobi and ultraspherical polynomials. -/
theorem scl_basis {lam : ℝ} (hl : 0 ≤ lam) {n k : ℕ} (hk : k ≤ n) (x : ℝ) :
    (scl lam n).getD k 0 ≠ 0 ∧
      ultraBasisR lam k x = jacobi (lam - 1 / 2) (lam - 1 / 2) k x / (scl lam n).getD k 0 := by
  rcases hl.eq_or_lt with rfl | hl
  · have e : (scl 0 n).getD k 0 = rising (1 / 2) k / k.factorial := by
      simp only [scl, if_true]
      cases k with
      | zero => simp [rising_zero]
      | succ k =>
        rw [List.getD_cons_succ, cumprod_getD _ _ _ (by omega), prod_div_distrib]
        congr 1
        · unfold rising; apply prod_congr rfl; intro i _; ring
        · rw [← prod_range_add_one_eq_factorial]; push_cast; rfl
    have h1 : rising (1 / 2) k ≠ 0 := (rising_pos (by norm_num) k).ne'
    have h2 : (k.factorial : ℝ) ≠ 0 := by positivity
    rw [e]
    refine ⟨div_ne_zero h1 h2, ?_⟩
    have := chebT_jacobi x k
    simp only [ultraBasisR, if_true]
    rw [show (0 : ℝ) - 1 / 2 = -1 / 2 by norm_num, div_div_eq_mul_div, eq_div_iff h1]
    linear_combination this
  · have hG1 := Real.Gamma_pos_of_pos (by positivity : 0 < 2 * lam)
    have hG2 := Real.Gamma_pos_of_pos (by positivity : 0 < lam + 1 / 2)
    have h1 := rising_pos (by positivity : 0 < lam + 1 / 2) k
    have h2 := rising_pos (by positivity : 0 < 2 * lam) k
    have e : (scl lam n).getD k 0 = rising (lam + 1 / 2) k / rising (2 * lam) k := by
      simp only [scl, if_neg hl.ne']
      rw [gmr _ (by omega), Gamma_rising (by positivity), Gamma_rising (by positivity), Real.exp_sub,
        Real.exp_log (by positivity), Real.exp_log (by positivity), abs_of_pos (by positivity),
        abs_of_pos (by positivity)]
      generalize Real.Gamma (2 * lam) = G at *
      generalize Real.Gamma (lam + 1 / 2) = H at *
      generalize rising (lam + 1 / 2) k = R at *
      generalize rising (2 * lam) k = S at *
      field_simp
    rw [e]
    refine ⟨(div_pos h1 h2).ne', ?_⟩
    have := gegenbauer_jacobi (lam := lam) (by positivity) x k
    simp only [ultraBasisR, if_neg hl.ne']
    rw [div_div_eq_mul_div, eq_div_iff h1.ne']
    linear_combination this

theorem bcastInto_map_range (f : ℝ → ℝ → ℝ) (u v : List ℝ) (h : u.length = v.length) :
    bcastInto f u v = some ((List.range u.length).map fun k => f (u.getD k 0) (v.getD k 0)) := by
  unfold bcastInto
  have : bcast f u v = some ((List.range u.length).map fun k => f (u.getD k 0) (v.getD k 0)) := by
    conv_lhs => rw [list_eq_map_range u, list_eq_map_range v, ← h]
    rw [bcast_map_range]
  rw [this, Option.bind_some, if_pos (by simp)]

theorem scaled_series {lam : ℝ} (hl : 0 ≤ lam) (c : List ℝ) (hc : 1 ≤ c.length) (x : ℝ) :
    jacobiSeries (lam - 1 / 2) (lam - 1 / 2)
      ((List.range c.length).map fun k => c.getD k 0 / (scl lam (c.length - 1)).getD k 0) x = ultraSeriesR lam c x := by
  rw [series_map_range]
  apply sum_congr rfl
  intro k hk
  have := mem_range.mp hk
  obtain ⟨_, h2⟩ := scl_basis hl (by omega : k ≤ c.length - 1) x
  rw [h2]; ring

theorem unscaled_series {lam : ℝ} (hl : 0 ≤ lam) (c : List ℝ) (hc : 1 ≤ c.length) (x : ℝ) :
    ultraSeriesR lam ((List.range c.length).map fun k => c.getD k 0 * (scl lam (c.length - 1)).getD k 0) x
      = jacobiSeries (lam - 1 / 2) (lam - 1 / 2) c x := by
  unfold ultraSeriesR
  rw [List.length_map, List.length_range]
  apply sum_congr rfl
  intro k hk
  have := mem_range.mp hk
  obtain ⟨h1, h2⟩ := scl_basis hl (by omega : k ≤ c.length - 1) x
  rw [h2, gmr _ this]
  field_simp

/-- `LeftJacobiConversion` of a single coefficient treats it as two equal ones. -/
theorem left_single (y a b : ℝ) : left [y] a b = left [y, y] a b := by
  have a1 : arange (b + 2) (b + ((1 : ℕ) : ℝ)) 1 = [] := by
    rw [arange_n2 _ _ 1 (by push_cast; ring) (le_refl _)]; rfl
  have a2 : arange (b + a + 3) (b + a + ((1 : ℕ) : ℝ) + 1) 1 = [] := by
    rw [arange_n2 _ _ 1 (by push_cast; ring) (le_refl _)]; rfl
  have a3 : arange (b + a + 5) (b + a + 2 * ((1 : ℕ) : ℝ)) 2 = [] := by
    rw [arange_n2' _ _ 1 (by push_cast; ring) (le_refl _)]; rfl
  have b1 : arange (b + 2) (b + ((2 : ℕ) : ℝ)) 1 = [] := by
    rw [arange_n2 _ _ 2 (by push_cast; ring) (by omega)]; rfl
  have b2 : arange (b + a + 3) (b + a + ((2 : ℕ) : ℝ) + 1) 1 = [] := by
    rw [arange_n2 _ _ 2 (by push_cast; ring) (by omega)]; rfl
  have b3 : arange (b + a + 5) (b + a + 2 * ((2 : ℕ) : ℝ)) 2 = [] := by
    rw [arange_n2' _ _ 2 (by push_cast; ring) (by omega)]; rfl
  have h : down (negOdd [y]) b a = down (negOdd [y, y]) b a := by
    have n1 : negOdd [y] = [y] := rfl
    have n2 : negOdd [y, y] = [y, -y] := rfl
    rw [n1, n2]
    unfold down
    simp only [List.length_cons, List.length_nil, zero_add, Nat.reduceAdd]
    rw [a1, a2, a3, b1, b2, b3]
    simp [bcast, cumprod, tailSums, List.range_succ]
  unfold left
  rw [h]

end Funpy.Jac
