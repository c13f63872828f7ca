import Verif.Model.Reflection
import Verif.Lemmas.ListAux
import Mathlib.Tactic.Linarith
import Mathlib.Tactic.FieldSimp
import Mathlib.Tactic.Ring
import Mathlib.Tactic.Push

/-!
# C119: `Reflection`; C102: boundary entries of stacked vectors
-/

namespace Funpy.Props
open Reflection

/-- Specification: the triangular wave of period two that falls from `1` to `0` on `[0,1]` and rises again on `[1,2]`. -/
noncomputable def wave (t : ℝ) : ℝ := |1 - (t - 2 * ⌊t / 2⌋)|

lemma wave_even (i : ℕ) (hi : i % 2 = 0) (t : ℝ) (h0 : (i : ℝ) ≤ t) (h1 : t ≤ i + 1) : wave t = 1 - (t - i) := by
  obtain ⟨q, rfl⟩ : ∃ q, i = 2 * q := ⟨i / 2, by omega⟩
  push_cast at *
  have : ⌊t / 2⌋ = (q : ℤ) := by
    rw [Int.floor_eq_iff]
    constructor
    · push_cast; linarith
    · push_cast; linarith
  rw [wave, this, abs_of_nonneg]
  · push_cast; ring
  · push_cast; linarith

lemma wave_odd (i : ℕ) (hi : i % 2 = 1) (t : ℝ) (h0 : (i : ℝ) ≤ t) (h1 : t ≤ i + 1) : wave t = t - i := by
  obtain ⟨q, rfl⟩ : ∃ q, i = 2 * q + 1 := ⟨i / 2, by omega⟩
  push_cast at *
  rcases h1.lt_or_eq with h1 | h1
  · have : ⌊t / 2⌋ = (q : ℤ) := by
      rw [Int.floor_eq_iff]
      constructor <;> push_cast <;> linarith
    rw [wave, this, abs_of_nonpos] <;> push_cast <;> linarith
  · have : ⌊t / 2⌋ = (q : ℤ) + 1 := by
      rw [Int.floor_eq_iff]
      constructor <;> push_cast <;> linarith
    rw [wave, this, abs_of_nonneg] <;> push_cast <;> linarith

lemma clip_of_mem (t : ℝ) (h0 : 0 ≤ t) (h1 : t ≤ 1) : clip t 0 1 = t := by
  rw [clip, max_eq_left h0, min_eq_left h1]

/-- one tile -/
private lemma tile_value {V : Type} (f : ℝ → V) (n : ℕ) (hn : 0 < n) (x : ℝ) (k : ℕ) (hk : 1 ≤ k)
    (h : ((k - 1 : ℕ) : ℝ) / n ≤ x ∧ x ≤ (k : ℝ) / n) :
    (if k % 2 = 1 then f (oddArg (0, 1) n (k - 1) x) else f (evenArg (0, 1) n (k - 1) x)) = f (wave (n * x)) := by
  obtain ⟨i, rfl⟩ : ∃ i, k = i + 1 := ⟨k - 1, by omega⟩
  simp only [Nat.add_sub_cancel] at h ⊢
  have hn' : (0 : ℝ) < n := by exact_mod_cast hn
  have h1 : (i : ℝ) ≤ n * x := by rw [div_le_iff₀ hn'] at h; linarith [h.1]
  have h2 : n * x ≤ (i : ℝ) + 1 := by
    have := h.2; rw [le_div_iff₀ hn'] at this; push_cast at this; linarith
  by_cases hp : (i + 1) % 2 = 1
  · rw [if_pos hp, wave_even i (by omega) _ h1 h2, oddArg]
    have : (n : ℝ) * (1 / n - (x - i / n)) = 1 - (n * x - i) := by field_simp
    rw [this, clip_of_mem _ (by linarith) (by linarith)]
  · rw [if_neg hp, wave_odd i (by omega) _ h1 h2, evenArg]
    have : (n : ℝ) * (x - i / n) = n * x - i := by field_simp
    rw [this, clip_of_mem _ (by linarith) (by linarith)]

private lemma tiles_eq {V : Type} (f : ℝ → V) (n : ℕ) (hn : 0 < n) (x : ℝ) : ∀ (ks : List ℕ) (v : Option V), (∀ k ∈ ks, 1 ≤ k) →
    (v = none ∨ v = some (f (wave (n * x)))) →
    (v = some (f (wave (n * x))) ∨ ∃ k ∈ ks, ((k - 1 : ℕ) : ℝ) / n ≤ x ∧ x ≤ (k : ℝ) / n) →
    tiles f (0, 1) n x ks v = some (f (wave (n * x)))
  | [], v, _, _, h => by simpa [tiles] using h
  | k :: ks, v, hk, hv, h => by
    rw [tiles]
    by_cases hc : ((k - 1 : ℕ) : ℝ) / n ≤ x ∧ x ≤ (k : ℝ) / n
    · rw [if_pos hc, tile_value f n hn x k (hk k (by simp)) hc]
      exact tiles_eq f n hn x ks _ (fun k' h' => hk k' (by simp [h'])) (.inr rfl) (.inl rfl)
    · rw [if_neg hc]
      refine tiles_eq f n hn x ks v (fun k' h' => hk k' (by simp [h'])) hv ?_
      rcases h with h | ⟨k', hk', h⟩
      · exact .inl h
      · rcases List.mem_cons.1 hk' with rfl | hk'
        · exact absurd h hc
        · exact .inr ⟨k', hk', h⟩

/-- C119: for a function on `[0,1]`, at least two tiles and every point of `[0,1]`, the value is `f` at the triangular wave
of `n x`: every tile shows `f` at full length, alternately reversed. -/
theorem C119_wave {V : Type} (f : ℝ → V) (n : ℕ) (hn : 2 ≤ n) (x : ℝ) (h0 : 0 ≤ x) (h1 : x ≤ 1) :
    call f (0, 1) n x = some (f (wave (n * x))) := by
  have hn' : (0 : ℝ) < n := by exact_mod_cast (by omega : 0 < n)
  rw [call, if_neg (by omega)]
  apply tiles_eq f n (by omega) x _ none (by simp) (.inl rfl)
  right
  by_cases hx : x = 1
  · refine ⟨n, List.mem_map.2 ⟨n - 1, by simp; omega, by omega⟩, ?_, ?_⟩
    · rw [div_le_iff₀ hn', hx, one_mul]; exact_mod_cast Nat.sub_le _ _
    · rw [le_div_iff₀ hn', hx, one_mul]
  · have hpos : 0 ≤ n * x := by positivity
    have hlt : n * x < n := by
      have : x < 1 := lt_of_le_of_ne h1 hx
      nlinarith
    have hf := Nat.floor_le hpos
    have hf' := Nat.lt_floor_add_one (n * x)
    have hfl : ⌊(n : ℝ) * x⌋₊ < n := by
      have : ((⌊(n : ℝ) * x⌋₊ : ℕ) : ℝ) < n := lt_of_le_of_lt hf hlt
      exact_mod_cast this
    refine ⟨⌊(n : ℝ) * x⌋₊ + 1, List.mem_map.2 ⟨_, List.mem_range.2 hfl, rfl⟩, ?_, ?_⟩
    · rw [Nat.add_sub_cancel, div_le_iff₀ hn']; linarith
    · rw [le_div_iff₀ hn']; push_cast; linarith

/-- C119: neighbouring tiles are mirror images of each other. -/
theorem C119_mirror {V : Type} (f : ℝ → V) (n : ℕ) (hn : 2 ≤ n) (i : ℕ) (hi : 1 ≤ i) (hin : i < n) (t : ℝ) (h0 : 0 ≤ t) (h1 : t ≤ 1) :
    call f (0, 1) n ((i + t) / n) = call f (0, 1) n ((i - t) / n) := by
  have hn' : (0 : ℝ) < n := by exact_mod_cast (by omega : 0 < n)
  have hi1 : (1 : ℝ) ≤ i := by exact_mod_cast hi
  have hin' : (i : ℝ) + 1 ≤ n := by exact_mod_cast hin
  rw [C119_wave f n hn _ (by positivity) (by rw [div_le_one hn']; linarith),
    C119_wave f n hn _ (div_nonneg (by linarith) hn'.le) (by rw [div_le_one hn']; linarith)]
  have e1 : (n : ℝ) * ((i + t) / n) = i + t := by field_simp
  have e2 : (n : ℝ) * ((i - t) / n) = i - t := by field_simp
  rw [e1, e2]
  obtain ⟨j, rfl⟩ : ∃ j, i = j + 1 := ⟨i - 1, by omega⟩
  push_cast at *
  rcases Nat.mod_two_eq_zero_or_one j with hj | hj
  · rw [wave_even j hj ((j : ℝ) + 1 - t) (by linarith) (by linarith), wave_odd (j + 1) (by omega) ((j : ℝ) + 1 + t) (by push_cast; linarith) (by push_cast; linarith)]
    push_cast; congr 2; ring
  · rw [wave_odd j hj ((j : ℝ) + 1 - t) (by linarith) (by linarith), wave_even (j + 1) (by omega) ((j : ℝ) + 1 + t) (by push_cast; linarith) (by push_cast; linarith)]
    push_cast; congr 2; ring

/-- C119 fails for one tile: with `n = 1` the function is not reversed, although the first tile always is for `n ≥ 2`
(there `f(1)` is the value at `0`). -/
theorem C119_one_fails {V : Type} (f : ℝ → V) (x : ℝ) : call f (0, 1) 1 x = some (f x) ∧
    ∀ n, 2 ≤ n → call f (0, 1) n 0 = some (f 1) := by
  refine ⟨by rw [call, if_pos rfl], fun n hn => ?_⟩
  rw [C119_wave f n hn 0 le_rfl zero_le_one]
  simp [wave]

private lemma tiles_none {V : Type} (f : ℝ → V) (dom : ℝ × ℝ) (n : ℕ) (x : ℝ) : ∀ (ks : List ℕ),
    (∀ k ∈ ks, ¬ (((k - 1 : ℕ) : ℝ) / n ≤ x ∧ x ≤ (k : ℝ) / n)) → tiles f dom n x ks none = none
  | [], _ => rfl
  | k :: ks, h => by
    rw [tiles, if_neg (h k (by simp))]
    exact tiles_none f dom n x ks fun k' h' => h k' (by simp [h'])

/-- C119 fails for other domains: points outside `[0,1]` are never assigned, whatever the domain of `f` is; the array keeps
its uninitialised content. -/
theorem C119_domain_fails {V : Type} (f : ℝ → V) (dom : ℝ × ℝ) (n : ℕ) (hn : 2 ≤ n) (x : ℝ) (hx : x < 0 ∨ 1 < x) :
    call f dom n x = none := by
  have hn' : (0 : ℝ) < n := by exact_mod_cast (by omega : 0 < n)
  rw [call, if_neg (by omega)]
  apply tiles_none
  intro k hk ⟨h1, h2⟩
  obtain ⟨i, hi, rfl⟩ := List.mem_map.1 hk
  have hi' : (i : ℝ) + 1 ≤ n := by exact_mod_cast List.mem_range.1 hi
  rcases hx with hx | hx
  · have : (0 : ℝ) ≤ ((i + 1 - 1 : ℕ) : ℝ) / n := by positivity
    linarith
  · rw [le_div_iff₀ hn'] at h2
    push_cast at h2
    nlinarith

/-- C119 fails for other domains: on `[-1,1]` the tiles only show the part of `f` on `[0,1]`. -/
theorem C119_half_fails {V : Type} (f g : ℝ → V) (hfg : ∀ t, 0 ≤ t → t ≤ 1 → f t = g t) (n : ℕ) (hn : 2 ≤ n) (x : ℝ) :
    call f (-1, 1) n x = call g (-1, 1) n x := by
  have hn' : (0 : ℝ) < n := by exact_mod_cast (by omega : 0 < n)
  have key : ∀ (ks : List ℕ) (v : Option V), (∀ k ∈ ks, 1 ≤ k) → tiles f (-1, 1) n x ks v = tiles g (-1, 1) n x ks v := by
    intro ks
    induction ks with
    | nil => intro v _; rfl
    | cons k ks ih =>
      intro v hk
      rw [tiles, tiles]
      by_cases hc : ((k - 1 : ℕ) : ℝ) / n ≤ x ∧ x ≤ (k : ℝ) / n
      · rw [if_pos hc, if_pos hc, ih _ (fun k' h' => hk k' (by simp [h']))]
        obtain ⟨i, rfl⟩ : ∃ i, k = i + 1 := ⟨k - 1, by have := hk k (by simp); omega⟩
        simp only [Nat.add_sub_cancel] at hc ⊢
        have h1 : (i : ℝ) ≤ n * x := by have := hc.1; rw [div_le_iff₀ hn'] at this; linarith
        have h2 : n * x ≤ (i : ℝ) + 1 := by
          have := hc.2; rw [le_div_iff₀ hn'] at this; push_cast at this; linarith
        have e1 : oddArg (-1, 1) n i x = 1 - (n * x - i) := by
          have : (n : ℝ) * (1 / n - (x - i / n)) = 1 - (n * x - i) := by field_simp
          rw [oddArg, this, clip, max_eq_left (by linarith), min_eq_left (by linarith)]
        have e2 : evenArg (-1, 1) n i x = n * x - i := by
          have : (n : ℝ) * (x - i / n) = n * x - i := by field_simp
          rw [evenArg, this, clip, max_eq_left (by linarith), min_eq_left (by linarith)]
        rw [e1, e2, hfg _ (by linarith) (by linarith), hfg _ (by linarith) (by linarith)]
      · rw [if_neg hc, if_neg hc]
        exact ih v fun k' h' => hk k' (by simp [h'])
  rw [call, call, if_neg (by omega), if_neg (by omega)]
  exact key _ _ (by simp)

/-- a concrete case: three tiles at `x = 1/2`, the middle of the second tile -/
example : call (fun t => t) (0, 1) 3 (1 / 2) = some (1 / 2) := by
  rw [C119_wave _ 3 (by norm_num) _ (by norm_num) (by norm_num), wave_odd 1 rfl _ (by norm_num) (by norm_num)]
  norm_num

/-! ## C102 -/
open Tools

variable {α : Type} [Zero α]

private lemma set_loop (k base : ℕ) (g : ℕ → α) (o : List α) :
    ((List.range k).foldl (fun o j => o.set (base + j) (g j)) o).length = o.length ∧
    ∀ p, ((List.range k).foldl (fun o j => o.set (base + j) (g j)) o)[p]?
      = if base ≤ p ∧ p < base + k ∧ p < o.length then some (g (p - base)) else o[p]? := by
  induction k with
  | zero =>
    refine ⟨rfl, fun p => ?_⟩
    rw [if_neg (by omega)]; rfl
  | succ k ih =>
    rw [List.range_succ, List.foldl_append]
    simp only [List.foldl_cons, List.foldl_nil, List.length_set]
    refine ⟨ih.1, fun p => ?_⟩
    rw [List.getElem?_set, ih.1, ih.2]
    by_cases h : base + k = p
    · subst h
      rw [if_pos rfl]
      by_cases hl : base + k < o.length
      · rw [if_pos hl, if_pos (by omega)]; congr 2; omega
      · rw [if_neg hl, if_neg (by omega), List.getElem?_eq_none (by omega)]
    · rw [if_neg h]
      by_cases h2 : base ≤ p ∧ p < base + k ∧ p < o.length
      · rw [if_pos h2, if_pos (by omega)]
      · rw [if_neg h2, if_neg (by omega)]

private lemma fill_loop (ne k k' : ℕ) (hk : k ≤ k') (g : ℕ → ℕ → α) (o : List α) :
    (fill ne k k' g o).length = o.length ∧
    ∀ i j, j < k' → (fill ne k k' g o)[i * k' + j]?
      = if i < ne ∧ j < k ∧ i * k' + j < o.length then some (g i j) else o[i * k' + j]? := by
  induction ne with
  | zero =>
    refine ⟨rfl, fun i j _ => ?_⟩
    rw [if_neg (by omega)]; rfl
  | succ ne ih =>
    have hs : fill (ne + 1) k k' g o = (List.range k).foldl (fun o j => o.set (ne * k' + j) (g ne j)) (fill ne k k' g o) := by
      rw [fill, List.range_succ, List.foldl_append]; rfl
    rw [hs]
    obtain ⟨l1, l2⟩ := set_loop k (ne * k') (g ne) (fill ne k k' g o)
    refine ⟨by rw [l1, ih.1], fun i j hj => ?_⟩
    rw [l2, ih.1, ih.2 i j hj]
    rcases lt_trichotomy i ne with h | h | h
    · have : (i + 1) * k' ≤ ne * k' := Nat.mul_le_mul_right _ h
      have e : (i + 1) * k' = i * k' + k' := by ring
      rw [if_neg (by omega)]
      by_cases h2 : j < k ∧ i * k' + j < o.length
      · rw [if_pos ⟨h, h2⟩, if_pos ⟨by omega, h2⟩]
      · rw [if_neg (fun h' => h2 h'.2), if_neg (fun h' => h2 h'.2)]
    · subst h
      by_cases h2 : j < k ∧ i * k' + j < o.length
      · rw [if_pos (by omega), if_pos ⟨by omega, h2⟩]; congr 2; omega
      · rw [if_neg (by omega), if_neg (by omega), if_neg (by omega)]
    · have : (ne + 1) * k' ≤ i * k' := Nat.mul_le_mul_right _ h
      have e : (ne + 1) * k' = ne * k' + k' := by ring
      rw [if_neg (by omega), if_neg (by omega), if_neg (by omega)]

/-- The stacking of `ne` vectors of length `n`. -/
def stack (ne n : ℕ) (b : ℕ → ℕ → α) : List α := List.ofFn fun p : Fin (ne * n) => b (p.val / n) (p.val % n)

lemma stack_length (ne n : ℕ) (b : ℕ → ℕ → α) : (stack ne n b).length = ne * n := by simp [stack]

lemma stack_getElem? (ne n : ℕ) (b : ℕ → ℕ → α) (i j : ℕ) (hj : j < n) :
    (stack ne n b)[i * n + j]? = if i < ne then some (b i j) else none := by
  have hn : 0 < n := by omega
  have e1 : (i * n + j) / n = i := by rw [Nat.add_comm, Nat.add_mul_div_right _ _ hn, Nat.div_eq_of_lt hj, Nat.zero_add]
  have e2 : (i * n + j) % n = j := by rw [Nat.add_comm, Nat.add_mul_mod_self_right, Nat.mod_eq_of_lt hj]
  by_cases hi : i < ne
  · have hlt : i * n + j < ne * n := by
      have : (i + 1) * n ≤ ne * n := Nat.mul_le_mul_right _ hi
      have e : (i + 1) * n = i * n + n := by ring
      omega
    rw [if_pos hi, List.getElem?_eq_getElem (by rw [stack_length]; exact hlt)]
    simp [stack, e1, e2]
  · rw [if_neg hi, List.getElem?_eq_none]
    rw [stack_length]
    have : ne * n ≤ i * n := Nat.mul_le_mul_right _ (by omega)
    omega

private lemma stack_ext (ne n : ℕ) (b : ℕ → ℕ → α) (l : List α) (hl : l.length = ne * n)
    (h : ∀ i j, i < ne → j < n → l[i * n + j]? = some (b i j)) : l = stack ne n b := by
  apply List.ext_getElem?
  intro p
  by_cases hp : p < ne * n
  · have hn : 0 < n := by
      rcases Nat.eq_zero_or_pos n with h0 | h0
      · rw [h0] at hp; simp at hp
      · exact h0
    have e : p = p / n * n + p % n := by rw [Nat.mul_comm]; exact (Nat.div_add_mod p n).symm
    have hi : p / n < ne := by rw [Nat.div_lt_iff_lt_mul hn]; exact hp
    have hj := Nat.mod_lt p hn
    rw [e, h _ _ hi hj, stack_getElem? _ _ _ _ _ hj, if_pos hi]
  · rw [List.getElem?_eq_none (by omega), List.getElem?_eq_none (by rw [stack_length]; omega)]

/-- C102: `remove_bc` drops the first `bw` entries of every block, whatever was in the uninitialised array. -/
theorem C102_remove (ne n bw : ℕ) (hne : 0 < ne) (hbw : bw ≤ n) (b : ℕ → ℕ → α) (e : List α) (he : e.length = ne * (n - bw)) :
    removeBc (stack ne n b) ne bw e = stack ne (n - bw) fun i j => b i (j + bw) := by
  have hlen : (stack ne n b).length / ne = n := by rw [stack_length, Nat.mul_div_cancel_left _ hne]
  obtain ⟨l1, l2⟩ := fill_loop ne (n - bw) (n - bw) le_rfl (fun i j => (stack ne n b).getD (i * n + j + bw) 0) e
  rw [removeBc, hlen]
  apply stack_ext
  · rw [l1, he]
  · intro i j hi hj
    have hlt : i * (n - bw) + j < ne * (n - bw) := by
      have : (i + 1) * (n - bw) ≤ ne * (n - bw) := Nat.mul_le_mul_right _ hi
      have e : (i + 1) * (n - bw) = i * (n - bw) + (n - bw) := by ring
      omega
    rw [l2 i j hj, if_pos ⟨hi, hj, by omega⟩, List.getD_eq_getElem?_getD, add_assoc, stack_getElem? _ _ _ _ _ (by omega), if_pos hi]
    rfl

/-- C102: `get_bc` returns the first `bw` entries of every block. -/
theorem C102_get (ne n bw : ℕ) (hne : 0 < ne) (hbw : bw ≤ n) (b : ℕ → ℕ → α) :
    getBc (stack ne n b) ne bw = stack ne bw b := by
  have hlen : (stack ne n b).length / ne = n := by rw [stack_length, Nat.mul_div_cancel_left _ hne]
  obtain ⟨l1, l2⟩ := fill_loop ne bw bw le_rfl (fun i j => (stack ne n b).getD (i * n + j) 0) (List.replicate (ne * bw) 0)
  rw [getBc, hlen]
  apply stack_ext
  · rw [l1, List.length_replicate]
  · intro i j hi hj
    have hlt : i * bw + j < ne * bw := by
      have : (i + 1) * bw ≤ ne * bw := Nat.mul_le_mul_right _ hi
      have e : (i + 1) * bw = i * bw + bw := by ring
      omega
    rw [l2 i j hj, if_pos ⟨hi, hj, by rw [List.length_replicate]; exact hlt⟩, List.getD_eq_getElem?_getD,
      stack_getElem? _ _ _ _ _ (by omega), if_pos hi]
    rfl

/-- C102: `replace_bc` moves every block up by `bw` entries and fills the end of the block with zeros. -/
theorem C102_replace (ne n bw : ℕ) (hne : 0 < ne) (b : ℕ → ℕ → α) :
    replaceBc (stack ne n b) ne bw = stack ne n fun i j => if j + bw < n then b i (j + bw) else 0 := by
  have hlen : (stack ne n b).length / ne = n := by rw [stack_length, Nat.mul_div_cancel_left _ hne]
  obtain ⟨l1, l2⟩ := fill_loop ne (n - bw) n (Nat.sub_le _ _) (fun i j => (stack ne n b).getD (i * n + j + bw) 0)
    (List.replicate (stack ne n b).length 0)
  rw [replaceBc, hlen]
  apply stack_ext
  · rw [l1, List.length_replicate, stack_length]
  · intro i j hi hj
    have hlt : i * n + j < ne * n := by
      have : (i + 1) * n ≤ ne * n := Nat.mul_le_mul_right _ hi
      have e : (i + 1) * n = i * n + n := by ring
      omega
    rw [l2 i j hj, List.length_replicate, stack_length]
    by_cases h : j + bw < n
    · rw [if_pos ⟨hi, by omega, hlt⟩, List.getD_eq_getElem?_getD, add_assoc, stack_getElem? _ _ _ _ _ h, if_pos hi, if_pos h]
      rfl
    · rw [if_neg (by omega), if_neg h, List.getElem?_replicate, if_pos hlt]

/-- C102: together `get_bc` and `remove_bc` keep all information: two stacked vectors with the same results are equal. -/
theorem C102_complete (ne n bw : ℕ) (hne : 0 < ne) (hbw : bw ≤ n) (b b' : ℕ → ℕ → α) (e : List α) (he : e.length = ne * (n - bw))
    (h1 : getBc (stack ne n b) ne bw = getBc (stack ne n b') ne bw)
    (h2 : removeBc (stack ne n b) ne bw e = removeBc (stack ne n b') ne bw e) : stack ne n b = stack ne n b' := by
  rw [C102_get ne n bw hne hbw, C102_get ne n bw hne hbw] at h1
  rw [C102_remove ne n bw hne hbw _ e he, C102_remove ne n bw hne hbw _ e he] at h2
  apply stack_ext
  · rw [stack_length]
  · intro i j hi hj
    rw [stack_getElem? _ _ _ _ _ hj, if_pos hi]
    by_cases h : j < bw
    · have := congrArg (fun l : List α => l[i * bw + j]?) h1
      simp only [stack_getElem? ne bw _ i j h, if_pos hi] at this
      exact this
    · have hj' : j - bw < n - bw := by omega
      have := congrArg (fun l : List α => l[i * (n - bw) + (j - bw)]?) h2
      simp only [stack_getElem? ne (n - bw) _ i (j - bw) hj', if_pos hi] at this
      rwa [Nat.sub_add_cancel (by omega)] at this

/-- a concrete case: two blocks of three entries -/
example : removeBc [1, 2, 3, 4, 5, 6] 2 2 [0, 0] = ([3, 6] : List ℤ) ∧ getBc [1, 2, 3, 4, 5, 6] 2 2 = ([1, 2, 4, 5] : List ℤ) ∧
    replaceBc [1, 2, 3, 4, 5, 6] 2 2 = ([3, 0, 0, 6, 0, 0] : List ℤ) := by decide

end Funpy.Props
