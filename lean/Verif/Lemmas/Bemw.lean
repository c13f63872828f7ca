import Verif.Model.Bemw
import Mathlib.Tactic.Ring
import Mathlib.Tactic.FieldSimp
import Mathlib.Tactic.LinearCombination
import Mathlib.Algebra.BigOperators.Ring.Finset

namespace Funpy.Bemw

variable {K : Type*} [Field K]

/-- Common form of `solve_detail` and `solve_adj_detail`. -/
def gen (n : ℕ) (u : ℕ → ℕ → K) (p : ℕ → K) (c : ℕ → ℕ → K) (d : ℕ → K) (solve : (ℕ → K) → (ℕ → K))
    (v : ℕ → ℕ → K) (q : ℕ → K) (b : ℕ → ℕ → K) (y0 : ℕ → K) (j : ℕ) (x : ℕ → K) : ℕ → K :=
  let xy := (List.range j).reverse.foldl (downStep n u p c d) (x, y0)
  (List.range j).foldl (upStep n v q b xy.2) (coreStep n solve xy.1)

theorem down_x_ge (n : ℕ) (u : ℕ → ℕ → K) (p : ℕ → K) (c : ℕ → ℕ → K) (d : ℕ → K) (l : List ℕ) :
    ∀ (xy : (ℕ → K) × (ℕ → K)) (i : ℕ), (∀ k ∈ l, n + k < i) →
    (l.foldl (downStep n u p c d) xy).1 i = xy.1 i := by
  induction l with
  | nil => intro xy i _; rfl
  | cons k l ih =>
    intro xy i h
    rw [List.foldl_cons, ih _ _ (fun k' hk' => h k' (by simp [hk']))]
    have := h k (by simp)
    simp [downStep, setAt, subHead, show i ≠ n + k by omega, show ¬ i < n + k by omega]

theorem down_y_ge (n : ℕ) (u : ℕ → ℕ → K) (p : ℕ → K) (c : ℕ → ℕ → K) (d : ℕ → K) (l : List ℕ) :
    ∀ (xy : (ℕ → K) × (ℕ → K)) (i : ℕ), (∀ k ∈ l, k < i) →
    (l.foldl (downStep n u p c d) xy).2 i = xy.2 i := by
  induction l with
  | nil => intro xy i _; rfl
  | cons k l ih =>
    intro xy i h
    rw [List.foldl_cons, ih _ _ (fun k' hk' => h k' (by simp [hk']))]
    have := h k (by simp)
    simp [downStep, setAt, show i ≠ k by omega]

theorem up_ge (n : ℕ) (v : ℕ → ℕ → K) (q : ℕ → K) (b : ℕ → ℕ → K) (y : ℕ → K) (l : List ℕ) :
    ∀ (x : ℕ → K) (i : ℕ), (∀ k ∈ l, n + k < i) → (l.foldl (upStep n v q b y) x) i = x i := by
  induction l with
  | nil => intro x i _; rfl
  | cons k l ih =>
    intro x i h
    rw [List.foldl_cons, ih _ _ (fun k' hk' => h k' (by simp [hk']))]
    have := h k (by simp)
    simp [upStep, setAt, subHead, show i ≠ n + k by omega, show ¬ i < n + k by omega]

theorem gen_solves (M : ℕ → ℕ → K) (n : ℕ) (u : ℕ → ℕ → K) (p : ℕ → K) (c : ℕ → ℕ → K) (d : ℕ → K)
    (solve : (ℕ → K) → (ℕ → K)) (v : ℕ → ℕ → K) (q : ℕ → K) (b : ℕ → ℕ → K)
    (hcore : ∀ f, ∀ i < n, ∑ l ∈ Finset.range n, M i l * solve f l = f i)
    (j : ℕ)
    (hb : ∀ k < j, ∀ l < n + k, M (n + k) l = b k l) (hc : ∀ k < j, ∀ i < n + k, M i (n + k) = c k i)
    (hd : ∀ k < j, M (n + k) (n + k) = d k)
    (hv : ∀ k < j, ∀ i < n + k, ∑ l ∈ Finset.range (n + k), M i l * v k l = c k i)
    (hq : ∀ k < j, q k = d k - dot (n + k) (b k) (v k)) (hq0 : ∀ k < j, q k ≠ 0) :
    ∀ (y0 : ℕ → K) (x : ℕ → K), ∀ i < n + j,
      ∑ l ∈ Finset.range (n + j), M i l * gen n u p c d solve v q b y0 j x l = x i := by
  induction j with
  | zero =>
    intro y0 x i hi
    have e : ∀ l ∈ Finset.range (n + 0), M i l * gen n u p c d solve v q b y0 0 x l = M i l * solve x l := by
      intro l hl
      have : l < n := by simpa using hl
      simp [gen, coreStep, this]
    rw [Finset.sum_congr rfl e]
    exact hcore x i (by omega)
  | succ j ih =>
    intro y0 x i hi
    have ih' := ih (fun k hk => hb k (by omega)) (fun k hk => hc k (by omega)) (fun k hk => hd k (by omega))
      (fun k hk => hv k (by omega)) (fun k hk => hq k (by omega)) (fun k hk => hq0 k (by omega))
    -- the state after the first downward step
    set xy := downStep n u p c d (x, y0) j with hxy
    set yk := (x (n + j) - dot (n + j) (u j) x) / p j with hyk
    set z := gen n u p c d solve v q b xy.2 j xy.1 with hz
    have hz1 := ih' xy.2 xy.1
    rw [← hz] at hz1
    have hx1 : ∀ i < n + j, xy.1 i = x i - yk * c j i := by
      intro i hi
      simp [hxy, downStep, setAt, subHead, hi, show i ≠ n + j by omega, hyk]
    have hx2 : xy.1 (n + j) = x (n + j) - d j * yk := by
      simp [hxy, downStep, setAt, subHead, hyk]
    have hgen : gen n u p c d solve v q b y0 (j + 1) x =
        upStep n v q b ((List.range j).reverse.foldl (downStep n u p c d) xy).2 z j := by
      unfold gen at hz ⊢
      rw [List.range_succ, List.reverse_append, List.foldl_append, List.foldl_append]
      simp only [List.reverse_cons, List.reverse_nil, List.nil_append, List.foldl_cons, List.foldl_nil]
      rw [hz]
    have hyj : ((List.range j).reverse.foldl (downStep n u p c d) xy).2 j = yk := by
      rw [down_y_ge _ _ _ _ _ _ _ _ (by intro k hk; simpa using hk)]
      simp [hxy, downStep, setAt, hyk]
    have hzj : z (n + j) = x (n + j) - d j * yk := by
      rw [hz]
      unfold gen
      rw [up_ge _ _ _ _ _ _ _ _ (by intro k hk; simp at hk; omega)]
      unfold coreStep
      rw [if_neg (by omega), down_x_ge _ _ _ _ _ _ _ _ (by intro k hk; simp at hk; omega), hx2]
    set ypp := (z (n + j) - dot (n + j) (b j) z) / q j with hypp
    have hr1 : ∀ l < n + j, gen n u p c d solve v q b y0 (j + 1) x l = z l - ypp * v j l := by
      intro l hl
      rw [hgen]
      simp [upStep, setAt, subHead, hl, show l ≠ n + j by omega, hypp]
    have hr2 : gen n u p c d solve v q b y0 (j + 1) x (n + j) = yk + ypp := by
      rw [hgen]
      unfold upStep setAt subHead
      simp only [if_true, lt_self_iff_false, if_false]
      rw [hyj]
    rw [← Nat.add_assoc, Finset.sum_range_succ, hr2]
    have hs : ∑ l ∈ Finset.range (n + j), M i l * gen n u p c d solve v q b y0 (j + 1) x l =
        ∑ l ∈ Finset.range (n + j), M i l * z l - ypp * ∑ l ∈ Finset.range (n + j), M i l * v j l := by
      rw [Finset.mul_sum, ← Finset.sum_sub_distrib]
      apply Finset.sum_congr rfl
      intro l hl
      rw [hr1 l (by simpa using hl)]; ring
    rw [hs]
    by_cases hij : i < n + j
    · rw [hz1 i hij, hx1 i hij, hv j (by omega) i hij, hc j (by omega) i hij]
      ring
    · have hie : i = n + j := by omega
      subst hie
      have e1 : ∀ w : ℕ → K, ∑ l ∈ Finset.range (n + j), M (n + j) l * w l = dot (n + j) (b j) w := by
        intro w
        unfold dot
        apply Finset.sum_congr rfl
        intro l hl
        rw [hb j (by omega) l (by simpa using hl)]
      rw [e1, e1, hd j (by omega)]
      have hqj := hq j (by omega)
      have hqn := hq0 j (by omega)
      have e2 : ypp * q j = z (n + j) - dot (n + j) (b j) z := by
        rw [hypp, div_mul_cancel₀ _ hqn]
      rw [hqj] at e2
      rw [hzj] at e2
      linear_combination e2

end Funpy.Bemw
