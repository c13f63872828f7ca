import Mathlib.Data.Real.Sqrt
import Mathlib.Analysis.SpecialFunctions.Log.Basic
import Mathlib.Algebra.BigOperators.Group.Finset.Basic

/-!
# Determinant helpers

Models `funpy/linalg/helpers.py:11-201`.
-/

namespace Funpy.LinHelpers

/-- Dictionary / array update `x[k] = v`. -/
def setAt {α : Type*} (x : ℕ → α) (k : ℕ) (v : α) : ℕ → α := fun i => if i = k then v else x i

/-- One pass of the loop of `minimumSwaps`, funpy/linalg/helpers.py:19-25; state `(a, b, count)`. -/
def swapStep (s : (ℕ → ℕ) × (ℕ → ℕ) × ℕ) (i : ℕ) : (ℕ → ℕ) × (ℕ → ℕ) × ℕ :=
  let x := s.1 i
  if x ≠ i then
    let y := s.2.1 i
    (setAt s.1 y x, setAt s.2.1 x y, s.2.2 + 1)
  else s

/-- `minimumSwaps(arr)`, funpy/linalg/helpers.py:11-26.  `b` is the inverse dictionary (later keys win). -/
def minimumSwaps (arr : List ℕ) : ℕ :=
  let a : ℕ → ℕ := fun i => arr.getD i 0
  let b : ℕ → ℕ := fun v => (List.range arr.length).foldl (fun acc k => if arr.getD k 0 = v then k else acc) 0
  ((List.range arr.length).foldl swapStep (a, b, 0)).2.2

/-- The attributes of a SuperLU object used by `logdet_detail_superlu`, funpy/linalg/helpers.py:40-47. -/
structure LU where
  diagL : List ℝ
  diagU : List ℝ
  permR : List ℕ
  permC : List ℕ

/-- `logdet_detail_superlu(lu)`, funpy/linalg/helpers.py:40-49, for real factors: `np.real` of the complex logarithm
of a real number is `log |x|`, and `np.sign` of a real number stored as complex is its real sign. -/
noncomputable def logdetSuperlu (lu : LU) : ℝ × ℝ :=
  let logdet := (lu.diagL.map Real.log).sum + (lu.diagU.map Real.log).sum
  let swap := minimumSwaps lu.permR
  ((-1) ^ swap * (lu.diagL.map fun x => (SignType.sign x : ℝ)).prod * (lu.diagU.map fun x => (SignType.sign x : ℝ)).prod, logdet)

/-- `logdet_detail_umfpack(lu)`, funpy/linalg/helpers.py:52-65 (`diagR` are the row scalings); the sign computed from
`perm_r` is overwritten by the one computed from `perm_c`. -/
noncomputable def logdetUmfpack (lu : LU) (diagR : List ℝ) : ℝ × ℝ :=
  let logdet := (lu.diagL.map Real.log).sum + (lu.diagU.map Real.log).sum + (diagR.map Real.log).sum
  let swap := minimumSwaps lu.permC
  ((-1) ^ swap * (lu.diagL.map fun x => (SignType.sign x : ℝ)).prod * (lu.diagU.map fun x => (SignType.sign x : ℝ)).prod, logdet)

/-- Number of passes of the scaling loop `while True: count += 1; f1 *= q; g1 *= q; ...; if done: break`,
funpy/linalg/helpers.py:96-103 and 112-119: the least positive `k` with `done (scale * q^k)`. -/
noncomputable def scaleCount (scale q : ℝ) (done : ℝ → Prop) : ℕ := sInf {k : ℕ | 1 ≤ k ∧ done (scale * q ^ k)}

/-- The common part `r = sqrt(f1*f1 + g1*g1); cs = f1/r; sn = g1/r; r *= back^count`,
funpy/linalg/helpers.py:105-109, 121-125, 128-130. -/
noncomputable def givensCore (f g q back : ℝ) (count : ℕ) : ℝ × ℝ × ℝ :=
  let f1 := f * q ^ count
  let g1 := g * q ^ count
  let r := Real.sqrt (f1 * f1 + g1 * g1)
  (f1 / r, g1 / r, r * back ^ count)

/-- `givensAlgorithm(f, g)`, funpy/linalg/helpers.py:73-136; `eps` is the machine precision. -/
noncomputable def givens (eps f g : ℝ) : ℝ × ℝ × ℝ :=
  if g = 0 then (1, 0, f)
  else if f = 0 then (0, 1, g)
  else
    let scale := max |f| |g|
    let csr :=
      if 1 / eps ≤ scale then givensCore f g eps (1 / eps) (scaleCount scale eps fun z => z < 1 / eps)
      else if scale ≤ eps then givensCore f g (1 / eps) eps (scaleCount scale (1 / eps) fun z => eps < z)
      else givensCore f g 1 1 0
    if |g| < |f| ∧ csr.1 < 0 then (-csr.1, -csr.2.1, -csr.2.2) else csr

/-- The accumulated result of `slogdet_hessenberg`: sign `P` and `logdet`. -/
structure SL where
  P : ℝ
  logdet : ℝ

/-- `logdet += log(abs(r)); P *= np.sign(r)`; `math.log(0)` raises (`none`), funpy/linalg/helpers.py:160-161. -/
noncomputable def SL.mul (s : SL) (r : ℝ) : Option SL :=
  if r = 0 then none else some ⟨s.P * (SignType.sign r : ℝ), s.logdet + Real.log |r|⟩

/-- One pass of the loop of `slogdet_hessenberg`, funpy/linalg/helpers.py:158-165 (real input, so
`np.conjugate(s) = s`). -/
noncomputable def slogStep (eps : ℝ) (mat : ℕ → ℕ → ℝ) (st : (ℕ → ℝ) × SL) (k : ℕ) : Option ((ℕ → ℝ) × SL) :=
  let g := st.1
  let csr := givens eps (g k) (mat k (k - 1))
  (st.2.mul csr.2.2).map fun sl =>
    (fun j => if j < k then csr.1 * mat j (k - 1) - csr.2.1 * g j else g j, sl)

/-- `slogdet_hessenberg(mat)` for an `n × n` matrix, funpy/linalg/helpers.py:138-169. -/
noncomputable def slogdetHessenberg (eps : ℝ) (n : ℕ) (mat : ℕ → ℕ → ℝ) : Option SL :=
  if n = 0 then some ⟨1, 0⟩
  else do
    let st ← ((List.range (n - 1)).reverse.map (· + 1)).foldlM (slogStep eps mat)
      (fun i => mat i (n - 1), (⟨1, 0⟩ : SL))
    st.2.mul (st.1 0)

/-- One pass of the loop of `detH`, funpy/linalg/helpers.py:193-199; state `(p, d)`. -/
def detHStep {K : Type*} [CommRing K] (A : ℕ → ℕ → K) (s : (ℕ → K) × (ℕ → K)) (k : ℕ) : (ℕ → K) × (ℕ → K) :=
  let p := fun j => if j < k then s.1 j * (s.2 j * A k (k - 1)) else s.1 j
  let d := setAt s.2 (k + 1) (A k k * s.2 k + ∑ j ∈ Finset.range k, (-1) ^ (k - j) * A j k * p j)
  (p, d)

/-- `detH(A)` for an `n × n` matrix, funpy/linalg/helpers.py:172-201 (`n ≤ 1` raises: `none`). -/
def detH {K : Type*} [CommRing K] (n : ℕ) (A : ℕ → ℕ → K) : Option K :=
  if n ≤ 1 then none
  else
    let d0 : ℕ → K := setAt (fun _ => 1) 1 (A 0 0)
    let s := ((List.range (n - 1)).map (· + 1)).foldl (detHStep A) (fun _ => 1, d0)
    some (s.2 n)

end Funpy.LinHelpers
