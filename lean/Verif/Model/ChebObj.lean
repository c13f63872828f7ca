import Verif.Model.Fun

/-!
# Model: stacking, column selection, flattening, copies, persistence, ufunc dispatch
-/

namespace Funpy.Cheb

/-- `np.hstack` of `chebtech`s, funpy/cheb/chebtech.py:636-657.  `none`: `np.max` of an empty list
raises, or the constructor's assertion fails. -/
noncomputable def hstack (ts : List Tech) : Option Tech :=
  match ts with
  | [] => none
  | t :: rest =>
    let n : ℕ := (t :: rest).foldl (fun a s => max a s.coeffs.n) 0
    let cols := (t :: rest).flatMap fun s => (prolong s.coeffs n).cols
    let maxLength := rest.foldl (fun a s => max a s.maxLength) t.maxLength
    let eps := rest.foldl (fun a s => max a s.eps) t.eps
    let hscale := rest.foldl (fun a s => max a s.hscale) t.hscale
    let ishappy := (t :: rest).all fun s => s.ishappy
    Tech.mk' ⟨n, cols⟩ eps ishappy false hscale maxLength

/-- `cheb[idx]` for an integer, funpy/cheb/chebtech.py:217-234 (lines 226-232; `hscale` is not
passed on).  `none` is the `IndexError`. -/
noncomputable def Tech.getItem (t : Tech) (idx : ℤ) : Option Tech :=
  if idx < 0 ∨ (t.coeffs.m : ℤ) ≤ idx then none
  else Tech.mk' ⟨t.coeffs.n, [t.coeffs.cols.getD idx.toNat []]⟩ t.eps t.ishappy false 1 t.maxLength

/-- `cheb[start:stop]`, funpy/cheb/chebtech.py:218-224.  Python slicing of the column axis; an empty
selection fails the constructor's assertion. -/
noncomputable def Tech.getSlice (t : Tech) (start stop : ℤ) : Option Tech :=
  if start < 0 ∨ (t.coeffs.m : ℤ) < stop then none
  else
    let stop' := if stop < 0 then max (stop + t.coeffs.m) 0 else stop
    Tech.mk' ⟨t.coeffs.n, (t.coeffs.cols.take stop'.toNat).drop start.toNat⟩ t.eps t.ishappy false 1 t.maxLength

/-- `np.copy(cheb)`, funpy/cheb/chebtech.py:660-664. -/
noncomputable def Tech.copy (t : Tech) : Option Tech :=
  Tech.mk' t.coeffs t.eps t.ishappy false t.hscale t.maxLength

/-- `copy.deepcopy(cheb)`, funpy/cheb/chebtech.py:84-95: the copy is built with `hscale=self.eps`. -/
noncomputable def Tech.deepcopy (t : Tech) : Option Tech :=
  Tech.mk' t.coeffs t.eps t.ishappy false t.eps t.maxLength

/-- An HDF5 dataset with its attributes as written by funpy/cheb/chebtech.py:424-430; h5py is
assumed to return what was stored. -/
structure H5Poly where
  /-- the data -/
  data : Arr ℝ
  /-- attribute -/
  eps : ℝ
  /-- attribute -/
  hscale : ℝ
  /-- attribute -/
  maxLength : ℕ
  /-- attribute -/
  ishappy : Bool

/-- `chebtech.writeHDF5`, funpy/cheb/chebtech.py:424-430. -/
def Tech.writeHDF5 (t : Tech) : H5Poly := ⟨t.coeffs, t.eps, t.hscale, t.maxLength, t.ishappy⟩

/-- `chebtech.from_hdf5`, funpy/cheb/chebtech.py:69-77. -/
noncomputable def Tech.fromHDF5 (h : H5Poly) : Option Tech :=
  Tech.mk' h.data h.eps h.ishappy false h.hscale h.maxLength

/-! ### Storage

The coefficient arrays live in a heap, so that in-place writes through one object can be seen through
another one. -/

/-- The numpy buffers in use; the address of a buffer is its position. -/
abbrev Heap := List (Arr ℝ)

/-- A `chebtech` whose attribute `coeffs` is a reference, funpy/cheb/chebtech.py:27-38. -/
structure Obj where
  /-- the reference `self.coeffs` -/
  addr : ℕ
  /-- `self.eps` -/
  eps : ℝ
  /-- `self.hscale` -/
  hscale : ℝ
  /-- `self.maxLength` -/
  maxLength : ℕ
  /-- `self.ishappy` -/
  ishappy : Bool

/-- The value of an object: its attributes with the reference followed (`none`: dangling). -/
def Obj.view (h : Heap) (o : Obj) : Option Tech :=
  h[o.addr]?.map fun a => ⟨a, o.eps, o.hscale, o.maxLength, o.ishappy⟩

/-- The object stored at `addr` with the settings of `t`. -/
def Obj.at (addr : ℕ) (t : Tech) : Obj := ⟨addr, t.eps, t.hscale, t.maxLength, t.ishappy⟩

/-- `np.copy(cheb)` with its allocation (`np.copy(cheb.coeffs)`), funpy/cheb/chebtech.py:660-664. -/
noncomputable def Obj.copy (h : Heap) (o : Obj) : Option (Heap × Obj) := do
  let t ← o.view h
  let c ← t.copy
  some (h ++ [c.coeffs], Obj.at h.length c)

/-- `copy.deepcopy(cheb)` with its allocation (`deepcopy(self.coeffs)`),
funpy/cheb/chebtech.py:84-95. -/
noncomputable def Obj.deepcopy (h : Heap) (o : Obj) : Option (Heap × Obj) := do
  let t ← o.view h
  let c ← t.deepcopy
  some (h ++ [c.coeffs], Obj.at h.length c)

/-- The shallow copy `copy.copy` of a `chebtech` (default protocol, the class defines no `__copy__`):
the attributes are shared. -/
def Obj.shallow (h : Heap) (o : Obj) : Option (Heap × Obj) := some (h, o)

/-- An in-place assignment `obj.coeffs[...] = ...`, e.g. funpy/cheb/ufuncs.pyx `out` arguments. -/
def Obj.write (h : Heap) (o : Obj) (a : Arr ℝ) : Heap := h.set o.addr a

end Funpy.Cheb

namespace Funpy
open Cheb

/-- `arr.flatten(order='F')`, used in funpy/fun.py:111-112. -/
def Arr.flattenF {R : Type*} (a : Arr R) : List R := a.cols.flatten

/-- `v.reshape((n, m), order='F')` for `v.size = n * m`: column `j` is `v[j*n : (j+1)*n]`;
funpy/fun.py:218. -/
def reshapeF {R : Type*} (v : List R) (n m : ℕ) : Arr R :=
  ⟨n, (List.range m).map fun j => (v.drop (j * n)).take n⟩

namespace ChebFun

/-- `self.hscale = norm(domain, inf)`, funpy/fun.py:88-90. -/
noncomputable def hscale (d : Ends) : ℝ := max |d.e0| |d.e1|

/-- `Fun.flatten`, funpy/fun.py:111-112. -/
def flatten (f : ChebFun) : List ℝ := f.onefun.coeffs.flattenF

/-- `Fun.from_coeffs(coeffs, n_funs, domain=d)`, funpy/fun.py:214-220 (Fortran order); `eps` is the
machine epsilon.  `none`: division by zero for `n_funs = 0`, the assertion 'Array must fit!', or the
constructor's assertion. -/
noncomputable def fromCoeffs (eps : ℝ) (d : Ends) (v : List ℝ) (nFuns : ℕ) : Option ChebFun :=
  if nFuns = 0 then none
  else if v.length % nFuns ≠ 0 then none
  else do
    let t ← Tech.mk' (reshapeF v (v.length / nFuns) nFuns) eps false false (hscale d)
    some ⟨d, t⟩

/-- `np.hstack` of functions, funpy/fun.py:582-585: the first function's domain is used and no check
is made. -/
noncomputable def hstack (fs : List ChebFun) : Option ChebFun :=
  match fs with
  | [] => none
  | f :: rest => do
    let t ← Cheb.hstack ((f :: rest).map ChebFun.onefun)
    some ⟨f.dom, t⟩

/-- `fun[idx]`, funpy/fun.py:148-154. -/
noncomputable def getItem (f : ChebFun) (idx : ℤ) : Option ChebFun := do
  let t ← f.onefun.getItem idx
  some ⟨f.dom, t⟩

/-- `np.copy(fun)`, funpy/fun.py:588-591. -/
noncomputable def copy (f : ChebFun) : Option ChebFun := do
  let t ← f.onefun.copy
  some ⟨f.dom, t⟩

/-- `copy.deepcopy(fun)`, funpy/fun.py:189-199. -/
noncomputable def deepcopy (f : ChebFun) : Option ChebFun := do
  let t ← f.onefun.deepcopy
  some ⟨f.dom, t⟩

/-- The group written by `Fun.writeHDF5`, funpy/fun.py:202-205. -/
structure H5Fun where
  /-- dataset `poly` -/
  poly : H5Poly
  /-- attribute -/
  domain : Ends
  /-- attribute: the class name -/
  type : String

/-- `Fun.writeHDF5`, funpy/fun.py:202-205. -/
def writeHDF5 (f : ChebFun) : H5Fun := ⟨f.onefun.writeHDF5, f.dom, "chebtech"⟩

/-- `Fun.from_hdf5`, funpy/fun.py:207-212, for functions stored by a `chebtech`. -/
noncomputable def fromHDF5 (h : H5Fun) : Option ChebFun :=
  if h.type = "chebtech" then do
    let t ← Tech.fromHDF5 h.poly
    some ⟨h.domain, t⟩
  else none

/-- The domain test of `Fun.__array_ufunc__` for the operand with domain `x` against `self`,
funpy/fun.py:173-175 (`SMALL_EPS = 1e-8`, no absolute value). -/
noncomputable def domainOk (self x : Ends) : Bool :=
  open Classical in decide (x.e0 - self.e0 < 1e-8 ∧ x.e1 - self.e1 < 1e-8)

/-- A binary ufunc on two functions, funpy/fun.py:166-187: `self` is the first operand; `op` is the
implementation for the underlying `chebtech`s.  The outer `none` is the `ValueError`, other failures
of `op` are propagated. -/
noncomputable def ufunc2 (op : Tech → Tech → Option Tech) (f g : ChebFun) : Option ChebFun :=
  if domainOk f.dom f.dom && domainOk f.dom g.dom then do
    let t ← op f.onefun g.onefun
    some ⟨f.dom, t⟩
  else none

end ChebFun
end Funpy
