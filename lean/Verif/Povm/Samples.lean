import Verif.Np.Lemmas
import Mathlib.Data.Rat.Defs
import Mathlib.Algebra.Field.Rat
import Mathlib.Algebra.Order.Field.Rat

/-! # Model of the sample packing and counting functions of mpnum/povm/mppovm.py

These methods use the outcome dimensions of the MP-POVM only (`self.outdims`, `self.nsoutdims`), which
are their first parameter here.  Samples are integer arrays; a sample array of shape `(n, k)` contains one
sample per row. -/

open Finset

namespace Mpnum

/-- mpnum/povm/mppovm.py:217-220 `MPPovm.nsoutdims` in terms of `outdims`. -/
def nsDims (outdims : List ℕ) : List ℕ := outdims.filter (1 < ·)

/-- Largest value of numpy's index type on a 64-bit platform. -/
def intpMax : ℕ := 2 ^ 63 - 1

/-- Row `k` of a sample array. -/
def sampleRow (s : NDArray ℤ) (k : ℕ) : List ℤ := (List.range (s.shape.getD 1 0)).map fun j => s.get [k, j]

/-- `np.ravel_multi_index(samples.T, dims)`: `ValueError` if an index is out of range or if the size of
the array does not fit into an index.  An empty tuple of dimensions is not modelled (error). -/
def ravelMultiIndex (s : NDArray ℤ) (dims : List ℕ) : Py (NDArray ℤ) :=
  if dims ≠ [] ∧ dims.prod ≤ intpMax ∧
      ∀ k < s.shape.getD 0 0, ∀ j < s.shape.getD 1 0, 0 ≤ s.get [k, j] ∧ s.get [k, j] < (dims.getD j 0 : ℕ) then
    .ok ⟨[s.shape.getD 0 0], fun i => ((ravelIdx dims ((sampleRow s (i.getD 0 0)).map Int.toNat) : ℕ) : ℤ)⟩
  else .error .value

/-- mpnum/povm/mppovm.py:764-785 `MPPovm.pack_samples`; `dtype` is the range of an integer dtype or
`none` (Python `None`, `True`, `False`).  `samples.min()` of an empty array raises `ValueError`. -/
def packSamples (outdims : List ℕ) (s : NDArray ℤ) (dtype : Option (ℤ × ℤ)) : Py (NDArray ℤ) := do
  pyAssert (s.ndim = 2)
  pyAssert (s.shape.getD 1 0 = (nsDims outdims).length)
  let p ← ravelMultiIndex s (nsDims outdims)
  match dtype with
  | none => .ok p
  | some (lo, hi) =>
    pyGuard (p.shape.getD 0 0 ≠ 0) .value
    pyAssert (∀ k < p.shape.getD 0 0, lo ≤ p.get [k])
    pyAssert (∀ k < p.shape.getD 0 0, p.get [k] ≤ hi)
    .ok p

/-- `np.array(np.unravel_index(samples, dims)).T`; `ValueError` if an index is out of range. -/
def unravelIndices (s : NDArray ℤ) (dims : List ℕ) : Py (NDArray ℤ) :=
  if dims ≠ [] ∧ dims.prod ≤ intpMax ∧ ∀ k < s.shape.getD 0 0, 0 ≤ s.get [k] ∧ s.get [k] < (dims.prod : ℕ) then
    .ok ⟨[s.shape.getD 0 0, dims.length], fun i =>
      (((unravelIdx dims (s.get [i.getD 0 0]).toNat).getD (i.getD 1 0) 0 : ℕ) : ℤ)⟩
  else .error .value

/-- mpnum/povm/mppovm.py:787-805 `MPPovm.unpack_samples`; the conversion to `uint8` is taken modulo 256. -/
def unpackSamples (outdims : List ℕ) (s : NDArray ℤ) : Py (NDArray ℤ) := do
  pyAssert (s.ndim = 1)
  pyAssert (∀ d ∈ outdims, d ≤ 255)
  let u ← unravelIndices s (nsDims outdims)
  .ok ⟨u.shape, fun i => u.get i % 256⟩

/-- `np.bincount(samples, minlength=n)`. -/
def bincount (s : NDArray ℤ) (n : ℕ) : Py (NDArray ℕ) :=
  if s.ndim = 1 ∧ ∀ k < s.shape.getD 0 0, 0 ≤ s.get [k] then
    .ok ⟨[(List.range (s.shape.getD 0 0)).foldl (fun m k => max m ((s.get [k]).toNat + 1)) n],
      fun i => ((List.range (s.shape.getD 0 0)).filter fun k => s.get [k] = (i.getD 0 0 : ℕ)).length⟩
  else .error .value

/-- mpnum/povm/mppovm.py:807-832 `MPPovm.est_pmf`.  Division of zero by zero (no samples) gives `nan` in
numpy and zero here.  If there are no sites with several outcomes, then `n_out = np.prod(())` is the floating
point number `1.0`, which `np.bincount` does not accept (`TypeError`). -/
def estPmf (outdims : List ℕ) (samples : NDArray ℤ) (normalize : Bool := true) : Py (NDArray ℚ) := do
  pyGuard (samples.shape ≠ []) .index
  let nSamples := samples.shape.getD 0 0
  let nOut := (nsDims outdims).prod
  let samples ← (if 1 < samples.ndim then packSamples outdims samples none else .ok samples : Py (NDArray ℤ))
  pyGuard (nsDims outdims ≠ []) .type
  let counts ← bincount samples nOut
  pyAssert (counts.shape = [nOut])
  let counts ← counts.reshape ((nsDims outdims).map fun n : ℕ => (n : ℤ))
  pyAssert (sumIdx counts.shape counts.get = nSamples)
  if normalize then .ok ⟨counts.shape, fun i => (counts.get i : ℚ) / nSamples⟩
  else .ok ⟨counts.shape, fun i => (counts.get i : ℚ)⟩

/-- mpnum/povm/mppovm.py:1348-1357 `MPPovmList.pack_samples` (all values of the iterator). -/
def packSamplesList (mpps : List (List ℕ)) (samples : List (NDArray ℤ)) : Py (List (NDArray ℤ)) := do
  pyAssert (samples.length = mpps.length)
  (samples.zip mpps).mapM fun p => packSamples p.2 p.1 none

/-- mpnum/povm/mppovm.py:1359-1368 `MPPovmList.unpack_samples` (all values of the iterator). -/
def unpackSamplesList (mpps : List (List ℕ)) (samples : List (NDArray ℤ)) : Py (List (NDArray ℤ)) := do
  pyAssert (samples.length = mpps.length)
  (samples.zip mpps).mapM fun p => unpackSamples p.2 p.1

/-- mpnum/povm/mppovm.py:1370-1379 `MPPovmList.est_pmf` (all values of the iterator). -/
def estPmfList (mpps : List (List ℕ)) (samples : List (NDArray ℤ)) (normalized : Bool := true) :
    Py (List (NDArray ℚ)) := do
  pyAssert (samples.length = mpps.length)
  (mpps.zip samples).mapM fun p => estPmf p.1 p.2 normalized

end Mpnum
