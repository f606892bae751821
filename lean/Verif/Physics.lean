import Verif.MPArray.Add
import Verif.MPArray.Scale
import Verif.MPArray.Chain
import Verif.MPArray.Inject
import Verif.MPArray.LocalSum
import Verif.MPArray.FromArray
import Verif.MPArray.ToGlobal
import Verif.Utils.ArrayTransforms
import Mathlib.Data.Complex.Basic
import Mathlib.Analysis.SpecialFunctions.Trigonometric.Basic

/-!
# Model of /repo/mpnum/utils/physics.py

Sparse matrices are arrays with two axes; the sparse format has no effect on the entries.
-/

namespace Mpnum

variable {R : Type}

/-- `scipy.sparse.kron(a, b)` of two matrices.  Simplification: an array that does not have two axes is
a `TypeError`. -/
def spKron [Mul R] (a b : NDArray R) : Py (NDArray R) :=
  match a.shape, b.shape with
  | [a0, a1], [b0, b1] => .ok ⟨[a0 * b0, a1 * b1], fun idx =>
      a.get [idx.getD 0 0 / b0, idx.getD 1 0 / b1] * b.get [idx.getD 0 0 % b0, idx.getD 1 0 % b1]⟩
  | _, _ => .error .type

/-- `H += S` in physics.py:112 and 117, where `H` is the integer 0 (`none`) or a sparse matrix.  Sparse
matrices are added without broadcasting: different shapes are a `ValueError`. -/
def spIadd [Add R] (H : Option (NDArray R)) (S : NDArray R) : Py (Option (NDArray R)) :=
  match H with
  | none => .ok (some S)
  | some H => if H.shape = S.shape then .ok (some ⟨H.shape, fun i => H.get i + S.get i⟩) else .error .value

/-- A term for `sparse_cH`: a square array or an MPO (physics.py:97). -/
inductive ChTerm (R : Type) where
  | dense (a : NDArray R)
  | mpo (x : MPA R)

/-- Conversion of a term to a matrix (physics.py:107-109) -/
def ChTerm.toMat [CommSemiring R] (ldim : ℕ) : ChTerm R → Py (NDArray R)
  | .dense a => .ok a
  | .mpo x => do
    let a ← x.toArrayGlobal
    a.reshape [((ldim ^ 2 : ℕ) : ℤ), ((ldim ^ 2 : ℕ) : ℤ)]

/-- Body of the first loop of `sparse_cH` (physics.py:107-112).  `pos + 2 ≤ N` holds in the loop. -/
def sparseStep [CommSemiring R] (ldim N : ℕ) (H : Option (NDArray R)) (q : ℕ × ChTerm R) :
    Py (Option (NDArray R)) := do
  let term ← q.2.toMat ldim
  let inner ← spKron term (NDArray.eye (ldim ^ (N - q.1 - 2)))
  let S ← spKron (NDArray.eye (ldim ^ q.1)) inner
  spIadd H S

/-- `t[l, ..., r]` for a local tensor `t` (physics.py:117) -/
def sliceBonds (t : NDArray R) (l r : ℕ) : Py (NDArray R) := do
  pyGuard (2 ≤ t.ndim ∧ l < t.lb ∧ r < t.rb) .index
  .ok ⟨t.ph, fun p => t.at3 l p r⟩

/-- Body of the second loop of `sparse_cH` (physics.py:117). -/
def sparseCycStep [CommSemiring R] (mid : NDArray R) (t0 t1 : NDArray R) (H : Option (NDArray R)) (i : ℕ) :
    Py (Option (NDArray R)) := do
  let a ← sliceBonds t0 0 i
  let b ← sliceBonds t1 i 0
  let inner ← spKron mid b
  let S ← spKron a inner
  spIadd H S

/-- The last term of `sparse_cH` (physics.py:114-118), once `middle` exists. -/
def sparseCyc [CommSemiring R] (mid : NDArray R) (H : Option (NDArray R)) : ChTerm R → Py (Option (NDArray R))
  | .dense _ => .error .type
  | .mpo x => do
    let n ← (match x.ranks with | n :: _ => .ok n | [] => .error .index)
    (List.range n).foldlM (sparseCycStep mid (x.lt.getD 0 ⟨[], fun _ => 0⟩) (x.lt.getD 1 ⟨[], fun _ => 0⟩)) H

/-- `sparse_cH` (physics.py:94-118).  The loop variable `pos` is `N - 2` after the first loop and does not
exist if the loop body was never run.  A last term without the attribute `ranks` is an `AttributeError`,
represented by `type`.  The result is the integer 0 (`none`) only if no term was added. -/
def sparseCH [CommSemiring R] (terms : List (ChTerm R)) (ldim : ℕ) : Py (Option (NDArray R)) := do
  let N := terms.length
  let H ← ((List.range (N - 1)).zip terms.dropLast).foldlM (sparseStep ldim N) none
  match terms.getLast? with
  | none => .error .index
  | some cyc => do
    pyGuard (2 ≤ N) .unbound
    sparseCyc (NDArray.eye (ldim ^ (N - 2))) H cyc

/-- `mpo_cH` (physics.py:121-155).  The number of copies `len(H) - 2` is not negative for terms on two
sites. -/
def mpoCH [CommSemiring R] (terms : List (MPA R)) : Py (MPA R) := do
  let H ← localSum terms.dropLast none none none
  match terms.getLast? with
  | none => .error .index
  | some cyc => do
    let y ← inject cyc [1] [.copies (H.len - 2) none]
    H.add y

/-- `pauli_X` (physics.py:22) -/
noncomputable def pauliX : NDArray ℂ :=
  ⟨[2, 2], fun i => match i with | [0, 1] => 1 | [1, 0] => 1 | _ => 0⟩

/-- `pauli_Y` (physics.py:23) -/
noncomputable def pauliY : NDArray ℂ :=
  ⟨[2, 2], fun i => match i with | [0, 1] => -Complex.I | [1, 0] => Complex.I | _ => 0⟩

/-- `pauli_Z` (physics.py:24) -/
noncomputable def pauliZ : NDArray ℂ :=
  ⟨[2, 2], fun i => match i with | [0, 0] => 1 | [1, 1] => -1 | _ => 0⟩

/-- `mpo_X`, `mpo_Y`, `mpo_Z` (physics.py:27-28) -/
def pauliMpo (qr : QR ℂ) (p : NDArray ℂ) : Py (MPA ℂ) := fromArray qr p (some (.const 2)) false

/-- One of the two summands in `cXY_local_terms` (physics.py:53-54): `c * chain([p, p])`. -/
def xyTerm (qr : QR ℂ) (c : ℂ) (p : NDArray ℂ) : Py (MPA ℂ) := do
  let m ← pauliMpo qr p
  let y ← chain [m, m]
  y.mul c

/-- `cXY_local_terms` (physics.py:31-55) -/
noncomputable def cXYLocalTerms (qr : QR ℂ) (nrSites : ℕ) (gamma : ℝ) : Py (List (MPA ℂ)) := do
  let a ← xyTerm qr ((1 + gamma) * (1 / 4)) pauliX
  let b ← xyTerm qr ((1 - gamma) * (1 / 4)) pauliY
  let z ← a.add b
  .ok (List.replicate nrSites z)

/-- `cXY_E0` (physics.py:58-91), with real numbers in place of floating point numbers.  `%` is Python's: the result
has the sign of the (positive) divisor. `np.arange(N)` is empty if `N` is negative. -/
noncomputable def cXYE0 (nrSites : ℤ) (gamma : ℝ) : Py ℝ := do
  pyGuard (¬ (nrSites % 2 ≠ 0 ∨ nrSites % 4 = 0)) .value
  let k : ℕ → ℝ := fun l => 2 * Real.pi / nrSites * (l - nrSites / 2)
  let Lambda2 : ℕ → ℝ := fun l => 1 - (1 - gamma ^ 2) * Real.sin (k l) ^ 2
  let Lambda : ℕ → ℝ := fun l => √(Lambda2 l)
  .ok (-(1 / 2) * ∑ l ∈ Finset.range nrSites.toNat, Lambda l)

end Mpnum
