import Verif.MPArray.Compress
import Verif.MPArray.Prune

/-!
# Model of the remaining functions of /repo/mpnum/utils/extmath.py

`partial_trace`, `mkron`, `approx_range_finder` and `randomized_svd`.  `matdot`, `block_diag` and
`truncated_svd` are modelled in Np/Basic, Np/BlockDiag and MPArray/Compress. -/

open Finset

namespace Mpnum

variable {R : Type}

/-- `partial_trace(array, traceout)` (extmath.py:15-31) -/
def partialTrace [AddCommMonoid R] (array : NDArray R) (traceout : List ℤ) : Py (NDArray R) :=
  match h : traceout.getLast? with
  | none => .ok array
  | some t => do
    pyAssert (array.ndim % 2 = 0)
    let sites := array.ndim / 2
    let red ← array.trace t (t + sites)
    partialTrace red traceout.dropLast
termination_by traceout.length
decreasing_by
  cases traceout with
  | nil => simp at h
  | cons a l => simp

/-- `np.kron(a, b)`: the array with fewer axes gets axes of size one in front. -/
def npKron [Mul R] (a b : NDArray R) : NDArray R :=
  let n := max a.ndim b.ndim
  let sa := List.replicate (n - a.ndim) 1 ++ a.shape
  let sb := List.replicate (n - b.ndim) 1 ++ b.shape
  ⟨List.zipWith (· * ·) sa sb, fun idx =>
    a.get ((List.zipWith (· / ·) idx sb).drop (n - a.ndim)) * b.get ((List.zipWith (· % ·) idx sb).drop (n - b.ndim))⟩

/-- `mkron(*args)` (extmath.py:39-43); `args[0]` is an `IndexError` if there are no arguments. -/
def mkron [Mul R] : List (NDArray R) → Py (NDArray R)
  | [] => .error .index
  | [a] => .ok a
  | a :: b :: args => mkron (npKron a b :: args)
termination_by args => args.length

variable {𝕜 : Type} [RCLike 𝕜]

/-- `dtype` of a matrix: `np.float_`, `np.complex_` or another one. -/
inductive Dtype
  | float | complex | other
  deriving DecidableEq

/-- `_standard_normal` (extmath.py:133-154): `draw` is the array of random numbers. -/
def standardNormal (dtype : Dtype) (draw : NDArray 𝕜) : Py (NDArray 𝕜) :=
  match dtype with
  | .float | .complex => .ok draw
  | .other => .error .value

/-- The argument `piter_normalizer`. -/
inductive Normalizer
  | auto | qr | lu | none | other
  deriving DecidableEq

/-- A routine like `linalg.lu(A, permute_l=True)`: returns `PL` and `U`. -/
abbrev LU (𝕜 : Type) := NDArray 𝕜 → NDArray 𝕜 × NDArray 𝕜

/-- Contract of `linalg.lu(A, permute_l=True)`: `A = PL U` with the sizes of an economic factorisation. -/
def LUSpec (lu : LU 𝕜) : Prop :=
  ∀ (A : NDArray 𝕜) (m n : ℕ), A.shape = [m, n] →
    (lu A).1.shape = [m, min m n] ∧ (lu A).2.shape = [min m n, n] ∧
    ∀ i < m, ∀ j < n, ∑ k ∈ range (min m n), (lu A).1.get [i, k] * (lu A).2.get [k, j] = A.get [i, j]

/-- `A * Q` for a linear operator `A` and a matrix `Q` with matching sizes -/
def opMul (A Q : NDArray 𝕜) : NDArray 𝕜 :=
  ⟨[A.shape.getD 0 0, Q.shape.getD 1 0], fun i =>
    ∑ j ∈ range (A.shape.getD 1 0), A.get [i.getD 0 0, j] * Q.get [j, i.getD 1 0]⟩

/-- `A.H` for a linear operator, and `a.conj().T` for a matrix -/
def opAdj (A : NDArray 𝕜) : NDArray 𝕜 :=
  ⟨[A.shape.getD 1 0, A.shape.getD 0 0], fun i => star (A.get [i.getD 1 0, i.getD 0 0])⟩

/-- One power iteration (extmath.py:213-222).  There is no `else` branch. -/
def powerStep (qr : QR 𝕜) (lu : LU 𝕜) (A : NDArray 𝕜) (nrm : Normalizer) (Q : NDArray 𝕜) : NDArray 𝕜 :=
  match nrm with
  | .none => opMul (opAdj A) (opMul A Q)
  | .lu => (lu (opMul (opAdj A) (lu (opMul A Q)).1)).1
  | .qr => (qr (opMul (opAdj A) (qr (opMul A Q)).1)).1
  | .auto | .other => Q

/-- `approx_range_finder` (extmath.py:157-227).  `draw` are the random numbers, which have the shape
`(A.shape[1], sketch_size)`. -/
def approxRangeFinder (qr : QR 𝕜) (lu : LU 𝕜) (dtype : Dtype) (draw A : NDArray 𝕜) (nIter : ℤ) (nrm : Normalizer) :
    Py (NDArray 𝕜) := do
  let Q ← standardNormal dtype draw
  let nrm := if nrm = .auto then (if nIter ≤ 2 then .none else .lu) else nrm
  let Q := (powerStep qr lu A nrm)^[nIter.toNat] Q
  return (qr (opMul A Q)).1

/-- `linalg.svd(B, full_matrices=False)` in terms of the full decomposition -/
def thinSvd (svd : SVD 𝕜) (B : NDArray 𝕜) : NDArray 𝕜 × List ℝ × NDArray 𝕜 :=
  truncatedSvd svd B (min (B.shape.getD 0 0) (B.shape.getD 1 0))

/-- `randomized_svd` (extmath.py:230-318).  `none` stands for `'auto'` in `nIter` and `transpose`.  The draw is a
function of the shape.  `n_components` and `n_oversamples` are not negative.  The comparison with
`.1 * min(M.shape)` uses the exact number 1/10. -/
noncomputable def randomizedSvd (qr : QR 𝕜) (lu : LU 𝕜) (svd : SVD 𝕜) (dtype : Dtype) (draw : ℕ → ℕ → NDArray 𝕜) (M : NDArray 𝕜)
    (nComponents nOversamples : ℕ) (nIter : Option ℤ) (nrm : Normalizer) (transpose : Option Bool) :
    Py (NDArray 𝕜 × List ℝ × NDArray 𝕜) := do
  let sketch := nComponents + nOversamples
  let nIter := nIter.getD (if (nComponents : ℚ) < 1 / 10 * (min (M.shape.getD 0 0) (M.shape.getD 1 0) : ℕ) then 7 else 4)
  let transpose := transpose.getD (decide (M.shape.getD 0 0 < M.shape.getD 1 0))
  let M := if transpose then opAdj M else M
  let Q ← approxRangeFinder qr lu dtype (draw (M.shape.getD 1 0) sketch) M nIter nrm
  let B := opAdj (opMul (opAdj M) Q)
  let (Uhat, s, V) := thinSvd svd B
  let U := opMul Q Uhat
  if transpose then
    return (opAdj (V.rows nComponents), s.take nComponents, opAdj (U.cols nComponents))
  else
    return (U.cols nComponents, s.take nComponents, V.rows nComponents)

end Mpnum
