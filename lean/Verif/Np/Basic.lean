import Mathlib.Algebra.BigOperators.Ring.Finset
import Mathlib.Algebra.BigOperators.Group.List.Basic
import Mathlib.Algebra.Star.Basic
import Mathlib.Algebra.Star.BigOperators
import Mathlib.Data.List.Basic
import Mathlib.Tactic.Ring
import Mathlib.Tactic.Linarith

/-!
# Model of the numpy functions used by mpnum

numpy itself is not part of /repo.  The definitions below write down the
documented semantics of the numpy functions that mpnum calls.  They are part of
the trusted base (see DESIGN.md).  An array is a shape and a function from
multi-indices to entries; the values outside of the shape are not observable.
-/

open Finset

namespace Mpnum

/-- Python exceptions raised by the modelled code (explicitly, by an `assert`, or by numpy). -/
inductive PyErr
  | assertion | value | index | key | type | notImplemented | recursion | zeroDiv | unbound
  | stopIteration | linalg
  deriving DecidableEq, Repr

/-- Result of a Python call: a value or an exception. -/
abbrev Py (α : Type) := Except PyErr α

/-- Python index `l[i]` into a sequence of length `n`: negative numbers count from the end. -/
def pyIndex (n : ℕ) (i : ℤ) : Py ℕ :=
  if 0 ≤ i ∧ i < n then .ok i.toNat
  else if -(n : ℤ) ≤ i ∧ i < 0 then .ok (i + n).toNat
  else .error .index

/-- Python `assert b`. -/
def pyAssert (b : Prop) [Decidable b] : Py Unit := if b then .ok () else .error .assertion

/-- Python conditional `if not b: raise e`. -/
def pyGuard (b : Prop) [Decidable b] (e : PyErr) : Py Unit := if b then .ok () else .error e

/-- `numpy.ndarray`: shape and entries (only entries inside of the shape are meaningful). -/
structure NDArray (R : Type) where
  shape : List ℕ
  get : List ℕ → R

variable {R : Type}

/-- The multi-index `idx` is inside of `shape`. -/
def InB (idx shape : List ℕ) : Prop := List.Forall₂ (· < ·) idx shape

namespace NDArray

/-- `a.ndim` -/
def ndim (a : NDArray R) : ℕ := a.shape.length

/-- `a.size` -/
def size (a : NDArray R) : ℕ := a.shape.prod

/-- Observable equality of arrays (`a.shape == b.shape and (a == b).all()`). -/
def Eqv (a b : NDArray R) : Prop :=
  a.shape = b.shape ∧ ∀ idx, InB idx a.shape → a.get idx = b.get idx

end NDArray

/-- Position in row-major (C) order of the multi-index `idx` in an array of the given shape. -/
def ravelIdx : List ℕ → List ℕ → ℕ
  | [], _ => 0
  | _ :: _, [] => 0
  | _ :: ds, i :: is => i * ds.prod + ravelIdx ds is

/-- Multi-index at position `n` in row-major (C) order. -/
def unravelIdx : List ℕ → ℕ → List ℕ
  | [], _ => []
  | _ :: ds, n => n / ds.prod :: unravelIdx ds (n % ds.prod)

/-- Sum over all multi-indices inside of a shape. -/
def sumIdx [AddCommMonoid R] : List ℕ → (List ℕ → R) → R
  | [], f => f []
  | d :: ds, f => ∑ i ∈ range d, sumIdx ds (fun is => f (i :: is))

/-- All multi-indices inside of a shape, in row-major order (`itertools.product(*map(range, shape))`,
`np.ndindex`). -/
def allIdx : List ℕ → List (List ℕ)
  | [] => [[]]
  | d :: ds => (List.range d).flatMap fun i => (allIdx ds).map (i :: ·)

namespace NDArray

/-- `a.reshape(s)` for a shape of the right size. -/
def reshapeTo (a : NDArray R) (s : List ℕ) : NDArray R :=
  ⟨s, fun idx => a.get (unravelIdx a.shape (ravelIdx s idx))⟩

/-- Resolution of the argument of `reshape`: at most one entry may be `-1`; it is computed from the
size.  numpy raises `ValueError` if the sizes do not fit (or are ambiguous). -/
def resolveShape (size : ℕ) (s : List ℤ) : Py (List ℕ) :=
  let unknown := s.filter (· < 0)
  let known := ((s.filter (0 ≤ ·)).map Int.toNat).prod
  match unknown with
  | [] => if known = size then .ok (s.map Int.toNat) else .error .value
  | [u] =>
    if u = -1 ∧ known ≠ 0 ∧ size % known = 0 then
      .ok (s.map fun d => if d < 0 then size / known else d.toNat)
    else .error .value
  | _ => .error .value

/-- `a.reshape(s)`, where `s` may contain one `-1`. -/
def reshape (a : NDArray R) (s : List ℤ) : Py (NDArray R) :=
  (resolveShape a.size s).map a.reshapeTo

/-- `np.transpose(a, perm)` for a valid permutation: axis `m` of the result is axis `perm[m]` of
`a`. -/
def transposeTo (a : NDArray R) (perm : List ℕ) : NDArray R :=
  ⟨perm.map fun p => a.shape.getD p 0,
   fun idx => a.get ((List.range a.ndim).map fun p => idx.getD (perm.idxOf p) 0)⟩

/-- `np.transpose(a, axes)`; numpy raises `ValueError` if `axes` is not a permutation
(negative axes count from the end). -/
def transpose (a : NDArray R) (axes : List ℤ) : Py (NDArray R) := do
  let perm ← axes.mapM fun ax => (pyIndex a.ndim ax).mapError fun _ => PyErr.value
  if perm.length = a.ndim ∧ perm.Nodup then .ok (a.transposeTo perm) else .error .value

/-- `a.conj()` -/
def conj [Star R] (a : NDArray R) : NDArray R := ⟨a.shape, fun idx => star (a.get idx)⟩

/-- `c * a` for a scalar `c`. -/
def smul [Mul R] (c : R) (a : NDArray R) : NDArray R := ⟨a.shape, fun idx => c * a.get idx⟩

/-- `a * c` for a scalar `c`. -/
def rsmul [Mul R] (a : NDArray R) (c : R) : NDArray R := ⟨a.shape, fun idx => a.get idx * c⟩

end NDArray

/-- numpy broadcasting of two shapes, on reversed shapes (aligned at the last axis). -/
def bshapeRev : List ℕ → List ℕ → Option (List ℕ)
  | [], t => some t
  | s, [] => some s
  | d :: s, e :: t =>
    match bshapeRev s t with
    | none => none
    | some u => if d = e then some (d :: u) else if d = 1 then some (e :: u)
                else if e = 1 then some (d :: u) else none

/-- numpy broadcasting of two shapes. -/
def bshape (s t : List ℕ) : Option (List ℕ) := (bshapeRev s.reverse t.reverse).map List.reverse

/-- Index into an operand of shape `s` that corresponds to the index `idx` of the broadcast result. -/
def bidx (s idx : List ℕ) : List ℕ :=
  List.zipWith (fun d i => if d = 1 then 0 else i) s (idx.drop (idx.length - s.length))

namespace NDArray

/-- `a + b` with broadcasting; `ValueError` if the shapes cannot be broadcast. -/
def add [Add R] (a b : NDArray R) : Py (NDArray R) :=
  match bshape a.shape b.shape with
  | some s => .ok ⟨s, fun idx => a.get (bidx a.shape idx) + b.get (bidx b.shape idx)⟩
  | none => .error .value

/-- Axes of an `n`-dimensional array which are not in `ax`, in order. -/
def freeAxes (n : ℕ) (ax : List ℕ) : List ℕ := (List.range n).filter (· ∉ ax)

/-- The multi-index whose entries at the axes `ax` are `k` and whose other entries are `f`, in
order. -/
def asm (n : ℕ) (ax k f : List ℕ) : List ℕ :=
  (List.range n).map fun p => (k ++ f).getD ((ax ++ freeAxes n ax).idxOf p) 0

/-- `np.tensordot(a, b, (axa, axb))` for valid, non-negative axes: sum over the common
multi-index of the contracted axes; free axes of `a` first, then those of `b`. -/
def tensordotTo [AddCommMonoid R] [Mul R] (a b : NDArray R) (axa axb : List ℕ) : NDArray R :=
  let fa := freeAxes a.ndim axa
  let fb := freeAxes b.ndim axb
  ⟨(fa.map fun p => a.shape.getD p 0) ++ (fb.map fun p => b.shape.getD p 0),
   fun idx => sumIdx (axa.map fun p => a.shape.getD p 0) fun k =>
     a.get (asm a.ndim axa k (idx.take fa.length)) * b.get (asm b.ndim axb k (idx.drop fa.length))⟩

/-- `np.tensordot(a, b, (axa, axb))`.  Axes may be negative.  numpy raises `IndexError` for axes
out of range and `ValueError` for different numbers of axes, different sizes or repeated axes. -/
def tensordot [AddCommMonoid R] [Mul R] (a b : NDArray R) (axa axb : List ℤ) : Py (NDArray R) := do
  let pa ← axa.mapM (pyIndex a.ndim)
  let pb ← axb.mapM (pyIndex b.ndim)
  if (pa.map fun p => a.shape.getD p 0) = (pb.map fun p => b.shape.getD p 0) ∧ pa.Nodup ∧ pb.Nodup
  then .ok (a.tensordotTo b pa pb) else .error .value

/-- Axis permutation used by `np.rollaxis(a, axis, start)` for non-negative arguments. -/
def rollPerm (n axis start : ℕ) : List ℕ :=
  let start := if axis < start then start - 1 else start
  if axis = start then List.range n
  else ((List.range n).erase axis).insertIdx start axis

/-- `np.rollaxis(a, axis, start)` for valid non-negative arguments. -/
def rollaxisTo (a : NDArray R) (axis start : ℕ) : NDArray R :=
  a.transposeTo (rollPerm a.ndim axis start)

/-- `np.rollaxis(a, axis, start)`; numpy raises `AxisError` (an `IndexError` and `ValueError`) if
out of range. -/
def rollaxis (a : NDArray R) (axis start : ℕ) : Py (NDArray R) :=
  if axis < a.ndim ∧ start ≤ a.ndim then .ok (a.rollaxisTo axis start) else .error .index

/-- Entry of a concatenation along `axis`. -/
def concatGet [Zero R] (axis : ℕ) : List (NDArray R) → List ℕ → R
  | [], _ => 0
  | a :: as, idx =>
    if idx.getD axis 0 < a.shape.getD axis 0 then a.get idx
    else concatGet axis as (idx.set axis (idx.getD axis 0 - a.shape.getD axis 0))

/-- `np.concatenate(as, axis)` for a non-negative axis; `ValueError` for an empty list or shapes
that differ outside of `axis`. -/
def concatenate [Zero R] (as : List (NDArray R)) (axis : ℕ) : Py (NDArray R) :=
  match as with
  | [] => .error .value
  | a :: _ =>
    if axis < a.ndim ∧ ∀ b ∈ as, b.ndim = a.ndim ∧ b.shape.set axis 0 = a.shape.set axis 0 then
      .ok ⟨a.shape.set axis ((as.map fun b => b.shape.getD axis 0).sum), concatGet axis as⟩
    else .error .value

/-- `a[None, ..., None]` -/
def addBonds (a : NDArray R) : NDArray R :=
  ⟨1 :: (a.shape ++ [1]), fun idx => a.get idx.tail.dropLast⟩

/-- `a[0, ..., 0]`: `IndexError` if there are fewer than two axes or one of the two is empty. -/
def dropBonds (a : NDArray R) : Py (NDArray R) :=
  if 2 ≤ a.ndim ∧ 0 < a.shape.headD 0 ∧ 0 < a.shape.getLastD 0 then
    .ok ⟨a.shape.tail.dropLast, fun idx => a.get (0 :: (idx ++ [0]))⟩
  else .error .index

end NDArray

end Mpnum
