import Verif.Spec

/-!
# Model of /repo/mpnum/mpstruct.py
-/

namespace Mpnum

variable {R : Type}

/-- State of a `LocalTensors` object (mpstruct.py:61-64): the list `_ltens` and the two
integers `_lcanonical`, `_rcanonical`.  An `MPArray` is a wrapper around one such object
(mparray.py:71-80), so the same structure is used as the state of an `MPArray`. -/
structure MPA (R : Type) where
  lt : List (NDArray R)
  l : ℤ
  r : ℤ

namespace MPA

/-- `len(mpa)` (mpstruct.py:145-147, mparray.py:86-88) -/
def len (x : MPA R) : ℕ := x.lt.length

/-- `mpa.ranks` (mparray.py:127-130) -/
def ranks (x : MPA R) : List ℕ := x.lt.tail.map NDArray.lb

/-- `mpa.shape` (mparray.py:132-135) -/
def shape (x : MPA R) : List (List ℕ) := x.lt.map NDArray.ph

/-- `mpa.ndims` (mparray.py:137-140); in Python the number could be negative for arrays with fewer
than two legs, which are never local tensors. -/
def ndims (x : MPA R) : List ℕ := x.lt.map fun t => t.ndim - 2

end MPA

/-- The consistency check of the constructor, mpstruct.py:70-73: `ten.shape[-1] == nten.shape[0]`
for neighbours.  (For 0-dimensional arrays Python raises `IndexError` instead of
`AssertionError`; the model reports both as a failed assertion.) -/
def adjOK : List (NDArray R) → Bool
  | t :: u :: ts => 0 < t.ndim && 0 < u.ndim && t.rb == u.lb && adjOK (u :: ts)
  | _ => true

/-- `LocalTensors.__init__` (mpstruct.py:48-73); `None or 0 = 0`, `0 or len = len`. -/
def mkLT (ts : List (NDArray R)) (cl cr : Option ℤ) : Py (MPA R) := do
  let l := cl.getD 0
  let r := if cr.getD 0 = 0 then (ts.length : ℤ) else cr.getD 0
  pyAssert (0 < ts.length)
  pyAssert (0 ≤ l ∧ l < ts.length)
  pyAssert (0 < r ∧ r ≤ ts.length)
  pyAssert (adjOK ts = true)
  return ⟨ts, l, r⟩

/-- `MPArray(ltens)` for a sequence of arrays (mparray.py:71-80). -/
def mkMPA (ts : List (NDArray R)) : Py (MPA R) := mkLT ts none none

/-- Values of the argument `canonicalization` of `update` for a single site. -/
inductive Canon
  | left | right
  deriving DecidableEq, Repr

/-- The argument `canonicalization` of `LocalTensors.update`: `None`, a string or a sequence. -/
inductive CanonArg
  | none
  | str (c : Canon)
  | seq (cs : List (Option Canon))

namespace MPA

/-- `LocalTensors._update` (mpstruct.py:75-101).  `self._ltens[index] = tens` raises `IndexError`
for an invalid index; negative indices are resolved for the list access, but *not* for the
canonical form arithmetic. -/
def update1 (x : MPA R) (index : ℤ) (t : NDArray R) (c : Option Canon) : Py (MPA R) := do
  let pos ← pyIndex x.len index
  let lt := x.lt.set pos t
  if c = some .left ∧ x.l - index ≥ 0 then
    return ⟨lt, max (index + 1) x.l, x.r⟩
  else if c = some .right ∧ index - x.r ≥ -1 then
    return ⟨lt, x.l, min index x.r⟩
  else
    return ⟨lt, min index x.l, max (index + 1) x.r⟩

end MPA

/-- Python's `slice(start, stop, step).indices(n)`. -/
def sliceIndices (start stop step : Option ℤ) (n : ℕ) : Py (ℤ × ℤ × ℤ) :=
  let step := step.getD 1
  if step = 0 then .error .value else
  let lower : ℤ := if step < 0 then -1 else 0
  let upper : ℤ := if step < 0 then n - 1 else n
  let clamp (x : ℤ) : ℤ := if x < 0 then max (x + n) lower else min x upper
  let s := match start with
    | some s => clamp s
    | none => if step < 0 then upper else lower
  let e := match stop with
    | some e => clamp e
    | none => if step < 0 then lower else upper
  .ok (s, e, step)

/-- Python's `range(start, stop, step)` as a list. -/
def pyRange (start stop step : ℤ) : List ℤ :=
  let n : ℕ := if step > 0 then ((stop - start + step - 1) / step).toNat
    else if step < 0 then ((start - stop + (-step) - 1) / (-step)).toNat else 0
  (List.range n).map fun (k : ℕ) => start + (k : ℤ) * step

namespace MPA

/-- The loop of mpstruct.py:135-136: `zip(tens, range(*indices), canonicalization)` stops at the
shortest sequence (`cs = none` stands for `it.repeat(None)`). -/
def updateLoop (x : MPA R) : List (NDArray R) → List ℤ → Option (List (Option Canon)) → Py (MPA R)
  | t :: ts, i :: is, none => do
    let x' ← x.update1 i t none
    updateLoop x' ts is none
  | t :: ts, i :: is, some (c :: cs) => do
    let x' ← x.update1 i t c
    updateLoop x' ts is (some cs)
  | _, _, _ => .ok x

/-- `LocalTensors.update` for an integer index (mpstruct.py:138-143).  A sequence passed as
canonicalization compares unequal to both strings. -/
def updateInt (x : MPA R) (index : ℤ) (t : NDArray R) (c : CanonArg) : Py (MPA R) := do
  let pos ← pyIndex x.len index
  let current := x.lt.getD pos ⟨[], t.get⟩
  pyAssert (t.ndim ≥ 2)
  pyAssert (current.lb = t.lb)
  pyAssert (current.rb = t.rb)
  x.update1 index t (match c with | .str c => some c | _ => none)

/-- What the loop of mpstruct.py:132-135 sees as canonicalization: a string is a `Sequence`, so it
is *not* repeated but iterated character by character, and no single character equals `'left'` or
`'right'`. -/
def canonSeq : CanonArg → Option (List (Option Canon))
  | .none => Option.none
  | .str .left => some (List.replicate 4 Option.none)
  | .str .right => some (List.replicate 5 Option.none)
  | .seq cs => some cs

/-- `LocalTensors.update` for a slice (mpstruct.py:121-136). -/
def updateSlice (x : MPA R) (start stop step : Option ℤ) (ts : List (NDArray R)) (c : CanonArg) :
    Py (MPA R) := do
  let (s, e, st) ← sliceIndices start stop step x.len
  let ps ← pyIndex x.len s
  let first ← (match ts with | [] => Except.error PyErr.index | t :: _ => .ok t)
  pyAssert ((x.lt.getD ps ⟨[], first.get⟩).lb = first.lb)
  pyAssert (adjOK ts = true)
  let pe ← pyIndex x.len (e - 1)
  pyAssert ((x.lt.getD pe ⟨[], first.get⟩).rb = (ts.getLastD first).rb)
  x.updateLoop ts (pyRange s e st) (canonSeq c)

/-- `LocalTensors.copy` / `MPArray.copy` (mpstruct.py:191-194, mparray.py:82-84): the constructor
checks its assertions again. -/
def copy (x : MPA R) : Py (MPA R) := mkLT x.lt (some x.l) (some x.r)

end MPA

end Mpnum
