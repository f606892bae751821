import Verif.Valid

/-!
# Model of `__add__`, `__sub__`, `__mul__`, `__neg__`, `__truediv__`, `sumup`, `_local_add`
(/repo/mpnum/mparray.py)
-/

open Finset

namespace Mpnum

variable {R : Type}

namespace NDArray

/-- Broadcast check of the assignment `target_view[...] = v`: numpy ignores leading axes of size one
of `v` beyond the dimension of the target, the rest must broadcast to the shape of the target. -/
def assignable (v target : List ℕ) : Bool :=
  (v.take (v.length - target.length)).all (· == 1) &&
    bshape (v.drop (v.length - target.length)) target == some target

/-- `res[l0:l1, ..., r0:r1] = v` on an array with at least two legs: numpy assignment to a block,
broadcasting `v` (`ValueError` if that is not possible). -/
def assignBlock (res v : NDArray R) (l0 l1 r0 r1 : ℕ) : Py (NDArray R) :=
  if assignable v.shape ((l1 - l0) :: (res.ph ++ [r1 - r0])) then
    .ok ⟨res.shape, fun idx =>
      let a := idx.headD 0
      let b := idx.getLastD 0
      if l0 ≤ a ∧ a < l1 ∧ r0 ≤ b ∧ b < r1 then
        v.get (bidx (v.shape.drop (v.shape.length - res.ndim))
          ((a - l0) :: (idx.tail.dropLast ++ [b - r0])))
      else res.get idx⟩
  else .error .value

/-- `np.zeros(shape)` -/
def zeros [Zero R] (s : List ℕ) : NDArray R := ⟨s, fun _ => 0⟩

end NDArray

/-- The loop of `_local_add` (mparray.py:1856-1860). -/
def localAddLoop : List (NDArray R) → NDArray R → ℕ → ℕ → Py (NDArray R)
  | [], res, _, _ => .ok res
  | t :: ts, res, pl, pr => do
    let res ← res.assignBlock t pl (pl + t.lb) pr (pr + t.rb)
    localAddLoop ts res (pl + t.lb) (pr + t.rb)

/-- `_local_add` (mparray.py:1834-1861); `IndexError` for an empty list. -/
def localAdd [Zero R] (ts : List (NDArray R)) : Py (NDArray R) :=
  match ts with
  | [] => .error .index
  | t :: _ =>
    localAddLoop ts (NDArray.zeros ((ts.map NDArray.lb).sum :: (t.ph ++ [(ts.map NDArray.rb).sum]))) 0 0

/-- `np.concatenate(ts, axis=-1)` -/
def concatLast [Zero R] (ts : List (NDArray R)) : Py (NDArray R) :=
  NDArray.concatenate ts ((ts.head?.map NDArray.ndim).getD 0 - 1)

/-- One `next(lt)` for every iterator of a list. -/
def nexts (its : List (List (NDArray R))) : Py (List (NDArray R)) :=
  its.mapM fun it => match it with
    | [] => Except.error PyErr.stopIteration
    | t :: _ => .ok t

/-- The local tensors after the first site (mparray.py:1185-1187, 355-358): `n` sites remain in
every iterator; the last site is concatenated along the left bond. -/
def sumRest [Zero R] : ℕ → List (List (NDArray R)) → Py (List (NDArray R))
  | 0, _ => .ok []
  | 1, its => do
    let hs ← nexts its
    let c ← NDArray.concatenate hs 0
    return [c]
  | n + 2, its => do
    let hs ← nexts its
    let c ← localAdd hs
    let cs ← sumRest (n + 1) (its.map List.tail)
    return c :: cs

/-- `sum(arrays)` of the Python standard library on a non-empty sequence of arrays. -/
def pySum [Add R] (ts : List (NDArray R)) : Py (NDArray R) :=
  match ts with
  | [] => .error .type
  | t :: ts => ts.foldlM NDArray.add t

namespace MPA

/-- `MPArray.__add__` (mparray.py:349-360) -/
def add [Zero R] [Add R] (x y : MPA R) : Py (MPA R) := do
  pyAssert (x.len = y.len)
  if x.len = 1 then
    let hs ← nexts [x.lt, y.lt]
    let s ← pySum hs
    mkMPA [s]
  else
    let hs ← nexts [x.lt, y.lt]
    let c ← concatLast hs
    let cs ← sumRest (x.len - 1) [x.lt.tail, y.lt.tail]
    mkMPA (c :: cs)

/-- `MPArray.__mul__` and `__rmul__` by a scalar (mparray.py:365-377, 389-390). -/
def mul [Mul R] (x : MPA R) (fact : R) : Py (MPA R) := do
  let pos ← pyIndex x.len x.l
  let t ← (x.lt[pos]?).elim (Except.error PyErr.index) Except.ok
  mkLT (x.lt.take pos ++ [t.smul fact] ++ x.lt.drop (pos + 1)) (some x.l) (some x.r)

/-- `MPArray.__imul__` by a scalar (mparray.py:379-387): updates the object in place. -/
def imul [Mul R] (x : MPA R) (fact : R) : Py (MPA R) := do
  let pos ← pyIndex x.len x.l
  let t ← (x.lt[pos]?).elim (Except.error PyErr.index) Except.ok
  x.updateInt x.l (t.rsmul fact) .none

/-- `MPArray.__neg__` (mparray.py:392-393) -/
def neg [Ring R] (x : MPA R) : Py (MPA R) := x.mul (-1)

/-- `MPArray.__sub__` (mparray.py:362-363) -/
def sub [Ring R] (x y : MPA R) : Py (MPA R) := do
  let y' ← y.mul (-1)
  x.add y'

/-- `MPArray.__truediv__` by a scalar (mparray.py:398-401); Python floats raise
`ZeroDivisionError` for `1 / 0`. -/
def truediv [Field R] [DecidableEq R] (x : MPA R) (d : R) : Py (MPA R) :=
  if d = 0 then .error .zeroDiv else x.mul (1 / d)

/-- `MPArray.__itruediv__` by a scalar (mparray.py:403-406). -/
def itruediv [Field R] [DecidableEq R] (x : MPA R) (d : R) : Py (MPA R) :=
  if d = 0 then .error .zeroDiv else x.imul (1 / d)

end MPA

/-- `sumup` (mparray.py:1156-1189).  With weights, `zip(weights, ltensiter)` stops at the shorter
sequence, and only the iterators that were reached have advanced. -/
def sumup [Zero R] [Add R] [Mul R] (mpas : List (MPA R)) (weights : Option (List R)) :
    Py (MPA R) := do
  let first ← mpas.head?.elim (Except.error PyErr.index) Except.ok
  let length := first.len
  pyAssert (∀ m ∈ mpas, m.len = length)
  let its := mpas.map MPA.lt
  let k := (weights.map List.length).getD mpas.length
  let hs ← nexts (its.take k)
  let hs := match weights with
    | none => hs
    | some w => List.zipWith NDArray.smul w hs
  if length = 1 then
    let s ← pySum hs
    mkMPA [s]
  else
    let c ← concatLast hs
    let cs ← sumRest (length - 1) ((its.take k).map List.tail ++ its.drop k)
    mkMPA (c :: cs)

end Mpnum
