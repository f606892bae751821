import Verif.MPArray.ToArray
import Verif.MPArray.FromArray
import Verif.Utils.ArrayTransforms

/-! # Model of `MPArray.to_array_global` and `MPArray.from_array_global` of /repo/mpnum/mparray.py -/

namespace Mpnum

variable {R : Type}

/-- `MPArray.to_array_global` (mparray.py:273-284) -/
def MPA.toArrayGlobal [AddCommMonoid R] [Mul R] (x : MPA R) : Py (NDArray R) := do
  localToGlobal (← x.toArray) x.len

/-- `MPArray.from_array_global` (mparray.py:188-204).  `ndims` is an integer or `None` (an iterable is a `TypeError` in
`array.ndim % ndims` and not modelled, nor are negative numbers); `x % 0` is a `ZeroDivisionError`. -/
def fromArrayGlobal (qr : QR R) (array : NDArray R) (ndims : Option ℕ) (hasVirtual : Bool) : Py (MPA R) := do
  if hasVirtual then .error .notImplemented
  else
    let ndims := ndims.getD array.ndim
    if ndims = 0 then .error .zeroDiv
    else
      pyAssert (array.ndim % ndims = 0)
      let sites := array.ndim / ndims
      fromArray qr (← globalToLocal array sites) (some (.const ndims)) hasVirtual

end Mpnum
