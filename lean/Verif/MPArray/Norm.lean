import Verif.MPArray.Canon
import Verif.Isometry
import Verif.MPArray.Add
import Mathlib.Analysis.RCLike.Basic

/-! # Model of `norm`, `normdist` (/repo/mpnum/mparray.py:1416-1446) -/

open Finset

namespace Mpnum

variable {𝕜 : Type} [RCLike 𝕜]

/-- `numpy.linalg.norm` of an array of any shape: the 2-norm of `x.ravel()`. -/
noncomputable def npNorm (t : NDArray 𝕜) : ℝ := Real.sqrt (sumIdx t.shape fun i => ‖t.get i‖ ^ 2)

/-- `norm` (mparray.py:1416-1435).  `canonicalize` changes the MPA in place, so the new state is
returned together with the value. -/
noncomputable def norm (qr : QR 𝕜) (x : MPA 𝕜) : Py (ℝ × MPA 𝕜) := do
  let y ← x.canonicalize qr .none .none
  if y.r = 1 then
    let t ← y.site 0
    return (npNorm t, y)
  else if y.l = y.len - 1 then
    let t ← y.site (-1)
    return (npNorm t, y)
  else .error .value

/-- `normdist` (mparray.py:1438-1446) -/
noncomputable def normdist (qr : QR 𝕜) (x y : MPA 𝕜) : Py ℝ := do
  let d ← x.sub y
  let (v, _) ← norm qr d
  return v

end Mpnum
