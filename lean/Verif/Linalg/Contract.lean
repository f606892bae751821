import Verif.NamedArray
import Verif.MPArray.Matricize
import Verif.MPStruct
import Verif.Utils.ArrayTransforms

/-!
# Model of the contractions in /repo/mpnum/linalg.py and of `sandwich` (/repo/mpnum/mparray.py)
-/

open Finset

namespace Mpnum

variable {R : Type}

/-- The axis names that occur in linalg.py:57-237 (strings in the code). -/
inductive Ax
  | mpsBond | mpoBond | ccMpsBond
  | leftMpoBond | physRow | physCol | rightMpoBond
  | leftMpsBond | phys | rightMpsBond
  | leftCcMpsBond | rightCcMpsBond
  deriving DecidableEq

section
variable [AddCommMonoid R] [Mul R] [Star R]

/-- `_eig_leftvec_add(leftvec, mpo_lten, mps_lten, mps_lten2)` (linalg.py:27-86); the caller passes
`mps_lten2 = mps_lten` where the code has the default `None`. -/
def eigLeftvecAdd (leftvec mpoLten mpsLten mpsLten2 : NDArray R) : Py (NDArray R) := do
  let leftvec ← NamedArray.mk' leftvec [Ax.mpsBond, .mpoBond, .ccMpsBond]
  let mpoLten ← NamedArray.mk' mpoLten [Ax.leftMpoBond, .physRow, .physCol, .rightMpoBond]
  let mpsLten ← NamedArray.mk' mpsLten [Ax.leftMpsBond, .phys, .rightMpsBond]
  let mpsLten2 ← NamedArray.mk' mpsLten2 [Ax.leftMpsBond, .phys, .rightMpsBond]
  let leftvec ← leftvec.tensordot mpsLten [(.mpsBond, .leftMpsBond)]
  let leftvec ← leftvec.rename [(.rightMpsBond, .mpsBond)]
  let leftvec ← leftvec.tensordot mpoLten [(.mpoBond, .leftMpoBond), (.phys, .physCol)]
  let leftvec ← leftvec.tensordot (← mpsLten2.conj) [(.ccMpsBond, .leftMpsBond), (.physRow, .phys)]
  let leftvec ← leftvec.rename [(.rightMpoBond, .mpoBond), (.rightMpsBond, .ccMpsBond)]
  leftvec.toArray [.mpsBond, .mpoBond, .ccMpsBond]

/-- `_eig_rightvec_add(rightvec, mpo_lten, mps_lten)` (linalg.py:89-128) -/
def eigRightvecAdd (rightvec mpoLten mpsLten : NDArray R) : Py (NDArray R) := do
  let rightvec ← NamedArray.mk' rightvec [Ax.mpsBond, .mpoBond, .ccMpsBond]
  let mpoLten ← NamedArray.mk' mpoLten [Ax.leftMpoBond, .physRow, .physCol, .rightMpoBond]
  let mpsLten ← NamedArray.mk' mpsLten [Ax.leftMpsBond, .phys, .rightMpsBond]
  let rightvec ← rightvec.tensordot mpsLten [(.mpsBond, .rightMpsBond)]
  let rightvec ← rightvec.rename [(.leftMpsBond, .mpsBond)]
  let rightvec ← rightvec.tensordot mpoLten [(.mpoBond, .rightMpoBond), (.phys, .physCol)]
  let rightvec ← rightvec.tensordot (← mpsLten.conj) [(.ccMpsBond, .rightMpsBond), (.physRow, .phys)]
  let rightvec ← rightvec.rename [(.leftMpoBond, .mpoBond), (.leftMpsBond, .ccMpsBond)]
  rightvec.toArray [.mpsBond, .mpoBond, .ccMpsBond]

/-- `_eig_leftvec_add_mps(lv, lt1, lt2)` (linalg.py:131-141) -/
def eigLeftvecAddMps (lv lt1 lt2 : NDArray R) : Py (NDArray R) := do
  let lv ← lv.tensordot lt1.conj [0] [0]
  lv.tensordot lt2 [0, 1] [0, 1]

/-- `_eig_rightvec_add_mps(rv, lt1, lt2)` (linalg.py:144-151) -/
def eigRightvecAddMps (rv lt1 lt2 : NDArray R) : Py (NDArray R) := do
  let rv ← rv.tensordot lt1.conj [0] [2]
  rv.tensordot lt2 [0, 2] [2, 1]

/-- `_eig_local_op(leftvec, mpo_ltens, rightvec)` (linalg.py:179-237) -/
def eigLocalOp (leftvec : NDArray R) (mpoLtens : List (NDArray R)) (rightvec : NDArray R) :
    Py (NDArray R) := do
  let nrSites := mpoLtens.length
  let mpoLten ← (match mpoLtens with
    | [] => Except.error PyErr.index
    | t :: ts => ts.foldlM matdot t)
  let mpoLten ← localToGlobal mpoLten nrSites 1 1
  let s := mpoLten.shape
  let mpoLten ← mpoLten.reshape [(s.headD 0 : ℤ), (((s.tail.take nrSites).prod : ℕ) : ℤ),
    (((s.drop (1 + nrSites)).dropLast.prod : ℕ) : ℤ), (s.getLastD 0 : ℤ)]
  let leftvec ← NamedArray.mk' leftvec [Ax.leftMpsBond, .leftMpoBond, .leftCcMpsBond]
  let mpoLten ← NamedArray.mk' mpoLten [Ax.leftMpoBond, .physRow, .physCol, .rightMpoBond]
  let rightvec ← NamedArray.mk' rightvec [Ax.rightMpsBond, .rightMpoBond, .rightCcMpsBond]
  let op ← leftvec.tensordot mpoLten [(.leftMpoBond, .leftMpoBond)]
  let op ← op.tensordot rightvec [(.rightMpoBond, .rightMpoBond)]
  let op ← op.toArray [.leftCcMpsBond, .physRow, .rightCcMpsBond, .leftMpsBond, .physCol,
    .rightMpsBond]
  op.reshape [(((op.shape.take 3).prod : ℕ) : ℤ), -1]

/-- Loop body of `_eig_local_op_mps` (linalg.py:249-255) -/
def eigLocalOpMpsStep (op lt : NDArray R) : Py (NDArray R) := do
  let op ← op.tensordot lt.conj [2] [0]
  op.reshape [(op.shape.getD 0 0 : ℤ), -1, (op.shape.getD 3 0 : ℤ)]

/-- `np.outer(a.conj(), a)` (linalg.py:258): both arguments are flattened. -/
def outerConj (a : NDArray R) : NDArray R :=
  ⟨[a.shape.prod, a.shape.prod], fun i =>
    star (a.get (unravelIdx a.shape (i.getD 0 0))) * a.get (unravelIdx a.shape (i.getD 1 0))⟩

/-- `_eig_local_op_mps(lv, ltens, rv)` (linalg.py:240-262) -/
def eigLocalOpMps (lv : NDArray R) (ltens : List (NDArray R)) (rv : NDArray R) : Py (NDArray R) := do
  let op := lv.T
  let op ← op.reshape [(op.shape.getD 0 0 : ℤ), 1, (op.shape.getD 1 0 : ℤ)]
  let op ← ltens.foldlM eigLocalOpMpsStep op
  let op ← op.tensordot rv [2] [0]
  return outerConj op

/-- Loop of `sandwich`: `zip` stops at the shortest sequence. -/
def sandwichLoop (arr : NDArray R) : List (NDArray R) → List (NDArray R) → List (NDArray R) →
    Py (NDArray R)
  | w :: ws, t :: ts, u :: us => do
    let arr ← eigLeftvecAdd arr w t u
    sandwichLoop arr ws ts us
  | _, _, _ => .ok arr

end

/-- `np.array(1, ndmin=n)`, `np.ones((1,) * n)` -/
def onesNd [One R] (n : ℕ) : NDArray R := ⟨List.replicate n 1, fun _ => 1⟩

/-- `sandwich(mpo, mps, mps2)` (mparray.py:1256-1278).  (`mps2 or mps`: an `MPArray` has a positive
length and is always true.) -/
def sandwich [Semiring R] [Star R] (mpo mps : MPA R) (mps2 : Option (MPA R)) : Py R := do
  let arr ← sandwichLoop (onesNd 3) mpo.lt mps.lt (mps2.getD mps).lt
  pyAssert (arr.shape.prod = 1)
  return arr.get (unravelIdx arr.shape 0)

end Mpnum
