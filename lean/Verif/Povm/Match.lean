import Verif.Povm.MpPovm
import Verif.MPArray.ToGlobal
import Verif.Utils.ArrayTransforms
import Mathlib.Analysis.Complex.Norm
import Mathlib.Analysis.SpecialFunctions.Pow.Real

/-!
# Model of `MPPovm.match_elems` of /repo/mpnum/povm/mppovm.py -/

open Finset Classical

namespace Mpnum

variable {R : Type}

/-- One site of the tensor which discards outcomes (mppovm.py:599-603) -/
def discardSite [Zero R] [One R] (keep : Prop) [Decidable keep] (o : ℕ) : NDArray R :=
  if keep then NDArray.eye o else ⟨[1, o], fun _ => 1⟩

/-- mppovm.py:596-604: the outcomes of `other` are discarded on the sites where `self` has one outcome.
`MPPovm(...)` runs the checks of the constructor. -/
def discardOutcomes [CommSemiring R] (self other : MPA R) : Py (MPA R) := do
  let tr ← fromKron (List.zipWith (fun s o => discardSite (1 < s) o) self.outdims other.outdims)
  let z ← dot tr other ([-1], [0])
  z.povmCheck

/-- mppovm.py:612-616 and 620-624: `np.fromfunction(lambda i, j, k: (i == j) & (j == k), [outdim] * 3)` -/
def diag3 [Zero R] [One R] (o : ℕ) : NDArray R :=
  ⟨[o, o, o], fun i => if i.getD 0 0 = i.getD 1 0 ∧ i.getD 1 0 = i.getD 2 0 then 1 else 0⟩

/-- `self.conj()` of an MP-POVM: the result is an `MPPovm` again. -/
def conjPovm [CommSemiring R] [StarRing R] (x : MPA R) : Py (MPA R) := do
  (← x.conj).povmCheck

/-- mppovm.py:610-617 and 618-625: the squared norms of all elements -/
def elemNormSq [CommSemiring R] [StarRing R] (x : MPA R) : Py (MPA R) := do
  let c ← conjPovm x
  let g ← dot c x ([1, 2], [1, 2])
  let e ← fromKron (x.outdims.map diag3)
  dot e g ([1, 2], [0, 1])

/-- mppovm.py:626-627: squared absolute values of the inner products, in global order, without the axes of
size one -/
noncomputable def innerAbsSq (inner : MPA ℂ) : Py (NDArray ℝ) := do
  let p ← prune inner true
  let a ← p.toArrayGlobal
  let b : NDArray ℝ := ⟨a.shape, fun i => ‖a.get i‖ ^ 2⟩
  b.reshape ((b.shape.filter (1 < ·)).map fun n : ℕ => (n : ℤ))

/-- mppovm.py:628-629: `mp.prune(normsq, True).to_array().real` -/
noncomputable def prunedReal (x : MPA ℂ) : Py (NDArray ℝ) := do
  let p ← prune x true
  let a ← p.toArray
  return ⟨a.shape, fun i => (a.get i).re⟩

/-- `np.outer(a, b)` of the flattened arrays. -/
def npOuter (a b : NDArray ℝ) : NDArray ℝ :=
  ⟨[a.shape.prod, b.shape.prod], fun i =>
    a.get (unravelIdx a.shape (i.getD 0 0)) * b.get (unravelIdx b.shape (i.getD 1 0))⟩

/-- mppovm.py:641-648: the checks requested by `exclude_dup` -/
noncomputable def dupChecks (nSout : ℕ) (excl : List String) (m : NDArray Bool) : Py Unit := do
  pyAssert ("self" ∈ excl → ∀ j, InB j (m.shape.drop nSout) →
    (sumIdx (m.shape.take nSout) fun i => if m.get (i ++ j) then 1 else 0) ≤ 1)
  pyAssert ("other" ∈ excl → ∀ i, InB i (m.shape.take nSout) →
    (sumIdx (m.shape.drop nSout) fun j => if m.get (i ++ j) then 1 else 0) ≤ 1)

/-- mppovm.py:630-657: the last part of `match_elems`, with the squared absolute values of all inner
products and the squared norms of all elements.  `none` stands for the value `nan` in `prefactors`.  If the
arrays have no axes, `prefactors` is a numpy scalar and the assignment on line 655 is a `TypeError`. -/
noncomputable def matchTail (nSout : ℕ) (excl : List String) (eps : ℝ) (inner snormsq onormsq : NDArray ℝ) :
    Py (NDArray Bool × NDArray (Option ℝ)) := do
  pyAssert (∀ i, InB i snormsq.shape → 0 < snormsq.get i)
  pyAssert (∀ i, InB i onormsq.shape → 0 < onormsq.get i)
  pyAssert (inner.shape = snormsq.shape ++ onormsq.shape)
  let normprod ← (npOuter snormsq onormsq).reshape (inner.shape.map fun n : ℕ => (n : ℤ))
  pyAssert (∀ i, InB i inner.shape → -eps ≤ (normprod.get i - inner.get i) / normprod.get i)
  let m : NDArray Bool := ⟨inner.shape, fun i => decide (|inner.get i / normprod.get i - 1| ≤ eps)⟩
  dupChecks nSout excl m
  let ks := snormsq.shape.length
  let prefactors : NDArray ℝ := ⟨snormsq.shape ++ onormsq.shape, fun i =>
    (snormsq.get (i.take ks) / onormsq.get (i.drop ks)) ^ (0.5 : ℝ)⟩
  pyAssert (prefactors.shape = m.shape)
  pyGuard (prefactors.shape ≠ []) .type
  return (m, ⟨prefactors.shape, fun i => if m.get i then some (prefactors.get i) else none⟩)

/-- mppovm.py:564-657 `MPPovm.match_elems` -/
noncomputable def matchElems (self other : MPA ℂ) (excl : List String) (eps : ℝ) :
    Py (NDArray Bool × NDArray (Option ℝ)) := do
  pyGuard (self.hdims = other.hdims) .value
  pyAssert (∀ e ∈ excl, e = "self" ∨ e = "other")
  let other ← discardOutcomes self other
  let c ← conjPovm self
  let inner ← dot c other ([1, 2], [1, 2])
  let snormsq ← elemNormSq self
  let onormsq ← elemNormSq other
  let inner ← innerAbsSq inner
  let snormsq ← prunedReal snormsq
  let onormsq ← prunedReal onormsq
  matchTail (nsDims self.outdims).length excl eps inner snormsq onormsq

end Mpnum
