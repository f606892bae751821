import Verif.Povm.Match
import Verif.Factory
import Verif.MPArray.Norm
import Verif.MPArray.Inject
import Verif.MPArray.FromArray

/-!
# Model of `MPPovm.est_pmf_from` and `MPPovm.est_pmf_from_mpps` of /repo/mpnum/povm/mppovm.py -/

open Finset Classical

namespace Mpnum

variable {R : Type}

/-- mppovm.py:1047-1052: the holes of `_fill_outcome_mpa_holes`: positions in the MPA on the support, and the
outcome dimensions on the sites of the hole.  `l + 1` runs over `0, support[0] + 1, ...` and `r` over
`support[0], ..., len(self)`. -/
def holesOf (outdims : List ℕ) (support : List ℕ) : List (ℕ × List ℕ) :=
  (((0 :: support.map (· + 1)).zip (support ++ [outdims.length])).zipIdx.filter fun q => q.1.1 < q.1.2).map
    fun q => (q.2, (outdims.drop q.1.1).take (q.1.2 - q.1.1))

/-- `np.ones(n)` -/
def NDArray.onesVec [One R] (n : ℕ) : NDArray R := ⟨[n], fun _ => 1⟩

/-- mppovm.py:1022-1053 `MPPovm._fill_outcome_mpa_holes`.  `support` holds sites of `self`. -/
def fillHoles [CommSemiring R] (self : MPA R) (support : List ℕ) (g : MPA R) : Py (MPA R) := do
  pyAssert (support.length = g.len)
  pyAssert (∀ q ∈ support.zip g.shape, q.2.getD 0 0 = self.outdims.getD q.1 0)
  if support.length = self.len then return g
  let holes := holesOf self.outdims support
  inject g (holes.map fun h => (h.1 : ℤ)) (holes.map fun h => .seq (h.2.map fun d => some (NDArray.onesVec d)))

/-- mppovm.py:1055-1089 `MPPovm._elemsum_identity`.  A division by zero gives `nan` in numpy; then the first
assertion on line 1080 fails.  `norm` canonicalizes its argument in place. -/
noncomputable def elemsumIdentity (qr : QR ℂ) (self : MPA ℂ) (support : List ℕ) (given : NDArray Bool) (eps : ℝ) :
    Py (Option ℝ) := do
  pyAssert (∃ i, InB i given.shape ∧ given.get i = true)
  let anyMissing : Prop := ¬ ∀ i, InB i given.shape → given.get i = true
  let g ← fromArray qr ⟨given.shape, fun i => if given.get i then 1 else 0⟩ (some (.const 1)) false
  let g ← fillHoles self support g
  let elemSum ← dot g self ([-1], [0])
  let eye ← factoryEye self.len (.each self.hdims)
  let (sumNorm, elemSum) ← norm qr elemSum
  let (eyeNorm, eye) ← norm qr eye
  let normProd := sumNorm * eyeNorm
  let ip ← inner elemSum eye
  pyAssert (normProd ≠ 0 ∧ -eps ≤ (normProd - ‖ip‖) / normProd)
  if eps < (normProd - ‖ip‖) / normProd then return none
  let fraction := sumNorm / eyeNorm
  if anyMissing then
    pyAssert (fraction < 1 + eps)
  else
    pyAssert (|fraction - 1| ≤ eps)
  return some fraction

/-- mppovm.py:1125-1130: positions in the samples of `other` where both POVMs have several outcomes -/
def otherSupport (so oo : List ℕ) : List ℕ :=
  (((so.zip oo).filter fun q => 1 < q.2).zipIdx.filter fun q => 1 < q.1.1).map fun q => q.2

/-- Position of the index `i` of an axis of size `n` (numpy: negative numbers count from the end). -/
def wrapIdx (n : ℕ) (i : ℤ) : ℕ := if i < 0 then (i + n).toNat else i.toNat

/-- `np.argwhere(match)` -/
def argwhere (m : NDArray Bool) : List (List ℕ) :=
  ((List.range m.shape.prod).map (unravelIdx m.shape)).filter fun i => m.get i

/-- mppovm.py:1091-1157 `MPPovm.est_pmf_from`.  `none` stands for the value `nan` in `est_pmf`.  `samples` has
two axes.  `match_elems` is called with its default tolerance `1e-10`.  If there are no samples, all estimates
are `nan` before the assertion on line 1155, which then fails. -/
noncomputable def estPmfFrom (qr : QR ℂ) (self other : MPA ℂ) (samples : NDArray ℤ) (eps : ℝ) :
    Py (NDArray (Option ℝ) × ℕ) := do
  pyAssert (self.len = other.len)
  let n := samples.shape.getD 0 0
  pyAssert (samples.shape.getD 1 0 = (nsDims other.outdims).length)
  let (m, f) ← matchElems self other [] (1e-10)
  let sup := otherSupport self.outdims other.outdims
  let otherOut := (sup.map fun p => (nsDims other.outdims).getD p 0).filter (1 < ·)
  let my := nsDims self.outdims
  pyAssert (m.shape = my ++ otherOut)
  let given : NDArray Bool := ⟨my, fun i => decide (∃ j, InB j otherOut ∧ m.get (i ++ j) = true)⟩
  if ¬ ∃ i, InB i my ∧ given.get i = true then return (⟨my, fun _ => none⟩, 0)
  let all ← elemsumIdentity qr self (nsoutpos self) given eps
  match all with
  | none => .error .assertion
  | some fraction =>
    let row : ℕ → List ℤ := fun k => sup.map fun p => samples.get [k, p]
    pyGuard (∀ k < n, ∀ q ∈ (row k).zip otherOut, -(q.2 : ℤ) ≤ q.1 ∧ q.1 < q.2) .index
    let hit : List ℕ → Prop := fun j => ∃ i, InB i my ∧ m.get (i ++ j) = true
    let used := if sup = [] then (if hit [] then 1 else 0)
      else ((range n).filter fun k => hit (List.zipWith wrapIdx otherOut (row k))).card
    let count : List ℕ → ℕ := fun j => ((range n).filter fun k => row k = j.map fun z : ℕ => (z : ℤ)).card
    let est : NDArray ℝ := ⟨my, fun i => ((argwhere m).map fun o =>
      if o.take my.length = i then (f.get o).getD 0 * count (o.drop my.length) / n else 0).sum⟩
    pyAssert (n ≠ 0 ∧ |sumIdx my est.get - fraction| ≤ eps)
    return (⟨my, fun i => if given.get i then some (est.get i) else none⟩, used)

/-- mppovm.py:1159-1189 `MPPovm.est_pmf_from_mpps`; `none` stands for `nan` -/
noncomputable def estPmfFromMpps (qr : QR ℂ) (self : MPA ℂ) (mpps : List (MPA ℂ)) (samples : List (NDArray ℤ))
    (eps : ℝ) : Py (NDArray (Option ℝ) × NDArray ℕ) := do
  pyAssert (mpps.length = samples.length)
  let ests ← (mpps.zip samples).mapM fun q => estPmfFrom qr self q.1 q.2 eps
  let my := nsDims self.outdims
  let used : NDArray ℕ := ⟨my, fun i => (ests.map fun e => if (e.1.get i).isSome then e.2 else 0).sum⟩
  let total : List ℕ → ℝ := fun i => (ests.map fun e => (e.1.get i).getD 0 * (e.2 : ℝ)).sum
  return (⟨my, fun i => if used.get i = 0 then none else some (total i / used.get i)⟩, used)

end Mpnum
