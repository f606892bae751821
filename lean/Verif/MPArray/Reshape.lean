import Verif.Sitewise
import Verif.MPArray.Inner

/-!
# Model of `reshape`, `ravel` (/repo/mpnum/mparray.py)
-/

open Finset

namespace Mpnum

variable {R : Type}

/-- The argument of `MPArray.reshape`: the string `'prune'`, one shape (a sequence of integers) or a
sequence of shapes. -/
inductive NewShapes
  | prune
  | one (s : List ℤ)
  | list (ss : List (List ℤ))

namespace MPA

/-- mparray.py:465-470; `newshapes[0]` raises `IndexError` for an empty sequence. -/
def newShapes (x : MPA R) : NewShapes → Py (List (List ℤ))
  | .prune => .ok (x.shape.map fun s => (s.filter (1 < ·)).map fun k : ℕ => (k : ℤ))
  | .one [] => .error .index
  | .list [] => .error .index
  | .one s => .ok (List.replicate x.len s)
  | .list ss => .ok ss

/-- `MPArray.reshape` (mparray.py:452-474).  The iterator for `'prune'` becomes a tuple in line 468,
so that `newshapes[0]` exists for every MPA (which has at least one site). -/
def reshape (x : MPA R) (newshapes : NewShapes) : Py (MPA R) := do
  let ss ← x.newShapes newshapes
  let ts ← (x.lt.zip ss).mapM fun ts => localReshape ts.1 ts.2
  mkLT ts (some x.l) (some x.r)

/-- `MPArray.ravel` (mparray.py:476-478) -/
def ravel (x : MPA R) : Py (MPA R) := x.reshape (.one [-1])

end MPA

/-- Row-major relabelling of indices of shape `s'` by indices of shape `s`. -/
def relabel (s s' i : List ℕ) : List ℕ := unravelIdx s (ravelIdx s' i)

theorem bijIdx_relabel {s s' : List ℕ} (h : s'.prod = s.prod) :
    BijIdx s s' (relabel s s') (relabel s' s) := by
  refine ⟨?_, ?_, ?_, ?_⟩ <;> intro i hi <;> unfold relabel
  · exact unravelIdx_inB (by rw [← h]; exact ravelIdx_lt hi)
  · exact unravelIdx_inB (by rw [h]; exact ravelIdx_lt hi)
  · rw [ravel_unravel (by rw [← h]; exact ravelIdx_lt hi), unravel_ravel hi]
  · rw [ravel_unravel (by rw [h]; exact ravelIdx_lt hi), unravel_ravel hi]

end Mpnum
