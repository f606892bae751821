import Verif.Povm.Sampling
import Verif.Povm.EstFrom

/-!
# Model of the Pauli MP-POVMs and of the functions for several states or several MP-POVMs

From /repo/mpnum/povm/mppovm.py.  An `MPPovmList` is the list of its MP-POVMs.  Iterators are lists; an
exception raised by an item is an exception of the whole list. -/

open Finset Classical

namespace Mpnum

/-- `pauli_mpp` (mppovm.py:1538-1566) -/
noncomputable def pauliMpp (nrSites localDim : ℕ) : Py (MPA ℂ) := do
  let a ← pauliPovm localDim
  fromLocalPovm a nrSites

/-- `it.product(l, repeat=n)`: the last item changes fastest. -/
def itProduct {α : Type} (l : List α) : ℕ → List (List α)
  | 0 => [[]]
  | n + 1 => l.flatMap fun a => (itProduct l n).map fun as => a :: as

/-- `pauli_mpps` (mppovm.py:1569-1599) -/
noncomputable def pauliMpps (nrSites localDim : ℕ) : Py (List (MPA ℂ)) := do
  let ps ← pauliParts localDim
  let parts ← ps.mapM fun a => fromLocalPovm a 1
  let xs ← (itProduct parts nrSites).mapM chainPovm
  mkPovmList xs

/-- `MPPovm.pmfs_as_array` (mppovm.py:549-554) with `asarray=False` (otherwise, the arrays, which all have the
same shape, are stacked).  The states after the computation are omitted. -/
noncomputable def pmfsAsArray (qr : QR ℂ) (x : MPA ℂ) (states : List (MPA ℂ)) (mode : PovmMode) (eps : ℝ) :
    Py (List (NDArray ℝ)) :=
  states.mapM fun s => do
    let r ← pmfAsArray qr x s mode eps .auto
    return r.1

/-- The keyword arguments `**redarg` of `block_pmfs_as_array`. -/
structure RedArg where
  width : Option ℤ
  starts : Option (List ℤ)
  stops : Option (List ℤ)

/-- The argument `mode` of `reductions`, which does not know `'auto'`. -/
def PovmMode.toState : PovmMode → StateMode
  | .auto => .other
  | .mode m => m

/-- `MPPovm.block_pmfs_as_array` (mppovm.py:556-562); `none` if there are no keyword arguments. -/
noncomputable def blockPmfsAsArray (qr : QR ℂ) (x state : MPA ℂ) (mode : PovmMode) (eps : ℝ) (redarg : Option RedArg) :
    Py (List (NDArray ℝ)) := do
  let arg := redarg.getD ⟨some (x.len : ℤ), none, none⟩
  let (states, newmode) ← reductions qr state mode.toState arg.width arg.starts arg.stops
  pmfsAsArray qr x states (.mode newmode) eps

/-- `self.mpps[0]` -/
def firstPovm (xs : List (MPA ℂ)) : Py (MPA ℂ) :=
  match xs with
  | [] => .error .index
  | x :: _ => .ok x

/-- One call per MP-POVM on the same state, whose canonical form may change in each call; the items and the
state after the last call. -/
noncomputable def overPovms {α : Type} (f : MPA ℂ → MPA ℂ → Py (α × MPA ℂ)) : List (MPA ℂ) → MPA ℂ → Py (List α × MPA ℂ)
  | [], state => .ok ([], state)
  | x :: xs, state => do
    let (a, state) ← f x state
    let (as, state) ← overPovms f xs state
    return (a :: as, state)

/-- `MPPovmList.pmf` (mppovm.py:1290-1301) -/
noncomputable def pmfList (qr : QR ℂ) (xs : List (MPA ℂ)) (state : MPA ℂ) (mode : PovmMode) : Py (List (MPA ℂ) × MPA ℂ) := do
  let x ← firstPovm xs
  pyAssert (state.len = x.len)
  overPovms (fun x state => povmPmf qr x state mode) xs state

/-- `MPPovmList.pmf_as_array` (mppovm.py:1303-1314) -/
noncomputable def pmfAsArrayList (qr : QR ℂ) (xs : List (MPA ℂ)) (state : MPA ℂ) (mode : PovmMode) (eps : ℝ) :
    Py (List (NDArray ℝ) × MPA ℂ) := do
  let x ← firstPovm xs
  pyAssert (state.len = x.len)
  overPovms (fun x state => pmfAsArray qr x state mode eps .auto) xs state

/-- `MPPovmList.pmfs_as_array` (mppovm.py:1316-1322) with `asarray=False`: `zip` stops at the end of the shorter list. -/
noncomputable def pmfsAsArrayList (qr : QR ℂ) (xs states : List (MPA ℂ)) (mode : PovmMode) (eps : ℝ) : Py (List (NDArray ℝ)) :=
  (xs.zip states).mapM fun p => do
    let r ← pmfAsArray qr p.1 p.2 mode eps .auto
    return r.1

/-- `MPPovmList.block_pmfs_as_array` (mppovm.py:1324-1332) -/
noncomputable def blockPmfsAsArrayList (qr : QR ℂ) (xs : List (MPA ℂ)) (state : MPA ℂ) (mode : PovmMode) (eps : ℝ)
    (redarg : Option RedArg) : Py (List (NDArray ℝ)) := do
  let arg ← (match redarg with
    | some arg => .ok arg
    | none => do
      let x ← firstPovm xs
      pyAssert ((xs.length : ℤ) = state.len - x.len + 1)
      return ⟨some (x.len : ℤ), none, none⟩ : Py RedArg)
  let (states, newmode) ← reductions qr state mode.toState arg.width arg.starts arg.stops
  pmfsAsArrayList qr xs states (.mode newmode) eps

/-- The state after `MPPovm.sample` (mppovm.py:685, 707). -/
noncomputable def sampleState (qr : QR ℂ) (x state : MPA ℂ) (method : SampleMethod) (mode : PovmMode) (eps : ℝ) : Py (MPA ℂ) :=
  match method with
  | .cond => do
    let r ← povmPmf qr x state mode
    return r.2
  | .direct => do
    let r ← pmfAsArray qr x state mode eps .auto
    return r.2
  | .other => .ok state

/-- `MPPovmList.sample` (mppovm.py:1334-1346) -/
noncomputable def sampleList (qr : QR ℂ) (nSamples : ℕ) (method : SampleMethod) (g : ℤ) (mode : PovmMode)
    (pack : Option (Option (ℤ × ℤ))) (eps : ℝ) : List (MPA ℂ) → MPA ℂ → Rand (List SampleOut)
  | [], _ => pure []
  | x :: xs, state => do
    let a ← povmSample qr x state nSamples method g mode pack eps
    let state ← Rand.lift (sampleState qr x state method mode eps)
    let as ← sampleList qr nSamples method g mode pack eps xs state
    return a :: as

/-- `MPPovmList.est_pmf_from` (mppovm.py:1379-1391) -/
noncomputable def estPmfFromList (qr : QR ℂ) (xs others : List (MPA ℂ)) (samples : List (NDArray ℤ)) (eps : ℝ) :
    Py (List (NDArray (Option ℝ) × NDArray ℕ)) := do
  let x ← firstPovm xs
  let y ← firstPovm others
  pyAssert (x.len = y.len)
  xs.mapM fun x => estPmfFromMpps qr x others samples eps

end Mpnum
