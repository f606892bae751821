import Verif.MPArray.Canon
import Verif.MPArray.Inject
import Verif.MPArray.Prune
import Verif.MPArray.Reshape
import Verif.MPArray.Transpose
import Verif.Utils.ArrayTransforms

/-!
# Model of /repo/mpnum/mpsmpo.py

Iterators are modelled by the list of all their items; nothing else changes the operand while an iterator
is consumed. -/

open Finset

namespace Mpnum

variable {R : Type}

/-- `_check_reductions_args` (mpsmpo.py:142-158): the pairs `zip(startsites, stopsites)`. -/
def reductionsArgs (n : ℕ) (width : Option ℤ) (startsites stopsites : Option (List ℤ)) : Py (List (ℤ × ℤ)) :=
  match stopsites, width, startsites with
  | none, none, _ => .error .assertion
  | none, some w, starts => .ok ((starts.getD (pyRange 0 (n - w + 1) 1)).map fun s => (s, s + w))
  | some stops, none, some starts => .ok (starts.zip stops)
  | some _, _, _ => .error .assertion

/-- `mps_to_pmps` (mpsmpo.py:375-387) -/
def mpsToPmps (x : MPA R) : Py (MPA R) := do
  pyAssert (∀ s ∈ x.shape, s.length = 1)
  let ltens ← x.lt.mapM fun t => t.reshape ((t.shape.take 2 ++ [1, t.shape.getD 2 0]).map fun n : ℕ => (n : ℤ))
  mkMPA ltens

/-- `pmps_to_mps` (mpsmpo.py:390-399) -/
def pmpsToMps (x : MPA R) : Py (MPA R) := do
  pyAssert (∀ s ∈ x.shape, s.length = 2)
  pyAssert (∀ s ∈ x.shape, s.getD 1 0 = 1)
  x.reshape (.list (x.shape.map fun s => [((s.getD 0 0 : ℕ) : ℤ)]))

/-- `pmps_to_mpo` (mpsmpo.py:360-372) -/
def pmpsToMpo [AddCommMonoid R] [Mul R] [Star R] (x : MPA R) : Py (MPA R) := do
  let y ← x.adj
  dot x y ([-1], [0])

/-- `mps_to_mpo` (mpsmpo.py:402-408) -/
def mpsToMpo [AddCommMonoid R] [Mul R] [Star R] (x : MPA R) : Py (MPA R) := do
  let y ← mpsToPmps x
  pmpsToMpo y

/-- The loop body of `pmps_dm_to_array` (mpsmpo.py:176-184) -/
def dmStep [AddCommMonoid R] [Mul R] [Star R] (out lt : NDArray R) : Py (NDArray R) := do
  let out ← out.tensordot lt [1] [0]
  let out ← out.tensordot lt.conj [1, 3] [0, 2]
  let out ← out.rollaxis 3 2
  out.reshape [-1, ((out.shape.getD 3 0 : ℕ) : ℤ), ((out.shape.getD 4 0 : ℕ) : ℤ)]

/-- The shape of mpsmpo.py:185; `for dim, _ in pmps.shape` needs two legs per site. -/
def dmOutShape (shape : List (List ℕ)) : Py (List ℕ) := do
  pyGuard (∀ s ∈ shape, s.length = 2) .value
  return (shape.map fun s => if 1 < s.getD 0 0 then [s.getD 0 0, s.getD 0 0] else []).flatten

/-- `pmps_dm_to_array` (mpsmpo.py:161-190) -/
def pmpsDmToArray [AddCommMonoid R] [Mul R] [One R] [Star R] (x : MPA R) (global : Bool) : Py (NDArray R) := do
  let out ← x.lt.foldlM dmStep ⟨[1, 1, 1], fun _ => 1⟩
  let outShape ← dmOutShape x.shape
  let out ← out.reshape (outShape.map fun n : ℕ => (n : ℤ))
  (if global then do
    pyAssert (outShape.toFinset.card = 1)
    localToGlobal out (outShape.length / 2)
  else .ok out : Py (NDArray R))

/-! ### reductions of MPOs -/

/-- The dictionaries `rem_left`, `rem_right` (mpsmpo.py:247-248). -/
abbrev RemCache (R : Type) := ℕ → Option (NDArray R)

/-- `rem_left = {0: np.array(1, ndmin=2)}` -/
def RemCache.init [One R] : RemCache R := fun n => if n = 0 then some ⟨[1, 1], fun _ => 1⟩ else none

/-- `get_remainder` (mpsmpo.py:250-269) for a non-negative number of sites, together with the updated
dictionary; `left` stands for `end == 1`.  (Python's limit on the recursion depth is not modelled.) -/
def getRemainder [AddCommMonoid R] [Mul R] (x : MPA R) (left : Bool) :
    ℕ → RemCache R → Py (NDArray R × RemCache R)
  | 0, cache => match cache 0 with
    | some r => .ok (r, cache)
    | none => .error .recursion
  | n + 1, cache => match cache (n + 1) with
    | some r => .ok (r, cache)
    | none => do
      let (rem, cache) ← getRemainder x left n cache
      let t ← x.site (if left then (n : ℤ) else -((n : ℤ) + 1))
      let add ← t.trace 1 2
      let r ← (if left then matdot rem add else matdot add rem : Py (NDArray R))
      return (r, fun m => if m = n + 1 then some r else cache m)

/-- `get_remainder` for any integer: the recursion does not end for a negative number. -/
def getRem [AddCommMonoid R] [Mul R] (x : MPA R) (left : Bool) (k : ℤ) (cache : RemCache R) :
    Py (NDArray R × RemCache R) :=
  if k < 0 then .error .recursion else getRemainder x left k.toNat cache

/-- `l[0] = f(l[0])` -/
def mapHeadM {α : Type} (f : α → Py α) : List α → Py (List α)
  | [] => .error .index
  | a :: as => do
    let b ← f a
    return b :: as

/-- `l[-1] = f(l[-1])` -/
def mapLastM {α : Type} (f : α → Py α) : List α → Py (List α)
  | [] => .error .index
  | [a] => do
    let b ← f a
    return [b]
  | a :: as => do
    let bs ← mapLastM f as
    return a :: bs

/-- The loop body of `reductions_mpo` (mpsmpo.py:272-282). -/
def mpoWindow [AddCommMonoid R] [Mul R] (x : MPA R) (w : ℤ × ℤ) (c : RemCache R × RemCache R) :
    Py (MPA R × (RemCache R × RemCache R)) := do
  let ltens := pySlice x.lt w.1 w.2
  let (rem, cl) ← getRem x true w.1 c.1
  let ltens ← mapHeadM (fun t => matdot rem t) ltens
  let (rem, cr) ← getRem x false (x.len - w.2) c.2
  let ltens ← mapLastM (fun t => matdot t rem) ltens
  let z ← mkMPA ltens
  return (z, (cl, cr))

/-- A loop which yields one item per element and passes on a state. -/
def yieldLoop {α β σ : Type} (f : α → σ → Py (β × σ)) : List α → σ → Py (List β × σ)
  | [], s => .ok ([], s)
  | a :: as, s => do
    let (b, s) ← f a s
    let (bs, s) ← yieldLoop f as s
    return (b :: bs, s)

/-- `reductions_mpo` (mpsmpo.py:221-282) -/
def reductionsMpo [AddCommMonoid R] [Mul R] [One R] (x : MPA R) (width : Option ℤ)
    (startsites stopsites : Option (List ℤ)) : Py (List (MPA R)) := do
  let ws ← reductionsArgs x.len width startsites stopsites
  pyAssert (∀ s ∈ x.shape, s.length = 2)
  let (zs, _) ← yieldLoop (mpoWindow x) ws (RemCache.init, RemCache.init)
  return zs

/-! ### reductions of PMPSs -/

/-- `left_bd, system, ancilla, right_bd = lten.shape` -/
def unpack4 : List ℕ → Py (ℕ × ℕ × ℕ × ℕ)
  | [l, d, k, r] => .ok (l, d, k, r)
  | _ => .error .value

/-- The leftmost site (mpsmpo.py:303-306). -/
def pmpsFirst (t : NDArray R) : Py (NDArray R) := do
  let (l, d, k, r) ← unpack4 t.shape
  let t' ← t.transpose [1, 0, 2, 3]
  t'.reshape ([1, d, l * k, r].map fun n : ℕ => (n : ℤ))

/-- The last site (mpsmpo.py:312-314). -/
def pmpsLast (t : NDArray R) : Py (NDArray R) := do
  let (l, d, k, r) ← unpack4 t.shape
  t.reshape ([l, d, k * r, 1].map fun n : ℕ => (n : ℤ))

/-- The loop body of `reductions_pmps` (mpsmpo.py:299-317).  The operand is canonicalised in place: the
second result is its new state. -/
def pmpsWindow [AddCommMonoid R] [Mul R] (qr : QR R) (w : ℤ × ℤ) (x : MPA R) : Py (MPA R × MPA R) := do
  let y ← x.canonicalize qr (.int w.1) (.int w.2)
  let t ← y.site w.1
  let t' ← pmpsFirst t
  let ltens ← mapLastM pmpsLast (t' :: pySlice y.lt (w.1 + 1) w.2)
  let z ← mkMPA ltens
  return (z, y)

/-- `reductions_pmps` (mpsmpo.py:285-317): all items and the final state of the operand. -/
def reductionsPmps [AddCommMonoid R] [Mul R] (qr : QR R) (x : MPA R) (width : Option ℤ)
    (startsites stopsites : Option (List ℤ)) : Py (List (MPA R) × MPA R) := do
  let ws ← reductionsArgs x.len width startsites stopsites
  yieldLoop (pmpsWindow qr) ws x

/-- `reductions_mps_as_pmps` (mpsmpo.py:320-331) -/
def reductionsMpsAsPmps [AddCommMonoid R] [Mul R] (qr : QR R) (x : MPA R) (width : Option ℤ)
    (startsites stopsites : Option (List ℤ)) : Py (List (MPA R)) := do
  let p ← mpsToPmps x
  let (zs, _) ← reductionsPmps qr p width startsites stopsites
  return zs

/-- `reductions_mps_as_mpo` (mpsmpo.py:334-345) -/
def reductionsMpsAsMpo [AddCommMonoid R] [Mul R] [Star R] (qr : QR R) (x : MPA R) (width : Option ℤ)
    (startsites stopsites : Option (List ℤ)) : Py (List (MPA R)) := do
  let zs ← reductionsMpsAsPmps qr x width startsites stopsites
  zs.mapM pmpsToMpo

/-- The argument `mode` of `reductions`. -/
inductive StateMode
  | mps | pmps | mpdo | other
  deriving DecidableEq

/-- `reductions` (mpsmpo.py:348-357) -/
def reductions [AddCommMonoid R] [Mul R] [One R] (qr : QR R) (x : MPA R) (mode : StateMode) (width : Option ℤ)
    (startsites stopsites : Option (List ℤ)) : Py (List (MPA R) × StateMode) :=
  match mode with
  | .mps => do
    let zs ← reductionsMpsAsPmps qr x width startsites stopsites
    return (zs, .pmps)
  | .pmps => do
    let (zs, _) ← reductionsPmps qr x width startsites stopsites
    return (zs, .pmps)
  | .mpdo => do
    let zs ← reductionsMpo x width startsites stopsites
    return (zs, .mpdo)
  | .other => .error .value

/-- A site which is traced out (mpsmpo.py:216): `lt.reshape((lt.shape[0], 1, -1, lt.shape[-1]))`. -/
def traceOutSite (t : NDArray R) : Py (NDArray R) :=
  t.reshape [(t.lb : ℤ), 1, -1, (t.rb : ℤ)]

/-- `pmps_reduction` (mpsmpo.py:193-218): the result and the new state of the operand.  The set of sites is
a list. -/
def pmpsReduction [AddCommMonoid R] [Mul R] (qr : QR R) (x : MPA R) (support : List ℤ) : Py (MPA R × MPA R) := do
  pyAssert (0 < support.length)
  pyAssert (∀ s ∈ support, 0 ≤ s ∧ s < x.len)
  let start := support.foldl min (support.headD 0)
  let stop := support.foldl max (support.headD 0) + 1
  let (reds, y) ← reductionsPmps qr x none (some [start]) (some [stop])
  let red ← (match reds with | r :: _ => .ok r | [] => .error .stopIteration : Py (MPA R))
  (if (support.length : ℤ) = stop - start then .ok (red, y)
  else do
    let ltens ← red.lt.zipIdx.mapM fun q =>
      if ((q.2 : ℤ) + start) ∈ support then (.ok q.1 : Py (NDArray R)) else traceOutSite q.1
    let z ← mkMPA ltens
    return (z, y) : Py (MPA R × MPA R))

end Mpnum
