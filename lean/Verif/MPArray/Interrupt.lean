import Verif.MPArray.CompressVar
import Verif.MPArray.Compress
import Verif.MPArray.Norm

/-!
# In-place methods of /repo/mpnum/mparray.py which are interrupted by an exception

The other modules model a method as a function of the values of its operands, with no state after an exception.  Here the
methods that change their object are written as sequences of reads, calls and writes.  Numerical routines (`qr`, `svd`,
`matdot`, …) may raise an exception at any time (`LinAlgError`, `MemoryError`, `KeyboardInterrupt`, …), and the object
keeps the writes that were made before.
-/

namespace Mpnum

/-- Program points: before a call of a numerical routine, and before the assignment of a local tensor in
`LocalTensors.update`. -/
inductive Pt
  | call
  | write
  deriving DecidableEq

/-- When something goes wrong: the exception raised at the `n`-th program point, if any. -/
abbrev Irq := ℕ → Pt → Option PyErr

/-- The object a method works on, and the number of program points that were passed. -/
structure Obj (R : Type) where
  clock : ℕ
  mpa : MPA R

/-- A method that works in place: its outcome and the object afterwards, also after an exception. -/
def IP (R α : Type) : Type := Obj R → Py α × Obj R

namespace IP

variable {R α β : Type}

/-- Run `m`; unless it raised an exception, go on with `f`. -/
def andThen (m : IP R α) (f : α → IP R β) : IP R β := fun s =>
  match m s with
  | (.ok a, s') => f a s'
  | (.error e, s') => (.error e, s')

instance : Monad (IP R) where
  pure a := fun s => (.ok a, s)
  bind := andThen

/-- A computation that does not touch the object. -/
def lift (v : Py α) : IP R α := fun s => (v, s)

/-- Read the object. -/
def self : IP R (MPA R) := fun s => (.ok s.mpa, s)

/-- Change the object. -/
def become (x : MPA R) : IP R Unit := fun s => (.ok (), ⟨s.clock, x⟩)

/-- Pass a program point. -/
def point (irq : Irq) (k : Pt) : IP R Unit := fun s =>
  (match irq s.clock k with
    | some e => .error e
    | none => .ok (), ⟨s.clock + 1, s.mpa⟩)

/-- `for a in l: f(a)` -/
def forEach (f : α → IP R Unit) : List α → IP R Unit
  | [] => pure ()
  | a :: l => do
    f a
    forEach f l

end IP

open IP

namespace MPA

variable {R : Type}

/-- The loop of `LocalTensors.update` (mpstruct.py:135-136), see `MPA.updateLoop`: one tensor after the other. -/
def updateLoopI (irq : Irq) : List (NDArray R) → List ℤ → Option (List (Option Canon)) → IP R Unit
  | t :: ts, i :: is, none => do
    point irq .write
    become (← lift ((← self).update1 i t none))
    updateLoopI irq ts is none
  | t :: ts, i :: is, some (c :: cs) => do
    point irq .write
    become (← lift ((← self).update1 i t c))
    updateLoopI irq ts is (some cs)
  | _, _, _ => pure ()

/-- `LocalTensors.update` for a slice (mpstruct.py:121-136), see `MPA.updateSlice`: all checks come before the first
assignment. -/
def updateSliceI (irq : Irq) (start stop step : Option ℤ) (ts : List (NDArray R)) (c : CanonArg) : IP R Unit := do
  let x ← self
  let (s, e, st) ← lift (sliceIndices start stop step x.len)
  let ps ← lift (pyIndex x.len s)
  let first ← lift (match ts with | [] => Except.error PyErr.index | t :: _ => .ok t)
  lift (pyAssert ((x.lt.getD ps ⟨[], first.get⟩).lb = first.lb))
  lift (pyAssert (adjOK ts = true))
  let pe ← lift (pyIndex x.len (e - 1))
  lift (pyAssert ((x.lt.getD pe ⟨[], first.get⟩).rb = (ts.getLastD first).rb))
  updateLoopI irq ts (pyRange s e st) (canonSeq c)

/-- Body of the loop of `_rcanonicalize` (mparray.py:683-691), see `MPA.rcanonStep`. -/
def rcanonStepI [AddCommMonoid R] [Mul R] (qr : QR R) (irq : Irq) (site : ℤ) : IP R Unit := do
  let x ← self
  let ltens ← lift (x.site site)
  let mat ← lift (ltens.reshape [-1, (ltens.rb : ℤ)])
  point irq .call
  let (q, r) := qr mat
  let next ← lift (x.site (site + 1))
  let t1 ← lift (q.reshape (ltens.shape.dropLast.map (fun n : ℕ => (n : ℤ)) ++ [-1]))
  point irq .call
  let t2 ← lift (matdot r next)
  updateSliceI irq (some site) (some (site + 2)) none [t1, t2] (.seq [some .left, none])

/-- `_rcanonicalize` (mparray.py:673-691), see `MPA.rcanonicalize`. -/
def rcanonicalizeI [AddCommMonoid R] [Mul R] (qr : QR R) (irq : Irq) (toSite : ℤ) : IP R Unit := do
  let x ← self
  lift (pyAssert (0 ≤ toSite ∧ toSite < x.len))
  forEach (rcanonStepI qr irq) (pyRange x.l toSite 1)

/-- Body of the loop of `_lcanonicalize` (mparray.py:703-711), see `MPA.lcanonStep`. -/
def lcanonStepI [AddCommMonoid R] [Mul R] (qr : QR R) (irq : Irq) (site : ℤ) : IP R Unit := do
  let x ← self
  let ltens ← lift (x.site site)
  let mat ← lift (ltens.reshape [(ltens.lb : ℤ), -1])
  point irq .call
  let (q, r) := qr mat.T
  let prev ← lift (x.site (site - 1))
  point irq .call
  let t1 ← lift (matdot prev r.T)
  let t2 ← lift (q.T.reshape (-1 :: ltens.shape.tail.map (fun n : ℕ => (n : ℤ))))
  updateSliceI irq (some (site - 1)) (some (site + 1)) none [t1, t2] (.seq [none, some .right])

/-- `_lcanonicalize` (mparray.py:693-711), see `MPA.lcanonicalize`. -/
def lcanonicalizeI [AddCommMonoid R] [Mul R] (qr : QR R) (irq : Irq) (toSite : ℤ) : IP R Unit := do
  let x ← self
  lift (pyAssert (0 < toSite ∧ toSite ≤ x.len))
  forEach (lcanonStepI qr irq) (pyRange (x.r - 1) (toSite - 1) (-1))

/-- `canonicalize(left, right)` (mparray.py:592-671), see `MPA.canonicalize`. -/
def canonicalizeI [AddCommMonoid R] [Mul R] (qr : QR R) (irq : Irq) (left right : CArg) : IP R Unit := do
  let x ← self
  if left.isNone && right.isNone then
    if x.l < x.len - x.r then lcanonicalizeI qr irq 1
    else rcanonicalizeI qr irq (x.len - 1)
  else
    let tl := left.left x.len
    let tr := right.right x.len
    let tl := if tl < 0 then tl + x.len else tl
    let tr := if tr < 0 then tr + x.len else tr
    lift (pyGuard (0 ≤ tl ∧ tl ≤ x.len) .index)
    lift (pyGuard (0 ≤ tr ∧ tr ≤ x.len) .index)
    lift (pyGuard (tl < tr) .value)
    if x.l < tl then rcanonicalizeI qr irq tl
    if x.r > tr then lcanonicalizeI qr irq tr

/-- `mpa *= fact` (mparray.py:379-387), see `MPA.imul`. -/
def imulI [Mul R] (irq : Irq) (fact : R) : IP R Unit := do
  let x ← self
  let pos ← lift (pyIndex x.len x.l)
  let t ← lift ((x.lt[pos]?).elim (Except.error PyErr.index) Except.ok)
  point irq .call
  let y ← lift (x.updateInt x.l (t.rsmul fact) .none)
  point irq .write
  become y

variable {𝕜 : Type} [RCLike 𝕜]

/-- `norm` (mparray.py:1416-1435), see `Mpnum.norm`. -/
noncomputable def normI (qr : QR 𝕜) (irq : Irq) : IP 𝕜 ℝ := do
  canonicalizeI qr irq .none .none
  let y ← self
  point irq .call
  if y.r = 1 then
    let t ← lift (y.site 0)
    return npNorm t
  else if y.l = y.len - 1 then
    let t ← lift (y.site (-1))
    return npNorm t
  else lift (.error .value)

/-- Body of the loop of `_compress_svd_r` (mparray.py:942-959), see `MPA.svdStepR`. -/
noncomputable def svdStepRI (svd : SVD 𝕜) (f : SVDFunc 𝕜) (irq : Irq) (rank : ℤ) (relerr : Option ℝ) (site : ℤ) :
    IP 𝕜 Unit := do
  let x ← self
  let ltens ← lift (x.site site)
  let mat ← lift (ltens.reshape [-1, (ltens.rb : ℤ)])
  point irq .call
  let (u, sv, v, k) := svdPickR svd f rank relerr ltens.rb mat
  let t1 ← lift ((u.cols k).reshape (ltens.shape.dropLast.map (fun n : ℕ => (n : ℤ)) ++ [(k : ℤ)]))
  let w ← lift ((svCol sv k).mulB (v.rows k))
  let next ← lift (x.site (site + 1))
  point irq .call
  let t2 ← lift (matdot w next)
  updateSliceI irq (some site) (some (site + 2)) none [t1, t2] (.seq [some .left, none])

/-- `_compress_svd_r` (mparray.py:933-962), run to the end, see `MPA.compressSvdR`. -/
noncomputable def compressSvdRI (svd : SVD 𝕜) (f : SVDFunc 𝕜) (irq : Irq) (rank : ℤ) (relerr : Option ℝ) : IP 𝕜 ℝ := do
  lift (svdArgs rank relerr)
  let x ← self
  forEach (svdStepRI svd f irq rank relerr) (pyRange 0 (x.len - 1) 1)
  let y ← self
  let t ← lift (y.site (-1))
  point irq .call
  return absSq t

/-- Body of the loop of `_compress_svd_l` (mparray.py:911-929), see `MPA.svdStepL`. -/
noncomputable def svdStepLI (svd : SVD 𝕜) (f : SVDFunc 𝕜) (irq : Irq) (rank : ℤ) (relerr : Option ℝ) (site : ℤ) :
    IP 𝕜 Unit := do
  let x ← self
  let ltens ← lift (x.site site)
  let mat ← lift (ltens.reshape [(ltens.lb : ℤ), -1])
  point irq .call
  let (u, sv, v, k) := svdPickL svd f rank relerr ltens.lb mat
  let prev ← lift (x.site (site - 1))
  let w ← lift ((u.cols k).mulB (svRow sv k))
  point irq .call
  let t1 ← lift (matdot prev w)
  let t2 ← lift ((v.rows k).reshape ((k : ℤ) :: ltens.shape.tail.map (fun n : ℕ => (n : ℤ))))
  updateSliceI irq (some (site - 1)) (some (site + 1)) none [t1, t2] (.seq [none, some .right])

/-- `_compress_svd_l` (mparray.py:901-931), run to the end, see `MPA.compressSvdL`. -/
noncomputable def compressSvdLI (svd : SVD 𝕜) (f : SVDFunc 𝕜) (irq : Irq) (rank : ℤ) (relerr : Option ℝ) : IP 𝕜 ℝ := do
  lift (svdArgs rank relerr)
  let x ← self
  forEach (svdStepLI svd f irq rank relerr) (pyRange (x.len - 1) 0 (-1))
  let y ← self
  let t ← lift (y.site 0)
  point irq .call
  return absSq t

/-- `_compress_svd(rank, relerr, direction, canonicalize, svdfunc)` (mparray.py:830-859), see `MPA.compressSvd`. -/
noncomputable def compressSvdI (qr : QR 𝕜) (svd : SVD 𝕜) (f : SVDFunc 𝕜) (irq : Irq) (rank : Option ℤ)
    (relerr : Option ℝ) (direction : Option Dir) (canon : Bool) : IP 𝕜 ℝ := do
  let x ← self
  if x.len = 1 then
    let v ← normI qr irq
    return v ^ 2
  else
    let default : Dir := if (x.len : ℤ) - x.r > x.l then .left else .right
    let rank : ℤ ← lift (match rank with
      | some r => .ok r
      | none => x.maxRank.map (fun m : ℕ => (m : ℤ)))
    match direction.getD default with
    | .right =>
      if canon then canonicalizeI qr irq .none (.int 1)
      compressSvdRI svd f irq rank relerr
    | .left =>
      if canon then canonicalizeI qr irq (.int (x.len - 1)) .none
      compressSvdLI svd f irq rank relerr
    | .other => lift (.error .value)

/-- `compress(method='var', …)` (mparray.py:804-807), see `MPA.compressVar`: `_compression_var` works on other objects,
wherever it stops, and `self` takes over the result in one assignment. -/
noncomputable def compressVarI (qr : QR ℂ) (svd : SVD ℂ) (irq : Irq) (numSweeps : ℕ) (startmpa : Option (MPA ℂ))
    (rank : Option ℕ) (varSites : ℕ) (cplx : Bool) (rs : RandState) : IP ℂ ℝ := do
  let x ← self
  point irq .call
  let (compr, overlap) ← lift (x.compressionVar qr svd numSweeps startmpa rank varSites cplx rs)
  point irq .write
  become ⟨compr.lt, compr.l, compr.r⟩
  return overlap

end MPA

end Mpnum
