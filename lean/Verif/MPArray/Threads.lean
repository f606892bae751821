import Verif.MPArray.Compress
import Verif.MPArray.Norm
import Verif.MPArray.Add

/-!
# Methods of /repo/mpnum/mparray.py that run in several threads

The interpreter switches between threads at any time between two accesses of the attributes of an object.  Here the
methods that change their object are written as threads: sequences of reads and writes of single attributes (one local
tensor `_lt._ltens[i]`, `_lt._lcanonical` or `_lt._rcanonical`).  A schedule says which thread makes the next access.

Simplification: local variables and arrays that were read are values.  This is what the code does: the arrays of an MPA
are never written to, only replaced (`_roview`, mpstruct.py:14-18).
-/

namespace Mpnum

/-- The objects of type `MPArray`, by their address. -/
abbrev Heap (R : Type) := ℕ → MPA R

/-- What remains to be done in a thread: nothing (with the outcome), or one access of an attribute of the object at `p` and
then the rest. -/
inductive Thr (R α : Type) : Type
  | done (v : Py α)
  | read (p : ℕ) (k : MPA R → Thr R α)
  | write (p : ℕ) (f : MPA R → MPA R) (k : Thr R α)

namespace Thr

variable {R α β : Type}

/-- One step of a thread. -/
def step : Thr R α → Heap R → Thr R α × Heap R
  | done v, h => (done v, h)
  | read p k, h => (k (h p), h)
  | write p f k, h => (k, Function.update h p (f (h p)))

/-- The thread runs alone to its end. -/
def run : Thr R α → Heap R → Py α × Heap R
  | done v, h => (v, h)
  | read p k, h => (k (h p)).run h
  | write p f k, h => k.run (Function.update h p (f (h p)))

/-- Run `t`; unless it raised an exception, go on with `f`. -/
def andThen : Thr R α → (α → Thr R β) → Thr R β
  | done (.ok a), f => f a
  | done (.error e), _ => done (.error e)
  | read p k, f => read p fun x => (k x).andThen f
  | write p g k, f => write p g (k.andThen f)

instance : Monad (Thr R) where
  pure a := done (.ok a)
  bind := andThen

/-- A computation that does not access an object. -/
def lift (v : Py α) : Thr R α := done v

/-- `len(x)` (mpstruct.py:145-147) -/
def getLen (p : ℕ) : Thr R ℕ := read p fun x => done (.ok x.len)

/-- `x._lt[i]` (mpstruct.py:159-164) -/
def getSite (p : ℕ) (i : ℤ) : Thr R (NDArray R) := read p fun x => done (x.site i)

/-- `x._lt._lcanonical` -/
def getL (p : ℕ) : Thr R ℤ := read p fun x => done (.ok x.l)

/-- `x._lt._rcanonical` -/
def getR (p : ℕ) : Thr R ℤ := read p fun x => done (.ok x.r)

/-- `x._lt._ltens[pos] = t` -/
def setSite (p : ℕ) (pos : ℕ) (t : NDArray R) : Thr R Unit := write p (fun x => ⟨x.lt.set pos t, x.l, x.r⟩) (done (.ok ()))

/-- `x._lt._lcanonical = v` -/
def setL (p : ℕ) (v : ℤ) : Thr R Unit := write p (fun x => ⟨x.lt, v, x.r⟩) (done (.ok ()))

/-- `x._lt._rcanonical = v` -/
def setR (p : ℕ) (v : ℤ) : Thr R Unit := write p (fun x => ⟨x.lt, x.l, v⟩) (done (.ok ()))

/-- `for a in l: f(a)` -/
def forEach (f : α → Thr R Unit) : List α → Thr R Unit
  | [] => pure ()
  | a :: l => do
    f a
    forEach f l

/-- The last branch of `LocalTensors._update` (mpstruct.py:98-101): the canonical slices may decrease. -/
def shrink (p : ℕ) (index : ℤ) : Thr R Unit := do
  let l ← getL p
  setL p (min index l)
  let r ← getR p
  setR p (max (index + 1) r)

/-- `LocalTensors._update` (mpstruct.py:75-101), see `MPA.update1`. -/
def update1 (p : ℕ) (index : ℤ) (t : NDArray R) (c : Option Canon) : Thr R Unit := do
  let n ← getLen p
  let pos ← lift (pyIndex n index)
  setSite p pos t
  match c with
  | some .left => getL p >>= fun l =>
    if l - index ≥ 0 then getL p >>= fun l => setL p (max (index + 1) l) else shrink p index
  | some .right => getR p >>= fun r =>
    if index - r ≥ -1 then getR p >>= fun r => setR p (min index r) else shrink p index
  | none => shrink p index

/-- The loop of `LocalTensors.update` (mpstruct.py:135-136), see `MPA.updateLoop`. -/
def updateLoop (p : ℕ) : List (NDArray R) → List ℤ → Option (List (Option Canon)) → Thr R Unit
  | t :: ts, i :: is, none => do
    update1 p i t none
    updateLoop p ts is none
  | t :: ts, i :: is, some (c :: cs) => do
    update1 p i t c
    updateLoop p ts is (some cs)
  | _, _, _ => pure ()

/-- `LocalTensors.update` for a slice (mpstruct.py:121-136), see `MPA.updateSlice`. -/
def updateSlice (p : ℕ) (start stop step : Option ℤ) (ts : List (NDArray R)) (c : CanonArg) : Thr R Unit := do
  let n ← getLen p
  let (s, e, st) ← lift (sliceIndices start stop step n)
  let cur ← getSite p s
  let first ← lift (match ts with | [] => Except.error PyErr.index | t :: _ => .ok t)
  lift (pyAssert (cur.lb = first.lb))
  lift (pyAssert (adjOK ts = true))
  let last ← getSite p (e - 1)
  lift (pyAssert (last.rb = (ts.getLastD first).rb))
  updateLoop p ts (pyRange s e st) (MPA.canonSeq c)

/-- `LocalTensors.update` for an integer index (mpstruct.py:138-143), see `MPA.updateInt`. -/
def updateInt (p : ℕ) (index : ℤ) (t : NDArray R) (c : Option Canon) : Thr R Unit := do
  let current ← getSite p index
  lift (pyAssert (t.ndim ≥ 2))
  lift (pyAssert (current.lb = t.lb))
  lift (pyAssert (current.rb = t.rb))
  update1 p index t c

section canon
variable [AddCommMonoid R] [Mul R]

/-- Body of the loop of `_rcanonicalize` (mparray.py:683-691), see `MPA.rcanonStep`. -/
def rcanonStep (qr : QR R) (p : ℕ) (site : ℤ) : Thr R Unit := do
  let ltens ← getSite p site
  let mat ← lift (ltens.reshape [-1, (ltens.rb : ℤ)])
  let (q, r) := qr mat
  let next ← getSite p (site + 1)
  let t1 ← lift (q.reshape (ltens.shape.dropLast.map (fun n : ℕ => (n : ℤ)) ++ [-1]))
  let t2 ← lift (matdot r next)
  updateSlice p (some site) (some (site + 2)) none [t1, t2] (.seq [some .left, none])

/-- `_rcanonicalize` (mparray.py:673-691), see `MPA.rcanonicalize`. -/
def rcanonicalize (qr : QR R) (p : ℕ) (toSite : ℤ) : Thr R Unit := do
  let n ← getLen p
  lift (pyAssert (0 ≤ toSite ∧ toSite < n))
  let l ← getL p
  let _ ← getR p
  forEach (rcanonStep qr p) (pyRange l toSite 1)

/-- Body of the loop of `_lcanonicalize` (mparray.py:703-711), see `MPA.lcanonStep`. -/
def lcanonStep (qr : QR R) (p : ℕ) (site : ℤ) : Thr R Unit := do
  let ltens ← getSite p site
  let mat ← lift (ltens.reshape [(ltens.lb : ℤ), -1])
  let (q, r) := qr mat.T
  let prev ← getSite p (site - 1)
  let t1 ← lift (matdot prev r.T)
  let t2 ← lift (q.T.reshape (-1 :: ltens.shape.tail.map (fun n : ℕ => (n : ℤ))))
  updateSlice p (some (site - 1)) (some (site + 1)) none [t1, t2] (.seq [none, some .right])

/-- `_lcanonicalize` (mparray.py:693-711), see `MPA.lcanonicalize`. -/
def lcanonicalize (qr : QR R) (p : ℕ) (toSite : ℤ) : Thr R Unit := do
  let n ← getLen p
  lift (pyAssert (0 < toSite ∧ toSite ≤ n))
  let _ ← getL p
  let r ← getR p
  forEach (lcanonStep qr p) (pyRange (r - 1) (toSite - 1) (-1))

/-- `canonicalize(left, right)` (mparray.py:592-671), see `MPA.canonicalize`. -/
def canonicalize (qr : QR R) (p : ℕ) (left right : CArg) : Thr R Unit := do
  let l ← getL p
  let r ← getR p
  let n ← getLen p
  if left.isNone && right.isNone then
    if l < n - r then lcanonicalize qr p 1
    else rcanonicalize qr p (n - 1)
  else
    let tl := left.left n
    let tr := right.right n
    let tl := if tl < 0 then tl + n else tl
    let tr := if tr < 0 then tr + n else tr
    lift (pyGuard (0 ≤ tl ∧ tl ≤ n) .index)
    lift (pyGuard (0 ≤ tr ∧ tr ≤ n) .index)
    lift (pyGuard (tl < tr) .value)
    (if l < tl then rcanonicalize qr p tl else pure ()) >>= fun _ =>
      if r > tr then lcanonicalize qr p tr else pure ()

end canon

/-- `mpa *= fact` (mparray.py:379-387), see `MPA.imul`. -/
def imul [Mul R] (p : ℕ) (fact : R) : Thr R Unit := do
  let l ← getL p
  let _ ← getR p
  let t ← getSite p l
  updateInt p l (t.rsmul fact) none

/-- The local tensors from site `i` on, read one after the other (mpstruct.py:149-157). -/
def getSites (p : ℕ) : ℕ → ℕ → Thr R (List (NDArray R))
  | _, 0 => pure []
  | i, m + 1 => do
    let t ← getSite p (i : ℤ)
    let ts ← getSites p (i + 1) m
    pure (t :: ts)

/-- All reads of a method that does not change its operand (`copy`, `to_array`, `dot`, `inner`, `partialtrace`, …): the
local tensors one after the other and the canonical form.  The result of the method is a function of what was read.
Simplification: a method that reads a tensor several times, or in another order, or not at all, is not distinguished. -/
def snapshot (p : ℕ) : Thr R (MPA R) := do
  let n ← getLen p
  let ts ← getSites p 0 n
  let l ← getL p
  let r ← getR p
  pure ⟨ts, l, r⟩

variable {𝕜 : Type} [RCLike 𝕜]

/-- `norm` after the canonicalization (mparray.py:1427-1434). -/
noncomputable def normRest (p : ℕ) : Thr 𝕜 ℝ := do
  let l ← getL p
  let r ← getR p
  let n ← getLen p
  if r = 1 then
    let t ← getSite p 0
    pure (npNorm t)
  else if l = n - 1 then
    let t ← getSite p (-1)
    pure (npNorm t)
  else lift (.error .value)

/-- `norm` (mparray.py:1416-1435), see `Mpnum.norm`. -/
noncomputable def norm (qr : QR 𝕜) (p : ℕ) : Thr 𝕜 ℝ := canonicalize qr p .none .none >>= fun _ => normRest p

/-- Body of the loop of `_compress_svd_r` (mparray.py:942-959), see `MPA.svdStepR`. -/
noncomputable def svdStepR (svd : SVD 𝕜) (f : SVDFunc 𝕜) (rank : ℤ) (relerr : Option ℝ) (p : ℕ) (site : ℤ) :
    Thr 𝕜 Unit := do
  let ltens ← getSite p site
  let mat ← lift (ltens.reshape [-1, (ltens.rb : ℤ)])
  let (u, sv, v, k) := svdPickR svd f rank relerr ltens.rb mat
  let t1 ← lift ((u.cols k).reshape (ltens.shape.dropLast.map (fun n : ℕ => (n : ℤ)) ++ [(k : ℤ)]))
  let w ← lift ((svCol sv k).mulB (v.rows k))
  let next ← getSite p (site + 1)
  let t2 ← lift (matdot w next)
  updateSlice p (some site) (some (site + 2)) none [t1, t2] (.seq [some .left, none])

/-- `_compress_svd_r` (mparray.py:933-962), run to the end, see `MPA.compressSvdR`. -/
noncomputable def compressSvdR (svd : SVD 𝕜) (f : SVDFunc 𝕜) (rank : ℤ) (relerr : Option ℝ) (p : ℕ) : Thr 𝕜 ℝ := do
  lift (MPA.svdArgs rank relerr)
  let n ← getLen p
  forEach (svdStepR svd f rank relerr p) (pyRange 0 (n - 1) 1)
  let t ← getSite p (-1)
  pure (MPA.absSq t)

/-- Body of the loop of `_compress_svd_l` (mparray.py:911-929), see `MPA.svdStepL`. -/
noncomputable def svdStepL (svd : SVD 𝕜) (f : SVDFunc 𝕜) (rank : ℤ) (relerr : Option ℝ) (p : ℕ) (site : ℤ) :
    Thr 𝕜 Unit := do
  let ltens ← getSite p site
  let mat ← lift (ltens.reshape [(ltens.lb : ℤ), -1])
  let (u, sv, v, k) := svdPickL svd f rank relerr ltens.lb mat
  let prev ← getSite p (site - 1)
  let w ← lift ((u.cols k).mulB (svRow sv k))
  let t1 ← lift (matdot prev w)
  let t2 ← lift ((v.rows k).reshape ((k : ℤ) :: ltens.shape.tail.map (fun n : ℕ => (n : ℤ))))
  updateSlice p (some (site - 1)) (some (site + 1)) none [t1, t2] (.seq [none, some .right])

/-- `_compress_svd_l` (mparray.py:901-931), run to the end, see `MPA.compressSvdL`. -/
noncomputable def compressSvdL (svd : SVD 𝕜) (f : SVDFunc 𝕜) (rank : ℤ) (relerr : Option ℝ) (p : ℕ) : Thr 𝕜 ℝ := do
  lift (MPA.svdArgs rank relerr)
  let n ← getLen p
  forEach (svdStepL svd f rank relerr p) (pyRange (n - 1) 0 (-1))
  let t ← getSite p 0
  pure (MPA.absSq t)

/-- `max(self.ranks)` (mparray.py:127-130): one read of a slice of the list of local tensors. -/
def getMaxRank (p : ℕ) : Thr R ℤ := read p fun x => done (x.maxRank.map fun m : ℕ => (m : ℤ))

/-- `_compress_svd(rank, relerr, direction, canonicalize, svdfunc)` (mparray.py:830-859), see `MPA.compressSvd`. -/
noncomputable def compressSvd (qr : QR 𝕜) (svd : SVD 𝕜) (f : SVDFunc 𝕜) (p : ℕ) (rank : Option ℤ) (relerr : Option ℝ)
    (direction : Option Dir) (canon : Bool) : Thr 𝕜 ℝ := do
  let n ← getLen p
  if n = 1 then
    let v ← norm qr p
    pure (v ^ 2)
  else
    let l ← getL p
    let r ← getR p
    let n ← getLen p
    let default : Dir := if (n : ℤ) - r > l then .left else .right
    let rank ← match rank with
      | some r => pure r
      | none => getMaxRank p
    match direction.getD default with
    | .right => (if canon then canonicalize qr p .none (.int 1) else pure ()) >>= fun _ =>
      compressSvdR svd f rank relerr p
    | .left => (if canon then getLen p >>= fun n => canonicalize qr p (.int (n - 1)) .none else pure ()) >>= fun _ =>
      compressSvdL svd f rank relerr p
    | .other => lift (.error .value)

end Thr

/-! ### Programs of the threads -/

/-- The numerical routines: `qr`, `svd` and the argument `svdfunc` of `compress`. -/
structure Routines (𝕜 : Type) where
  qr : QR 𝕜
  svd : SVD 𝕜
  f : SVDFunc 𝕜

/-- A program that works on MPAs: calls of methods, with anything computed from their results in between. -/
inductive Prog (𝕜 α : Type) : Type
  /-- The end: a result or an exception. -/
  | ret (v : Py α)
  /-- A method that does not change its operand; it computes anything from the operand, and the program goes on with that. -/
  | look (p : ℕ) (k : MPA 𝕜 → Prog 𝕜 α)
  /-- A new object (a result of `dot`, `copy`, …) at the address `p`. -/
  | new (p : ℕ) (x : MPA 𝕜) (k : Prog 𝕜 α)
  /-- `x.canonicalize(left, right)` -/
  | canonicalize (p : ℕ) (left right : CArg) (k : Prog 𝕜 α)
  /-- `norm(x)` -/
  | norm (p : ℕ) (k : ℝ → Prog 𝕜 α)
  /-- `x.compress('svd', rank, relerr, direction, canonicalize)` -/
  | compress (p : ℕ) (rank : Option ℤ) (relerr : Option ℝ) (direction : Option Dir) (canon : Bool) (k : ℝ → Prog 𝕜 α)
  /-- `x *= fact` -/
  | imul (p : ℕ) (fact : 𝕜) (k : Prog 𝕜 α)
  /-- `x.lt[index] = t` -/
  | assign (p : ℕ) (index : ℤ) (t : NDArray 𝕜) (k : Prog 𝕜 α)
  /-- `x.lt.update(slice(start, stop, step), ts, c)` -/
  | update (p : ℕ) (start stop step : Option ℤ) (ts : List (NDArray 𝕜)) (c : CanonArg) (k : Prog 𝕜 α)

namespace Prog

variable {𝕜 α : Type} [RCLike 𝕜]

/-- The program as a thread. -/
noncomputable def thr (la : Routines 𝕜) : Prog 𝕜 α → Thr 𝕜 α
  | ret v => .done v
  | look p k => Thr.snapshot p >>= fun x => (k x).thr la
  | new p x k => .write p (fun _ => x) (k.thr la)
  | canonicalize p left right k => Thr.canonicalize la.qr p left right >>= fun _ => k.thr la
  | norm p k => Thr.norm la.qr p >>= fun v => (k v).thr la
  | compress p rank relerr direction canon k =>
    Thr.compressSvd la.qr la.svd la.f p rank relerr direction canon >>= fun v => (k v).thr la
  | imul p fact k => Thr.imul p fact >>= fun _ => k.thr la
  | assign p index t k => Thr.updateInt p index t none >>= fun _ => k.thr la
  | update p start stop step ts c k => Thr.updateSlice p start stop step ts c >>= fun _ => k.thr la

/-- The program without other threads: each method is the function on values that the other modules model. -/
noncomputable def seq (la : Routines 𝕜) : Prog 𝕜 α → Heap 𝕜 → Py (α × Heap 𝕜)
  | ret v, h => v.map fun a => (a, h)
  | look p k, h => (k (h p)).seq la h
  | new p x k, h => k.seq la (Function.update h p x)
  | canonicalize p left right k, h => do
    let y ← (h p).canonicalize la.qr left right
    k.seq la (Function.update h p y)
  | norm p k, h => do
    let (v, y) ← Mpnum.norm la.qr (h p)
    (k v).seq la (Function.update h p y)
  | compress p rank relerr direction canon k, h => do
    let (y, v) ← (h p).compressSvd la.qr la.svd la.f rank relerr direction canon
    (k v).seq la (Function.update h p y)
  | imul p fact k, h => do
    let y ← (h p).imul fact
    k.seq la (Function.update h p y)
  | assign p index t k, h => do
    let y ← (h p).updateInt index t .none
    k.seq la (Function.update h p y)
  | update p start stop step ts c k, h => do
    let y ← (h p).updateSlice start stop step ts c
    k.seq la (Function.update h p y)

/-- `canonicalize(left, right)` finds nothing to do (specification). -/
def Settled (x : MPA 𝕜) (left right : CArg) : Prop :=
  if left.isNone ∧ right.isNone then x.r = 1 ∨ x.l = x.len - 1 ∧ 1 ≤ x.r
  else (if left.left x.len < 0 then left.left x.len + x.len else left.left x.len) ≤ x.l ∧
    x.r ≤ (if right.right x.len < 0 then right.right x.len + x.len else right.right x.len)

/-- The program changes only objects in `own` and accesses only objects in `own` and `shared` (specification); the objects
in `shared` are those of `σ`.  `norm` and `canonicalize` of a shared object are allowed if it already has the canonical form
that is asked for. -/
def Respects (own shared : Set ℕ) (σ : Heap 𝕜) : Prog 𝕜 α → Prop
  | ret _ => True
  | look p k => p ∈ own ∧ (∀ x, (k x).Respects own shared σ) ∨ p ∈ shared ∧ (k (σ p)).Respects own shared σ
  | new p _ k => p ∈ own ∧ k.Respects own shared σ
  | canonicalize p left right k => (p ∈ own ∨ p ∈ shared ∧ Settled (σ p) left right) ∧ k.Respects own shared σ
  | norm p k => (p ∈ own ∨ p ∈ shared ∧ Settled (σ p) .none .none) ∧ ∀ v, (k v).Respects own shared σ
  | compress p _ _ _ _ k => p ∈ own ∧ ∀ v, (k v).Respects own shared σ
  | imul p _ k => p ∈ own ∧ k.Respects own shared σ
  | assign p _ _ k => p ∈ own ∧ k.Respects own shared σ
  | update p _ _ _ _ _ k => p ∈ own ∧ k.Respects own shared σ

end Prog

/-! ### Schedules -/

section sched
variable {R ι α : Type} [DecidableEq ι]

/-- The threads and the objects. -/
structure World (R ι α : Type) where
  thr : ι → Thr R α
  heap : Heap R

/-- Thread `i` makes one step. -/
def World.step (w : World R ι α) (i : ι) : World R ι α :=
  ⟨Function.update w.thr i ((w.thr i).step w.heap).1, ((w.thr i).step w.heap).2⟩

/-- The threads make steps in the order of the schedule. -/
def World.exec (w : World R ι α) (sched : List ι) : World R ι α := sched.foldl World.step w

end sched

end Mpnum
