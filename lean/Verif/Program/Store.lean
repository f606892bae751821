import Verif.MPArray.CompressVar
import Verif.MPArray.Compress
import Verif.MPArray.LocalSum
import Verif.MPArray.PadRanks
import Verif.MPArray.PartialDot
import Verif.MPArray.Group
import Verif.MPArray.VLeg
import Verif.MPArray.Sum
import Verif.MPArray.Chain
import Verif.Mpsmpo

/-!
# Programs that use mpnum: objects, references and aliases

The other modules model a method as a function of the values of its operands.  This module models where the values live:
numpy buffers, `LocalTensors` objects, `MPArray` objects and the variables of a program.  Several tensors may be views
of one buffer, several `MPArray`s may wrap one `LocalTensors` object and several variables may name one `MPArray`.

A program is a list of statements.  It ends at the first exception.
-/

namespace Mpnum

namespace Prog

/-! ### the calls -/

/-- Functions and methods that return an MPA and have only MPAs as operands. -/
inductive Fun
  | copy | plus | T | transpose (axes : Option (List ℤ)) | adj | conj | reverse
  | add | sub | mul (c : ℂ) | neg | truediv (c : ℂ)
  | reshape (s : NewShapes) | ravel | groupSites (k : ℕ) | splitSites (k : ℕ)
  | vleg2leg (pos : ℤ) | leg2vleg (pos : ℤ) | splitLeft (pos : ℤ) | splitRight (pos : ℤ)
  | sum (axes : SumAxes) | get (idx : List ℤ) | padRanks (rank : Option ℕ) (force : Bool)
  | dot (axes : List ℤ × List ℤ) | sumup (weights : Option (List ℂ)) | partialdot (start : ℤ) (axes : List ℤ × List ℤ)
  | chain | inject (pos : List ℤ) (items : List (InjItem ℂ)) | localouter | prune (singletons : Bool)
  | partialtrace (axes : TraceAxes) | embedSlice (length : ℕ) (s : PySlice) (e : Option (NDArray ℂ))
  | localSum (e : Option (NDArray ℂ)) (length : Option ℕ) (slices : Option (List PySlice))
  | mpsToPmps | pmpsToMps | pmpsToMpo | mpsToMpo

/-- The value of a call; a wrong number of operands is a `TypeError`. The second argument of a pair returned by `split`
may be `None`, which is not an MPA (`type`, too), like the number that `sum` returns if no leg is left. -/
noncomputable def Fun.run (qr : QR ℂ) : Fun → List (MPA ℂ) → Py (MPA ℂ)
  | .copy, [x] => x.copy
  | .plus, [x] => .ok x
  | .T, [x] => x.T
  | .transpose axes, [x] => x.transpose axes
  | .adj, [x] => x.adj
  | .conj, [x] => x.conj
  | .reverse, [x] => x.reverse
  | .add, [x, y] => x.add y
  | .sub, [x, y] => x.sub y
  | .mul c, [x] => x.mul c
  | .neg, [x] => x.neg
  | .truediv c, [x] => by classical exact x.truediv c
  | .reshape s, [x] => x.reshape s
  | .ravel, [x] => x.ravel
  | .groupSites k, [x] => x.groupSites k
  | .splitSites k, [x] => x.splitSites qr k
  | .vleg2leg pos, [x] => x.vleg2leg pos
  | .leg2vleg pos, [x] => x.leg2vleg pos
  | .splitLeft pos, [x] => do
    match (← x.split pos).1 with
    | some y => .ok y
    | none => .error .type
  | .splitRight pos, [x] => do
    match (← x.split pos).2 with
    | some y => .ok y
    | none => .error .type
  | .sum axes, [x] => do
    match ← x.sum axes with
    | .inl _ => .error .type
    | .inr y => .ok y
  | .get idx, [x] => x.get idx
  | .padRanks rank force, [x] => x.padRanks rank force
  | .dot axes, [x, y] => Mpnum.dot x y axes
  | .sumup weights, xs => Mpnum.sumup xs weights
  | .partialdot start axes, [x, y] => Mpnum.partialdot x y start axes
  | .chain, xs => Mpnum.chain xs
  | .inject pos items, [x] => Mpnum.inject x pos items
  | .localouter, [x, y] => Mpnum.localouter x y
  | .prune s, [x] => Mpnum.prune x s
  | .partialtrace axes, [x] => Mpnum.partialtrace x axes
  | .embedSlice length s e, [x] => Mpnum.embedSlice length s x e
  | .localSum e length slices, xs => Mpnum.localSum xs e length slices
  | .mpsToPmps, [x] => Mpnum.mpsToPmps x
  | .pmpsToMps, [x] => Mpnum.pmpsToMps x
  | .pmpsToMpo, [x] => Mpnum.pmpsToMpo x
  | .mpsToMpo, [x] => Mpnum.mpsToMpo x
  | _, _ => .error .type

/-- The calls whose result is their operand, not a new object: `__pos__` (mparray.py:395-396), `group_sites(1)`
(mparray.py:495-496) and `split` outside of the chain (mparray.py:569-572).  All others pass a new list of tensors to
the constructor. -/
def Fun.returnsSelf : Fun → List (MPA ℂ) → Prop
  | .plus, _ => True
  | .groupSites k, _ => k = 1
  | .splitLeft pos, [x] => x.len ≤ pos
  | .splitRight pos, _ => pos < 0
  | _, _ => False

/-- The buffers of which the tensors of the result may be views: those of the operands, but `copy` copies every tensor
(mparray.py:82-84, mpstruct.py:191-194). -/
def Fun.shares : Fun → List ℕ → List ℕ
  | .copy, _ => []
  | _, ow => ow

/-- Methods that change their first operand; the other operands are only read. -/
inductive InFun
  | canonicalize (left right : CArg)
  | norm
  | imul (c : ℂ)
  | itruediv (c : ℂ)
  | compressSvd (rank : Option ℤ) (relerr : Option ℝ) (direction : Option Dir) (canon : Bool)
  | adaptTo (numSweeps varSites : ℕ)

/-- The new value of the first operand. -/
noncomputable def InFun.run (qr : QR ℂ) (svd : SVD ℂ) : InFun → MPA ℂ → List (MPA ℂ) → Py (MPA ℂ)
  | .canonicalize l r, x, [] => x.canonicalize qr l r
  | .norm, x, [] => do
    let (_, y) ← Mpnum.norm qr x
    return y
  | .imul c, x, [] => x.imul c
  | .itruediv c, x, [] => by classical exact x.itruediv c
  | .compressSvd rank relerr direction canon, x, [] => do
    let (y, _) ← x.compress qr svd rank relerr direction canon
    return y
  | .adaptTo n k, x, [t] => do
    let (y, _) ← x.adaptTo qr svd t n k
    return y
  | _, _, _ => .error .type

/-- Constructors that take arrays. -/
inductive Make
  | mpArray
  | fromKron
  | fromArray (ndims : Option NdimsArg)

/-- The value of a constructor. -/
def Make.run (qr : QR ℂ) : Make → List (NDArray ℂ) → Py (MPA ℂ)
  | .mpArray, ts => mkMPA ts
  | .fromKron, ts => Mpnum.fromKron ts
  | .fromArray nd, [a] => Mpnum.fromArray qr a nd false
  | .fromArray _, _ => .error .type

/-- Statements. Variables are numbers, arrays and MPAs have separate variables. -/
inductive Stmt
  /-- `a = np.array(A)` -/
  | array (a : ℕ) (A : NDArray ℂ)
  /-- `a[...] = A` (`A` is the complete new content) -/
  | write (a : ℕ) (A : NDArray ℂ)
  /-- `a = x.lt[i]` -/
  | read (a x : ℕ) (i : ℤ)
  /-- `x = MPArray([as…])` and the like -/
  | make (x : ℕ) (f : Make) (as : List ℕ)
  /-- `x.lt[i] = a` -/
  | set (x : ℕ) (i : ℤ) (a : ℕ)
  /-- `x = f(ys…)` -/
  | call (x : ℕ) (f : Fun) (ys : List ℕ)
  /-- `x = y` -/
  | same (x y : ℕ)
  /-- `x = MPArray(y.lt)` -/
  | wrap (x y : ℕ)
  /-- `x.f(ys…)`, changing `x` -/
  | inplace (f : InFun) (x : ℕ) (ys : List ℕ)
  /-- `x = t` where `t` goes out of scope (a local variable of a function that is returned) -/
  | move (x t : ℕ)
  /-- `x._lt = t._lt` where `t` goes out of scope (mparray.py:806) -/
  | rebind (x t : ℕ)

/-! ### objects -/

/-- A numpy array: a view of a buffer. -/
structure Ref where
  buf : ℕ
  view : NDArray ℂ → NDArray ℂ
  writable : Bool

/-- A `LocalTensors` object (mpstruct.py:61-64): the list `_ltens` of references and the canonical form. -/
structure LTObj where
  refs : List Ref
  l : ℤ
  r : ℤ

/-- The objects and the variables of a running program. `objs` has the attribute `_lt` of every `MPArray` object
(mparray.py:79-80) as a position in `lts`. -/
structure Store where
  bufs : List (NDArray ℂ)
  lts : List LTObj
  objs : List ℕ
  mvar : ℕ → Option ℕ
  avar : ℕ → Option Ref

/-- Assignment to a variable. -/
def upd {α : Type} (f : ℕ → Option α) (x : ℕ) (v : Option α) : ℕ → Option α := fun y => if y = x then v else f y

/-- The value of a variable; `UnboundLocalError` if it has none. -/
def bound {α : Type} : Option α → Py α
  | some a => .ok a
  | none => .error .unbound

namespace Store

/-- The content of an array. -/
def deref (s : Store) (r : Ref) : NDArray ℂ := r.view (s.bufs.getD r.buf ⟨[], fun _ => 0⟩)

/-- The value of a `LocalTensors` object. -/
def ltVal (s : Store) (o : LTObj) : MPA ℂ := ⟨o.refs.map s.deref, o.l, o.r⟩

/-- The `LocalTensors` object of the `MPArray` named by a variable. -/
def ltId (s : Store) (x : ℕ) : Option ℕ := (s.mvar x).bind fun o => s.objs[o]?

/-- The `LocalTensors` object of a variable, with its content. -/
def ltOf (s : Store) (x : ℕ) : Option LTObj := (s.ltId x).bind fun k => s.lts[k]?

/-- The value of an MPA variable. -/
def mpa (s : Store) (x : ℕ) : Option (MPA ℂ) := (s.ltOf x).map s.ltVal

/-- The value of an array variable and whether it can be written to. -/
def arr (s : Store) (a : ℕ) : Option (NDArray ℂ × Bool) := (s.avar a).map fun r => (s.deref r, r.writable)

/-- The buffers used by MPA variables. -/
def mbufs (s : Store) (xs : List ℕ) : List ℕ := xs.flatMap fun x => ((s.ltOf x).elim [] fun o => o.refs.map Ref.buf)

/-- The buffers used by array variables. -/
def abufs (s : Store) (as : List ℕ) : List ℕ := as.flatMap fun a => ((s.avar a).elim [] fun r => [r.buf])

/-- A new `MPArray` object with a new `LocalTensors` object, assigned to a variable. -/
def bindNew (s : Store) (x : ℕ) (o : LTObj) : Store :=
  { s with lts := s.lts ++ [o], objs := s.objs ++ [s.lts.length], mvar := upd s.mvar x (some s.objs.length) }

/-- The list `_ltens` and the canonical form of the object of `x` are replaced. -/
def setLt (s : Store) (x : ℕ) (o : LTObj) : Store :=
  { s with lts := (s.ltId x).elim s.lts fun k => s.lts.set k o }

end Store

/-- `refs` hold the tensors `ts` after new buffers have been allocated.  Which of the tensors are new arrays and which are
views of arrays of the operands (buffers `ow`) is left open; numpy decides by the memory layout.  No old buffer is
written to. -/
structure Holds (s : Store) (ow : List ℕ) (ts : List (NDArray ℂ)) (s' : Store) (refs : List Ref) : Prop where
  store : ∃ new, s' = { s with bufs := s.bufs ++ new }
  val : refs.map s'.deref = ts
  range : ∀ r ∈ refs, r.buf < s'.bufs.length
  old : ∀ r ∈ refs, r.buf < s.bufs.length → r.buf ∈ ow

/-- One statement: possible results. -/
def Step (qr : QR ℂ) (svd : SVD ℂ) (s : Store) : Stmt → Py Store → Prop
  | .array a A, res => res = .ok { s with bufs := s.bufs ++ [A], avar := upd s.avar a (some ⟨s.bufs.length, id, true⟩) }
  | .write a A, res => match s.avar a with
    | none => res = .error .unbound
    | some r => if r.writable then ∃ B, r.view B = A ∧ res = .ok { s with bufs := s.bufs.set r.buf B }
      else res = .error .value
  | .read a x i, res => match s.ltOf x with
    | none => res = .error .unbound
    | some o => match pyIndex o.refs.length i with
      | .error e => res = .error e
      | .ok k => match o.refs[k]? with
        | none => res = .error .index
        | some r => res = .ok { s with avar := upd s.avar a (some { r with writable := false }) }
  | .make x f as, res => match (as.mapM fun a => bound (s.arr a)) >>= fun vs => f.run qr (vs.map Prod.fst) with
    | .error e => res = .error e
    | .ok z => ∃ s' refs, Holds s (s.abufs as) z.lt s' refs ∧ res = .ok (s'.bindNew x ⟨refs, z.l, z.r⟩)
  | .set x i a, res => match (do
      let z ← bound (s.mpa x)
      let t ← bound (s.arr a)
      z.updateInt i t.1 .none) with
    | .error e => res = .error e
    | .ok z => ∃ s' refs, Holds s (s.mbufs [x] ++ s.abufs [a]) z.lt s' refs ∧ res = .ok (s'.setLt x ⟨refs, z.l, z.r⟩)
  | .call x f ys, res => match ys.mapM fun y => bound (s.mpa y) with
    | .error e => res = .error e
    | .ok vs => match f.run qr vs with
      | .error e => res = .error e
      | .ok z => (f.returnsSelf vs → res = .ok { s with mvar := upd s.mvar x (s.mvar (ys.headD 0)) }) ∧
        (¬ f.returnsSelf vs → ∃ s' refs, Holds s (f.shares (s.mbufs ys)) z.lt s' refs ∧
          res = .ok (s'.bindNew x ⟨refs, z.l, z.r⟩))
  | .same x y, res => match s.mpa y with
    | none => res = .error .unbound
    | some _ => res = .ok { s with mvar := upd s.mvar x (s.mvar y) }
  | .wrap x y, res => match s.ltId y with
    | none => res = .error .unbound
    | some k => res = .ok { s with objs := s.objs ++ [k], mvar := upd s.mvar x (some s.objs.length) }
  | .inplace f x ys, res => match (do
      let z ← bound (s.mpa x)
      let vs ← ys.mapM fun y => bound (s.mpa y)
      f.run qr svd z vs) with
    | .error e => res = .error e
    | .ok z => ∃ s' refs, Holds s (s.mbufs (x :: ys)) z.lt s' refs ∧ res = .ok (s'.setLt x ⟨refs, z.l, z.r⟩)
  | .move x t, res => match s.mpa t with
    | none => res = .error .unbound
    | some _ => res = .ok { s with mvar := upd (upd s.mvar t none) x (s.mvar t) }
  | .rebind x t, res => match s.mvar x, s.ltId t with
    | some o, some k => res = .ok { s with objs := s.objs.set o k, mvar := if x = t then s.mvar else upd s.mvar t none }
    | _, _ => res = .error .unbound

/-- Execution of a program. -/
inductive Run (qr : QR ℂ) (svd : SVD ℂ) : Store → List Stmt → Py Store → Prop
  | nil (s) : Run qr svd s [] (.ok s)
  | cons {s s' st P res} : Step qr svd s st (.ok s') → Run qr svd s' P res → Run qr svd s (st :: P) res
  | error {s st P e} : Step qr svd s st (.error e) → Run qr svd s (st :: P) (.error e)

/-! ### specification: every variable has its own value -/

/-- The values of the variables; arrays carry the flag `writeable`. -/
@[ext] structure Vals where
  mpa : ℕ → Option (MPA ℂ)
  arr : ℕ → Option (NDArray ℂ × Bool)

/-- One statement, if nothing was shared: it changes only the variable on its left. -/
noncomputable def vstep (qr : QR ℂ) (svd : SVD ℂ) (v : Vals) : Stmt → Py Vals
  | .array a A => .ok { v with arr := upd v.arr a (some (A, true)) }
  | .write a A => do
    let t ← bound (v.arr a)
    if t.2 then .ok { v with arr := upd v.arr a (some (A, true)) } else .error .value
  | .read a x i => do
    let z ← bound (v.mpa x)
    let t ← z.site i
    return { v with arr := upd v.arr a (some (t, false)) }
  | .make x f as => do
    let ts ← as.mapM fun a => bound (v.arr a)
    let z ← f.run qr (ts.map Prod.fst)
    return { v with mpa := upd v.mpa x (some z) }
  | .set x i a => do
    let z ← bound (v.mpa x)
    let t ← bound (v.arr a)
    let z ← z.updateInt i t.1 .none
    return { v with mpa := upd v.mpa x (some z) }
  | .call x f ys => do
    let vs ← ys.mapM fun y => bound (v.mpa y)
    let z ← f.run qr vs
    return { v with mpa := upd v.mpa x (some z) }
  | .same x y => do
    let z ← bound (v.mpa y)
    return { v with mpa := upd v.mpa x (some z) }
  | .wrap x y => do
    let z ← bound (v.mpa y)
    return { v with mpa := upd v.mpa x (some z) }
  | .inplace f x ys => do
    let z ← bound (v.mpa x)
    let vs ← ys.mapM fun y => bound (v.mpa y)
    let z ← f.run qr svd z vs
    return { v with mpa := upd v.mpa x (some z) }
  | .move x t => do
    let z ← bound (v.mpa t)
    return { v with mpa := upd (upd v.mpa t none) x (some z) }
  | .rebind x t => do
    let _ ← bound (v.mpa x)
    let z ← bound (v.mpa t)
    return { v with mpa := upd (upd v.mpa t none) x (some z) }

/-- A program, if nothing was shared. -/
noncomputable def vrun (qr : QR ℂ) (svd : SVD ℂ) : Vals → List Stmt → Py Vals
  | v, [] => .ok v
  | v, st :: P => do
    let v' ← vstep qr svd v st
    vrun qr svd v' P

/-- What the program can see. -/
def Store.vals (s : Store) : Vals := ⟨s.mpa, s.arr⟩

/-- The arrays that have been given to a constructor or an assignment since they were made. -/
def given (T : Set ℕ) : Stmt → Set ℕ
  | .array a _ => T \ {a}
  | .read a _ _ => T \ {a}
  | .make _ _ as => T ∪ {a | a ∈ as}
  | .set _ _ a => T ∪ {a}
  | _ => T

/-- The statement does not give a second name to an MPA and does not write to an array that has been given away. -/
def plainStmt (T : Set ℕ) (v : Vals) : Stmt → Prop
  | .write a _ => a ∉ T
  | .call _ f ys => ∀ vs, (ys.mapM fun y => bound (v.mpa y)) = .ok vs → ¬ f.returnsSelf vs
  | .same _ _ => False
  | .wrap _ _ => False
  | _ => True

/-- All statements of the program are plain. -/
def Plain (qr : QR ℂ) (svd : SVD ℂ) : Set ℕ → Vals → List Stmt → Prop
  | _, _, [] => True
  | T, v, st :: P => plainStmt T v st ∧ ∀ v', vstep qr svd v st = .ok v' → Plain qr svd (given T st) v' P

end Prog

end Mpnum
