import Verif.MPArray.LocalSum
import Verif.MPArray.ToArray
import Verif.MPArray.RanksKept
import Mathlib.Data.Complex.Basic
import Mathlib.Algebra.Order.Floor.Ring
import Mathlib.Algebra.Order.Archimedean.Real.Basic

/-!
# Element types of local tensors

The rest of the model works over a ring and ignores the element types (`dtype`) of numpy arrays.
This file models the functions of /repo/mpnum/mparray.py and /repo/mpnum/utils/extmath.py which
choose element types explicitly, with arrays that carry their element type: an array of a type can
only hold values of that type, and storing a value in an array converts it.

Simplifications: five element types; rounding, overflow and the limited range of the types are not
modelled, so that single and double precision hold the same values and differ only in numpy's rules
for the type of a result.
-/

namespace Mpnum

/-- numpy element types `int64`, `float32`, `float64`, `complex64` and `complex128`. -/
inductive DT
  | i64 | f32 | f64 | c64 | c128
  deriving DecidableEq, Repr

namespace DT

/-- Position in numpy's order of kinds: integer, float, complex. -/
def kind : DT → ℕ
  | i64 => 0
  | f32 => 1
  | f64 => 1
  | c64 => 2
  | c128 => 2

/-- `np.can_cast(a, b)` (rule `'safe'`). -/
def canCast : DT → DT → Bool
  | i64, i64 => true
  | i64, f64 => true
  | i64, c128 => true
  | f32, f32 => true
  | f32, f64 => true
  | f32, c64 => true
  | f32, c128 => true
  | f64, f64 => true
  | f64, c128 => true
  | c64, c64 => true
  | c64, c128 => true
  | c128, c128 => true
  | _, _ => false

/-- `np.can_cast(a, b, 'same_kind')`, the rule for in-place operations such as `res += a`. -/
def sameKind (a b : DT) : Bool := decide (a.kind ≤ b.kind)

/-- `np.promote_types(a, b)`: type of the result of `a + b`, `np.tensordot`, `np.concatenate`. -/
def promote : DT → DT → DT
  | i64, i64 => i64
  | i64, f32 => f64
  | i64, f64 => f64
  | i64, c64 => c128
  | i64, c128 => c128
  | f32, i64 => f64
  | f32, f32 => f32
  | f32, f64 => f64
  | f32, c64 => c64
  | f32, c128 => c128
  | f64, i64 => f64
  | f64, f32 => f64
  | f64, f64 => f64
  | f64, c64 => c128
  | f64, c128 => c128
  | c64, i64 => c128
  | c64, f32 => c64
  | c64, f64 => c128
  | c64, c64 => c64
  | c64, c128 => c128
  | c128, _ => c128

/-- The comparison `a > b` of numpy types: they differ and `b` can be cast to `a` safely. -/
def gt (a b : DT) : Bool := a != b && b.canCast a

/-- Type of the result of an operation with several arrays (`np.result_type`). -/
def resultType : List DT → DT
  | [] => f64
  | d :: ds => ds.foldl promote d

/-- Python's `max` on a sequence of numpy types: keeps the first one unless a later one is greater;
`ValueError` for an empty sequence. -/
def pyMax : List DT → Py DT
  | [] => .error .value
  | d :: ds => .ok (ds.foldl (fun m e => if e.gt m then e else m) d)

/-- `np.common_type`: the smallest inexact type that can hold everything; integers count as double
precision. -/
def commonType (ds : List DT) : DT :=
  resultType (ds.map fun d => if d = i64 then f64 else d)

/-- Conversion of a value to an element type (`ndarray.astype`, assignment): the imaginary part is
discarded by real types, the fractional part by integers.  Rounding is not modelled. -/
noncomputable def cast : DT → ℂ → ℂ
  | i64, z => ((if 0 ≤ z.re then ⌊z.re⌋ else ⌈z.re⌉ : ℤ) : ℂ)
  | f32, z => (z.re : ℂ)
  | f64, z => (z.re : ℂ)
  | c64, z => z
  | c128, z => z

/-- The value `z` is a value of the type `d`. -/
def Has (d : DT) (z : ℂ) : Prop := d.cast z = z

theorem has_i64 {z : ℂ} : Has i64 z ↔ ∃ n : ℤ, z = n := by
  constructor
  · intro h; exact ⟨_, h.symm⟩
  · rintro ⟨n, rfl⟩
    simp [Has, cast]

theorem has_f64 {z : ℂ} : Has f64 z ↔ ∃ x : ℝ, z = x := by
  constructor
  · intro h; exact ⟨_, h.symm⟩
  · rintro ⟨x, rfl⟩
    simp [Has, cast]

theorem has_f32 {z : ℂ} : Has f32 z ↔ ∃ x : ℝ, z = x := has_f64

theorem has_cast (d : DT) (z : ℂ) : d.Has (d.cast z) := by
  cases d
  · exact has_i64.2 ⟨_, rfl⟩
  · exact has_f32.2 ⟨_, rfl⟩
  · exact has_f64.2 ⟨_, rfl⟩
  · rfl
  · rfl

theorem Has.zero (d : DT) : d.Has 0 := by
  cases d <;> simp [Has, cast]

theorem Has.one (d : DT) : d.Has 1 := by
  cases d <;> simp [Has, cast]

theorem Has.add {d : DT} {a b : ℂ} (ha : d.Has a) (hb : d.Has b) : d.Has (a + b) := by
  cases d
  · obtain ⟨m, rfl⟩ := has_i64.1 ha
    obtain ⟨n, rfl⟩ := has_i64.1 hb
    exact has_i64.2 ⟨m + n, by push_cast; rfl⟩
  · obtain ⟨m, rfl⟩ := has_f32.1 ha
    obtain ⟨n, rfl⟩ := has_f32.1 hb
    exact has_f32.2 ⟨m + n, by push_cast; rfl⟩
  · obtain ⟨m, rfl⟩ := has_f64.1 ha
    obtain ⟨n, rfl⟩ := has_f64.1 hb
    exact has_f64.2 ⟨m + n, by push_cast; rfl⟩
  · rfl
  · rfl

theorem Has.mul {d : DT} {a b : ℂ} (ha : d.Has a) (hb : d.Has b) : d.Has (a * b) := by
  cases d
  · obtain ⟨m, rfl⟩ := has_i64.1 ha
    obtain ⟨n, rfl⟩ := has_i64.1 hb
    exact has_i64.2 ⟨m * n, by push_cast; rfl⟩
  · obtain ⟨m, rfl⟩ := has_f32.1 ha
    obtain ⟨n, rfl⟩ := has_f32.1 hb
    exact has_f32.2 ⟨m * n, by push_cast; rfl⟩
  · obtain ⟨m, rfl⟩ := has_f64.1 ha
    obtain ⟨n, rfl⟩ := has_f64.1 hb
    exact has_f64.2 ⟨m * n, by push_cast; rfl⟩
  · rfl
  · rfl

theorem Has.mono {d e : DT} (h : d.kind ≤ e.kind) {z : ℂ} (hz : d.Has z) : e.Has z := by
  have real : ∀ n : ℤ, ∃ x : ℝ, (n : ℂ) = x := fun n => ⟨n, by push_cast; rfl⟩
  cases d <;> cases e <;> first
    | exact hz
    | rfl
    | exact absurd h (by decide)
    | (obtain ⟨n, rfl⟩ := has_i64.1 hz
       exact has_f64.2 (real n))

theorem kind_of_canCast {d e : DT} (h : d.canCast e = true) : d.kind ≤ e.kind := by
  revert h; cases d <;> cases e <;> decide

theorem canCast_refl (d : DT) : d.canCast d = true := by cases d <;> rfl

theorem canCast_trans {a b c : DT} (h : a.canCast b = true) (h' : b.canCast c = true) :
    a.canCast c = true := by
  revert h h'; cases a <;> cases b <;> cases c <;> decide

theorem canCast_left (a b : DT) : a.canCast (promote a b) = true := by
  cases a <;> cases b <;> rfl

theorem canCast_right (a b : DT) : b.canCast (promote a b) = true := by
  cases a <;> cases b <;> rfl

theorem kind_promote (a b : DT) : (promote a b).kind = max a.kind b.kind := by
  cases a <;> cases b <;> rfl

end DT

/-- A numpy array with an element type: all entries are values of that type. -/
structure TArr where
  dt : DT
  arr : NDArray ℂ
  has : ∀ i, dt.Has (arr.get i)

namespace TArr

/-- Stores computed values in a new array of type `d`. -/
noncomputable def store (d : DT) (a : NDArray ℂ) : TArr :=
  ⟨d, ⟨a.shape, fun i => d.cast (a.get i)⟩, fun _ => d.has_cast _⟩

/-- The values of an array after conversion to the type `d`. -/
noncomputable def conv (d : DT) (t : TArr) : NDArray ℂ :=
  ⟨t.arr.shape, fun i => d.cast (t.arr.get i)⟩

/-- `a + b` of numpy -/
noncomputable def add (a b : TArr) : Py TArr := do
  let d := DT.promote a.dt b.dt
  let s ← (a.conv d).add (b.conv d)
  return store d s

end TArr

/-- `np.concatenate` -/
noncomputable def tConcatenate (ts : List TArr) (axis : ℕ) : Py TArr := do
  let d := DT.resultType (ts.map TArr.dt)
  let c ← NDArray.concatenate (ts.map (TArr.conv d)) axis
  return TArr.store d c

/-- `np.concatenate(ts, axis=-1)` -/
noncomputable def tConcatLast (ts : List TArr) : Py TArr :=
  tConcatenate ts ((ts.head?.map fun t => t.arr.ndim).getD 0 - 1)

/-- `_local_add` (mparray.py:1834-1861): the result has the type `max(lt.dtype for lt in ltenss)`, and
the assignment `res[…] = lt` converts to this type whatever the type of `lt`. -/
noncomputable def tLocalAdd (ts : List TArr) : Py TArr :=
  match ts with
  | [] => .error .index
  | _ => do
    let d ← DT.pyMax (ts.map TArr.dt)
    let c ← localAdd (ts.map (TArr.conv d))
    return TArr.store d c

/-- One `next(lt)` for every iterator of a list. -/
def tNexts (its : List (List TArr)) : Py (List TArr) :=
  its.mapM fun it => match it with
    | [] => Except.error PyErr.stopIteration
    | t :: _ => .ok t

/-- The local tensors after the first site, as `sumRest` (mparray.py:1185-1187, 355-358). -/
noncomputable def tSumRest : ℕ → List (List TArr) → Py (List TArr)
  | 0, _ => .ok []
  | 1, its => do
    let hs ← tNexts its
    let c ← tConcatenate hs 0
    return [c]
  | n + 2, its => do
    let hs ← tNexts its
    let c ← tLocalAdd hs
    let cs ← tSumRest (n + 1) (its.map List.tail)
    return c :: cs

/-- `sum(arrays)` of the Python standard library on a non-empty sequence of arrays. -/
noncomputable def tPySum (ts : List TArr) : Py TArr :=
  match ts with
  | [] => .error .type
  | t :: ts => ts.foldlM TArr.add t

/-- State of an `MPArray` with the element types of its local tensors (mpstruct.py:61-64). -/
structure TMPA where
  lt : List TArr
  l : ℤ
  r : ℤ

/-- A Python number with its type: `int`, `float` or `complex` (`i64`, `f64` or `c128`). -/
structure PyNum where
  dt : DT
  val : ℂ
  isPy : dt = .i64 ∨ dt = .f64 ∨ dt = .c128
  has : dt.Has val

/-- Type of the product of a Python number and an array: only the kind of the number counts
(numpy's rule for scalars). -/
def scalarType : DT → DT → DT
  | .i64, d => d
  | .f64, .i64 => .f64
  | .f64, d => d
  | .c128, .f32 => .c64
  | .c128, .c64 => .c64
  | .c128, _ => .c128
  | _, d => d

/-- `c * a` for a Python number `c`. -/
noncomputable def TArr.smul (c : PyNum) (a : TArr) : TArr :=
  TArr.store (scalarType c.dt a.dt) (NDArray.smul c.val a.arr)

namespace TMPA

/-- The model without element types. -/
def erase (x : TMPA) : MPA ℂ := ⟨x.lt.map TArr.arr, x.l, x.r⟩

/-- All element types. -/
def dts (x : TMPA) : List DT := x.lt.map TArr.dt

/-- `LocalTensors.__init__` (mpstruct.py:48-73) -/
def mkLT (ts : List TArr) (cl cr : Option ℤ) : Py TMPA := do
  let x ← Mpnum.mkLT (ts.map TArr.arr) cl cr
  return ⟨ts, x.l, x.r⟩

/-- `MPArray(ltens)` (mparray.py:71-80) -/
def mk' (ts : List TArr) : Py TMPA := mkLT ts none none

/-- `MPArray.__add__` (mparray.py:349-360) -/
noncomputable def add (x y : TMPA) : Py TMPA := do
  pyAssert (x.lt.length = y.lt.length)
  if x.lt.length = 1 then
    let hs ← tNexts [x.lt, y.lt]
    let s ← tPySum hs
    mk' [s]
  else
    let hs ← tNexts [x.lt, y.lt]
    let c ← tConcatLast hs
    let cs ← tSumRest (x.lt.length - 1) [x.lt.tail, y.lt.tail]
    mk' (c :: cs)

/-- `MPArray.__mul__` by a Python number (mparray.py:365-377) -/
noncomputable def mul (x : TMPA) (fact : PyNum) : Py TMPA := do
  let pos ← pyIndex x.lt.length x.l
  let t ← (x.lt[pos]?).elim (Except.error PyErr.index) Except.ok
  mkLT (x.lt.take pos ++ [t.smul fact] ++ x.lt.drop (pos + 1)) (some x.l) (some x.r)

/-- The number `-1`. -/
noncomputable def minusOne : PyNum := ⟨.i64, -1, Or.inl rfl, DT.has_i64.2 ⟨-1, by push_cast; rfl⟩⟩

/-- `MPArray.__sub__` (mparray.py:362-363) -/
noncomputable def sub (x y : TMPA) : Py TMPA := do
  let y' ← y.mul minusOne
  x.add y'

/-- `MPArray.dtype` (mparray.py:122-125): `np.common_type` of all local tensors. -/
def dtype (x : TMPA) : DT := DT.commonType x.dts

end TMPA

/-- `sumup` (mparray.py:1156-1189) -/
noncomputable def tSumup (mpas : List TMPA) (weights : Option (List PyNum)) : Py TMPA := do
  let first ← mpas.head?.elim (Except.error PyErr.index) Except.ok
  let length := first.lt.length
  pyAssert (∀ m ∈ mpas, m.lt.length = length)
  let its := mpas.map TMPA.lt
  let k := (weights.map List.length).getD mpas.length
  let hs ← tNexts (its.take k)
  let hs := match weights with
    | none => hs
    | some w => List.zipWith TArr.smul w hs
  if length = 1 then
    let s ← tPySum hs
    TMPA.mk' [s]
  else
    let c ← tConcatLast hs
    let cs ← tSumRest (length - 1) ((its.take k).map List.tail ++ its.drop k)
    TMPA.mk' (c :: cs)

/-- `block_diag` (extmath.py:46-104): the result has the type of the first summand; `res[pos] += array`
raises `TypeError` if the type of the sum cannot be cast to it by the rule `'same_kind'`.  The
model checks the types of all summands first; Python would report another error instead if an
earlier summand did not fit into the result. -/
noncomputable def tBlockDiag (ts : List TArr) (axes : List ℤ) : Py TArr :=
  match ts with
  | [] => .error .index
  | t :: _ => do
    if ts.all fun u => (DT.promote t.dt u.dt).sameKind t.dt then
      let c ← blockDiag (ts.map (TArr.conv t.dt)) axes
      return TArr.store t.dt c
    else .error .type

/-- `a[None, ..., None]` keeps the type. -/
def TArr.addBonds (a : TArr) : TArr := ⟨a.dt, a.arr.addBonds, fun _ => a.has _⟩

/-- `np.eye(d)` is an array of floats. -/
noncomputable def tEye (d : ℕ) : TArr :=
  ⟨.f64, NDArray.eye d, fun i => by
    simp only [NDArray.eye]
    split
    · exact DT.Has.one _
    · exact DT.Has.zero _⟩

/-- `np.zeros_like(a)` -/
noncomputable def TArr.zerosLike (a : TArr) : TArr :=
  ⟨a.dt, NDArray.zeros a.arr.shape, fun _ => DT.Has.zero _⟩

/-- `_embed_ltens_identity` (mparray.py:1620-1639) -/
noncomputable def tEmbedLten (x : TMPA) (e : Option TArr) : Py TArr :=
  match e with
  | some e => .ok e.addBonds
  | none =>
    match x.lt.map fun t => t.arr.ph with
    | [] => .error .index
    | [d, d'] :: _ => if d = d' then .ok (tEye d).addBonds else .error .assertion
    | _ => .error .assertion

/-- `embed_slice` (mparray.py:1642-1661) -/
noncomputable def tEmbedSlice (length : ℕ) (s : PySlice) (x : TMPA) (e : Option TArr) : Py TMPA := do
  let (start, stop, step) ← sliceIndices s.start s.stop s.step length
  pyAssert (step = 1)
  pyAssert ((x.lt.length : ℤ) = stop - start)
  let el ← tEmbedLten x e
  TMPA.mk' (List.replicate start.toNat el ++ x.lt ++ List.replicate ((length : ℤ) - stop).toNat el)

/-- `mpas[i]._lt[k]` -/
def tLtenAt (mpas : List TMPA) (i k : ℕ) : Py TArr :=
  match mpas[i]? with
  | none => .error .index
  | some x => match x.lt[k]? with
    | none => .error .index
    | some t => .ok t

/-- mparray.py:1714, as `embedHead` -/
noncomputable def tEmbedHead (el : TArr) : List TArr → Py (List TArr)
  | [] => .error .index
  | h :: hs => do
    let c ← tConcatenate [el, h] 0
    return c :: hs

/-- mparray.py:1717-1722, as `rightEmbed` -/
noncomputable def tRightEmbed (el : TArr) (w pos : ℕ) (n : ℕ) : Py TArr :=
  if w = 1 ∧ w ≤ pos then do
    pyAssert (n = 1)
    tConcatenate [el.zerosLike, el] 0
  else .ok el

/-- mparray.py:1723, as `embedLast` -/
noncomputable def tEmbedLast (re : TArr) (hs : List TArr) : Py (List TArr) :=
  match hs.getLast? with
  | none => .error .index
  | some h => do
    let c ← tConcatLast [h, re]
    return hs.dropLast ++ [c]

/-- The local tensor of `_local_sum_identity` at site `pos` (mparray.py:1701-1725). -/
noncomputable def tLocalSumSite (mpas : List TMPA) (el : TArr) (w pos : ℕ) : Py TArr := do
  let hs ← (startsites mpas.length w pos).mapM fun i => tLtenAt mpas i (pos - i)
  let hs ← if w ≤ pos then tEmbedHead el hs else .ok hs
  let hs ← if pos + 1 < mpas.length then
      (do
        let re ← tRightEmbed el w pos hs.length
        tEmbedLast re hs)
    else .ok hs
  tBlockDiag hs [0, -1]

/-- `_local_sum_identity` (mparray.py:1664-1729) -/
noncomputable def tLocalSumIdentity (mpas : List TMPA) (e : Option TArr) : Py TMPA :=
  match mpas with
  | [] => .error .index
  | x :: _ => do
    let w := x.lt.length
    let el ← tEmbedLten x e
    pyAssert (∀ m ∈ mpas, m.lt.length = w)
    let ltens ← (List.range (mpas.length + w - 1)).mapM (tLocalSumSite mpas el w)
    TMPA.mk' ltens

/-- `local_sum` (mparray.py:1736-1775) -/
noncomputable def tLocalSum (mpas : List TMPA) (e : Option TArr) (length : Option ℕ)
    (slices : Option (List PySlice)) : Py TMPA := do
  match ← localSumSlices length slices with
  | none => tLocalSumIdentity mpas e
  | some (n, sl) =>
    let es ← (mpas.zip sl).mapM fun q => tEmbedSlice n q.2 q.1 e
    tSumup es none

/-- `matdot` (extmath.py:34-36) -/
noncomputable def tMatdot (a b : TArr) : Py TArr := do
  let d := DT.promote a.dt b.dt
  let c ← matdot (a.conv d) (b.conv d)
  return TArr.store d c

/-- `_ltens_to_array` (mparray.py:1906-1921) -/
noncomputable def tLtensToArray : List TArr → Py TArr
  | [] => .error .stopIteration
  | t :: ts => ts.foldlM tMatdot t

/-- `MPArray.to_array` (mparray.py:259-271) -/
noncomputable def TMPA.toArray (x : TMPA) : Py TArr := do
  let a ← tLtensToArray x.lt
  let b ← a.arr.dropBonds
  return TArr.store a.dt b

/-! ### values of the results -/

/-- All entries of an array satisfy a predicate. -/
def AllP (P : ℂ → Prop) (a : NDArray ℂ) : Prop := ∀ i, P (a.get i)

theorem concatGet_all {P : ℂ → Prop} (h0 : P 0) (ax : ℕ) :
    ∀ (as : List (NDArray ℂ)), (∀ a ∈ as, AllP P a) → ∀ i, P (NDArray.concatGet ax as i)
  | [], _, _ => h0
  | a :: as, h, i => by
    rw [NDArray.concatGet]
    split
    · exact h a (by simp) _
    · exact concatGet_all h0 ax as (fun b hb => h b (by simp [hb])) _

theorem concatenate_all {P : ℂ → Prop} (h0 : P 0) {as : List (NDArray ℂ)} {ax : ℕ} {c : NDArray ℂ}
    (h : ∀ a ∈ as, AllP P a) (hc : NDArray.concatenate as ax = .ok c) : AllP P c := by
  cases as with
  | nil => simp [NDArray.concatenate] at hc
  | cons a as =>
    simp only [NDArray.concatenate] at hc
    split at hc
    · cases hc
      exact concatGet_all h0 ax _ h
    · cases hc

theorem localAddLoop_all {P : ℂ → Prop} : ∀ (ts : List (NDArray ℂ)) (res : NDArray ℂ) (pl pr : ℕ)
    (c : NDArray ℂ), (∀ a ∈ ts, AllP P a) → AllP P res → localAddLoop ts res pl pr = .ok c → AllP P c
  | [], res, pl, pr, c, _, hr, hc => by
    rw [localAddLoop] at hc; cases hc; exact hr
  | t :: ts, res, pl, pr, c, h, hr, hc => by
    rw [localAddLoop] at hc
    obtain ⟨res', h1, h2⟩ := bind_ok_inv hc
    refine localAddLoop_all ts res' _ _ c (fun b hb => h b (by simp [hb])) ?_ h2
    rw [NDArray.assignBlock] at h1
    split at h1
    · cases h1
      intro i
      simp only
      split
      · exact h t (by simp) _
      · exact hr _
    · cases h1

theorem localAdd_all {P : ℂ → Prop} (h0 : P 0) {ts : List (NDArray ℂ)} {c : NDArray ℂ}
    (h : ∀ a ∈ ts, AllP P a) (hc : localAdd ts = .ok c) : AllP P c := by
  cases ts with
  | nil => simp [localAdd] at hc
  | cons t ts =>
    rw [localAdd] at hc
    exact localAddLoop_all _ _ _ _ _ h (fun _ => h0) hc

theorem ndadd_all {P : ℂ → Prop} (hadd : ∀ a b, P a → P b → P (a + b)) {a b c : NDArray ℂ}
    (ha : AllP P a) (hb : AllP P b) (hc : a.add b = .ok c) : AllP P c := by
  rw [NDArray.add] at hc
  split at hc
  · cases hc
    exact fun i => hadd _ _ (ha _) (hb _)
  · cases hc

theorem transpose_all {P : ℂ → Prop} {a b : NDArray ℂ} {axes : List ℤ} (ha : AllP P a)
    (h : a.transpose axes = .ok b) : AllP P b := by
  rw [NDArray.transpose] at h
  obtain ⟨p, _, h2⟩ := bind_ok_inv h
  split at h2
  · cases h2
    exact fun i => ha _
  · cases h2

theorem blockDiagLoop_all {P : ℂ → Prop} (hadd : ∀ a b, P a → P b → P (a + b)) (k : ℕ) :
    ∀ (ts : List (NDArray ℂ)) (res : NDArray ℂ) (st : List ℕ) (c : NDArray ℂ),
      (∀ a ∈ ts, AllP P a) → AllP P res → blockDiagLoop k ts res st = .ok c → AllP P c
  | [], res, st, c, _, hr, hc => by
    rw [blockDiagLoop] at hc; cases hc; exact hr
  | t :: ts, res, st, c, h, hr, hc => by
    rw [blockDiagLoop] at hc
    obtain ⟨res', h1, h2⟩ := bind_ok_inv hc
    refine blockDiagLoop_all hadd k ts res' _ c (fun b hb => h b (by simp [hb])) ?_ h2
    rw [NDArray.addLead] at h1
    split at h1
    · cases h1
      intro i
      simp only
      split
      · exact hadd _ _ (hr _) (h t (by simp) _)
      · exact hr _
    · cases h1

theorem mapM_all {P : ℂ → Prop} {f : NDArray ℂ → Py (NDArray ℂ)}
    (hf : ∀ a b, AllP P a → f a = .ok b → AllP P b) :
    ∀ (ts us : List (NDArray ℂ)), (∀ a ∈ ts, AllP P a) → ts.mapM f = .ok us → ∀ a ∈ us, AllP P a
  | [], us, _, h => by
    simp only [List.mapM_nil] at h; cases h; simp
  | t :: ts, us, ht, h => by
    rw [List.mapM_cons] at h
    obtain ⟨u, h1, h2⟩ := bind_ok_inv h
    obtain ⟨vs, h3, h4⟩ := bind_ok_inv h2
    cases h4
    intro a ha
    rcases List.mem_cons.1 ha with rfl | ha
    · exact hf _ _ (ht t (by simp)) h1
    · exact mapM_all hf ts vs (fun b hb => ht b (by simp [hb])) h3 a ha

theorem blockDiag_all {P : ℂ → Prop} (h0 : P 0) (hadd : ∀ a b, P a → P b → P (a + b))
    {ts : List (NDArray ℂ)} {axes : List ℤ} {c : NDArray ℂ}
    (h : ∀ a ∈ ts, AllP P a) (hc : blockDiag ts axes = .ok c) : AllP P c := by
  cases ts with
  | nil => simp [blockDiag] at hc
  | cons t ts =>
    simp only [blockDiag] at hc
    obtain ⟨us, h1, h2⟩ := bind_ok_inv hc
    obtain ⟨res, h3, h4⟩ := bind_ok_inv h2
    have hu := mapM_all (fun a b ha hb => transpose_all ha hb) _ _ h h1
    exact transpose_all (blockDiagLoop_all hadd _ _ _ _ _ hu (fun _ => h0) h3) h4

theorem sumIdx_all {P : ℂ → Prop} (h0 : P 0) (hadd : ∀ a b, P a → P b → P (a + b)) :
    ∀ (s : List ℕ) (f : List ℕ → ℂ), (∀ i, P (f i)) → P (sumIdx s f)
  | [], f, h => h _
  | d :: ds, f, h => by
    rw [sumIdx]
    exact Finset.sum_induction _ P hadd h0 fun i _ => sumIdx_all h0 hadd ds _ fun _ => h _

theorem matdot_all {P : ℂ → Prop} (h0 : P 0) (hadd : ∀ a b, P a → P b → P (a + b))
    (hmul : ∀ a b, P a → P b → P (a * b)) {a b c : NDArray ℂ} (ha : AllP P a) (hb : AllP P b)
    (hc : matdot a b = .ok c) : AllP P c := by
  rw [matdot, NDArray.tensordot] at hc
  obtain ⟨p, _, h2⟩ := bind_ok_inv hc
  obtain ⟨q, _, h4⟩ := bind_ok_inv h2
  split at h4
  · cases h4
    exact fun i => sumIdx_all h0 hadd _ _ fun k => hmul _ _ (ha _) (hb _)
  · cases h4

/-! ### conversions without an effect -/

theorem store_arr {d : DT} {a : NDArray ℂ} (h : AllP d.Has a) : (TArr.store d a).arr = a := by
  cases a with
  | mk s g =>
    simp only [TArr.store, NDArray.mk.injEq, true_and]
    exact funext h

theorem conv_arr {d : DT} {t : TArr} (h : t.dt.kind ≤ d.kind) : t.conv d = t.arr := by
  obtain ⟨dt, ⟨s, g⟩, hg⟩ := t
  simp only [TArr.conv, NDArray.mk.injEq, true_and]
  exact funext fun i => DT.Has.mono h (hg i)

theorem allP_arr {d : DT} {t : TArr} (h : t.dt.kind ≤ d.kind) : AllP d.Has t.arr :=
  fun i => DT.Has.mono h (t.has i)

theorem map_conv_arr {d : DT} {ts : List TArr} (h : ∀ t ∈ ts, t.dt.kind ≤ d.kind) :
    ts.map (TArr.conv d) = ts.map TArr.arr :=
  List.map_congr_left fun t ht => conv_arr (h t ht)

theorem all_map_arr {d : DT} {ts : List TArr} (h : ∀ t ∈ ts, t.dt.kind ≤ d.kind) :
    ∀ a ∈ ts.map TArr.arr, AllP d.Has a := by
  intro a ha
  obtain ⟨t, ht, rfl⟩ := List.mem_map.1 ha
  exact allP_arr (h t ht)

/-- Storing the result of a computation that stays within the type. -/
theorem map_store {d : DT} {m : Py (NDArray ℂ)} (h : ∀ c, m = .ok c → AllP d.Has c) :
    (m >>= fun c => (pure (TArr.store d c) : Py TArr)).map TArr.arr = m := by
  cases m with
  | error e => rfl
  | ok c => exact congrArg Except.ok (store_arr (h c rfl))

/-- Programs that run in parallel. -/
theorem map_bind_congr {α α' β β' : Type} {m : Py α} {m' : Py α'} {f : α → Py β} {f' : α' → Py β'}
    {g : α → α'} {k : β → β'} (h : m.map g = m') (hf : ∀ a, m = .ok a → (f a).map k = f' (g a)) :
    (m >>= f).map k = m' >>= f' := by
  subst h
  cases m with
  | error e => rfl
  | ok a => exact hf a rfl

theorem mapM_map_congr {α α' β β' : Type} {f : α → Py β} {f' : α' → Py β'} {g : α → α'}
    {k : β → β'} : ∀ (l : List α), (∀ a ∈ l, (f a).map k = f' (g a)) →
      (l.mapM f).map (List.map k) = (l.map g).mapM f'
  | [], _ => rfl
  | a :: l, h => by
    rw [List.mapM_cons, List.map_cons, List.mapM_cons]
    refine map_bind_congr (h a (by simp)) fun b _ => ?_
    refine map_bind_congr (mapM_map_congr l fun a ha => h a (by simp [ha])) fun bs _ => ?_
    rfl

namespace DT

theorem canCast_foldl (ds : List DT) (d : DT) :
    d.canCast (ds.foldl promote d) = true ∧ ∀ e ∈ ds, e.canCast (ds.foldl promote d) = true := by
  induction ds generalizing d with
  | nil => simp [canCast_refl]
  | cons a ds ih =>
    obtain ⟨h1, h2⟩ := ih (promote d a)
    refine ⟨canCast_trans (canCast_left d a) h1, ?_⟩
    intro e he
    rcases List.mem_cons.1 he with rfl | he
    · exact canCast_trans (canCast_right d e) h1
    · exact h2 e he

theorem canCast_resultType {ds : List DT} {d : DT} (h : d ∈ ds) : d.canCast (resultType ds) = true := by
  cases ds with
  | nil => cases h
  | cons a ds =>
    rcases List.mem_cons.1 h with rfl | h
    · exact (canCast_foldl ds d).1
    · exact (canCast_foldl ds a).2 d h

/-- Any two of the types can be compared: one can be cast safely to the other. -/
def Compat (ds : List DT) : Prop := ∀ a ∈ ds, ∀ b ∈ ds, a.canCast b = true ∨ b.canCast a = true

theorem Compat.mono {ds es : List DT} (h : Compat es) (hs : ∀ d ∈ ds, d ∈ es) : Compat ds :=
  fun a ha b hb => h a (hs a ha) b (hs b hb)

theorem pyMax_foldl (es : List DT) (hc : Compat es) (ds : List DT) (m : DT) (hm : m ∈ es)
    (hd : ∀ d ∈ ds, d ∈ es) :
    let r := ds.foldl (fun m e => if e.gt m then e else m) m
    m.canCast r = true ∧ ∀ d ∈ ds, d.canCast r = true := by
  induction ds generalizing m with
  | nil => simp [canCast_refl]
  | cons a ds ih =>
    have ha := hd a (by simp)
    have hds : ∀ d ∈ ds, d ∈ es := fun d h => hd d (by simp [h])
    simp only [List.foldl_cons]
    by_cases h : a.gt m = true
    · rw [if_pos h]
      obtain ⟨h1, h2⟩ := ih a ha hds
      have hma : m.canCast a = true := by
        simp only [gt, Bool.and_eq_true] at h; exact h.2
      refine ⟨canCast_trans hma h1, fun d hd' => ?_⟩
      rcases List.mem_cons.1 hd' with rfl | hd'
      · exact h1
      · exact h2 d hd'
    · rw [if_neg h]
      obtain ⟨h1, h2⟩ := ih m hm hds
      have ham : a.canCast m = true := by
        rcases hc a ha m hm with h' | h'
        · exact h'
        · by_cases e : a = m
          · rw [e]; exact canCast_refl m
          · exact absurd (by simp [gt, e, h']) h
      refine ⟨h1, fun d hd' => ?_⟩
      rcases List.mem_cons.1 hd' with rfl | hd'
      · exact canCast_trans ham h1
      · exact h2 d hd'

theorem pyMax_ok {ds : List DT} (hc : Compat ds) (h : ds ≠ []) :
    ∃ m, pyMax ds = .ok m ∧ ∀ d ∈ ds, d.canCast m = true := by
  cases ds with
  | nil => exact absurd rfl h
  | cons a ds =>
    refine ⟨_, rfl, fun d hd => ?_⟩
    obtain ⟨h1, h2⟩ := pyMax_foldl _ hc ds a (by simp) (fun d h => by simp [h])
    rcases List.mem_cons.1 hd with rfl | hd
    · exact h1
    · exact h2 d hd

end DT

/-! ### the typed functions and the functions of the model without types -/

theorem kind_resultType {ts : List TArr} : ∀ t ∈ ts, t.dt.kind ≤ (DT.resultType (ts.map TArr.dt)).kind :=
  fun _ ht => DT.kind_of_canCast (DT.canCast_resultType (List.mem_map_of_mem ht))

theorem tConcatenate_arr (ts : List TArr) (ax : ℕ) :
    (tConcatenate ts ax).map TArr.arr = NDArray.concatenate (ts.map TArr.arr) ax := by
  rw [tConcatenate]
  rw [map_conv_arr kind_resultType]
  exact map_store fun c hc => concatenate_all (DT.Has.zero _) (all_map_arr kind_resultType) hc

theorem tConcatLast_arr (ts : List TArr) :
    (tConcatLast ts).map TArr.arr = concatLast (ts.map TArr.arr) := by
  rw [tConcatLast, concatLast, tConcatenate_arr]
  cases ts <;> rfl

theorem tLocalAdd_arr {ts : List TArr} (h : DT.Compat (ts.map TArr.dt)) :
    (tLocalAdd ts).map TArr.arr = localAdd (ts.map TArr.arr) := by
  cases ts with
  | nil => rfl
  | cons t ts =>
    obtain ⟨m, hm, hk⟩ := DT.pyMax_ok h (by simp)
    have hk' : ∀ u ∈ t :: ts, u.dt.kind ≤ m.kind := fun u hu =>
      DT.kind_of_canCast (hk u.dt (List.mem_map_of_mem hu))
    rw [tLocalAdd]
    simp only [hm, ok_bind]
    rw [map_conv_arr hk']
    exact map_store fun c hc => localAdd_all (DT.Has.zero _) (all_map_arr hk') hc
    simp

theorem tNexts_arr (its : List (List TArr)) :
    (tNexts its).map (List.map TArr.arr) = nexts (its.map (List.map TArr.arr)) := by
  rw [tNexts, nexts]
  refine mapM_map_congr its fun it _ => ?_
  cases it <;> rfl

theorem tNexts_mem : ∀ {its : List (List TArr)} {hs : List TArr}, tNexts its = .ok hs →
    ∀ t ∈ hs, ∃ it ∈ its, t ∈ it
  | [], hs, h => by
    simp only [tNexts, List.mapM_nil] at h; cases h; simp
  | it :: its, hs, h => by
    rw [tNexts, List.mapM_cons] at h
    obtain ⟨u, h1, h2⟩ := bind_ok_inv h
    obtain ⟨vs, h3, h4⟩ := bind_ok_inv h2
    cases h4
    intro t ht
    rcases List.mem_cons.1 ht with rfl | ht
    · cases it with
      | nil => cases h1
      | cons a it => cases h1; exact ⟨_, List.mem_cons_self, List.mem_cons_self⟩
    · obtain ⟨it', hi, hj⟩ := tNexts_mem (its := its) h3 t ht
      exact ⟨it', by simp [hi], hj⟩

theorem tSumRest_arr (es : List DT) (hc : DT.Compat es) : ∀ (n : ℕ) (its : List (List TArr)),
    (∀ it ∈ its, ∀ t ∈ it, t.dt ∈ es) →
    (tSumRest n its).map (List.map TArr.arr) = sumRest n (its.map (List.map TArr.arr))
  | 0, _, _ => rfl
  | 1, its, h => by
    rw [tSumRest, sumRest]
    refine map_bind_congr (tNexts_arr its) fun hs hhs => ?_
    refine map_bind_congr (tConcatenate_arr hs 0) fun c _ => rfl
  | n + 2, its, h => by
    rw [tSumRest, sumRest]
    refine map_bind_congr (tNexts_arr its) fun hs hhs => ?_
    refine map_bind_congr (tLocalAdd_arr (hc.mono ?_)) fun c _ => ?_
    · intro d hd
      obtain ⟨t, ht, rfl⟩ := List.mem_map.1 hd
      obtain ⟨it, hi, hj⟩ := tNexts_mem hhs t ht
      exact h it hi t hj
    · have := tSumRest_arr es hc (n + 1) (its.map List.tail) (by
        intro it hi t ht
        obtain ⟨it', hi', rfl⟩ := List.mem_map.1 hi
        exact h it' hi' t (List.mem_of_mem_tail ht))
      have e : (its.map List.tail).map (List.map TArr.arr)
          = (its.map (List.map TArr.arr)).map List.tail := by
        simp [List.map_map, Function.comp_def, List.map_tail]
      rw [e] at this
      exact map_bind_congr this fun cs _ => rfl

theorem tadd_arr (a b : TArr) : (a.add b).map TArr.arr = a.arr.add b.arr := by
  rw [TArr.add]
  have ha := DT.kind_of_canCast (DT.canCast_left a.dt b.dt)
  have hb := DT.kind_of_canCast (DT.canCast_right a.dt b.dt)
  rw [conv_arr ha, conv_arr hb]
  exact map_store fun c hc => ndadd_all (fun _ _ => DT.Has.add) (allP_arr ha) (allP_arr hb) hc

theorem foldlM_arr {f : TArr → TArr → Py TArr} {f' : NDArray ℂ → NDArray ℂ → Py (NDArray ℂ)}
    (hf : ∀ a b, (f a b).map TArr.arr = f' a.arr b.arr) : ∀ (ts : List TArr) (t : TArr),
    (ts.foldlM f t).map TArr.arr = (ts.map TArr.arr).foldlM f' t.arr
  | [], _ => rfl
  | u :: ts, t => by
    rw [List.foldlM_cons, List.map_cons, List.foldlM_cons]
    exact map_bind_congr (hf t u) fun c _ => foldlM_arr hf ts c

theorem tPySum_arr (ts : List TArr) : (tPySum ts).map TArr.arr = pySum (ts.map TArr.arr) := by
  cases ts with
  | nil => rfl
  | cons t ts => exact foldlM_arr tadd_arr ts t

theorem tmkLT_erase (ts : List TArr) (cl cr : Option ℤ) :
    (TMPA.mkLT ts cl cr).map TMPA.erase = mkLT (ts.map TArr.arr) cl cr := by
  rw [TMPA.mkLT]
  cases h : mkLT (ts.map TArr.arr) cl cr with
  | error e => rfl
  | ok x =>
    have : x.lt = ts.map TArr.arr := by
      rw [mkLT] at h
      obtain ⟨_, _, h⟩ := bind_ok_inv h
      obtain ⟨_, _, h⟩ := bind_ok_inv h
      obtain ⟨_, _, h⟩ := bind_ok_inv h
      obtain ⟨_, _, h⟩ := bind_ok_inv h
      cases h; rfl
    show Except.ok (TMPA.erase ⟨ts, x.l, x.r⟩) = Except.ok x
    rw [TMPA.erase]; simp only [← this]

theorem tmk_erase (ts : List TArr) : (TMPA.mk' ts).map TMPA.erase = mkMPA (ts.map TArr.arr) :=
  tmkLT_erase ts none none

theorem tsmul_arr (c : PyNum) (a : TArr) : (a.smul c).arr = NDArray.smul c.val a.arr := by
  refine store_arr fun i => ?_
  have h1 : c.dt.kind ≤ (scalarType c.dt a.dt).kind := by
    rcases c.isPy with h | h | h <;> rw [h] <;> cases a.dt <;> decide
  have h2 : a.dt.kind ≤ (scalarType c.dt a.dt).kind := by
    rcases c.isPy with h | h | h <;> rw [h] <;> cases a.dt <;> decide
  exact (DT.Has.mono h1 c.has).mul (DT.Has.mono h2 (a.has i))

theorem tBlockDiag_arr_le {t : TArr} {ts : List TArr} {axes : List ℤ}
    (hk : ∀ u ∈ t :: ts, u.dt.kind ≤ t.dt.kind) :
    (tBlockDiag (t :: ts) axes).map TArr.arr = blockDiag ((t :: ts).map TArr.arr) axes := by
  rw [tBlockDiag, if_pos, map_conv_arr hk]
  · exact map_store fun c hc =>
      blockDiag_all (DT.Has.zero _) (fun _ _ => DT.Has.add) (all_map_arr hk) hc
  · refine List.all_eq_true.2 fun u hu => ?_
    simp only [DT.sameKind, DT.kind_promote, decide_eq_true_eq]
    exact max_le le_rfl (hk u hu)

theorem tBlockDiag_arr (ts : List TArr) (axes : List ℤ) :
    tBlockDiag ts axes = .error .type ∨
      (tBlockDiag ts axes).map TArr.arr = blockDiag (ts.map TArr.arr) axes := by
  cases ts with
  | nil => exact Or.inr rfl
  | cons t ts =>
    by_cases h : ∀ u ∈ t :: ts, u.dt.kind ≤ t.dt.kind
    · exact Or.inr (tBlockDiag_arr_le h)
    · left
      rw [tBlockDiag, if_neg]
      intro h'
      refine h fun u hu => ?_
      have := List.all_eq_true.1 h' u hu
      simp only [DT.sameKind, DT.kind_promote, decide_eq_true_eq] at this
      exact le_trans (le_max_right _ _) this

theorem tBlockDiag_arr_of {ts : List TArr} {axes : List ℤ} {k : ℕ} (h : ∀ t ∈ ts, t.dt.kind = k) :
    (tBlockDiag ts axes).map TArr.arr = blockDiag (ts.map TArr.arr) axes := by
  cases ts with
  | nil => rfl
  | cons t ts => exact tBlockDiag_arr_le fun u hu => by rw [h u hu, h t (by simp)]

theorem tMatdot_arr (a b : TArr) : (tMatdot a b).map TArr.arr = matdot a.arr b.arr := by
  rw [tMatdot]
  have ha := DT.kind_of_canCast (DT.canCast_left a.dt b.dt)
  have hb := DT.kind_of_canCast (DT.canCast_right a.dt b.dt)
  rw [conv_arr ha, conv_arr hb]
  exact map_store fun c hc => matdot_all (DT.Has.zero _) (fun _ _ => DT.Has.add)
    (fun _ _ => DT.Has.mul) (allP_arr ha) (allP_arr hb) hc

theorem tNexts_map (its : List (List TArr)) (k : ℕ) :
    (tNexts (its.take k)).map (List.map TArr.arr) = nexts ((its.map (List.map TArr.arr)).take k) := by
  rw [tNexts_arr, List.map_take]

theorem map_pyAssert {p q : Prop} [Decidable p] [Decidable q] (h : p ↔ q) :
    (pyAssert p).map id = pyAssert q := by
  by_cases hp : p
  · rw [pyAssert_true hp, pyAssert_true (h.1 hp)]; rfl
  · rw [pyAssert_false hp, pyAssert_false (fun hq => hp (h.2 hq))]; rfl

theorem tadd_erase (x y : TMPA) (hc : DT.Compat (x.dts ++ y.dts)) :
    (x.add y).map TMPA.erase = x.erase.add y.erase := by
  have hx : x.erase.len = x.lt.length := by simp [TMPA.erase, MPA.len]
  have hy : y.erase.len = y.lt.length := by simp [TMPA.erase, MPA.len]
  rw [TMPA.add, MPA.add, hx, hy]
  refine map_bind_congr (map_pyAssert Iff.rfl) fun _ _ => ?_
  have hn := tNexts_arr [x.lt, y.lt]
  split
  · refine map_bind_congr hn fun hs _ => ?_
    refine map_bind_congr (tPySum_arr hs) fun s _ => ?_
    exact tmk_erase [s]
  · refine map_bind_congr hn fun hs _ => ?_
    refine map_bind_congr (tConcatLast_arr hs) fun c _ => ?_
    have := tSumRest_arr _ hc (x.lt.length - 1) [x.lt.tail, y.lt.tail] (by
      intro it hi t ht
      simp only [TMPA.dts, List.mem_append, List.mem_map]
      simp only [List.mem_cons, List.not_mem_nil, or_false] at hi
      rcases hi with rfl | rfl
      · exact Or.inl ⟨t, List.mem_of_mem_tail ht, rfl⟩
      · exact Or.inr ⟨t, List.mem_of_mem_tail ht, rfl⟩)
    have e : [x.lt.tail, y.lt.tail].map (List.map TArr.arr) = [x.erase.lt.tail, y.erase.lt.tail] := by
      simp [TMPA.erase, List.map_tail]
    rw [e] at this
    refine map_bind_congr this fun cs _ => ?_
    exact tmk_erase (c :: cs)

theorem tmul_erase (x : TMPA) (f : PyNum) : (x.mul f).map TMPA.erase = x.erase.mul f.val := by
  have hx : x.erase.len = x.lt.length := by simp [TMPA.erase, MPA.len]
  rw [TMPA.mul, MPA.mul, hx]
  refine map_bind_congr (g := id) (by simp only [TMPA.erase]; cases pyIndex x.lt.length x.l <;> rfl) fun pos _ => ?_
  refine map_bind_congr (g := TArr.arr) ?_ fun t _ => ?_
  · show _ = ((x.lt.map TArr.arr)[pos]?).elim _ _
    rw [List.getElem?_map]
    cases x.lt[pos]? <;> rfl
  · rw [tmkLT_erase]
    simp [TMPA.erase, tsmul_arr, List.map_take, List.map_drop]

theorem tsub_erase (x y : TMPA) (hc : DT.Compat (x.dts ++ y.dts)) :
    (x.sub y).map TMPA.erase = x.erase.sub y.erase := by
  rw [TMPA.sub, MPA.sub]
  refine map_bind_congr (tmul_erase y TMPA.minusOne) fun y' hy' => ?_
  refine tadd_erase x y' (hc.mono ?_)
  intro d hd
  rcases List.mem_append.1 hd with hd | hd
  · exact List.mem_append_left _ hd
  · refine List.mem_append_right _ ?_
    rw [TMPA.mul] at hy'
    obtain ⟨pos, h1, hy'⟩ := bind_ok_inv hy'
    obtain ⟨t, h2, hy'⟩ := bind_ok_inv hy'
    rw [TMPA.mkLT] at hy'
    obtain ⟨z, h3, hy'⟩ := bind_ok_inv hy'
    cases hy'
    have ht : y.lt[pos]? = some t := by
      revert h2
      cases y.lt[pos]? with
      | none => intro h; cases h
      | some u => intro h; cases h; rfl
    simp only [TMPA.dts, List.map_append, List.map_cons, List.map_nil, List.mem_append,
      List.mem_singleton] at hd
    rcases hd with (hd | hd) | hd
    · obtain ⟨u, hu, rfl⟩ := List.mem_map.1 hd
      exact List.mem_map_of_mem (List.mem_of_mem_take hu)
    · have e : d = t.dt := hd
      rw [e]
      exact List.mem_map_of_mem (f := TArr.dt) (List.mem_of_getElem? ht)
    · obtain ⟨u, hu, rfl⟩ := List.mem_map.1 hd
      exact List.mem_map_of_mem (List.mem_of_mem_drop hu)

theorem zipWith_smul_arr : ∀ (w : List PyNum) (hs : List TArr),
    (List.zipWith TArr.smul w hs).map TArr.arr
      = List.zipWith NDArray.smul (w.map PyNum.val) (hs.map TArr.arr)
  | [], _ => by simp
  | _ :: _, [] => by simp
  | c :: w, h :: hs => by simp [tsmul_arr, zipWith_smul_arr w hs]

theorem tsumup_erase (xs : List TMPA) (w : Option (List PyNum)) (hc : DT.Compat (xs.flatMap TMPA.dts)) :
    (tSumup xs w).map TMPA.erase = sumup (xs.map TMPA.erase) (w.map (List.map PyNum.val)) := by
  have hlen : ∀ m : TMPA, m.erase.len = m.lt.length := fun m => by simp [TMPA.erase, MPA.len]
  rw [tSumup, sumup]
  refine map_bind_congr (g := TMPA.erase) (by cases xs <;> rfl) fun first _ => ?_
  simp only [hlen, List.length_map, List.mem_map, forall_exists_index, and_imp,
    forall_apply_eq_imp_iff₂]
  refine map_bind_congr (map_pyAssert Iff.rfl) fun _ _ => ?_
  have hits : (xs.map TMPA.erase).map MPA.lt = (xs.map TMPA.lt).map (List.map TArr.arr) := by
    simp [List.map_map, Function.comp_def, TMPA.erase]
  have hk : ((w.map (List.map PyNum.val)).map List.length).getD xs.length
      = (w.map List.length).getD xs.length := by cases w <;> simp
  rw [hits, hk]
  set k := (w.map List.length).getD xs.length
  refine map_bind_congr (tNexts_map (xs.map TMPA.lt) k) fun hs _ => ?_
  have key : ∀ gs : List TArr,
      (if first.lt.length = 1 then do
          let s ← tPySum gs
          TMPA.mk' [s]
        else do
          let c ← tConcatLast gs
          let cs ← tSumRest (first.lt.length - 1)
            (((xs.map TMPA.lt).take k).map List.tail ++ (xs.map TMPA.lt).drop k)
          TMPA.mk' (c :: cs)).map TMPA.erase
      = (if first.lt.length = 1 then do
          let s ← pySum (gs.map TArr.arr)
          mkMPA [s]
        else do
          let c ← concatLast (gs.map TArr.arr)
          let cs ← sumRest (first.lt.length - 1)
            ((((xs.map TMPA.lt).map (List.map TArr.arr)).take k).map List.tail
              ++ ((xs.map TMPA.lt).map (List.map TArr.arr)).drop k)
          mkMPA (c :: cs)) := by
    intro gs
    split
    · refine map_bind_congr (tPySum_arr gs) fun s _ => ?_
      exact tmk_erase [s]
    · refine map_bind_congr (tConcatLast_arr gs) fun c _ => ?_
      have hits2 : ∀ it ∈ xs.map TMPA.lt, ∀ t ∈ it, t.dt ∈ xs.flatMap TMPA.dts := by
        intro it hi t ht
        obtain ⟨m, hm, rfl⟩ := List.mem_map.1 hi
        exact List.mem_flatMap.2 ⟨m, hm, List.mem_map_of_mem ht⟩
      have := tSumRest_arr _ hc (first.lt.length - 1)
        (((xs.map TMPA.lt).take k).map List.tail ++ (xs.map TMPA.lt).drop k) (by
        intro it hi t ht
        rcases List.mem_append.1 hi with hi | hi
        · obtain ⟨it', hi', rfl⟩ := List.mem_map.1 hi
          exact hits2 it' (List.mem_of_mem_take hi') t (List.mem_of_mem_tail ht)
        · exact hits2 it (List.mem_of_mem_drop hi) t ht)
      have e : (((xs.map TMPA.lt).take k).map List.tail ++ (xs.map TMPA.lt).drop k).map
            (List.map TArr.arr)
          = (((xs.map TMPA.lt).map (List.map TArr.arr)).take k).map List.tail
            ++ ((xs.map TMPA.lt).map (List.map TArr.arr)).drop k := by
        simp [List.map_take, List.map_drop, List.map_map, Function.comp_def, List.map_tail]
      rw [e] at this
      refine map_bind_congr this fun cs _ => ?_
      exact tmk_erase (c :: cs)
  cases w with
  | none => exact key hs
  | some w =>
    have := key (List.zipWith TArr.smul w hs)
    rw [zipWith_smul_arr] at this
    exact this

/-! ### local sums -/

theorem tEmbedLten_arr (x : TMPA) (e : Option TArr) :
    (tEmbedLten x e).map TArr.arr = embedLten x.erase (e.map TArr.arr) := by
  cases e with
  | some e => rfl
  | none =>
    have h : x.erase.shape = x.lt.map fun t => t.arr.ph := by
      simp [MPA.shape, TMPA.erase, Function.comp_def]
    simp only [tEmbedLten, embedLten, Option.map_none, h]
    generalize (x.lt.map fun t => t.arr.ph) = sh
    match sh with
    | [] => rfl
    | [] :: _ => rfl
    | [_] :: _ => rfl
    | [d, d'] :: _ =>
      simp only
      split <;> rfl
    | (_ :: _ :: _ :: _) :: _ => rfl

theorem tLtenAt_arr (xs : List TMPA) (i k : ℕ) :
    (tLtenAt xs i k).map TArr.arr = ltenAt (xs.map TMPA.erase) i k := by
  rw [tLtenAt, ltenAt, List.getElem?_map]
  cases xs[i]? with
  | none => rfl
  | some x =>
    simp only [Option.map_some, TMPA.erase, List.getElem?_map]
    cases x.lt[k]? <;> rfl

theorem tEmbedHead_arr (el : TArr) (hs : List TArr) :
    (tEmbedHead el hs).map (List.map TArr.arr) = embedHead el.arr (hs.map TArr.arr) := by
  cases hs with
  | nil => rfl
  | cons h hs =>
    exact map_bind_congr (tConcatenate_arr [el, h] 0) fun c _ => rfl

theorem tRightEmbed_arr (el : TArr) (w pos n : ℕ) :
    (tRightEmbed el w pos n).map TArr.arr = rightEmbed el.arr w pos n := by
  rw [tRightEmbed, rightEmbed]
  split
  · refine map_bind_congr (map_pyAssert Iff.rfl) fun _ _ => ?_
    exact tConcatenate_arr [el.zerosLike, el] 0
  · rfl

theorem tEmbedLast_arr (re : TArr) (hs : List TArr) :
    (tEmbedLast re hs).map (List.map TArr.arr) = embedLast re.arr (hs.map TArr.arr) := by
  rw [tEmbedLast, embedLast, List.getLast?_map]
  cases hs.getLast? with
  | none => rfl
  | some h =>
    refine map_bind_congr (tConcatLast_arr [h, re]) fun c _ => ?_
    simp [Except.map, pure, Except.pure, List.map_dropLast]

theorem tConcatenate_dt {ts : List TArr} {ax : ℕ} {c : TArr} (h : tConcatenate ts ax = .ok c) :
    c.dt = DT.resultType (ts.map TArr.dt) := by
  rw [tConcatenate] at h
  obtain ⟨_, _, h⟩ := bind_ok_inv h
  cases h; rfl

theorem mapM_ok_mem' {α β : Type} {f : α → Py β} : ∀ {l : List α} {m : List β}, l.mapM f = .ok m →
    ∀ b ∈ m, ∃ a ∈ l, f a = .ok b
  | [], m, h => by
    simp only [List.mapM_nil] at h; cases h; simp
  | a :: l, m, h => by
    rw [List.mapM_cons] at h
    obtain ⟨u, h1, h2⟩ := bind_ok_inv h
    obtain ⟨vs, h3, h4⟩ := bind_ok_inv h2
    cases h4
    intro b hb
    rcases List.mem_cons.1 hb with rfl | hb
    · exact ⟨a, List.mem_cons_self, h1⟩
    · obtain ⟨a', ha, hb'⟩ := mapM_ok_mem' h3 b hb
      exact ⟨a', List.mem_cons_of_mem _ ha, hb'⟩

theorem tLocalSumSite_arr {xs : List TMPA} {el : TArr} {k : ℕ}
    (hk : ∀ x ∈ xs, ∀ t ∈ x.lt, t.dt.kind = k) (he : el.dt.kind ≤ k) (w pos : ℕ) :
    (tLocalSumSite xs el w pos).map TArr.arr = localSumSite (xs.map TMPA.erase) el.arr w pos := by
  rw [tLocalSumSite, localSumSite, List.length_map]
  have h1 := mapM_map_congr (f := fun i => tLtenAt xs i (pos - i))
    (f' := fun i => ltenAt (xs.map TMPA.erase) i (pos - i)) (g := id) (k := TArr.arr)
    (startsites xs.length w pos) (fun i _ => tLtenAt_arr xs i (pos - i))
  rw [List.map_id] at h1
  refine map_bind_congr h1 fun hs hhs => ?_
  have k1 : ∀ t ∈ hs, t.dt.kind = k := by
    intro t ht
    obtain ⟨i, _, hi⟩ := mapM_ok_mem' hhs t ht
    rw [tLtenAt] at hi
    cases h : xs[i]? with
    | none => rw [h] at hi; cases hi
    | some x =>
      simp only [h] at hi
      cases h' : x.lt[pos - i]? with
      | none => rw [h'] at hi; cases hi
      | some u =>
        rw [h'] at hi; cases hi
        exact hk x (List.mem_of_getElem? h) t (List.mem_of_getElem? h')
  have s2 : ∀ hs2 : List TArr, (∀ t ∈ hs2, t.dt.kind = k) →
      (if pos + 1 < xs.length then
          ((do
            let re ← tRightEmbed el w pos hs2.length
            tEmbedLast re hs2) >>= fun hs => tBlockDiag hs [0, -1])
        else (Except.ok hs2 >>= fun hs => tBlockDiag hs [0, -1])).map TArr.arr
      = (if pos + 1 < xs.length then
          ((do
            let re ← rightEmbed el.arr w pos (hs2.map TArr.arr).length
            embedLast re (hs2.map TArr.arr)) >>= fun hs => blockDiag hs [0, -1])
        else (Except.ok (hs2.map TArr.arr) >>= fun hs => blockDiag hs [0, -1])) := by
    intro hs2 k2
    split
    · refine map_bind_congr (g := List.map TArr.arr) ?_ fun hs3 hhs3 => ?_
      · rw [List.length_map]
        refine map_bind_congr (tRightEmbed_arr el w pos hs2.length) fun re _ => ?_
        exact tEmbedLast_arr re hs2
      · refine tBlockDiag_arr_of (k := k) ?_
        obtain ⟨re, hre, hhs3⟩ := bind_ok_inv hhs3
        have hr : re.dt.kind ≤ k := by
          rw [tRightEmbed] at hre
          split at hre
          · obtain ⟨_, _, hre⟩ := bind_ok_inv hre
            rw [tConcatenate_dt hre]
            simp only [List.map_cons, List.map_nil, DT.resultType, List.foldl_cons, List.foldl_nil,
              DT.kind_promote, TArr.zerosLike, max_self]
            exact he
          · cases hre; exact he
        rw [tEmbedLast] at hhs3
        cases hl : hs2.getLast? with
        | none => rw [hl] at hhs3; cases hhs3
        | some h =>
          simp only [hl] at hhs3
          obtain ⟨c, hc, hhs3⟩ := bind_ok_inv hhs3
          cases hhs3
          intro t ht
          rcases List.mem_append.1 ht with ht | ht
          · exact k2 t (List.mem_of_mem_dropLast ht)
          · rw [List.mem_singleton.1 ht, tConcatenate_dt hc]
            simp only [List.map_cons, List.map_nil, DT.resultType, List.foldl_cons, List.foldl_nil,
              DT.kind_promote, k2 h (List.mem_of_getLast? hl)]
            exact max_eq_left hr
    · exact tBlockDiag_arr_of k2
  simp only
  split
  · refine map_bind_congr (tEmbedHead_arr el hs) fun hs2 hhs2 => s2 hs2 ?_
    cases hs with
    | nil => cases hhs2
    | cons h hs =>
      rw [tEmbedHead] at hhs2
      obtain ⟨c, hc, hhs2⟩ := bind_ok_inv hhs2
      cases hhs2
      intro t ht
      rcases List.mem_cons.1 ht with rfl | ht
      · rw [tConcatenate_dt hc]
        simp only [List.map_cons, List.map_nil, DT.resultType, List.foldl_cons, List.foldl_nil,
          DT.kind_promote, k1 h (by simp)]
        exact max_eq_right he
      · exact k1 t (by simp [ht])
  · exact s2 hs k1

theorem tLocalSumSite_or (xs : List TMPA) (el : TArr) (w pos : ℕ) :
    tLocalSumSite xs el w pos = .error .type ∨
      (tLocalSumSite xs el w pos).map TArr.arr = localSumSite (xs.map TMPA.erase) el.arr w pos := by
  have bor : ∀ {α : Type} {m : Py α} {m' : Py (List (NDArray ℂ))} {g : α → List (NDArray ℂ)}
      {f : α → Py TArr} {f' : List (NDArray ℂ) → Py (NDArray ℂ)}, m.map g = m' →
      (∀ a, m = .ok a → f a = .error .type ∨ (f a).map TArr.arr = f' (g a)) →
      (m >>= f) = .error .type ∨ (m >>= f).map TArr.arr = (m' >>= f') := by
    intro α m m' g f f' h hf
    subst h
    cases m with
    | error e => exact Or.inr rfl
    | ok a => exact hf a rfl
  rw [tLocalSumSite, localSumSite, List.length_map]
  have h1 := mapM_map_congr (f := fun i => tLtenAt xs i (pos - i))
    (f' := fun i => ltenAt (xs.map TMPA.erase) i (pos - i)) (g := id) (k := TArr.arr)
    (startsites xs.length w pos) (fun i _ => tLtenAt_arr xs i (pos - i))
  rw [List.map_id] at h1
  refine bor h1 fun hs _ => ?_
  have s2 : ∀ hs2 : List TArr,
      (if pos + 1 < xs.length then
          ((do
            let re ← tRightEmbed el w pos hs2.length
            tEmbedLast re hs2) >>= fun hs => tBlockDiag hs [0, -1])
        else (Except.ok hs2 >>= fun hs => tBlockDiag hs [0, -1])) = .error .type ∨
      (if pos + 1 < xs.length then
          ((do
            let re ← tRightEmbed el w pos hs2.length
            tEmbedLast re hs2) >>= fun hs => tBlockDiag hs [0, -1])
        else (Except.ok hs2 >>= fun hs => tBlockDiag hs [0, -1])).map TArr.arr
      = (if pos + 1 < xs.length then
          ((do
            let re ← rightEmbed el.arr w pos (hs2.map TArr.arr).length
            embedLast re (hs2.map TArr.arr)) >>= fun hs => blockDiag hs [0, -1])
        else (Except.ok (hs2.map TArr.arr) >>= fun hs => blockDiag hs [0, -1])) := by
    intro hs2
    split
    · refine bor (g := List.map TArr.arr) ?_ fun hs3 _ => tBlockDiag_arr hs3 _
      rw [List.length_map]
      refine map_bind_congr (tRightEmbed_arr el w pos hs2.length) fun re _ => ?_
      exact tEmbedLast_arr re hs2
    · exact tBlockDiag_arr hs2 _
  simp only
  split
  · exact bor (tEmbedHead_arr el hs) fun hs2 _ => s2 hs2
  · exact s2 hs

theorem tLocalSumIdentity_erase {xs : List TMPA} {e : Option TArr} {k : ℕ}
    (hk : ∀ x ∈ xs, ∀ t ∈ x.lt, t.dt.kind = k)
    (he : match e with
      | none => 1 ≤ k
      | some e => e.dt.kind ≤ k) :
    (tLocalSumIdentity xs e).map TMPA.erase
      = localSumIdentity (xs.map TMPA.erase) (e.map TArr.arr) := by
  cases xs with
  | nil => rfl
  | cons x xs =>
    have hlen : ∀ m : TMPA, m.erase.len = m.lt.length := fun m => by simp [TMPA.erase, MPA.len]
    rw [tLocalSumIdentity, List.map_cons, localSumIdentity, ← List.map_cons]
    simp only [hlen, List.length_map]
    refine map_bind_congr (tEmbedLten_arr x e) fun el hel => ?_
    refine map_bind_congr (map_pyAssert ?_) fun _ _ => ?_
    · simp [hlen]
    have hel' : el.dt.kind ≤ k := by
      cases e with
      | some e => cases hel; exact he
      | none =>
        simp only [tEmbedLten] at hel
        split at hel
        · cases hel
        · split at hel
          · cases hel; exact he
          · cases hel
        · cases hel
    have := mapM_map_congr (f := tLocalSumSite (x :: xs) el x.lt.length)
      (f' := localSumSite ((x :: xs).map TMPA.erase) el.arr x.lt.length) (g := id) (k := TArr.arr)
      (List.range ((x :: xs).length + x.lt.length - 1))
      (fun pos _ => tLocalSumSite_arr hk hel' x.lt.length pos)
    rw [List.map_id] at this
    exact map_bind_congr this fun ts _ => tmk_erase ts

theorem tLocalSumIdentity_or (xs : List TMPA) (e : Option TArr) :
    tLocalSumIdentity xs e = .error .type ∨
      (tLocalSumIdentity xs e).map TMPA.erase
        = localSumIdentity (xs.map TMPA.erase) (e.map TArr.arr) := by
  cases xs with
  | nil => exact Or.inr rfl
  | cons x xs =>
    have hlen : ∀ m : TMPA, m.erase.len = m.lt.length := fun m => by simp [TMPA.erase, MPA.len]
    have hm : ∀ (el : TArr) (w : ℕ) (l : List ℕ),
        l.mapM (tLocalSumSite (x :: xs) el w) = .error .type ∨
        (l.mapM (tLocalSumSite (x :: xs) el w)).map (List.map TArr.arr)
          = l.mapM (localSumSite ((x :: xs).map TMPA.erase) el.arr w) := by
      intro el w l
      induction l with
      | nil => exact Or.inr rfl
      | cons a l ih =>
        rw [List.mapM_cons, List.mapM_cons]
        rcases tLocalSumSite_or (x :: xs) el w a with h | h
        · rw [h]; exact Or.inl rfl
        · cases h' : tLocalSumSite (x :: xs) el w a with
          | error er => rw [h'] at h; rw [← h]; exact Or.inr rfl
          | ok t =>
            rw [h'] at h; rw [← h]
            rcases ih with h2 | h2
            · rw [h2]; exact Or.inl rfl
            · right
              exact map_bind_congr (g := List.map TArr.arr) h2 fun _ _ => rfl
    rw [tLocalSumIdentity, List.map_cons, localSumIdentity, ← List.map_cons]
    simp only [hlen, List.length_map]
    have h1 := tEmbedLten_arr x e
    cases h' : tEmbedLten x e with
    | error er => rw [h'] at h1; rw [← h1]; exact Or.inr rfl
    | ok el =>
      rw [h'] at h1; rw [← h1]
      simp only [ok_bind, Except.map]
      by_cases ha : ∀ m ∈ x :: xs, m.lt.length = x.lt.length
      · rw [pyAssert_true ha, pyAssert_true (by
          intro m hm
          obtain ⟨y, hy, rfl⟩ := List.mem_map.1 hm
          rw [hlen]; exact ha y hy)]
        simp only [ok_bind]
        rcases hm el x.lt.length (List.range ((x :: xs).length + x.lt.length - 1)) with h2 | h2
        · left; rw [h2]; rfl
        · right
          exact map_bind_congr h2 fun ts _ => tmk_erase ts
      · right
        rw [pyAssert_false ha, pyAssert_false (by
          intro h; refine ha fun m hm => ?_
          rw [← hlen]; exact h _ (List.mem_map_of_mem hm))]
        rfl

end Mpnum
