import Verif.Mpsmpo
import Verif.MPArray.Chain
import Verif.MPArray.FromArray
import Verif.MPArray.ToArray
import Verif.Utils.Pmf
import Verif.Povm.LocalPovm
import Verif.Povm.Samples

/-!
# Model of class `MPPovm` of /repo/mpnum/povm/mppovm.py: construction and probabilities

An `MPPovm` is an MPA which has passed the checks of `MPPovm.__init__`.  Methods which return
`type(self)(...)` run these checks again. -/

open Finset

namespace Mpnum

variable {R : Type}

namespace MPA

/-- `MPPovm.outdims` (mppovm.py:196-200) -/
def outdims (x : MPA R) : List ℕ := x.lt.map fun t => t.shape.getD 1 0

/-- `MPPovm.hdims` (mppovm.py:212-216) -/
def hdims (x : MPA R) : List ℕ := x.lt.map fun t => t.shape.getD 2 0

/-- The assertions of `MPPovm.__init__` (mppovm.py:184-194) -/
def povmCheck (x : MPA R) : Py (MPA R) := do
  pyAssert (∀ n ∈ x.ndims, n = 3)
  pyAssert (∀ s ∈ x.shape, s.getD 1 0 = s.getD 2 0)
  pyAssert (∀ d ∈ x.outdims, d ≤ 255)
  return x

end MPA

/-- `MPPovm(ltens)` for a sequence of local tensors (mppovm.py:184-194) -/
def mkPovm (ts : List (NDArray R)) : Py (MPA R) := do
  let x ← mkMPA ts
  x.povmCheck

/-- `MPPovm.nsoutpos` (mppovm.py:207-210) -/
def nsoutpos (x : MPA R) : List ℕ := (List.range x.len).filter fun k => 1 < x.outdims.getD k 0

/-- `MPPovm.probability_map` (mppovm.py:230-250) -/
def povmProbMap (x : MPA R) : Py (MPA R) := do
  let y ← x.transpose (some [0, 2, 1])
  let y ← y.povmCheck
  y.reshape (.list (x.shape.map fun s => [((s.getD 0 0 : ℕ) : ℤ), -1]))

/-- `MPPovm.from_local_povm` (mppovm.py:252-262) for an array of elements -/
def fromLocalPovm (lelems : NDArray R) (width : ℕ) : Py (MPA R) := do
  let x ← fromKron (List.replicate width lelems)
  x.povmCheck

/-- One site of `MPPovm.eye`: `np.eye(dim).reshape((1, dim, dim))` -/
def eyeSite [Zero R] [One R] (dim : ℕ) : Py (NDArray R) := (NDArray.eye dim).reshape [1, (dim : ℤ), (dim : ℤ)]

/-- `MPPovm.eye` (mppovm.py:264-275) -/
def povmEye [Zero R] [One R] (dims : List ℕ) : Py (MPA R) := do
  let fs ← dims.mapM eyeSite
  let x ← fromKron fs
  x.povmCheck

/-- `chain` of MP-POVMs (mparray.py:1281-1303) returns an `MPPovm` (`astype(first)`). -/
def chainPovm (xs : List (MPA R)) : Py (MPA R) := do
  let x ← chain xs
  x.povmCheck

/-- The argument `local_dim` of `embed`: an integer or a sequence. -/
inductive LocalDim
  | one (d : ℕ)
  | list (ds : List ℕ)

/-- mppovm.py:296-297: the local dimensions of all sites -/
def LocalDim.dims (nrSites : ℤ) : LocalDim → List ℕ
  | .one d => List.replicate nrSites.toNat d
  | .list ds => ds

/-- `MPPovm.embed` (mppovm.py:277-306) -/
def povmEmbed [Zero R] [One R] (x : MPA R) (nrSites startsite : ℤ) (localDim : LocalDim) : Py (MPA R) := do
  let ds := localDim.dims nrSites
  pyAssert ((ds.length : ℤ) = nrSites)
  let nRight := nrSites - x.len - startsite
  pyAssert (0 ≤ nRight)
  let left ← (if 0 < startsite then do
    let e ← povmEye (pySlice ds 0 startsite)
    return [e] else .ok [] : Py (List (MPA R)))
  let right ← (if 0 < nRight then do
    let e ← povmEye (pySlice ds (-nRight) ds.length)
    return [e] else .ok [] : Py (List (MPA R)))
  chainPovm (left ++ [x] ++ right)

/-- `MPPovmList.__init__` (mppovm.py:1206-1217) for a sequence of MP-POVMs -/
def mkPovmList (xs : List (MPA R)) : Py (List (MPA R)) := do
  pyAssert (∀ x ∈ xs, ∀ y ∈ xs.head?, x.len = y.len)
  return xs

/-- `MPPovm.block` (mppovm.py:308-327) -/
def povmBlock [Zero R] [One R] (x : MPA R) (nrSites : ℤ) : Py (List (MPA R)) := do
  let d := x.hdims.headD 0
  pyAssert (∀ e ∈ x.hdims, e = d)
  let xs ← (pyRange 0 (nrSites - x.len + 1) 1).mapM fun s => povmEmbed x nrSites s (.one d)
  mkPovmList xs

/-- `zip(*lists)` followed by `it.chain(*...)`: the first items of all lists, then the second items, ...; as
many rounds as the shortest list has items. -/
def interleave {α : Type} : List (List α) → List α
  | [] => []
  | l :: ls =>
    let n := (ls.map List.length).foldl min l.length
    (List.range n).flatMap fun i => (l :: ls).flatMap fun m => (m.drop i).take 1

/-- `MPPovmList.block` (mppovm.py:1219-1246) -/
def povmListBlock [Zero R] [One R] (xs : List (MPA R)) (nrSites : ℤ) : Py (List (MPA R)) := do
  let bs ← xs.mapM fun x => povmBlock x nrSites
  mkPovmList (interleave bs)

/-- `MPPovm.repeat` (mppovm.py:329-354) for a non-negative number of sites -/
def povmRepeat (x : MPA R) (nrSites : ℕ) : Py (MPA R) := do
  let nRepeat := nrSites / x.len
  let nLast := nrSites % x.len
  let last ← (if 0 < nLast then do
    pyAssert (x.ranks.getD (nLast - 1) 0 = 1)
    let y ← mkPovm (x.lt.take nLast)
    return [y] else .ok [] : Py (List (MPA R)))
  chainPovm (List.replicate nRepeat x ++ last)

/-- `MPPovmList.repeat` (mppovm.py:1248-1288) -/
def povmListRepeat (xs : List (MPA R)) (nrSites : ℕ) : Py (List (MPA R)) := do
  let ys ← xs.mapM fun x => povmRepeat x nrSites
  mkPovmList ys

/-! ### probabilities -/

/-- The argument `mode` of `expectations`. -/
inductive PovmMode
  | auto
  | mode (m : StateMode)
  deriving DecidableEq

/-- mppovm.py:369-373; `mode` stays `'auto'` otherwise, which is not understood. -/
def resolveMode (state : MPA R) : PovmMode → StateMode
  | .mode m => m
  | .auto => if ∀ n ∈ state.ndims, n = 1 then .mps else if ∀ n ∈ state.ndims, n = 2 then .mpdo else .other

section
variable [AddCommMonoid R] [Mul R]

/-- `mp.dot(pmap, rho_red.ravel())` -/
def applyPmap (pmap rho : MPA R) : Py (MPA R) := do
  let r ← rho.ravel
  dot pmap r ([-1], [0])

/-- `MPPovm.expectations` (mppovm.py:356-392): all items of the iterator and the state of the operand
afterwards. -/
def expectations [One R] [Star R] (qr : QR R) (x state : MPA R) (mode : PovmMode) : Py (List (MPA R) × MPA R) := do
  pyAssert (x.len ≤ state.len)
  let pmap ← povmProbMap x
  match resolveMode state mode with
  | .mps => do
    let zs ← reductionsMpsAsPmps qr state (some (x.len : ℤ)) none none
    let ps ← zs.mapM fun z => do
      let rho ← pmpsToMpo z
      applyPmap pmap rho
    return (ps, state)
  | .mpdo => do
    let zs ← reductionsMpo state (some (x.len : ℤ)) none none
    let ps ← zs.mapM (applyPmap pmap)
    return (ps, state)
  | .pmps => do
    let (zs, y) ← reductionsPmps qr state (some (x.len : ℤ)) none none
    let ps ← zs.mapM fun z => do
      let rho ← pmpsToMpo z
      applyPmap pmap rho
    return (ps, y)
  | .other => .error .value

/-- `MPPovm.pmf` (mppovm.py:394-410): the first item of `expectations`; there is exactly one. -/
def povmPmf [One R] [Star R] (qr : QR R) (x state : MPA R) (mode : PovmMode) : Py (MPA R × MPA R) := do
  pyAssert (x.len = state.len)
  let (ps, y) ← expectations qr x state mode
  match ps with
  | p :: _ => .ok (p, y)
  | [] => .error .stopIteration

/-- The loop body of `_pmf_as_array_pmps_ltr` (mppovm.py:442-456) -/
def pmfStep [Star R] (p : NDArray R) (q : NDArray R × NDArray R) : Py (NDArray R) := do
  let p ← p.tensordot q.2 [2] [0]
  let p ← p.tensordot q.2.conj [2, 4] [0, 2]
  let p ← p.tensordot q.1 [1, 2, 4] [0, 3, 2]
  let p ← p.transpose [0, 3, 4, 1, 2]
  let s := p.shape
  p.reshape [((s.getD 0 0 * s.getD 1 0 : ℕ) : ℤ), ((s.getD 2 0 : ℕ) : ℤ), ((s.getD 3 0 : ℕ) : ℤ), ((s.getD 4 0 : ℕ) : ℤ)]

/-- `_pmf_as_array_pmps_ltr` with `partial=True` (mppovm.py:412-458) -/
def pmfLtrPartial [One R] [Star R] (x state : MPA R) : Py (NDArray R) :=
  (x.lt.zip state.lt).foldlM pmfStep ⟨[1, 1, 1, 1], fun _ => 1⟩

/-- `_pmf_as_array_pmps_ltr` (mppovm.py:412-462) -/
def pmfLtr [One R] [Star R] (x state : MPA R) : Py (NDArray R) := do
  let p ← pmfLtrPartial x state
  let s := nsDims x.outdims
  pyAssert (p.shape = [s.prod, 1, 1, 1])
  p.reshape (s.map fun n : ℕ => (n : ℤ))

/-- `np.cumprod` of a list of integers. -/
def cumprod (l : List ℕ) : List ℕ := (List.range l.length).map fun k => (l.take (k + 1)).prod

/-- `np.argmin` of a non-empty list: the first position of the smallest value. -/
def argmin (l : List ℕ) : ℕ := l.findIdx fun a => l.all fun b => decide (a ≤ b)

/-- mppovm.py:481-493: the position where the chain is cut.  64 bit overflow is not modelled. -/
def symmCut (x state : MPA R) : ℕ :=
  let cp := cumprod x.outdims
  let ranks := List.zipWith (fun a b => a ^ 2 * b) state.ranks x.ranks
  let left := List.zipWith (· * ·) cp.dropLast ranks
  let right := List.zipWith (· * ·) (cp.dropLast.map fun c => cp.getLastD 0 / c) ranks
  let maxima := (List.range left.length).map fun i => (left.take i ++ right.drop i).foldl max 0
  argmin maxima + 1

/-- The second half of `_pmf_as_array_pmps_symm` (mppovm.py:495-512), for a cut at `nLeft` -/
def pmfSymmAt [One R] [Star R] (x state : MPA R) (nLeft : ℕ) : Py (NDArray R) := do
  let left ← mkPovm (x.lt.take nLeft)
  let pl ← pmfLtrPartial left state
  let pl ← pl.reshape [((pl.shape.getD 0 0 : ℕ) : ℤ), -1]
  let right ← mkPovm (x.lt.drop nLeft)
  let right ← right.reverse
  let right ← right.povmCheck
  let stateRight ← mkMPA (state.lt.drop nLeft)
  let stateRight ← stateRight.reverse
  let pr ← pmfLtrPartial right stateRight
  let sRight := nsDims (x.outdims.drop nLeft).reverse
  pyAssert (pr.shape.getD 0 0 = sRight.prod)
  let pr ← pr.reshape (sRight.map (fun n : ℕ => (n : ℤ)) ++ [-1])
  let pr ← pr.transpose (((List.range pr.ndim).reverse).map fun n : ℕ => (n : ℤ))
  let p ← pl.tensordot pr [1] [0]
  p.reshape ((nsDims x.outdims).map fun n : ℕ => (n : ℤ))

/-- `_pmf_as_array_pmps_symm` (mppovm.py:464-512).  With one site, `np.argmin` of an empty list is a
`ValueError`. -/
def pmfSymm [One R] [Star R] (x state : MPA R) : Py (NDArray R) := do
  pyGuard (1 < x.len) .value
  pmfSymmAt x state (symmCut x state)

/-- The argument `impl` of `pmf_as_array`. -/
inductive PmfImpl
  | auto | default | symm | ltr | other
  deriving DecidableEq

/-- `pmf_as_array` (mppovm.py:514-547) before `project_pmf`: the computed array and the state of the
operand afterwards. -/
def pmfRaw [One R] [Star R] (qr : QR R) (x state : MPA R) (mode : PovmMode) (impl : PmfImpl) :
    Py (NDArray R × MPA R) := do
  pyAssert (x.len = state.len)
  let (st, impl, conv) ← (if impl = .auto then
      (if mode = .mode .mps then do
        let s ← mpsToPmps state
        return (s, PmfImpl.symm, true)
      else .ok (state, if mode = .mode .pmps then PmfImpl.symm else PmfImpl.default, false))
    else .ok (state, impl, false) : Py (MPA R × PmfImpl × Bool))
  let impl := if x.len = 1 ∧ impl = .symm then PmfImpl.ltr else impl
  match impl with
  | .symm => do
    let p ← pmfSymm x st
    return (p, state)
  | .ltr => do
    let p ← pmfLtr x st
    return (p, state)
  | .default => do
    let (ps, y) ← expectations qr x st mode
    match ps with
    | p :: _ => do
      let p ← prune p true
      let a ← p.toArray
      return (a, if conv then state else y)
    | [] => .error .stopIteration
  | _ => .error .value

end

/-- `MPPovm.pmf_as_array` (mppovm.py:514-547).  The computed probabilities are complex numbers. -/
noncomputable def pmfAsArray (qr : QR ℂ) (x state : MPA ℂ) (mode : PovmMode) (eps : ℝ) (impl : PmfImpl) :
    Py (NDArray ℝ × MPA ℂ) := do
  let (p, y) ← pmfRaw qr x state mode impl
  let a ← (projectPmf (.cplx p) eps eps 0).1
  return (a, y)

end Mpnum
