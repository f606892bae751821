import Verif.MPArray.Norm
import Verif.MPArray.LocalSum
import Verif.MPArray.Prune
import Verif.Mpsmpo
import Verif.Utils.ArrayTransforms
import Mathlib.Analysis.Complex.Basic

/-!
# Model of /repo/mpnum/factory.py

The random generator is a pair of infinite streams of real numbers, one for `randn` and one for
`rand`.  Every theorem holds for all streams, so nothing is assumed about the distribution.
Floating point divisions by zero (numpy returns `nan` with a warning) are modelled by the error
`zeroDiv`; no theorem claims anything about a result that contains `nan`.
-/

open Finset

namespace Mpnum

variable {R : Type}

/-! ### shapes of the local tensors -/

/-- The argument `ldim` of `_generate` (factory.py:125-155): an integer, one tuple of leg sizes for
all sites, or one tuple for each site. -/
inductive LdimArg
  | scalar (d : ℕ)
  | flat (ds : List ℕ)
  | nested (dss : List (List ℕ))

/-- The argument `rank` of `_generate`: an integer or a sequence. -/
inductive RankArg
  | scalar (r : ℕ)
  | each (rs : List ℕ)

/-- factory.py:152-157: the leg sizes of each site.  `ldim[0]` of an empty sequence raises
`IndexError`. -/
def LdimArg.sites (n : ℕ) : LdimArg → Py (List (List ℕ))
  | .scalar d => .ok (List.replicate n [d])
  | .flat [] => .error .index
  | .flat ds => .ok (List.replicate n ds)
  | .nested [] => .error .index
  | .nested dss => .ok dss

/-- factory.py:158-163 (`(rank,) * (sites - 1)` is empty for `sites = 0`). -/
def RankArg.bonds (n : ℕ) : RankArg → List ℕ
  | .scalar r => List.replicate (n - 1) r
  | .each rs => rs

/-- The shapes passed to `func` in `_generate` (factory.py:151-173). -/
def generateShapes (sites : ℕ) (ldim : LdimArg) (rank : RankArg) (force : Bool) : Py (List (List ℕ)) := do
  let ld ← ldim.sites sites
  let rk := if force then rank.bonds sites else List.zipWith min (rank.bonds sites) (fullRank ld)
  pyAssert (ld.length = sites)
  pyAssert ((rk.length : ℤ) = sites - 1)
  return List.zipWith3 (fun a d b => a :: (d ++ [b])) (1 :: rk) ld (rk ++ [1])

/-- `zero` (factory.py:241-259) -/
def factoryZero [Zero R] (sites : ℕ) (ldim : LdimArg) (rank : RankArg) (force : Bool) : Py (MPA R) := do
  let shapes ← generateShapes sites ldim rank force
  mkMPA (shapes.map NDArray.zeros)

/-- The argument `ldim` of `eye`: an integer or one integer per site. -/
inductive EyeArg
  | scalar (d : ℕ)
  | each (ds : List ℕ)

/-- `eye` (factory.py:262-281) -/
def factoryEye [Zero R] [One R] (sites : ℕ) (ldim : EyeArg) : Py (MPA R) := do
  let ds ← (match ldim with
    | .scalar d => Except.ok (List.replicate sites d)
    | .each ds => do
      pyAssert (ds.length = sites)
      return ds : Py (List ℕ))
  fromKron (ds.map NDArray.eye)

/-- `np.diag(entries)` for a vector -/
def NDArray.diag [Zero R] (a : NDArray R) : NDArray R :=
  ⟨[a.size, a.size], fun idx => if idx.getD 0 0 = idx.getD 1 0 then a.get [idx.getD 0 0] else 0⟩

/-- `np.zeros((d, d, d))` after `np.fill_diagonal(_, 1)` -/
def NDArray.diag3 [Zero R] [One R] (d : ℕ) : NDArray R :=
  ⟨[d, d, d], fun idx =>
    if idx.getD 0 0 = idx.getD 1 0 ∧ idx.getD 1 0 = idx.getD 2 0 then 1 else 0⟩

/-- `diagonal_mpa` (factory.py:284-308) -/
def diagonalMpa [Zero R] [One R] (qr : QR R) (entries : NDArray R) (sites : ℤ) : Py (MPA R) := do
  pyAssert (0 < sites)
  pyGuard (entries.ndim = 1) .notImplemented
  if sites < 2 then fromArray qr entries none false
  else do
    let ldim := entries.shape.headD 0
    let left ← (NDArray.eye ldim).reshape [1, ldim, ldim]
    let right ← entries.diag.reshape [ldim, ldim, 1]
    mkLT (left :: (List.replicate (sites - 2).toNat (NDArray.diag3 ldim) ++ [right])) (some (sites - 1))
      (some sites)

/-! ### random objects -/

/-- State of the random generator: the values that `randn` and `rand` are going to return. -/
structure RandState where
  normal : ℕ → ℝ
  uniform : ℕ → ℝ

/-- A computation that draws random numbers and may raise an exception. -/
abbrev Rng (α : Type) := StateT RandState (Except PyErr) α

/-- `_randn` (factory.py:37-45) -/
noncomputable def randn (shape : List ℕ) : Rng (NDArray ℂ) := fun s =>
  .ok (⟨shape, fun i => ((s.normal (ravelIdx shape i) : ℝ) : ℂ)⟩,
    { s with normal := fun k => s.normal (k + shape.prod) })

/-- `randstate.rand(n)` -/
noncomputable def rand (n : ℕ) : Rng (List ℝ) := fun s =>
  .ok ((List.range n).map s.uniform, { s with uniform := fun k => s.uniform (k + n) })

/-- `_zrandn` (factory.py:25-34): real part first, then imaginary part. -/
noncomputable def zrandn (shape : List ℕ) : Rng (NDArray ℂ) := do
  let a ← randn shape
  let b ← randn shape
  return ⟨shape, fun i => a.get i + Complex.I * b.get i⟩

/-- `_randfuncs[dtype]` (factory.py:48): `np.complex_` or `np.float_`. -/
noncomputable def randfun (isComplex : Bool) : List ℕ → Rng (NDArray ℂ) :=
  if isComplex then zrandn else randn

open Classical in
/-- `mpa /= norm(mpa.copy())` (factory.py:237, 345) -/
noncomputable def divByNorm (qr : QR ℂ) (x : MPA ℂ) : Py (MPA ℂ) := do
  let c ← x.copy
  let (v, _) ← norm qr c
  x.itruediv ((v : ℝ) : ℂ)

/-- Body of `random_mpa` after the arguments were checked (factory.py:171-174, 234-238). -/
noncomputable def drawMpa (qr : QR ℂ) (isComplex normalized : Bool) (shapes : List (List ℕ)) : Rng (MPA ℂ) := do
  let ts ← shapes.mapM (randfun isComplex)
  let x ← (mkMPA ts : Py (MPA ℂ))
  (if normalized then divByNorm qr x else .ok x : Py (MPA ℂ))

/-- `random_mpa` (factory.py:177-238) -/
noncomputable def randomMpa (qr : QR ℂ) (sites : ℕ) (ldim : LdimArg) (rank : RankArg)
    (normalized force isComplex : Bool) : Rng (MPA ℂ) := do
  let shapes ← (generateShapes sites ldim rank force : Py _)
  drawMpa qr isComplex normalized shapes

/-- `random_mps` (factory.py:350-371) -/
noncomputable def randomMps (qr : QR ℂ) (sites : ℕ) (ldim : LdimArg) (rank : RankArg) (force : Bool) :
    Rng (MPA ℂ) := randomMpa qr sites ldim rank true force true

/-- `a.swapaxes(i, j)` -/
def NDArray.swapaxes (a : NDArray R) (i j : ℕ) : Py (NDArray R) :=
  if i < a.ndim ∧ j < a.ndim then
    .ok (a.transposeTo ((List.range a.ndim).map fun k => if k = i then j else if k = j then i else k))
  else .error .index

/-- `l + l.swapaxes(1, 2).conj()` (factory.py:340) -/
def hermSite [Add R] [Star R] (t : NDArray R) : Py (NDArray R) := do
  let s ← t.swapaxes 1 2
  t.add s.conj

/-- factory.py:338-341 -/
def hermMpo [Add R] [Star R] (x : MPA R) : Py (MPA R) := do
  let ts ← x.lt.mapM hermSite
  mkMPA ts

/-- `random_mpo` (factory.py:314-347) for an integer `ldim`. -/
noncomputable def randomMpo (qr : QR ℂ) (sites ldim : ℕ) (rank : RankArg) (hermitian normalized force : Bool) :
    Rng (MPA ℂ) := do
  let x ← randomMpa qr sites (.flat [ldim, ldim]) rank false force true
  let x ← (if hermitian then hermMpo x else .ok x : Py (MPA ℂ))
  (if normalized then divByNorm qr x else .ok x : Py (MPA ℂ))

open Classical in
/-- `q * ph` with `ph = d / np.abs(d)`, `d = np.diagonal(r)` (factory.py:439-441).  A zero on the
diagonal is a division by zero. -/
noncomputable def haarPhases (dim : ℕ) (q r : NDArray ℂ) : Py (NDArray ℂ) := do
  pyGuard (∀ k < dim, r.get [k, k] ≠ 0) .zeroDiv
  return ⟨[dim, dim], fun idx =>
    q.get idx * (r.get [idx.getD 1 0, idx.getD 1 0] / ((‖r.get [idx.getD 1 0, idx.getD 1 0]‖ : ℝ) : ℂ))⟩

/-- `_unitary_haar` (factory.py:428-441).  `scipy.linalg.qr` in full mode meets the same contract as
`numpy.linalg.qr` for a square matrix. -/
noncomputable def unitaryHaar (qr : QR ℂ) (dim : ℕ) : Rng (NDArray ℂ) := do
  let z ← zrandn [dim, dim]
  let z : NDArray ℂ := ⟨z.shape, fun i => z.get i / ((Real.sqrt 2 : ℝ) : ℂ)⟩
  (haarPhases dim (qr z).1 (qr z).2 : Py _)

/-- One step of the loop in `random_mpdo` (factory.py:397-401) -/
def scrambleStep [AddCommMonoid R] [Mul R] [Star R] (x : MPA R) (n : ℕ) (u : NDArray R) : Py (MPA R) := do
  let t ← x.site n
  let t ← matdot t u
  let x ← x.updateInt n t .none
  let ut ← u.transpose [1, 0]
  let t ← x.site (n + 1)
  let t ← matdot ut.conj t
  x.updateInt (n + 1) t .none

/-- The loop of `random_mpdo` (factory.py:397-401) over the ranks of the initial MPA. -/
noncomputable def scramble (qr : QR ℂ) : List ℕ → ℕ → MPA ℂ → Rng (MPA ℂ)
  | [], _, x => pure x
  | r :: rs, n, x => do
    let u ← unitaryHaar qr r
    let x ← (scrambleStep x n u : Py (MPA ℂ))
    scramble qr rs (n + 1) x

open Classical in
/-- `x / np.sum(x)` (factory.py:393) -/
noncomputable def normWeights (x : List ℝ) : Py (List ℝ) := do
  pyGuard (x.sum ≠ 0) .zeroDiv
  return x.map (· / x.sum)

/-- `mps_to_mpo(psi) * weight` (factory.py:394) -/
noncomputable def weightedMpo (w : ℝ) (psi : MPA ℂ) : Py (MPA ℂ) := do
  let z ← mpsToMpo psi
  z.mul ((w : ℝ) : ℂ)

open Classical in
/-- `rho /= mp.trace(rho)` (factory.py:403) -/
noncomputable def divByTrace (x : MPA ℂ) : Py (MPA ℂ) := do
  let t ← trace x (.same 0 1)
  x.itruediv (t.get [])

/-- `n` successive calls of `f`. -/
def Rng.times {α : Type} (f : Rng α) : ℕ → Rng (List α)
  | 0 => pure []
  | n + 1 => do
    let a ← f
    let as ← Rng.times f n
    return a :: as

/-- `random_mpdo` (factory.py:374-404) -/
noncomputable def randomMpdo (qr : QR ℂ) (sites : ℕ) (ldim : LdimArg) (rank : ℕ) : Rng (MPA ℂ) := do
  let psis ← Rng.times (randomMps qr sites ldim (.scalar 1) false) rank
  let us ← rand rank
  let ws ← (normWeights us : Py (List ℝ))
  let terms ← ((List.zip ws psis).mapM fun p => weightedMpo p.1 p.2 : Py _)
  let rho ← (sumup terms none : Py (MPA ℂ))
  let rho ← scramble qr rho.ranks 0 rho
  (divByTrace rho : Py (MPA ℂ))

/-- `op += np.transpose(op).conj()` (factory.py:89) -/
def addAdj [Add R] [Star R] (a : NDArray R) : Py (NDArray R) := do
  let t ← a.transpose [1, 0]
  a.add t.conj

open Classical in
/-- `op /= np.linalg.norm(op)` (factory.py:91) -/
noncomputable def divNpNorm (a : NDArray ℂ) : Py (NDArray ℂ) := do
  pyGuard (npNorm a ≠ 0) .zeroDiv
  return ⟨a.shape, fun i => a.get i / ((npNorm a : ℝ) : ℂ)⟩

/-- `_random_op` (factory.py:72-92) -/
noncomputable def randomOp (sites ldim : ℕ) (hermitian normalized isComplex : Bool) : Rng (NDArray ℂ) := do
  let op ← randfun isComplex [ldim ^ sites, ldim ^ sites]
  let op ← (if hermitian then addAdj op else .ok op : Py (NDArray ℂ))
  let op ← (if normalized then divNpNorm op else .ok op : Py (NDArray ℂ))
  (op.reshape ((List.replicate (2 * sites) ldim).map fun n : ℕ => (n : ℤ)) : Py (NDArray ℂ))

/-- `_random_vec` (factory.py:51-69) -/
noncomputable def randomVec (sites ldim : ℕ) (isComplex : Bool) : Rng (NDArray ℂ) := do
  let psi ← randfun isComplex (List.replicate sites ldim)
  (divNpNorm psi : Py (NDArray ℂ))

open Classical in
/-- `rho /= np.trace(rho)` (factory.py:115) -/
noncomputable def divNpTrace (a : NDArray ℂ) : Py (NDArray ℂ) := do
  let t ← a.trace 0 1
  pyGuard (t.get [] ≠ 0) .zeroDiv
  return ⟨a.shape, fun i => a.get i / t.get []⟩

/-- `np.conj(mat.T).dot(mat)`, `rho /= np.trace(rho)`, `reshape` (factory.py:114-116) -/
noncomputable def stateOf (sites ldim : ℕ) (mat : NDArray ℂ) : Py (NDArray ℂ) := do
  let mt ← mat.transpose [1, 0]
  let rho ← matdot mt.conj mat
  let rho ← divNpTrace rho
  rho.reshape ((List.replicate (2 * sites) ldim).map fun n : ℕ => (n : ℤ))

/-- `_random_state` (factory.py:94-116) -/
noncomputable def randomState (sites ldim : ℕ) : Rng (NDArray ℂ) := do
  let mat ← zrandn [ldim ^ sites, ldim ^ sites]
  (stateOf sites ldim mat : Py (NDArray ℂ))

/-- `get_local_ham` in `random_local_ham` (factory.py:418-421): `_random_op` is called without
`randstate`. -/
noncomputable def getLocalHam (qr : QR ℂ) (ldim intlen : ℕ) : Rng (MPA ℂ) := do
  let op ← randomOp intlen ldim true true true
  let op ← (globalToLocal op intlen : Py (NDArray ℂ))
  (fromArray qr op (some (.const 2)) false : Py (MPA ℂ))

/-- `random_local_ham` (factory.py:407-425).  The state of the computation is the global generator
`np.random`; the argument `randstate` is not used by the code. -/
noncomputable def randomLocalHam (qr : QR ℂ) (sites ldim intlen : ℕ) (_randstate : Option RandState) :
    Rng (MPA ℂ) := do
  (pyAssert (intlen ≤ sites) : Py Unit)
  let hams ← Rng.times (getLocalHam qr ldim intlen) (sites + 1 - intlen)
  (localSum hams none none none : Py (MPA ℂ))

end Mpnum
