import Verif.MPArray.Norm
import Verif.Oracle.SVD

/-!
# Model of SVD compression (/repo/mpnum/mparray.py:713-985, /repo/mpnum/utils/extmath.py:107-126)

The generators `_compress_svd_r` and `_compress_svd_l` are modelled by the function which runs them to
the end and returns the final state, the list of the pairs `(sv, rank_t)` they yield and the last item.
Arithmetic is exact.
-/

open Finset

namespace Mpnum

variable {R : Type}

namespace NDArray

/-- `a * b` with broadcasting. -/
def mulB [Mul R] (a b : NDArray R) : Py (NDArray R) :=
  match bshape a.shape b.shape with
  | some s => .ok ⟨s, fun idx => a.get (bidx a.shape idx) * b.get (bidx b.shape idx)⟩
  | none => .error .value

/-- `a[:, :k]` for a matrix -/
def cols (a : NDArray R) (k : ℕ) : NDArray R := ⟨[a.shape.getD 0 0, min k (a.shape.getD 1 0)], a.get⟩

/-- `a[:k, :]` for a matrix -/
def rows (a : NDArray R) (k : ℕ) : NDArray R := ⟨[min k (a.shape.getD 0 0), a.shape.getD 1 0], a.get⟩

end NDArray

variable {𝕜 : Type} [RCLike 𝕜]

/-- `sv[:k, None]` -/
noncomputable def svCol (sv : List ℝ) (k : ℕ) : NDArray 𝕜 :=
  ⟨[(sv.take k).length, 1], fun i => (((sv.take k).getD (i.getD 0 0) 0 : ℝ) : 𝕜)⟩

/-- `sv[None, :k]` -/
noncomputable def svRow (sv : List ℝ) (k : ℕ) : NDArray 𝕜 :=
  ⟨[1, (sv.take k).length], fun i => (((sv.take k).getD (i.getD 1 0) 0 : ℝ) : 𝕜)⟩

/-- A routine with the conventions of `truncated_svd`: matrix and number of singular values. -/
abbrev SVDFunc (𝕜 : Type) := NDArray 𝕜 → ℕ → NDArray 𝕜 × List ℝ × NDArray 𝕜

/-- `truncated_svd` (utils/extmath.py:107-126) on top of `numpy.linalg.svd`. -/
def truncatedSvd (svd : SVD 𝕜) : SVDFunc 𝕜 := fun A k =>
  let (u, s, v) := svd A
  let k' := min k s.length
  (u.cols k', s.take k', v.rows k')

/-- `np.cumsum(sv) / np.sum(sv)` (mparray.py:919, 950) for a non-zero sum -/
noncomputable def cumFrac (sv : List ℝ) : List ℝ :=
  (List.range sv.length).map fun i => (sv.take (i + 1)).sum / sv.sum

/-- `np.searchsorted(a, v)` for a sorted array: position of the first entry which is at least `v`. -/
noncomputable def searchsorted (a : List ℝ) (v : ℝ) : ℕ := (a.takeWhile fun c => decide (c < v)).length

/-- `rank_relerr` (mparray.py:919-920, 950-951).  If all singular values vanish, `0/0` fills the array
with NaN; numpy sorts NaN behind every number, so `searchsorted` returns 0. -/
noncomputable def rankRelerr (sv : List ℝ) (relerr : ℝ) : ℕ :=
  if sv.sum = 0 then 1 else searchsorted (cumFrac sv) (1 - relerr) + 1

/-- The singular values of a local matrix and the number kept of them, sweep to the right
(mparray.py:945-952).  Returns `u, sv, v, rank_t`. -/
noncomputable def svdPickR (svd : SVD 𝕜) (f : SVDFunc 𝕜) (rank : ℤ) (relerr : Option ℝ) (bond : ℕ)
    (mat : NDArray 𝕜) : NDArray 𝕜 × List ℝ × NDArray 𝕜 × ℕ :=
  match relerr with
  | none =>
    let (u, sv, v) := f mat rank.toNat
    (u, sv, v, sv.length)
  | some e =>
    let (u, sv, v) := svd mat
    (u, sv, v, min (min bond (u.shape.getD 1 0)) (min rank.toNat (rankRelerr sv e)))

/-- Sweep to the left (mparray.py:914-921). -/
noncomputable def svdPickL (svd : SVD 𝕜) (f : SVDFunc 𝕜) (rank : ℤ) (relerr : Option ℝ) (bond : ℕ)
    (mat : NDArray 𝕜) : NDArray 𝕜 × List ℝ × NDArray 𝕜 × ℕ :=
  match relerr with
  | none =>
    let (u, sv, v) := f mat rank.toNat
    (u, sv, v, sv.length)
  | some e =>
    let (u, sv, v) := svd mat
    (u, sv, v, min (min bond (v.shape.getD 0 0)) (min rank.toNat (rankRelerr sv e)))

namespace MPA

/-- The part of the loop body of `_compress_svd_r` before the `yield` (mparray.py:943-952). -/
noncomputable def svdSiteR (svd : SVD 𝕜) (f : SVDFunc 𝕜) (rank : ℤ) (relerr : Option ℝ) (x : MPA 𝕜)
    (site : ℤ) : Py (NDArray 𝕜 × NDArray 𝕜 × List ℝ × NDArray 𝕜 × ℕ) := do
  let ltens ← x.site site
  let mat ← ltens.reshape [-1, (ltens.rb : ℤ)]
  return (ltens, svdPickR svd f rank relerr ltens.rb mat)

/-- The part of the loop body of `_compress_svd_r` after the `yield` (mparray.py:956-959). -/
noncomputable def svdUpdateR (x : MPA 𝕜) (site : ℤ) (ltens u : NDArray 𝕜) (sv : List ℝ)
    (v : NDArray 𝕜) (k : ℕ) : Py (MPA 𝕜) := do
  let t1 ← (u.cols k).reshape (ltens.shape.dropLast.map (fun n : ℕ => (n : ℤ)) ++ [(k : ℤ)])
  let w ← (svCol sv k).mulB (v.rows k)
  let next ← x.site (site + 1)
  let t2 ← matdot w next
  x.updateSlice (some site) (some (site + 2)) none [t1, t2] (.seq [some .left, none])

/-- Loop body of `_compress_svd_r` (mparray.py:942-959). -/
noncomputable def svdStepR (svd : SVD 𝕜) (f : SVDFunc 𝕜) (rank : ℤ) (relerr : Option ℝ)
    (st : MPA 𝕜 × List (List ℝ × ℕ)) (site : ℤ) : Py (MPA 𝕜 × List (List ℝ × ℕ)) := do
  let (ltens, u, sv, v, k) ← svdSiteR svd f rank relerr st.1 site
  let y ← svdUpdateR st.1 site ltens u sv v k
  return (y, st.2 ++ [(sv, k)])

/-- `np.sum(np.abs(t)**2)` -/
noncomputable def absSq (t : NDArray 𝕜) : ℝ := sumIdx t.shape fun i => ‖t.get i‖ ^ 2

/-- The assertions at the head of both sweeps (mparray.py:908-910, 938-940). -/
noncomputable def svdArgs (rank : ℤ) (relerr : Option ℝ) : Py Unit := do
  pyAssert (rank > 0)
  match relerr with
  | none => .ok ()
  | some e => if 0 ≤ e ∧ e ≤ 1 then .ok () else .error .assertion

/-- `_compress_svd_r` (mparray.py:933-962) -/
noncomputable def compressSvdR (svd : SVD 𝕜) (f : SVDFunc 𝕜) (rank : ℤ) (relerr : Option ℝ)
    (x : MPA 𝕜) : Py (MPA 𝕜 × List (List ℝ × ℕ) × ℝ) := do
  svdArgs rank relerr
  let (y, out) ← (pyRange 0 (x.len - 1) 1).foldlM (svdStepR svd f rank relerr) (x, [])
  let t ← y.site (-1)
  return (y, out, absSq t)

/-- Loop body of `_compress_svd_l` before the `yield` (mparray.py:912-921). -/
noncomputable def svdSiteL (svd : SVD 𝕜) (f : SVDFunc 𝕜) (rank : ℤ) (relerr : Option ℝ) (x : MPA 𝕜)
    (site : ℤ) : Py (NDArray 𝕜 × NDArray 𝕜 × List ℝ × NDArray 𝕜 × ℕ) := do
  let ltens ← x.site site
  let mat ← ltens.reshape [(ltens.lb : ℤ), -1]
  return (ltens, svdPickL svd f rank relerr ltens.lb mat)

/-- Loop body of `_compress_svd_l` after the `yield` (mparray.py:925-929). -/
noncomputable def svdUpdateL (x : MPA 𝕜) (site : ℤ) (ltens u : NDArray 𝕜) (sv : List ℝ)
    (v : NDArray 𝕜) (k : ℕ) : Py (MPA 𝕜) := do
  let prev ← x.site (site - 1)
  let w ← (u.cols k).mulB (svRow sv k)
  let t1 ← matdot prev w
  let t2 ← (v.rows k).reshape ((k : ℤ) :: ltens.shape.tail.map (fun n : ℕ => (n : ℤ)))
  x.updateSlice (some (site - 1)) (some (site + 1)) none [t1, t2] (.seq [none, some .right])

/-- Loop body of `_compress_svd_l` (mparray.py:911-929). -/
noncomputable def svdStepL (svd : SVD 𝕜) (f : SVDFunc 𝕜) (rank : ℤ) (relerr : Option ℝ)
    (st : MPA 𝕜 × List (List ℝ × ℕ)) (site : ℤ) : Py (MPA 𝕜 × List (List ℝ × ℕ)) := do
  let (ltens, u, sv, v, k) ← svdSiteL svd f rank relerr st.1 site
  let y ← svdUpdateL st.1 site ltens u sv v k
  return (y, st.2 ++ [(sv, k)])

/-- `_compress_svd_l` (mparray.py:901-931) -/
noncomputable def compressSvdL (svd : SVD 𝕜) (f : SVDFunc 𝕜) (rank : ℤ) (relerr : Option ℝ)
    (x : MPA 𝕜) : Py (MPA 𝕜 × List (List ℝ × ℕ) × ℝ) := do
  svdArgs rank relerr
  let (y, out) ← (pyRange (x.len - 1) 0 (-1)).foldlM (svdStepL svd f rank relerr) (x, [])
  let t ← y.site 0
  return (y, out, absSq t)

/-- `max(self.ranks)`; `max` of an empty sequence raises `ValueError` -/
def maxRank (x : MPA R) : Py ℕ :=
  match x.ranks with
  | [] => .error .value
  | d :: ds => .ok (ds.foldl max d)

end MPA

/-- Value of the argument `direction`. -/
inductive Dir
  | right
  | left
  | other
  deriving DecidableEq

namespace MPA

/-- `_compress_svd(rank, relerr, direction, canonicalize, svdfunc)` (mparray.py:830-859).  In-place:
returns the new state and the overlap. -/
noncomputable def compressSvd (qr : QR 𝕜) (svd : SVD 𝕜) (f : SVDFunc 𝕜) (x : MPA 𝕜)
    (rank : Option ℤ) (relerr : Option ℝ) (direction : Option Dir) (canon : Bool) : Py (MPA 𝕜 × ℝ) := do
  if x.len = 1 then
    let (v, y) ← norm qr x
    return (y, v ^ 2)
  let default : Dir := if (x.len : ℤ) - x.r > x.l then .left else .right
  let rank : ℤ ← match rank with
    | some r => .ok r
    | none => x.maxRank.map (fun m : ℕ => (m : ℤ))
  match direction.getD default with
  | .right =>
    let y ← if canon then x.canonicalize qr .none (.int 1) else .ok x
    let (z, _, o) ← y.compressSvdR svd f rank relerr
    return (z, o)
  | .left =>
    let y ← if canon then x.canonicalize qr (.int (x.len - 1)) .none else .ok x
    let (z, _, o) ← y.compressSvdL svd f rank relerr
    return (z, o)
  | .other => .error .value

/-- `compress('svd', ...)` (mparray.py:713-810) with the default `svdfunc=truncated_svd`. -/
noncomputable def compress (qr : QR 𝕜) (svd : SVD 𝕜) (x : MPA 𝕜)
    (rank : Option ℤ) (relerr : Option ℝ) (direction : Option Dir) (canon : Bool) : Py (MPA 𝕜 × ℝ) :=
  x.compressSvd qr svd (truncatedSvd svd) rank relerr direction canon

/-- The generator `singularvals()` (mparray.py:964-985) after the consumer has taken `k` arrays from it
(or all, if there are fewer than `k`): the state of the object and the arrays yielded so far.
Nothing runs before the first array is requested.  At the `i`-th array the inner generator
`_compress_svd_r` is suspended at its `yield sv, rank_t`, before the update of site `i - 1`; since
`zip(range(len - 1), iterator)` asks the range first, the last update is never carried out. -/
noncomputable def singularvals (qr : QR 𝕜) (svd : SVD 𝕜) (x : MPA 𝕜) (k : ℕ) :
    Py (MPA 𝕜 × List (List ℝ)) := do
  if k = 0 then return (x, [])
  if x.len = 1 then return (x, [])
  let y ← x.canonicalize qr .none (.int 1)
  let rank ← y.maxRank
  svdArgs rank none
  let n : ℕ := min k (x.len - 1)
  let (z, out) ← (pyRange 0 ((n - 1 : ℕ) : ℤ) 1).foldlM (svdStepR svd (truncatedSvd svd) rank none) (y, [])
  let (_, _, sv, _, _) ← svdSiteR svd (truncatedSvd svd) rank none z ((n - 1 : ℕ) : ℤ)
  return (z, out.map Prod.fst ++ [sv])

end MPA

end Mpnum
